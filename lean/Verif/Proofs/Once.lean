import Verif.Proofs.ChartSound

/-! # Nothing is represented twice -/

namespace Gearley
open Gearley.Spec

/-! ### Items -/

/-- Rule and origin of an item. -/
def dotOrigin (it : TItem) : Nat × Nat := (it.dot, it.origin)

/-- First symbol of rule `d`. -/
def rhs0Of (R : Rules) (d : Nat) : Option Nat := R[d]?.map (·.rhs0)

theorem binTrans_dots_nodup (R : Rules) (root : Nat → Nat) (A : Nat) : ((binTrans R root A).map (·.dot)).Nodup := by
  simp only [binTrans, List.map_map, Function.comp_def]
  have h : (R.zipIdx.map (·.2)).Nodup := by
    rw [List.zipIdx_map_snd]; exact List.nodup_range'
  exact h.sublist (List.filter_sublist.map _)

theorem unTrans_dots_nodup (R : Rules) (root : Nat → Nat) (A : Nat) : ((unTrans R root A).map (·.dot)).Nodup := by
  simp only [unTrans, List.map_map, Function.comp_def]
  have h : (R.zipIdx.map (·.2)).Nodup := by
    rw [List.zipIdx_map_snd]; exact List.nodup_range'
  exact h.sublist (List.filter_sublist.map _)

namespace EC
variable {c : EC}

theorem medNew_count_le (o A : Nat) (N : List PTree) (x : Nat × Nat) :
    ((medNew c.g c.R c.root c.la c.hint c.pm o A N).map dotOrigin).count x ≤ 1 := by
  apply List.nodup_iff_count_le_one.1
  simp only [medNew]
  split
  · simp only [binPart, List.map_map, Function.comp_def, dotOrigin]
    have h := (binTrans_dots_nodup c.R c.root A).sublist
      ((List.filter_sublist (p := fun p => c.pm.bit o p.symbol && (decide (c.g.syms ≤ A) || okP c.g c.R c.la c.hint p.dot))).map _)
    have h2 := h.map (f := fun d => (d, o)) (fun a b h => by simpa using h)
    simpa [List.map_map, Function.comp_def] using h2
  · simp

theorem medNew_count_zero {o A : Nat} {N : List PTree} {d o' B : Nat} (hB : rhs0Of c.R d = some B)
    (hne : (o', B) ≠ (o, A)) :
    ((medNew c.g c.R c.root c.la c.hint c.pm o A N).map dotOrigin).count (d, o') = 0 := by
  rw [List.count_eq_zero]
  intro hm
  obtain ⟨it, hit, he⟩ := List.mem_map.1 hm
  simp only [medNew] at hit
  split at hit
  · simp only [binPart, List.mem_map, List.mem_filter] at hit
    obtain ⟨p, ⟨hp, _⟩, rfl⟩ := hit
    obtain ⟨r, h1, h2, _⟩ := mem_binTrans.1 hp
    simp only [dotOrigin, Prod.mk.injEq] at he
    obtain ⟨rfl, rfl⟩ := he
    simp only [rhs0Of, h1, Option.map_some, Option.some.injEq] at hB
    exact hne (by rw [← hB, h2])
  · simp at hit

/-- Conditions on a relation `Dead heap o A`: the group `(o, A)` will not come up any more. -/
structure DeadOK (c : EC) (Sel : Nat → Prop) (Dead : List TItem → Nat → Nat → Prop) : Prop where
  excl : ∀ (heap : List TItem) (o A : Nat) (it : TItem), Dead heap o A → it ∈ heap → keyOf c.R it ≠ (o, A)
  step : ∀ (heap heap' G rest : List TItem) (o A o' A' : Nat), Sel A → Dead heap o A → G ≠ [] → heap.Perm (G ++ rest) →
    (∀ it ∈ heap, it.origin < c.S.length ∧ ∃ r, c.R[it.dot]? = some r) → (∀ it ∈ G, keyOf c.R it = (o', A')) →
    (∀ it ∈ rest, KeyLt (keyOf c.R it) (o', A')) →
    (∀ it ∈ heap', it ∈ rest ∨ it.origin < o' ∨ (it.origin = o' ∧ ∃ r, c.R[it.dot]? = some r ∧ r.rhs1 = none ∧ r.rhs0 = A')) →
    ¬ Terminal c.R A' → Dead heap' o A
  after : ∀ (heap' rest : List TItem) (o A : Nat), Sel A → (∀ it ∈ rest, KeyLt (keyOf c.R it) (o, A)) →
    (∀ it ∈ heap', it ∈ rest ∨ it.origin < o ∨ (it.origin = o ∧ ∃ r, c.R[it.dot]? = some r ∧ r.rhs1 = none ∧ r.rhs0 = A)) →
    ¬ Terminal c.R A → Dead heap' o A

/-- Items whose first symbol is selected are created once. -/
def JOnce (c : EC) (Sel : Nat → Prop) (Dead : List TItem → Nat → Nat → Prop) (toks pre : List (Nat × Nat))
    (heap cur : List TItem) : Prop :=
  ∀ d o A, rhs0Of c.R d = some A → Sel A → (cur.map dotOrigin).count (d, o) ≤ 1 ∧
    ((cur.map dotOrigin).count (d, o) ≠ 0 → (A ∈ pre.map (·.1) ∧ Terminal c.R A) ∨ (pre = toks ∧ Dead heap o A))

theorem keeps_once (hc : c.OK) {Sel : Nat → Prop} {Dead} (hD : c.DeadOK Sel Dead) {toks : List (Nat × Nat)}
    (hnd : (toks.map (·.1)).Nodup) (hterm : ∀ t ∈ toks, Sel t.1 → Terminal c.R t.1) :
    c.Keeps toks (c.JOnce Sel Dead toks) where
  init := by intro d o A _ _; simp
  scan := by
    intro pre post a v heap heap' cur htoks hJ hheap hp d o A hA hs
    obtain ⟨h1, h2⟩ := hJ d o A hA hs
    rw [List.map_append, List.count_append]
    have hpre : pre ≠ toks := by
      intro h; rw [← h] at htoks; simp at htoks
    by_cases hk : (o, A) = (c.S.length - 1, a)
    · simp only [Prod.mk.injEq] at hk
      obtain ⟨rfl, rfl⟩ := hk
      have hz : (cur.map dotOrigin).count (d, c.S.length - 1) = 0 := by
        by_contra hne
        rcases h2 hne with ⟨h3, _⟩ | ⟨h3, _⟩
        · rw [htoks, List.map_append, List.map_cons, List.nodup_append] at hnd
          exact hnd.2.2 _ h3 _ (by simp) rfl
        · exact hpre h3
      rw [hz, Nat.zero_add]
      exact ⟨medNew_count_le _ _ _ _, fun _ => Or.inl ⟨by simp, hterm (A, v) (by rw [htoks]; simp) hs⟩⟩
    · rw [medNew_count_zero hA hk, Nat.add_zero]
      refine ⟨h1, fun h => ?_⟩
      rcases h2 h with ⟨h3, h4⟩ | ⟨h3, _⟩
      · exact Or.inl ⟨by simp at h3 ⊢; exact Or.inl h3, h4⟩
      · exact absurd h3 hpre
  step := by
    intro heap heap' cur G rest o' A' hJ hG hperm hheap hkey hrest hp d o A hA hs
    obtain ⟨h1, h2⟩ := hJ d o A hA hs
    obtain ⟨it, G', rfl⟩ := List.exists_cons_of_ne_nil hG
    have hit : it ∈ heap := hperm.mem_iff.2 (by simp)
    have hkit := hkey it (by simp)
    obtain ⟨hn, hlt, r, hr⟩ := hheap it hit
    simp only [keyOf, lhsOf_eq hr, Prod.mk.injEq] at hkit
    obtain ⟨rfl, rfl⟩ := hkit
    have hnt : ¬ Terminal c.R r.lhs := fun h => h r (List.mem_of_getElem? hr) rfl
    have hN : (it :: G').flatMap sumTrees ≠ [] := by
      simp only [List.flatMap_cons, ne_eq, List.append_eq_nil_iff, sumTrees, List.map_eq_nil_iff, hn, false_and,
        not_false_iff]
    have hheap' : ∀ x ∈ heap', x ∈ rest ∨ x.origin < it.origin ∨
        (x.origin = it.origin ∧ ∃ r', c.R[x.dot]? = some r' ∧ r'.rhs1 = none ∧ r'.rhs0 = r.lhs) := by
      intro x hx
      rcases List.mem_append.1 (hp.mem_iff.1 hx) with h | h
      · exact Or.inl h
      · obtain ⟨_, _, r', e1, e2⟩ := heapNew_items hc hlt hN x h
        rcases e2 with e2 | ⟨e2, e3, e4⟩
        · exact Or.inr (Or.inl e2)
        · exact Or.inr (Or.inr ⟨e2, r', e1, e3, e4⟩)
    rw [List.map_append, List.count_append]
    by_cases hk : (o, A) = (it.origin, r.lhs)
    · simp only [Prod.mk.injEq] at hk
      obtain ⟨rfl, rfl⟩ := hk
      have hz : (cur.map dotOrigin).count (d, it.origin) = 0 := by
        by_contra hne
        rcases h2 hne with ⟨_, h3⟩ | ⟨_, h3⟩
        · exact hnt h3
        · exact hD.excl _ _ _ it h3 hit (by simp [keyOf, lhsOf_eq hr])
      rw [hz, Nat.zero_add]
      exact ⟨medNew_count_le _ _ _ _, fun _ => Or.inr ⟨rfl, hD.after _ _ _ _ hs hrest hheap' hnt⟩⟩
    · rw [medNew_count_zero hA hk, Nat.add_zero]
      refine ⟨h1, fun h => ?_⟩
      rcases h2 h with h3 | ⟨h3, h4⟩
      · exact Or.inl h3
      · exact Or.inr ⟨h3, hD.step _ _ _ _ _ _ _ _ hs h4 hG hperm (fun x hx => (hheap x hx).2) hkey hrest hheap' hnt⟩

/-- The symbol `A` is never completed from another symbol with the same origin. -/
def Late (R : Rules) (A : Nat) : Prop := ∀ r ∈ R, r.lhs = A → r.rhs1 = none → Terminal R r.rhs0

theorem deadOK_late : c.DeadOK (Late c.R) fun heap o A => ∀ it ∈ heap, it.origin ≤ o ∧ keyOf c.R it ≠ (o, A) where
  excl := fun heap o A it h hit => (h it hit).2
  step := by
    intro heap heap' G rest o A o' A' hs hd hG hperm hheap hkey hrest hheap' hnt it hit
    obtain ⟨x, G', rfl⟩ := List.exists_cons_of_ne_nil hG
    have hx := (hd x (hperm.mem_iff.2 (by simp))).1
    have hkx := hkey x (by simp)
    simp only [keyOf, Prod.mk.injEq] at hkx
    rcases hheap' it hit with h | h | ⟨h, r, hr, h1, h0⟩
    · exact hd it (hperm.mem_iff.2 (by simp [h]))
    · refine ⟨by omega, ?_⟩
      simp only [keyOf, ne_eq, Prod.mk.injEq]; omega
    · refine ⟨by omega, ?_⟩
      simp only [keyOf, lhsOf_eq hr, ne_eq, Prod.mk.injEq, not_and]
      intro _ hl
      exact hnt (by rw [← h0]; exact hs r (List.mem_of_getElem? hr) hl h1)
  after := by
    intro heap' rest o A hs hrest hheap' hnt it hit
    rcases hheap' it hit with h | h | ⟨h, r, hr, h1, h0⟩
    · have := hrest it h
      simp only [KeyLt, keyOf] at this
      refine ⟨by omega, ?_⟩
      simp only [keyOf, ne_eq, Prod.mk.injEq]; omega
    · refine ⟨by omega, ?_⟩
      simp only [keyOf, ne_eq, Prod.mk.injEq]; omega
    · refine ⟨by omega, ?_⟩
      simp only [keyOf, lhsOf_eq hr, ne_eq, Prod.mk.injEq, not_and]
      intro _ hl
      exact hnt (by rw [← h0]; exact hs r (List.mem_of_getElem? hr) hl h1)

/-- Single-symbol rules are numbered with the left-hand side below the right-hand side. -/
def Ordered (R : Rules) : Prop := ∀ r ∈ R, r.rhs1 = none → r.lhs < r.rhs0

theorem deadOK_ordered (ho : Ordered c.R) :
    c.DeadOK (fun _ => True) fun heap o A => ∀ it ∈ heap, KeyLt (keyOf c.R it) (o, A) where
  excl := by
    intro heap o A it h hit he
    have := h it hit
    rw [he] at this
    simp only [KeyLt] at this; omega
  step := by
    intro heap heap' G rest o A o' A' hs hd hG hperm hheap hkey hrest hheap' hnt it hit
    obtain ⟨x, G', rfl⟩ := List.exists_cons_of_ne_nil hG
    have hx := hd x (hperm.mem_iff.2 (by simp))
    rw [hkey x (by simp)] at hx
    rcases hheap' it hit with h | h | ⟨h, r, hr, h1, h0⟩
    · exact hd it (hperm.mem_iff.2 (by simp [h]))
    · simp only [KeyLt, keyOf] at hx ⊢; omega
    · have := ho r (List.mem_of_getElem? hr) h1
      simp only [KeyLt, keyOf, lhsOf_eq hr] at hx ⊢; omega
  after := by
    intro heap' rest o A hs hrest hheap' hnt it hit
    rcases hheap' it hit with h | h | ⟨h, r, hr, h1, h0⟩
    · exact hrest it h
    · simp only [KeyLt, keyOf]; omega
    · have := ho r (List.mem_of_getElem? hr) h1
      simp only [KeyLt, keyOf, lhsOf_eq hr]; omega

/-! ### Trees -/

theorem facts_le_of_sublist {l l' : List TItem} (h : l.Sublist l') : facts l ≤ facts l' := by
  induction h with
  | slnil => simp
  | cons a _ ih => rw [facts_cons]; exact ih.trans (Multiset.le_add_left _ _)
  | cons_cons a _ ih => rw [facts_cons, facts_cons]; gcongr

/-- Facts determine the finished symbol they come from, and come from it once. -/
theorem consH_nodup (hS : ∀ l ∈ c.S, (facts l).Nodup) (z : Done) : (c.consH z).Nodup := by
  simp only [consH]
  split
  · rw [Multiset.nodup_add]
    refine ⟨?_, ?_, ?_⟩
    · refine Multiset.Nodup.map ?_ ?_
      · rintro ⟨d, o, f⟩ ⟨d', o', f'⟩ h
        simp only [Prod.mk.injEq, PTree.pair.injEq, and_true] at h
        simp [h]
      · refine Multiset.nodup_of_le (facts_le_of_sublist List.filter_sublist) ?_
        cases h : c.S[z.2.1]? with
        | none => simp
        | some l => simpa using hS l (List.mem_of_getElem? h)
    · rw [Multiset.map_coe, Multiset.coe_nodup]
      have h := (unTrans_dots_nodup c.R c.root z.1).sublist ((List.filter_sublist (p := fun p => c.pm.bit z.2.1 p.symbol &&
        (decide (c.g.syms ≤ z.1) || okP c.g c.R c.la c.hint p.dot))).map _)
      have h2 := h.map (f := fun d => (d, z.2.1, z.2.2)) (fun a b h => by simpa using h)
      simpa [List.map_map, Function.comp_def, entering] using h2
    · rw [Multiset.disjoint_left]
      intro x h1 h2
      simp only [Multiset.mem_map, mem_facts, waiting, List.mem_filter, Bool.and_eq_true, decide_eq_true_eq] at h1
      obtain ⟨y, ⟨it, ⟨_, hr, _⟩, e1, _⟩, rfl⟩ := h1
      simp only [Multiset.mem_map, Multiset.mem_coe, entering, List.mem_filter] at h2
      obtain ⟨p, ⟨hp, _⟩, he⟩ := h2
      obtain ⟨r, hr', _, h1', _⟩ := mem_unTrans.1 hp
      simp only [Prod.mk.injEq] at he
      rw [he.1, e1] at hr'
      simp [rhs1Of, hr', h1'] at hr
  · simp

theorem consM_nodup (z : Done) : (c.consM z).Nodup := by
  simp only [consM]
  split
  · rw [Multiset.map_coe, Multiset.coe_nodup]
    have h := (binTrans_dots_nodup c.R c.root z.1).sublist ((List.filter_sublist (p := fun p => c.pm.bit z.2.1 p.symbol &&
      (decide (c.g.syms ≤ z.1) || okP c.g c.R c.la c.hint p.dot))).map _)
    have h2 := h.map (f := fun d => (d, z.2.1, z.2.2)) (fun a b h => by simpa using h)
    simpa [List.map_map, Function.comp_def, entering] using h2
  · simp

theorem count_bind_le {α β : Type} [DecidableEq α] [DecidableEq β] (m : Multiset α) (f : α → Multiset β) (x : β) (z0 : α)
    (h : ∀ z ∈ m, x ∈ f z → z = z0) (h1 : (f z0).count x ≤ 1) : (m.bind f).count x ≤ m.count z0 := by
  induction m using Multiset.induction with
  | empty => simp
  | cons a m ih =>
    rw [Multiset.cons_bind, Multiset.count_add]
    have := ih (fun z hz => h z (by simp [hz]))
    by_cases ha : a = z0
    · subst ha; rw [Multiset.count_cons_self]; omega
    · rw [Multiset.count_cons_of_ne (Ne.symm ha)]
      have : (f a).count x = 0 := by
        rw [Multiset.count_eq_zero]
        intro hx; exact ha (h a (by simp) hx)
      omega

theorem fire_count {R : Rules} (H : Multiset Fact) (d o : Nat) (f : PTree) :
    (H.map (fire R)).count (lhsOf R d, o, .node d f) = H.count (d, o, f) := by
  induction H using Multiset.induction with
  | empty => simp
  | cons x H ih =>
    rw [Multiset.map_cons, Multiset.count_cons, Multiset.count_cons, ih]
    have : ((lhsOf R d, o, PTree.node d f) = fire R x) ↔ ((d, o, f) = x) := by
      obtain ⟨d', o', f'⟩ := x
      simp only [fire, Prod.mk.injEq, PTree.node.injEq]
      constructor
      · rintro ⟨_, h1, h2, h3⟩; exact ⟨h2, h1, h3⟩
      · rintro ⟨rfl, rfl, rfl⟩; simp
    simp only [this]

end EC

section
variable {g : DefaultGrammar} {R : Rules} {root : Nat → Nat}

/-- No finished symbol is found twice. -/
theorem EC.Fixed.once {s : TRec} {S inp P St loc e la sorter Fd cur}
    (hf : (ctxOf g R root la sorter s S).Fixed (scansOf (S.length - 1) (inp e)) Fd cur)
    (hs : Sound R inp P St s.predicted S loc e) (hS : ∀ l ∈ S, (facts l).Nodup) (hnd : (inp e).Nodup) : Fd.Nodup := by
  have hscan : (scansOf (S.length - 1) (inp e)).Nodup := by
    refine Multiset.Nodup.map ?_ (by simpa using hnd)
    rintro ⟨a, v⟩ ⟨a', v'⟩ h
    simp only [Prod.mk.injEq, PTree.leaf.injEq] at h
    simp [h]
  have hnode : ∀ A o d f, (A, o, PTree.node d f) ∉ scansOf (S.length - 1) (inp e) := by
    intro A o d f h
    simp [scansOf] at h
  have hcount : ∀ n, ∀ t : PTree, sizeOf t ≤ n → ∀ A o, Fd.count (A, o, t) ≤ 1 := by
    intro n
    induction n with
    | zero => intro t ht; cases t <;> simp at ht
    | succ n ih =>
      intro t ht A o
      by_cases hmem : (A, o, t) ∈ Fd
      swap
      · rw [Multiset.count_eq_zero.2 hmem]; omega
      rw [hf.fd, Multiset.count_add]
      have hs1 := Multiset.nodup_iff_count_le_one.1 hscan (A, o, t)
      cases t with
      | leaf a v =>
        have : (Multiset.map (fire (ctxOf g R root la sorter s S).R) (Fd.bind (ctxOf g R root la sorter s S).consH)).count
            (A, o, PTree.leaf a v) = 0 := by
          rw [Multiset.count_eq_zero]
          simp [fire]
        omega
      | pair l r =>
        have : (Multiset.map (fire (ctxOf g R root la sorter s S).R) (Fd.bind (ctxOf g R root la sorter s S).consH)).count
            (A, o, PTree.pair l r) = 0 := by
          rw [Multiset.count_eq_zero]
          simp [fire]
        omega
      | nulling x =>
        have : (Multiset.map (fire (ctxOf g R root la sorter s S).R) (Fd.bind (ctxOf g R root la sorter s S).consH)).count
            (A, o, PTree.nulling x) = 0 := by
          rw [Multiset.count_eq_zero]
          simp [fire]
        omega
      | node d f =>
        rw [Multiset.count_eq_zero.2 (hnode A o d f), Nat.zero_add]
        by_cases hA : A = lhsOf (ctxOf g R root la sorter s S).R d
        swap
        · have : (Multiset.map (fire (ctxOf g R root la sorter s S).R) (Fd.bind (ctxOf g R root la sorter s S).consH)).count
              (A, o, PTree.node d f) = 0 := by
            rw [Multiset.count_eq_zero]
            simp only [Multiset.mem_map, fire, Prod.mk.injEq, PTree.node.injEq, not_exists, not_and]
            rintro x _ h1 _ h2
            exact absurd (by rw [← h1, h2]) hA
          omega
        subst hA
        rw [EC.fire_count]
        simp only [PTree.node.sizeOf_spec] at ht
        -- the finished symbol that caused the fact
        by_cases hH : (d, o, f) ∈ Fd.bind (ctxOf g R root la sorter s S).consH
        swap
        · rw [Multiset.count_eq_zero.2 hH]; omega
        obtain ⟨⟨B, o0, t0⟩, hz0, hx0⟩ := Multiset.mem_bind.1 hH
        have huniq : ∀ z ∈ Fd, (d, o, f) ∈ (ctxOf g R root la sorter s S).consH z → z = (B, o0, t0) := by
          rintro ⟨B', o', t'⟩ hz' hx'
          obtain ⟨_, h0 | h0⟩ := EC.mem_consH.1 hx0 <;> obtain ⟨_, h1 | h1⟩ := EC.mem_consH.1 hx'
          · obtain ⟨it, _, f1, _, hr, _, he⟩ := h0
            obtain ⟨it', _, f1', _, hr', _, he'⟩ := h1
            simp only [Prod.mk.injEq] at he he'
            obtain ⟨e1, e2, e3⟩ := he
            obtain ⟨e1', e2', e3'⟩ := he'
            rw [e3] at e3'
            simp only [PTree.pair.injEq] at e3'
            obtain ⟨_, rfl⟩ := e3'
            rw [← e1] at hr; rw [← e1', hr] at hr'
            simp only [Option.some.injEq] at hr'
            subst hr'
            obtain ⟨a, ha, hta⟩ := hf.sound hs _ _ _ hz0
            obtain ⟨a', ha', hta'⟩ := hf.sound hs _ _ _ hz'
            have hw := hta.width; have hw' := hta'.width
            have : a = a' := by omega
            subst this
            rw [loc_inj hs.mono ha ha']
          · obtain ⟨it, _, f1, _, hr, _, he⟩ := h0
            obtain ⟨r, hr', _, h1', _⟩ := h1
            simp only [Prod.mk.injEq] at he
            rw [← he.1] at hr
            simp [rhs1Of, hr', h1'] at hr
          · obtain ⟨it, _, f1, _, hr, _, he⟩ := h1
            obtain ⟨r, hr', _, h1', _⟩ := h0
            simp only [Prod.mk.injEq] at he
            rw [← he.1] at hr
            simp [rhs1Of, hr', h1'] at hr
          · obtain ⟨r, hr, h01, _, _, _, he⟩ := h0
            obtain ⟨r', hr', h01', _, _, _, he'⟩ := h1
            simp only [Prod.mk.injEq, true_and] at he he'
            rw [hr] at hr'
            simp only [Option.some.injEq] at hr'
            subst hr'
            simp only at h01 h01'
            rw [← h01, ← h01', ← he.1, ← he.2, ← he'.1, ← he'.2]
        have hle := EC.count_bind_le Fd _ (d, o, f) _ huniq
          (Multiset.nodup_iff_count_le_one.1 (EC.consH_nodup hS _) _)
        refine hle.trans (ih t0 ?_ _ _)
        obtain ⟨_, h0 | h0⟩ := EC.mem_consH.1 hx0
        · obtain ⟨it, _, f1, _, _, _, he⟩ := h0
          simp only [Prod.mk.injEq] at he
          rw [he.2.2] at ht
          simp only [PTree.pair.sizeOf_spec] at ht
          omega
        · obtain ⟨r, _, _, _, _, _, he⟩ := h0
          simp only [Prod.mk.injEq, true_and] at he
          rw [he.2] at ht
          omega
  rw [Multiset.nodup_iff_count_le_one]
  rintro ⟨A, o, t⟩
  exact hcount _ t (Nat.le_refl _) A o

/-- No fact of the new set is found twice. -/
theorem EC.Fixed.once_cur {s : TRec} {S inp P St loc e la sorter Fd cur}
    (hf : (ctxOf g R root la sorter s S).Fixed (scansOf (S.length - 1) (inp e)) Fd cur)
    (hs : Sound R inp P St s.predicted S loc e) (hS : ∀ l ∈ S, (facts l).Nodup) (hnd : (inp e).Nodup) :
    (facts cur).Nodup := by
  have hFd := hf.once hs hS hnd
  rw [hf.cf, Multiset.nodup_iff_count_le_one]
  intro x
  by_cases hx : x ∈ Fd.bind (ctxOf g R root la sorter s S).consM
  swap
  · rw [Multiset.count_eq_zero.2 hx]; omega
  obtain ⟨z0, hz0, hx0⟩ := Multiset.mem_bind.1 hx
  refine (EC.count_bind_le Fd _ x z0 ?_ (Multiset.nodup_iff_count_le_one.1 (EC.consM_nodup _) _)).trans
    (Multiset.nodup_iff_count_le_one.1 hFd z0)
  rintro ⟨B', o', t'⟩ _ hx'
  obtain ⟨B, o, t⟩ := z0
  obtain ⟨_, r, hr, h01, _, _, _, he⟩ := EC.mem_consM.1 hx0
  obtain ⟨_, r', hr', h01', _, _, _, he'⟩ := EC.mem_consM.1 hx'
  rw [hr] at hr'
  simp only [Option.some.injEq] at hr'
  subst hr'
  rw [he] at he'
  simp only [Prod.mk.injEq, true_and] at he'
  simp only at h01 h01'
  rw [← h01, ← h01', he'.1, he'.2]

end
end Gearley
