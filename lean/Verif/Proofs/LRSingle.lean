import Verif.Proofs.LRUser

/-! # LR(1) grammars are unambiguous -/

namespace Gearley.Spec
variable {P U : URules} {S : Nat} {inp : Input} {W : List Nat}

/-- What the trees of the user's grammar stand for. -/
theorem ukids_steps (hUP : ∀ r ∈ U, r ∈ P) (hW : Toks P W) (hin : ∀ e A v, (A, v) ∈ inp e → W[e]? = some A) {ts : List UTree} {φ : List Nat}
    {i j : Nat} (h : UKids U inp ts φ i j) : i ≤ W.length → i ≤ j ∧ j ≤ W.length ∧ RSteps P φ (slice W i j) := by
  have hnul : ∀ {A : Nat}, UNullable U A → RSteps P [A] [] := by
    intro A h
    induction h with
    | @rule k A rhs hk _ ih =>
      refine .head ?_ (Nul.steps ih)
      have := RStep.mk (P := P) (γ := []) (x := []) (hUP _ (List.mem_of_getElem? hk)) (by simp)
      simpa using this
  refine UKids.rec (motive_1 := fun t A i j _ => i ≤ W.length → i ≤ j ∧ j ≤ W.length ∧ RSteps P [A] (slice W i j))
    (motive_2 := fun ts φ i j _ => i ≤ W.length → i ≤ j ∧ j ≤ W.length ∧ RSteps P φ (slice W i j)) ?_ ?_ ?_ ?_ ?_ h
  · intro a v i hm _
    have h1 := hin _ _ _ hm
    refine ⟨by omega, (List.getElem?_eq_some_iff.1 h1).1, ?_⟩
    rw [slice_one h1]
  · intro s i hn hi
    refine ⟨Nat.le_refl _, hi, ?_⟩
    have : slice W i i = [] := by simp [slice]
    rw [this]
    exact hnul hn
  · intro k A i j rhs kids hk _ _ ih hi
    obtain ⟨h1, h2, h3⟩ := ih hi
    refine ⟨h1, h2, .head ?_ h3⟩
    have := RStep.mk (P := P) (γ := []) (x := []) (hUP _ (List.mem_of_getElem? hk)) (by simp)
    simpa using this
  · intro i hi
    refine ⟨Nat.le_refl _, hi, ?_⟩
    have : slice W i i = [] := by simp [slice]
    rw [this]
  · intro t s i k j ts ss _ _ ih1 ih2 hi
    obtain ⟨h1, h2, h3⟩ := ih1 hi
    obtain ⟨h4, h5, h6⟩ := ih2 h2
    refine ⟨h1.trans h4, h5, ?_⟩
    rw [← slice_append W h1 h4]
    exact (h6.left [s]).trans (h3.right (slice_toks hW _ _))

/-- One step back from a string of tokens: the rule is determined. -/
theorem LRGrammar.rule_unique (hG : LRGrammar P S) {A : Nat} {γ x rhs rhs' t : List Nat} (hx : Toks P x) (h : RForm P S (γ ++ A :: x))
    (hr : (A, rhs) ∈ P) (hr' : (A, rhs') ∈ P) (h1 : RSteps P (γ ++ rhs ++ x) t) (h2 : RSteps P (γ ++ rhs' ++ x) t) : rhs = rhs' := by
  obtain ⟨k, hk⟩ := RAt.of_form h
  have s1 := RStep.mk (P := P) (γ := γ) hr hx
  have s2 := RStep.mk (P := P) (γ := γ) hr' hx
  have a1 := hk.succ s1
  have a2 := hk.succ s2
  have key : ∀ {φ ψ : List Nat}, RAt P S (k + 1) φ → RAt P S (k + 1) ψ → RSteps P φ ψ → φ = ψ := by
    intro φ ψ b1 b2 hs
    obtain ⟨j, hj, h3⟩ := b1.deeper hs
    have := hG.at_unique b2 hj
    rcases h3 with h3 | h3
    · omega
    · exact h3.2
  have e : γ ++ rhs ++ x = γ ++ rhs' ++ x := by
    rcases hG.total a1.form h1 a2.form h2 with h3 | h3
    · exact key a1 a2 h3
    · exact (key a2 a1 h3).symm
  simpa using e

/-- In a right-sentential form, the trees of a part of it are determined. -/
theorem kids_unique (hG : LRGrammar P S) (hUP : ∀ r ∈ U, r ∈ P) (hnd : U.Nodup) (hW : Toks P W)
    (hin : ∀ e A v, (A, v) ∈ inp e → W[e]? = some A) (hval : ∀ e A v v', (A, v) ∈ inp e → (A, v') ∈ inp e → v = v') (p : List Nat) :
    ∀ (n : Nat) {ts ts' : List UTree} {φ γ x : List Nat} {i j : Nat}, UTree.sizes ts ≤ n → i ≤ W.length → Toks P x →
      RForm P S (γ ++ φ ++ x) → RSteps P γ (p ++ W.take i) → UKids U inp ts φ i j → UKids U inp ts' φ i j → ts = ts' := by
  intro n
  induction n with
  | zero =>
    intro ts ts' φ γ x i j hn _ _ _ _ h h'
    cases h with
    | nil => cases h'; rfl
    | @cons t _ _ _ _ _ _ h1 h2 =>
      exfalso
      rw [UTree.sizes] at hn
      cases t <;> simp [UTree.size] at hn
  | succ n ih =>
    intro ts ts' φ γ x i j hn hi hx hf hγ h h'
    cases h with
    | nil => cases h'; rfl
    | @cons t s _ k _ ts ss h1 h2 =>
      cases h' with
      | @cons t' _ _ k' _ ts' _ h1' h2' =>
        have hpos : 1 ≤ t.size := by cases t <;> simp [UTree.size]
        rw [UTree.sizes] at hn
        obtain ⟨i1, i2, i3⟩ := ukids_steps hUP hW hin (.cons h1 .nil) hi
        obtain ⟨i1', i2', i3'⟩ := ukids_steps hUP hW hin (.cons h1' .nil) hi
        obtain ⟨j1, j2, j3⟩ := ukids_steps hUP hW hin h2 i2
        obtain ⟨j1', j2', j3'⟩ := ukids_steps hUP hW hin h2' i2'
        have hf1 : RForm P S ((γ ++ [s]) ++ ss ++ x) := by simpa using hf
        -- what comes before
        have before : ∀ {m : Nat}, i ≤ m → RSteps P [s] (slice W i m) → RSteps P (γ ++ [s]) (p ++ W.take m) := by
          intro m him hs
          rw [← take_slice W him, ← List.append_assoc]
          exact (hs.left γ).trans (hγ.right (slice_toks hW _ _))
        have b1 := before i1 i3
        have b1' := before i1' i3'
        -- the first tree ends at the same position
        have hkk : k = k' := by
          have := hG.unique hx hf1 b1 b1' j3 j3' (slice_toks hW _ _) (slice_toks hW _ _)
            (by rw [List.append_assoc, List.append_assoc, take_slice W j1, take_slice W j1'])
          have := congrArg List.length this
          rw [slice_length W j2, slice_length W j2] at this
          omega
        subst hkk
        have e2 : ts = ts' := ih (by omega) i2 hx hf1 b1 h2 h2'
        subst e2
        -- the first tree
        have hxx : Toks P (slice W k j ++ x) := (slice_toks hW _ _).append hx
        have hf2 : RForm P S (γ ++ s :: (slice W k j ++ x)) := by
          have := hf1.trans ((j3.left (γ ++ [s])).right hx)
          simpa [RForm] using this
        have e1 : t = t' := by
          cases h1 with
          | leaf hm =>
            cases h1' with
            | leaf hm' => rw [hval _ _ _ _ hm hm']
            | node hk' _ _ =>
              exact absurd rfl (hW _ (List.mem_of_getElem? (hin _ _ _ hm)) _ (hUP _ (List.mem_of_getElem? hk')))
          | empty _ =>
            cases h1' with
            | empty _ => rfl
            | node _ _ hlt => omega
          | @node r _ _ _ rhs kids hk hkids hlt =>
            cases h1' with
            | leaf hm' =>
              exact absurd rfl (hW _ (List.mem_of_getElem? (hin _ _ _ hm')) _ (hUP _ (List.mem_of_getElem? hk)))
            | empty _ => omega
            | @node r' _ _ _ rhs' kids' hk' hkids' _ =>
              have hr := hUP _ (List.mem_of_getElem? hk)
              have hr' := hUP _ (List.mem_of_getElem? hk')
              obtain ⟨_, _, l3⟩ := ukids_steps hUP hW hin hkids hi
              obtain ⟨_, _, l3'⟩ := ukids_steps hUP hW hin hkids' hi
              have down : ∀ {ρ : List Nat}, RSteps P ρ (slice W i k) → RSteps P (γ ++ ρ ++ (slice W k j ++ x)) (p ++ W.take j ++ x) := by
                intro ρ hρ
                have h5 := (hρ.ctx γ hxx).trans (hγ.right ((slice_toks hW i k).append hxx) |> fun h => by simpa using h)
                rw [← take_slice W (i1.trans j1), ← slice_append W i1 j1]
                simpa using h5
              have e := hG.rule_unique hxx hf2 hr hr' (down l3) (down l3')
              subst e
              have er : r = r' := (List.getElem?_inj (List.getElem?_eq_some_iff.1 hk).1 hnd).1 (hk.trans hk'.symm)
              subst er
              rw [UTree.size] at hn
              rw [ih (by omega) hi hxx (hf2.tail (RStep.mk hr hxx)) hγ hkids hkids']
        rw [e1]

variable {N : Names U} {w : WrappedRoot} {g0 : Nat} {c : Cfg}

/-- The binarized grammar made from an LR(1) grammar without repeated rules is unambiguous. -/
theorem LRGrammar.single {nullable : Prop} (hG : LRGrammar (augmented U w) w.root) (hb : Binarizes U N w g0 c)
    (hl : LeftBin (augmented U w) (rulesOf c) (exOf N w g0) (ownOf N w g0) (PlainSym N g0)) (hp : Productive (augmented U w))
    (hi : Inp (augmented U w) (PlainSym N g0) inp W) (hval : ∀ e A v v', (A, v) ∈ inp e → (A, v') ∈ inp e → v = v')
    (hS : PlainSym N g0 w.root) (hw : Props.Wrapping (rulesOf c) w nullable) (hrule : ⟨w.root, g0, some w.eof⟩ ∈ rulesOf c)
    (hlen : ∀ r ∈ c.rules, r.rhs.length = 1 ∨ r.rhs.length = 2) (hinner : Inner w g0 w.innerRoot) (hnd : U.Nodup) (heof : w.eof ∉ W.tail) :
    SingleTrees (rulesOf c) w.root inp := by
  have hUP : ∀ r ∈ U, r ∈ augmented U w := fun r hr => List.mem_cons_of_mem _ hr
  have hin : ∀ e A v, (A, v) ∈ inp e → W[e]? = some A := fun e A v h => (hi.inp e A v h).1
  have hin' : ∀ i, ∀ p ∈ inp i, N.parts p.1 = none := fun i p h => (hi.inp i p.1 p.2 h).2.1
  let info : ForestInfo := { eval := c.rules.map (·.origin), nullingEliminated := c.rules.map (·.nullable) }
  obtain ⟨g1, ⟨h1, h2⟩, h3, _, h5⟩ := hw.rules
  have hg : g1 = g0 := by
    have := h2 _ hrule rfl
    simp only [Rule.mk.injEq, true_and, and_true] at this
    exact this.symm
  subst hg
  -- symbols of the user and names
  have inner : ∀ {A a b : Nat} {t t' : PTree}, Inner w g1 A → Pred (rulesOf c) w.root inp a A → TreeOf (rulesOf c) inp t A a b →
      TreeOf (rulesOf c) inp t' A a b → t = t' := by
    intro A a b t t' hA hpr ht ht'
    have f1 := hb.flat_sound (info := info) rfl rfl hin' t ht hA
    have f2 := hb.flat_sound (info := info) rfl rfl hin' t' ht' hA
    refine hb.flat_inj (info := info) rfl rfl hin' t ht hA t' ht' ?_
    obtain ⟨γ, x, k1, k2, k3⟩ := pred_form hl hp hi hS hpr
    obtain ⟨t1, t2, _⟩ := tree_steps hl hi ht
    cases hA' : N.parts A with
    | none =>
      obtain ⟨_, u, e, hu⟩ := f1.user hA'
      obtain ⟨_, u', e', hu'⟩ := f2.user hA'
      rw [e, e']
      have hown : ownOf N w g1 A = A := (PlainSym.ex_own (w := w) (N := N) (g0 := g1) ⟨hA', hA.2⟩).2
      rw [hown] at k2
      exact kids_unique hG hUP hnd hi.toks hin hval [] _ (Nat.le_refl _) (by omega) k1 (by simpa using k2) (by simpa using k3) (.cons hu .nil)
        (.cons hu' .nil)
    | some p =>
      obtain ⟨k, m⟩ := p
      unfold FlatOK at f1 f2
      rw [hA'] at f1 f2
      obtain ⟨_, B, rhs, e, hu⟩ := f1
      obtain ⟨_, B', rhs', e', hu'⟩ := f2
      rw [e, Option.some.injEq, Prod.mk.injEq] at e'
      obtain ⟨rfl, rfl⟩ := e'
      have hown : ownOf N w g1 A = B := by simp [ownOf, hA.2, hA', e]
      rw [hown] at k2
      have hr := hUP _ (List.mem_of_getElem? e)
      obtain ⟨v, hv, hs⟩ := hp.all hr (rhs.drop m) (fun s hs => List.mem_of_mem_drop hs)
      refine kids_unique hG hUP hnd hi.toks hin hval [] _ (Nat.le_refl _) (by omega) (hv.append k1) ?_ (by simpa using k3) hu hu'
      have s1 := k2.tail (RStep.mk hr k1)
      have s2 := (hs.left (γ ++ rhs.take m)).right k1
      have e3 : γ ++ rhs ++ x = γ ++ rhs.take m ++ rhs.drop m ++ x := by
        rw [List.append_assoc γ (rhs.take m), List.take_append_drop]
      rw [e3] at s1
      have := s1.trans s2
      rwa [List.append_assoc _ v x] at this
  -- terminals
  have leaf : ∀ {A a b : Nat} {t t' : PTree}, Terminal (rulesOf c) A → TreeOf (rulesOf c) inp t A a b →
      TreeOf (rulesOf c) inp t' A a b → t = t' := by
    intro A a b t t' hA ht ht'
    cases ht with
    | leaf hm =>
      cases ht' with
      | leaf hm' => rw [hval _ _ _ _ hm hm']
      | unary hd _ => exact absurd rfl (hA _ (List.mem_of_getElem? hd))
      | binary hd _ _ => exact absurd rfl (hA _ (List.mem_of_getElem? hd))
    | unary hd _ => exact absurd rfl (hA _ (List.mem_of_getElem? hd))
    | binary hd _ _ => exact absurd rfl (hA _ (List.mem_of_getElem? hd))
  have len : ∀ {A a b : Nat} {t : PTree}, Terminal (rulesOf c) A → TreeOf (rulesOf c) inp t A a b → b = a + 1 := by
    intro A a b t hA ht
    cases ht with
    | leaf _ => rfl
    | unary hd _ => exact absurd rfl (hA _ (List.mem_of_getElem? hd))
    | binary hd _ _ => exact absurd rfl (hA _ (List.mem_of_getElem? hd))
  -- rules of the symbol for the start of the file are different
  have index : ∀ {d d' B : Nat} {o : Option Nat}, (rulesOf c)[d]? = some (⟨g1, B, o⟩ : Rule) → (rulesOf c)[d']? = some (⟨g1, B, o⟩ : Rule) → d = d' := by
    intro d d' B o hd hd'
    obtain ⟨q, hq, e⟩ := Option.map_eq_some_iff.1 ((List.getElem?_map (f := ruleOf) (l := c.rules)).symm.trans hd)
    obtain ⟨q', hq', e'⟩ := Option.map_eq_some_iff.1 ((List.getElem?_map (f := ruleOf) (l := c.rules)).symm.trans hd')
    refine bare_index hb.nodup hq hq' (hb.once _ (List.mem_of_getElem? hq) _ (List.mem_of_getElem? hq') ?_ ?_ ?_)
    · simp only [ruleOf, Rule.mk.injEq] at e; exact e.1
    · simp only [ruleOf, Rule.mk.injEq] at e'; exact e'.1
    · have l1 := hlen _ (List.mem_of_getElem? hq)
      have l2 := hlen _ (List.mem_of_getElem? hq')
      rw [← e'] at e
      simp only [ruleOf, Rule.mk.injEq] at e
      match hr : q.rhs, hr' : q'.rhs with
      | [x], [y] => rw [hr, hr'] at e; simpa using e.2
      | [x, x'], [y, y'] => rw [hr, hr'] at e; simpa using e.2
      | [x], [y, y'] => rw [hr, hr'] at e; simp at e
      | [x, x'], [y] => rw [hr, hr'] at e; simp at e
      | [], _ => rw [hr] at l1; simp at l1
      | _, [] => rw [hr'] at l2; simp at l2
      | _ :: _ :: _ :: _, _ => rw [hr] at l1; simp at l1
      | _, _ :: _ :: _ :: _ => rw [hr'] at l2; simp at l2
  intro A a b t t' hpr ht ht'
  by_cases hA : A = w.root
  · -- the end of the file is not part of the input
    exfalso
    subst hA
    cases ht with
    | leaf hm =>
      exact hi.toks _ (List.mem_of_getElem? (hin _ _ _ hm)) (w.root, [w.sof, w.innerRoot, w.eof]) (List.mem_cons_self ..) rfl
    | unary hd _ => have := h2 _ (List.mem_of_getElem? hd) rfl; simp at this
    | binary hd hl' hr =>
      have := h2 _ (List.mem_of_getElem? hd) rfl
      simp only [Rule.mk.injEq, Option.some.injEq, true_and] at this
      rw [this.2] at hr
      cases hr with
      | leaf hm =>
        have h6 := (tree_steps hl hi hl').1
        have h7 := hin _ _ _ hm
        rename_i k _
        obtain ⟨j, rfl⟩ : ∃ j, k = j + 1 := ⟨k - 1, by omega⟩
        exact heof (List.mem_of_getElem? (i := j) (by rw [List.getElem?_tail]; exact h7))
      | unary hd _ => exact absurd rfl (hw.eof _ (List.mem_of_getElem? hd))
      | binary hd _ _ => exact absurd rfl (hw.eof _ (List.mem_of_getElem? hd))
  by_cases hA' : A = g1
  · subst hA'
    have key : ∀ {t : PTree}, TreeOf (rulesOf c) inp t A a b → (∃ d f, t = .node d f ∧ (rulesOf c)[d]? = some (⟨A, w.sof, none⟩ : Rule) ∧ TreeOf (rulesOf c) inp f w.sof a b) ∨
        ∃ d l r k, t = .node d (.pair l r) ∧ (rulesOf c)[d]? = some (⟨A, w.sof, some w.innerRoot⟩ : Rule) ∧ TreeOf (rulesOf c) inp l w.sof a k ∧
          TreeOf (rulesOf c) inp r w.innerRoot k b := by
      intro t ht
      cases ht with
      | leaf hm => exact absurd rfl (hi.inp _ _ _ hm).2.2
      | unary hd hf =>
        rcases h5 _ (List.mem_of_getElem? hd) rfl with e | e
        · simp at e
        · simp only [Rule.mk.injEq, true_and, and_true] at e
          rw [e] at hd hf
          exact .inl ⟨_, _, rfl, hd, hf⟩
      | binary hd hl' hr =>
        rcases h5 _ (List.mem_of_getElem? hd) rfl with e | e
        · simp only [Rule.mk.injEq, Option.some.injEq, true_and] at e
          obtain ⟨rfl, rfl⟩ := e
          exact .inr ⟨_, _, _, _, rfl, hd, hl', hr⟩
        · simp at e
    rcases key ht with ⟨d, f, rfl, hd, hf⟩ | ⟨d, l, r, k, rfl, hd, hl1, hr1⟩ <;>
    rcases key ht' with ⟨d', f', rfl, hd', hf'⟩ | ⟨d', l', r', k', rfl, hd', hl1', hr1'⟩
    · rw [index hd hd', leaf hw.sof hf hf']
    · have := len hw.sof hf
      have := len hw.sof hl1'
      have := (tree_steps hl hi hr1').1
      omega
    · have := len hw.sof hf'
      have := len hw.sof hl1
      have := (tree_steps hl hi hr1).1
      omega
    · have e1 := len hw.sof hl1
      have e2 := len hw.sof hl1'
      have : k = k' := by omega
      subst this
      rw [index hd hd', leaf hw.sof hl1 hl1', inner hinner (.medial hd hpr hl1) hr1 hr1']
  · exact inner ⟨hA, hA'⟩ hpr ht ht'

end Gearley.Spec
