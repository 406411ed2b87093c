import Verif.Proofs.Chart

/-! # Soundness, completeness and uniqueness of the chart, one position at a time -/

namespace Gearley
open Gearley.Spec

section
variable {g : DefaultGrammar} {R : Rules} {root : Nat → Nat}

/-- Position list after a step. -/
def nextLoc (loc : List Nat) (keep e : Nat) : List Nat := loc.take keep ++ [e + 1]

theorem nextLoc_lt {loc : List Nat} {keep e k b : Nat} (hk : k < keep) (h : loc[k]? = some b) :
    (nextLoc loc keep e)[k]? = some b := by
  have hl : k < loc.length := (List.getElem?_eq_some_iff.1 h).1
  rw [nextLoc, List.getElem?_append_left (by simp; omega), List.getElem?_take, if_pos hk, h]

theorem nextLoc_inv {loc : List Nat} {keep e k b : Nat} (hkl : keep ≤ loc.length)
    (h : (nextLoc loc keep e)[k]? = some b) : (k < keep ∧ loc[k]? = some b) ∨ (k = keep ∧ b = e + 1) := by
  rw [nextLoc] at h
  have htl : (loc.take keep).length = keep := by simp; omega
  by_cases hk : k < keep
  · rw [List.getElem?_append_left (by omega), List.getElem?_take, if_pos hk] at h
    exact Or.inl ⟨hk, h⟩
  · rw [List.getElem?_append_right (by omega), htl] at h
    have := (List.getElem?_eq_some_iff.1 h).1
    simp at this
    have : k = keep := by omega
    subst this
    simp at h
    exact Or.inr ⟨rfl, h.symm⟩

theorem nextLoc_keep {loc : List Nat} {keep e : Nat} (hkl : keep ≤ loc.length) :
    (nextLoc loc keep e)[keep]? = some (e + 1) := by
  have htl : (loc.take keep).length = keep := by simp; omega
  rw [nextLoc, List.getElem?_append_right (by omega), htl]; simp

theorem nextS_inv {S : List (List TItem)} {cur' l : List TItem} {keep k : Nat} (hkl : keep ≤ S.length)
    (h : (S.take keep ++ [cur'])[k]? = some l) : (k < keep ∧ S[k]? = some l) ∨ (k = keep ∧ l = cur') := by
  have htl : (S.take keep).length = keep := by simp; omega
  by_cases hk : k < keep
  · rw [List.getElem?_append_left (by omega), List.getElem?_take, if_pos hk] at h
    exact Or.inl ⟨hk, h⟩
  · rw [List.getElem?_append_right (by omega), htl] at h
    have := (List.getElem?_eq_some_iff.1 h).1
    simp at this
    have : k = keep := by omega
    subst this
    simp at h
    exact Or.inr ⟨rfl, h.symm⟩

/-- The state after a step is well formed. -/
theorem Rest.next {s : TRec} {S} (h : Rest g R s S) {la sorter toks Fd cur s' cur' keep}
    (hf : (ctxOf g R root la sorter s S).Fixed (scansOf (S.length - 1) toks) Fd cur)
    (ha : Advanced g R s.predicted S cur s' cur' keep) (hl : s'.lookahead = none) :
    Rest g R s' (S.take keep ++ [cur']) where
  medial := ha.medial
  pos := by simp
  empty := ha.empty
  rows := by have := ha.rows; have := ha.keep_le; simp; omega
  width := ha.width
  rowLen := ha.rowLen
  closed := ha.closed
  hint := by rw [hl]; simp
  binary := by
    intro l hl it hit
    rcases List.mem_append.1 hl with h' | h'
    · exact h.binary l (List.mem_of_mem_take h') it hit
    · simp at h'; subst h'
      exact (hf.citems it (ha.perm.mem_iff.1 hit)).2.2
  sorted := by
    intro l hl
    rcases List.mem_append.1 hl with h' | h'
    · exact h.sorted l (List.mem_of_mem_take h')
    · simp at h'; subst h'; exact ha.sorted
  node := by
    intro l hl it hit
    rcases List.mem_append.1 hl with h' | h'
    · exact h.node l (List.mem_of_mem_take h') it hit
    · simp at h'; subst h'
      exact (hf.citems it (ha.perm.mem_iff.1 hit)).1
  origin := by
    intro k l hk it hit
    rcases nextS_inv ha.keep_le hk with ⟨_, h'⟩ | ⟨rfl, rfl⟩
    · exact h.origin k l h' it hit
    · have := ha.perm.mem_iff.1 hit
      rcases ha.keep_max with h1 | ⟨_, _, h2⟩
      · rw [h1]; exact (hf.citems it this).2.1
      · exact h2 it this

/-! ### Soundness -/

/-- Finished symbols have derivation trees. -/
theorem EC.Fixed.sound {s : TRec} {S inp P St loc e la sorter Fd cur}
    (hf : (ctxOf g R root la sorter s S).Fixed (scansOf (S.length - 1) (inp e)) Fd cur)
    (hs : Sound R inp P St s.predicted S loc e) (t : PTree) :
    ∀ A o, (A, o, t) ∈ Fd → ∃ a, loc[o]? = some a ∧ TreeOf R inp t A a (e + 1) := by
  have hsize : ∀ n, ∀ t : PTree, sizeOf t ≤ n → ∀ A o, (A, o, t) ∈ Fd →
      ∃ a, loc[o]? = some a ∧ TreeOf R inp t A a (e + 1) := by
    intro n
    induction n with
    | zero => intro t ht; cases t <;> simp at ht
    | succ n ih =>
      intro t ht A o hz
      rw [hf.fd] at hz
      rcases Multiset.mem_add.1 hz with hz | hz
      · simp only [scansOf, Multiset.mem_map, Multiset.mem_coe, Prod.mk.injEq] at hz
        obtain ⟨⟨a, v⟩, hav, rfl, rfl, rfl⟩ := hz
        exact ⟨e, hs.last, .leaf hav⟩
      · simp only [Multiset.mem_map, Multiset.mem_bind] at hz
        obtain ⟨x, ⟨⟨C, o', t'⟩, hz', hx⟩, hfx⟩ := hz
        obtain ⟨_, h | h⟩ := EC.mem_consH.1 hx
        · obtain ⟨it, hit, f, hfn, hr1, _, rfl⟩ := h
          simp only [fire, Prod.mk.injEq] at hfx
          obtain ⟨rfl, rfl, rfl⟩ := hfx
          simp only [PTree.node.sizeOf_spec, PTree.pair.sizeOf_spec] at ht
          obtain ⟨a', ha', ht'⟩ := ih t' (by omega) C o' hz'
          simp only [ctxOf] at hit hr1
          cases hS : S[o']? with
          | none => rw [hS] at hit; simp at hit
          | some l =>
            rw [hS, Option.getD_some] at hit
            obtain ⟨A, B, C', a, b, hR, h1, h2, h3, _⟩ := hs.fact o' l hS (it.dot, it.origin, f)
              (mem_facts.2 ⟨it, hit, rfl, rfl, hfn⟩)
            simp only at hR h1 h2 h3
            rw [ha'] at h2
            simp only [Option.some.injEq] at h2
            subst h2
            simp only [rhs1Of, hR, Option.bind_some, Option.some.injEq] at hr1
            subst hr1
            refine ⟨a, h1, ?_⟩
            have := TreeOf.binary hR h3 ht'
            simpa [lhsOf_eq hR, ctxOf] using this
        · obtain ⟨r, hR, h0, h1, _, _, hxe⟩ := h
          rw [hxe] at hfx
          simp only [fire, Prod.mk.injEq] at hfx
          obtain ⟨rfl, rfl, rfl⟩ := hfx
          simp only [PTree.node.sizeOf_spec] at ht
          obtain ⟨a', ha', ht'⟩ := ih t' (by omega) C o' hz'
          refine ⟨a', ha', ?_⟩
          simp only [ctxOf] at hR ⊢
          rw [lhsOf_eq hR]
          simp only at h0
          obtain ⟨A, B, C1⟩ := r
          simp only at h0 h1
          subst h0; subst h1
          exact .unary hR ht'
  exact hsize _ t (Nat.le_refl _)

/-- Facts of the new set are true. -/
theorem EC.Fixed.sound_cur (hg : GrammarOK g R root) {s : TRec} {S inp P St loc e la sorter Fd cur}
    (hf : (ctxOf g R root la sorter s S).Fixed (scansOf (S.length - 1) (inp e)) Fd cur)
    (hs : Sound R inp P St s.predicted S loc e) (hP : PredOK R g.startSym inp P St) {x : Fact} (hx : x ∈ facts cur) :
    ∃ A B C a, R[x.1]? = some ⟨A, B, some C⟩ ∧ loc[x.2.1]? = some a ∧ TreeOf R inp x.2.2 B a (e + 1) ∧ P a A := by
  rw [hf.cf] at hx
  simp only [Multiset.mem_bind] at hx
  obtain ⟨⟨B, o, t⟩, hz, hx⟩ := hx
  obtain ⟨_, r, hR, h0, h1, hbit, _, hxe⟩ := EC.mem_consM.1 hx
  obtain ⟨a, ha, ht⟩ := hf.sound hs t B o hz
  obtain ⟨C, hC⟩ := Option.isSome_iff_exists.1 h1
  simp only [ctxOf] at hR hbit
  obtain ⟨A, B', C'⟩ := r
  simp only at h0 hC hbit
  subst h0; subst hC
  refine ⟨A, B', C, a, hR, ?_, ?_, ?_⟩
  · rw [hxe]; exact ha
  · rw [hxe]; exact ht
  · exact hP.corners (hs.row o _ a ha hbit) (hg.root_corner _ (List.mem_of_getElem? hR))

theorem Sound.next (hg : GrammarOK g R root) {s : TRec} {S inp P St loc e la sorter Fd cur s' cur' keep}
    (hP : PredOK R g.startSym inp P St) (hs : Sound R inp P St s.predicted S loc e)
    (hf : (ctxOf g R root la sorter s S).Fixed (scansOf (S.length - 1) (inp e)) Fd cur)
    (ha : Advanced g R s.predicted S cur s' cur' keep) :
    Sound R inp P St s'.predicted (S.take keep ++ [cur']) (nextLoc loc keep e) (e + 1) := by
  have hkl : keep ≤ loc.length := by rw [hs.locLen]; exact ha.keep_le
  have hlen : (S.take keep ++ [cur']).length = keep + 1 := by have := ha.keep_le; simp; omega
  have horig : ∀ it ∈ cur, it.origin < keep := by
    intro it hit
    rcases ha.keep_max with h1 | ⟨_, _, h2⟩
    · rw [h1]; exact (hf.citems it hit).2.1
    · exact h2 it hit
  refine ⟨?_, ?_, ?_, ?_, ?_, ?_, ?_⟩
  · rw [hlen]; simp [nextLoc]; omega
  · exact nextLoc_lt (by have := ha.keep_pos; omega) hs.loc0
  · rw [hlen]; exact nextLoc_keep hkl
  · rw [nextLoc, List.pairwise_append]
    refine ⟨hs.mono.sublist (List.take_sublist _ _), by simp, ?_⟩
    intro a hat b hb
    simp at hb; subst hb
    have hmem := List.mem_of_mem_take hat
    obtain ⟨i, hi, rfl⟩ := List.getElem_of_mem hmem
    have hl := hs.last
    have hlt : S.length - 1 < loc.length := (List.getElem?_eq_some_iff.1 hl).1
    have hle : loc[S.length - 1] = e := (List.getElem?_eq_some_iff.1 hl).2
    have : loc[i] ≤ loc[S.length - 1] := by
      have hil := hs.locLen
      rcases Nat.lt_or_eq_of_le (show i ≤ S.length - 1 by omega) with h | h
      · exact Nat.le_of_lt ((List.pairwise_iff_getElem.1 hs.mono) i _ hi hlt h)
      · subst h; exact Nat.le_refl _
    omega
  · intro k l hk x hx
    rcases nextS_inv ha.keep_le hk with ⟨hlt, h'⟩ | ⟨rfl, rfl⟩
    · obtain ⟨A, B, C, a, b, h1, h2, h3, h4, h5⟩ := hs.fact k l h' x hx
      refine ⟨A, B, C, a, b, h1, ?_, nextLoc_lt hlt h3, h4, h5⟩
      have hblt := h4.lt
      -- origin is below k because positions increase
      have : x.2.1 < k := by
        by_contra hge
        have ho : x.2.1 < loc.length := (List.getElem?_eq_some_iff.1 h2).1
        have hkl' : k < loc.length := (List.getElem?_eq_some_iff.1 h3).1
        have ea : loc[x.2.1] = a := (List.getElem?_eq_some_iff.1 h2).2
        have eb : loc[k] = b := (List.getElem?_eq_some_iff.1 h3).2
        rcases Nat.lt_or_eq_of_le (show k ≤ x.2.1 by omega) with h | h
        · have := (List.pairwise_iff_getElem.1 hs.mono) k _ hkl' ho h; omega
        · subst h; omega
      exact nextLoc_lt (by omega) h2
    · rw [facts_perm ha.perm] at hx
      obtain ⟨A, B, C, a, h1, h2, h3, h4⟩ := hf.sound_cur hg hs hP hx
      obtain ⟨it, hit, e1, e2, e3⟩ := mem_facts.1 hx
      exact ⟨A, B, C, a, e + 1, h1, nextLoc_lt (by rw [e2]; exact horig it hit) h2, nextLoc_keep hkl, h3, h4⟩
  · intro k X b hk hbit
    rcases nextLoc_inv hkl hk with ⟨hlt, h'⟩ | ⟨rfl, rfl⟩
    · rw [ha.old k X hlt] at hbit
      exact hs.row k X b h' hbit
    · have hX := (bit_lt ha.rowLen hbit).2
      rcases (ha.new X hX).1 hbit with ⟨h1, h2⟩ | ⟨it, hit, C, h1, h2⟩
      · exact hP.stale _ _ (by omega) (hs.stale _ X (by omega) h2)
      · have hn := (hf.citems it hit).1
        obtain ⟨f, fs, hfe⟩ := List.exists_cons_of_ne_nil hn
        obtain ⟨A, B, C', a, e1, e2, e3, e4⟩ := hf.sound_cur hg hs hP
          (x := (it.dot, it.origin, f)) (mem_facts.2 ⟨it, hit, rfl, rfl, by rw [hfe]; simp⟩)
        simp only at e1 e2 e3
        simp only [rhs1Of, e1, Option.bind_some, Option.some.injEq] at h1
        subst h1
        exact hP.corners (hP.medial _ _ _ _ _ _ _ e1 e4 e3) h2
  · intro k X hk hbit
    rw [hlen] at hk
    obtain ⟨h1, h2⟩ := ha.later k X (by omega) hbit
    exact hs.stale k X (by omega) h2

/-! ### Completeness -/

/-- Positions whose set has been dropped are not needed: a later position is crossed by no item starting there. -/
def Barrier (R : Rules) (start : Nat) (inp : Input) (n : Nat) (loc : List Nat) (e : Nat) : Prop :=
  ∀ q, q < e → q ∉ loc → ∃ e', q < e' ∧ e' ≤ e ∧ ∀ d a l, UsefulItem R start inp n d a e' l → a < q

/-- The hint describes every possible next token. -/
def HintOK (inp : Input) (n : Nat) (T : Nat → Prop) (e : Nat) (hint : Option Nat) : Prop :=
  ∀ h, hint = some h → e + 1 < n ∧ T h ∧ ∀ t v, (t, v) ∈ inp (e + 1) → t = h

theorem loc_inj {loc : List Nat} (h : loc.Pairwise (· < ·)) {i j a : Nat} (hi : loc[i]? = some a) (hj : loc[j]? = some a) :
    i = j := by
  have h1 : i < loc.length := (List.getElem?_eq_some_iff.1 hi).1
  have h2 : j < loc.length := (List.getElem?_eq_some_iff.1 hj).1
  have e1 : loc[i] = a := (List.getElem?_eq_some_iff.1 hi).2
  have e2 : loc[j] = a := (List.getElem?_eq_some_iff.1 hj).2
  rcases Nat.lt_trichotomy i j with h' | h' | h'
  · have := (List.pairwise_iff_getElem.1 h) i j h1 h2 h'; omega
  · exact h'
  · have := (List.pairwise_iff_getElem.1 h) j i h2 h1 h'; omega

/-- Positions from which a symbol reaches beyond the last position are retained. -/
theorem Barrier.retained {start : Nat} {inp : Input} {n e : Nat} {loc : List Nat} (hb : Barrier R start inp n loc e)
    (hlast : e ∈ loc) {t X a b} (ht : TreeOf R inp t X a b) (hc : Ctx R start inp n X a b) (hae : a ≤ e) (hbe : e < b) :
    a ∈ loc := by
  by_contra hn
  have hlt : a < e := by
    rcases Nat.lt_or_eq_of_le hae with h | h
    · exact h
    · subst h; exact absurd hlast hn
  obtain ⟨e', h1, h2, h3⟩ := hb a hlt hn
  obtain ⟨d, a', l, h4, h5⟩ := crossing ht hc h1 (by omega)
  have := h3 d a' l h5
  omega

/-- Bits of retained rows. -/
theorem Full.bits {inp : Input} {n : Nat} {pm : BitMatrix} {S : List (List TItem)} {loc : List Nat}
    (hfull : Full g R inp n pm S loc) (hcl : RowsClosed R g.syms pm)
    {k b X p t} (hk : loc[k]? = some b) (hc : Ctx R g.startSym inp n X b p) (ht : TreeOf R inp t X b p)
    (hX : X < g.syms) : pm.bit k X = true := by
  obtain ⟨Y, hY, hYX⟩ := hfull.row k b X p t hk hc ht
  obtain ⟨row, h1, h2⟩ := BitMatrix.bit_iff.1 hY
  exact BitMatrix.bit_iff.2 ⟨row, h1, hcl row (List.mem_of_getElem? h1) Y X h2 hYX hX⟩

theorem Full.bit (hg : GrammarOK g R root) {inp : Input} {n : Nat} {pm : BitMatrix} {S : List (List TItem)} {loc : List Nat}
    (hfull : Full g R inp n pm S loc) (hcl : RowsClosed R g.syms pm) (hrl : ∀ row ∈ pm.rows, row.length = g.syms)
    {k b X p t} (hk : loc[k]? = some b) (hc : Ctx R g.startSym inp n X b p) (ht : TreeOf R inp t X b p)
    (hX : root X < g.syms) : pm.bit k (root X) = true := by
  obtain ⟨Y, hY, hYX⟩ := hfull.row k b X p t hk hc ht
  have hYlt := (bit_lt hrl hY).2
  obtain ⟨row, h1, h2⟩ := BitMatrix.bit_iff.1 hY
  exact BitMatrix.bit_iff.2 ⟨row, h1, hcl row (List.mem_of_getElem? h1) Y _ h2 (hg.corner_root hYlt hYX) hX⟩

theorem okP_of_ctx {T : Nat → Prop} (hT : LookaheadOK g R T) {inp : Input} {n e la hint}
    (hh : HintOK inp n T e hint) {d A B i} (hR : R[d]? = some ⟨A, B, none⟩)
    (hc : Ctx R g.startSym inp n A i (e + 1)) : okP g R la hint d = true := by
  cases hint with
  | none => simp [okP]
  | some h =>
    obtain ⟨hlt, hTh, hall⟩ := hh h rfl
    simp only [okP, useP, hR, Bool.or_eq_true, decide_eq_true_eq]
    by_cases hA : g.syms ≤ A
    · exact Or.inr (Or.inl hA)
    · refine Or.inr (Or.inr ?_)
      obtain ⟨α, γ, h1, h2⟩ := hc.follow
      obtain ⟨t, v, γ', h3, rfl⟩ := h2 hlt
      rw [hall t v h3] at h1
      simp [hT.follow A h α γ' (by omega) hTh h1]

theorem okM_of_ctx {T : Nat → Prop} (hT : LookaheadOK g R T) {inp : Input} {n e la hint}
    (hh : HintOK inp n T e hint) {d A B C i} (hR : R[d]? = some ⟨A, B, some C⟩)
    (hc : Ctx R g.startSym inp n A i (e + 1)) : okM g R la hint d = true := by
  cases hint with
  | none => simp [okM]
  | some h =>
    obtain ⟨hlt, hTh, hall⟩ := hh h rfl
    simp only [okM, useM, hR, Bool.or_eq_true, decide_eq_true_eq]
    by_cases hA : g.syms ≤ A
    · exact Or.inr (Or.inl hA)
    · refine Or.inr (Or.inr ?_)
      obtain ⟨α, γ, h1, h2⟩ := hc.follow
      obtain ⟨t, v, γ', h3, rfl⟩ := h2 hlt
      rw [hall t v h3] at h1
      simp [hT.follow A h α γ' (by omega) hTh h1]

theorem okP_of_tree (hg : GrammarOK g R root) {T : Nat → Prop} (hT : LookaheadOK g R T) {inp : Input} {n e la hint}
    (hh : HintOK inp n T e hint) {d A B C b r} (hR : R[d]? = some ⟨A, B, some C⟩)
    (ht : TreeOf R inp r C (e + 1) b) : okP g R la hint d = true := by
  cases hint with
  | none => simp [okP]
  | some h =>
    obtain ⟨hlt, hTh, hall⟩ := hh h rfl
    simp only [okP, useP, hR, Bool.or_eq_true, beq_iff_eq]
    refine Or.inr ?_
    obtain ⟨u, h1, h2, h3⟩ := ht.derives
    cases u with
    | nil => exact absurd rfl h1.ne_nil
    | cons t u =>
      obtain ⟨⟨v, hv⟩, _⟩ := h2
      rw [hall t v hv] at h1
      exact hT.first C h u (hg.rhs1_lt _ (List.mem_of_getElem? hR) C rfl) hTh h1

/-- Every useful finished symbol is found. -/
theorem EC.Fixed.complete (hg : GrammarOK g R root) {T : Nat → Prop} (hT : LookaheadOK g R T)
    {s : TRec} {S inp P St loc e la sorter Fd cur n} (hr : Rest g R s S)
    (hf : (ctxOf g R root la sorter s S).Fixed (scansOf (S.length - 1) (inp e)) Fd cur)
    (hs : Sound R inp P St s.predicted S loc e) (hfull : Full g R inp n s.predicted S loc)
    (hb : Barrier R g.startSym inp n loc e) (hh : la = true → HintOK inp n T e s.lookahead)
    {t A a j} (ht : TreeOf R inp t A a j) (hj : j = e + 1) (hc : Ctx R g.startSym inp n A a j) :
    ∃ o, loc[o]? = some a ∧ (A, o, t) ∈ Fd := by
  have hlast : e ∈ loc := List.mem_of_getElem? hs.last
  have hokP : ∀ {d A B i}, R[d]? = some ⟨A, B, none⟩ → Ctx R g.startSym inp n A i (e + 1) →
      okP g R la s.lookahead d = true := by
    intro d A B i hR hc
    cases la with
    | false => rfl
    | true => exact okP_of_ctx hT (hh rfl) hR hc
  have hokM : ∀ {d A B C i}, R[d]? = some ⟨A, B, some C⟩ → Ctx R g.startSym inp n A i (e + 1) →
      okM g R la s.lookahead d = true := by
    intro d A B C i hR hc
    cases la with
    | false => rfl
    | true => exact okM_of_ctx hT (hh rfl) hR hc
  have hgate : ∀ {o b X t}, loc[o]? = some b → Ctx R g.startSym inp n X b (e + 1) → TreeOf R inp t X b (e + 1) →
      gate g s.predicted o X = true := by
    intro o b X t ho hc ht
    simp only [gate, Bool.or_eq_true, decide_eq_true_eq]
    by_cases hX : g.syms ≤ X
    · exact Or.inl hX
    · exact Or.inr (hfull.bits hr.closed ho hc ht (by omega))
  induction ht with
  | @leaf x v i hm =>
    have hi : i = e := by omega
    subst hi
    refine ⟨S.length - 1, hs.last, ?_⟩
    rw [hf.fd]
    refine Multiset.mem_add.2 (Or.inl ?_)
    simp only [scansOf, Multiset.mem_map, Multiset.mem_coe]
    exact ⟨(x, v), hm, rfl⟩
  | @unary d A B f a j hR hft ih =>
    subst hj
    have hcB := Ctx.unary hR hc
    obtain ⟨o, ho, hz⟩ := ih rfl hcB
    refine ⟨o, ho, ?_⟩
    rw [hf.fd]
    refine Multiset.mem_add.2 (Or.inr ?_)
    refine Multiset.mem_map.2 ⟨(d, o, f), Multiset.mem_bind.2 ⟨_, hz, ?_⟩, by simp [fire, ctxOf, lhsOf_eq hR]⟩
    refine EC.mem_consH.2 ⟨hgate ho hcB hft, Or.inr ⟨_, hR, rfl, rfl, ?_, ?_, rfl⟩⟩
    · exact hfull.bit hg hr.closed hr.rowLen ho hc (.unary hR hft) (hg.root_lt _ (List.mem_of_getElem? hR))
    · exact Or.inr (hokP hR hc)
  | @binary d A B C l r a k j hR hlt hrt ih1 ih2 =>
    subst hj
    have hcC := Ctx.right hR hc hlt
    have huse : UsefulItem R g.startSym inp n d a k l := ⟨A, B, C, e + 1, r, hR, hc, hlt, hrt⟩
    obtain ⟨o', ho', hz⟩ := ih2 rfl hcC
    have hol : o' < S.length := by
      have := (List.getElem?_eq_some_iff.1 ho').1
      rw [hs.locLen] at this; exact this
    obtain ⟨o, ho, hfact⟩ := hfull.item o' S[o'] k (by simp [hol]) ho' d a l huse
    obtain ⟨it, hit, e1, e2, e3⟩ := mem_facts.1 hfact
    simp only at e1 e2 e3
    refine ⟨o, ho, ?_⟩
    rw [hf.fd]
    refine Multiset.mem_add.2 (Or.inr ?_)
    refine Multiset.mem_map.2 ⟨(d, o, .pair l r), Multiset.mem_bind.2 ⟨_, hz, ?_⟩, by simp [fire, ctxOf, lhsOf_eq hR]⟩
    refine EC.mem_consH.2 ⟨hgate ho' hcC hrt, Or.inl ⟨it, ?_, l, e3, ?_, ?_, by rw [e1, e2]⟩⟩
    · simp [ctxOf, hol, hit]
    · simp [ctxOf, ← e1, rhs1Of, hR]
    · rw [← e1]; exact hokM hR hc

theorem EC.Fixed.complete_cur (hg : GrammarOK g R root) {T : Nat → Prop} (hT : LookaheadOK g R T)
    {s : TRec} {S inp P St loc e la sorter Fd cur n} (hr : Rest g R s S)
    (hf : (ctxOf g R root la sorter s S).Fixed (scansOf (S.length - 1) (inp e)) Fd cur)
    (hs : Sound R inp P St s.predicted S loc e) (hfull : Full g R inp n s.predicted S loc)
    (hb : Barrier R g.startSym inp n loc e) (hh : la = true → HintOK inp n T e s.lookahead)
    {d a t} (hu : UsefulItem R g.startSym inp n d a (e + 1) t) : ∃ o, loc[o]? = some a ∧ (d, o, t) ∈ facts cur := by
  obtain ⟨A, B, C, b, r, hR, hc, hl, hrt⟩ := hu
  have hcB := Ctx.left hR hc hrt
  obtain ⟨o, ho, hz⟩ := hf.complete hg hT hr hs hfull hb hh hl rfl hcB
  refine ⟨o, ho, ?_⟩
  rw [hf.cf]
  refine Multiset.mem_bind.2 ⟨_, hz, EC.mem_consM.2 ⟨?_, _, hR, rfl, rfl, ?_, ?_, rfl⟩⟩
  · simp only [gate, Bool.or_eq_true, decide_eq_true_eq]
    by_cases hX : g.syms ≤ B
    · exact Or.inl hX
    · exact Or.inr (hfull.bits hr.closed ho hcB hl (by omega))
  · exact hfull.bit hg hr.closed hr.rowLen ho hc (.binary hR hl hrt) (hg.root_lt _ (List.mem_of_getElem? hR))
  · refine Or.inr ?_
    cases la with
    | false => rfl
    | true => exact okP_of_tree hg hT (hh rfl) hR hrt

theorem Full.next (hg : GrammarOK g R root) {T : Nat → Prop} (hT : LookaheadOK g R T)
    {s : TRec} {S inp P St loc e la sorter Fd cur n s' cur' keep} (hr : Rest g R s S)
    (hf : (ctxOf g R root la sorter s S).Fixed (scansOf (S.length - 1) (inp e)) Fd cur)
    (hs : Sound R inp P St s.predicted S loc e) (hfull : Full g R inp n s.predicted S loc)
    (hb : Barrier R g.startSym inp n loc e) (hh : la = true → HintOK inp n T e s.lookahead)
    (ha : Advanced g R s.predicted S cur s' cur' keep) :
    Full g R inp n s'.predicted (S.take keep ++ [cur']) (nextLoc loc keep e) ∧
    Barrier R g.startSym inp n (nextLoc loc keep e) (e + 1) := by
  have hkl : keep ≤ loc.length := by rw [hs.locLen]; exact ha.keep_le
  have horig : ∀ it ∈ cur, it.origin < keep := by
    intro it hit
    rcases ha.keep_max with h1 | ⟨_, _, h2⟩
    · rw [h1]; exact (hf.citems it hit).2.1
    · exact h2 it hit
  have hcur : ∀ {d a t}, UsefulItem R g.startSym inp n d a (e + 1) t →
      ∃ o, o < keep ∧ loc[o]? = some a ∧ (d, o, t) ∈ facts cur := by
    intro d a t hu
    obtain ⟨o, ho, hx⟩ := hf.complete_cur hg hT hr hs hfull hb hh hu
    obtain ⟨it, hit, _, e2, _⟩ := mem_facts.1 hx
    refine ⟨o, ?_, ho, hx⟩
    have := horig it hit
    simp only at e2; omega
  refine ⟨⟨?_, ?_⟩, ?_⟩
  · intro k l b hk hbk d a t hu
    rcases nextS_inv ha.keep_le hk with ⟨hlt, h'⟩ | ⟨rfl, rfl⟩
    · rcases nextLoc_inv hkl hbk with ⟨_, h''⟩ | ⟨h'', _⟩
      · obtain ⟨o, ho, hx⟩ := hfull.item k l b h' h'' d a t hu
        refine ⟨o, nextLoc_lt ?_ ho, hx⟩
        obtain ⟨it, hit, _, e2, _⟩ := mem_facts.1 hx
        have := hr.origin k l h' it hit
        simp only at e2; omega
      · omega
    · rcases nextLoc_inv hkl hbk with ⟨h'', _⟩ | ⟨_, rfl⟩
      · omega
      · obtain ⟨o, h1, h2, h3⟩ := hcur hu
        exact ⟨o, nextLoc_lt h1 h2, by rw [facts_perm ha.perm]; exact h3⟩
  · intro k b X p t hk hc ht
    rcases nextLoc_inv hkl hk with ⟨hlt, h'⟩ | ⟨rfl, rfl⟩
    · obtain ⟨Y, h1, h2⟩ := hfull.row k b X p t h' hc ht
      exact ⟨Y, by rw [ha.old k Y hlt]; exact h1, h2⟩
    · rcases Ctx.predictor hc t ht with ⟨h, _⟩ | ⟨d, a, l, A, B, C, h1, h2, h3⟩
      · omega
      · obtain ⟨o, _, _, hx⟩ := hcur h2
        obtain ⟨it, hit, e1, _, _⟩ := mem_facts.1 hx
        refine ⟨C, (ha.new C (hg.rhs1_lt _ (List.mem_of_getElem? h1) C rfl)).2 (Or.inr ⟨it, hit, C, ?_, .refl⟩), h3⟩
        simp only at e1
        rw [← e1]; simp [rhs1Of, h1]
  · intro q hq hqn
    by_cases hql : q ∈ loc
    · refine ⟨e + 1, hq, Nat.le_refl _, ?_⟩
      intro d a l hu
      obtain ⟨o, h1, h2, _⟩ := hcur hu
      obtain ⟨j, hj, rfl⟩ := List.getElem_of_mem hql
      have hjk : keep ≤ j := by
        by_contra hlt
        apply hqn
        exact List.mem_of_getElem? (nextLoc_lt (e := e) (keep := keep) (k := j) (by omega)
          (by rw [List.getElem?_eq_getElem hj]))
      have ho : o < loc.length := (List.getElem?_eq_some_iff.1 h2).1
      have hoe : loc[o] = a := (List.getElem?_eq_some_iff.1 h2).2
      have := (List.pairwise_iff_getElem.1 hs.mono) o j ho hj (by omega)
      omega
    · have hqe : q < e := by
        rcases Nat.lt_or_eq_of_le (show q ≤ e by omega) with h | h
        · exact h
        · subst h; exact absurd (List.mem_of_getElem? hs.last) hql
      obtain ⟨e', h1, h2, h3⟩ := hb q hqe hql
      exact ⟨e', h1, by omega, h3⟩

end
end Gearley
