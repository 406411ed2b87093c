import Verif.Proofs.LRCount
import Verif.Proofs.UserPackedParse
import Verif.Proofs.UserCycle

/-!
# LR(1) grammars of the user

The binarized grammar made from the user's grammar, and LR(1) grammars with other symbols.
-/

namespace Gearley.Spec
variable {U : URules} {N : Names U} {w : WrappedRoot} {g0 : Nat} {c : Cfg}

/-- The symbols that a symbol of the binarized grammar stands for. -/
def exOf (N : Names U) (w : WrappedRoot) (g0 X : Nat) : List Nat :=
  if X = g0 then [w.sof, w.innerRoot] else match N.parts X with
    | none => [X]
    | some (k, j) => match U[k]? with
      | none => [X]
      | some r => r.2.take j

/-- The symbol whose rule it is part of. -/
def ownOf (N : Names U) (w : WrappedRoot) (g0 X : Nat) : Nat :=
  if X = g0 then w.root else match N.parts X with
    | none => X
    | some (k, _) => match U[k]? with
      | none => X
      | some r => r.1

/-- A symbol of the user's grammar or of the wrapped root. -/
def PlainSym (N : Names U) (g0 X : Nat) : Prop := N.parts X = none ∧ X ≠ g0

theorem not_nullable (hne : NoEmpty U) {A : Nat} : ¬ UNullable U A := by
  intro h
  induction h with
  | @rule k A rhs hk _ ih =>
    cases rhs with
    | nil => exact hne _ (List.mem_of_getElem? hk) rfl
    | cons s l => exact ih s (by simp)

theorem PlainSym.ex_own {X : Nat} (h : PlainSym N g0 X) : exOf N w g0 X = [X] ∧ ownOf N w g0 X = X := by
  unfold exOf ownOf
  rw [if_neg h.2, if_neg h.2, h.1]
  exact ⟨rfl, rfl⟩

theorem Binarizes.plain_rhs (hb : Binarizes U N w g0 c) {r : Nat × List Nat} (hr : r ∈ U) {s : Nat} (hs : s ∈ r.2) : PlainSym N g0 s :=
  ⟨(N.user r hr).2 s hs, (hb.inner_user hr hs).2⟩

theorem Binarizes.plain_lhs (hb : Binarizes U N w g0 c) {r : Nat × List Nat} (hr : r ∈ U) : PlainSym N g0 r.1 :=
  ⟨(N.user r hr).1, ((hb.fresh g0 (.inr (.inl rfl))).2 r hr).1⟩

theorem Binarizes.name_ex (hb : Binarizes U N w g0 c) {k A j : Nat} {rhs : List Nat} (hk : U[k]? = some (A, rhs)) (h2 : 2 ≤ j)
    (hj : j < rhs.length) : ¬ PlainSym N g0 (N.name k j) ∧ exOf N w g0 (N.name k j) = rhs.take j ∧ ownOf N w g0 (N.name k j) = A := by
  have hp := N.parts_name k A rhs j hk h2 hj
  have hg : N.name k j ≠ g0 := by
    intro e
    rw [e, (hb.fresh g0 (.inr (.inl rfl))).1] at hp
    cases hp
  refine ⟨fun h => ?_, ?_, ?_⟩
  · rw [h.1] at hp; cases hp
  · simp [exOf, hg, hp, hk]
  · simp [ownOf, hg, hp, hk]

theorem UNullable.augmented {A : Nat} (h : UNullable U A) : UNullable (augmented U w) A := by
  induction h with
  | @rule k A rhs hk _ ih => exact .rule (k := k + 1) (by simpa [Spec.augmented] using hk) ih

/-- The beginning of a rule before one of its symbols. -/
theorem Binarizes.pre_ex (hb : Binarizes U N w g0 c) {k A j y : Nat} {rhs : List Nat} (hk : U[k]? = some (A, rhs)) (hj : 1 ≤ j)
    (hy : rhs[j]? = some y) :
    exOf N w g0 (N.pre k rhs j) = rhs.take j ∧ (ownOf N w g0 (N.pre k rhs j) = A ∨ PlainSym N g0 (N.pre k rhs j)) := by
  have hU := List.mem_of_getElem? hk
  have hjl := (List.getElem?_eq_some_iff.1 hy).1
  by_cases h1 : j = 1
  · subst h1
    cases rhs with
    | nil => cases hy
    | cons s l =>
      have hs : PlainSym N g0 s := hb.plain_rhs hU (by simp)
      have e : N.pre k (s :: l) 1 = s := by simp [Names.pre]
      rw [e]
      exact ⟨by rw [hs.ex_own.1]; rfl, .inr hs⟩
  · have e : N.pre k rhs j = N.name k j := by simp [Names.pre, h1]
    rw [e]
    obtain ⟨_, i2, i3⟩ := hb.name_ex hk (by omega) hjl
    exact ⟨i2, .inl i3⟩

theorem Binarizes.leftBin (hb : Binarizes U N w g0 c) {nullable : Prop} (hW : Props.Wrapping (rulesOf c) w nullable)
    (hnull : nullable → UNullable U w.innerRoot) (hrule : ⟨w.root, g0, some w.eof⟩ ∈ rulesOf c) (hin : PlainSym N g0 w.innerRoot) :
    LeftBin (augmented U w) (rulesOf c) (exOf N w g0) (ownOf N w g0) (PlainSym N g0) := by
  obtain ⟨g1, ⟨h1, h2⟩, h3, h5, h4⟩ := hW.rules
  have hg : g1 = g0 := by
    have := h2 _ hrule rfl
    simp only [Rule.mk.injEq, true_and, and_true] at this
    exact this.symm
  subst hg
  have hroot : PlainSym N g1 w.root := by
    refine ⟨(hb.fresh _ (.inl rfl)).1, fun e => ?_⟩
    have h6 := h4 _ h1 e
    simp only [Rule.mk.injEq, reduceCtorEq, and_false, or_false, Option.some.injEq] at h6
    exact hW.ne g1 h1 h6.2.1
  have hsof : PlainSym N g1 w.sof := ⟨(hb.fresh _ (.inr (.inr (.inl rfl)))).1, fun e => hW.ne g1 h1 e.symm⟩
  have heof : PlainSym N g1 w.eof := ⟨(hb.fresh _ (.inr (.inr (.inr rfl)))).1, fun e => hW.eof _ h3 e.symm⟩
  have hex : exOf N w g1 g1 = [w.sof, w.innerRoot] := by simp [exOf]
  have hown : ownOf N w g1 g1 = w.root := by simp [ownOf]
  have hng : ¬ PlainSym N g1 g1 := fun h => h.2 rfl
  have hP : ∀ r ∈ U, r ∈ augmented U w := fun r hr => List.mem_cons_of_mem _ hr
  have key : ∀ r ∈ rulesOf c, r = ⟨w.root, g1, some w.eof⟩ ∨ r = ⟨g1, w.sof, some w.innerRoot⟩ ∨
      (UNullable U w.innerRoot ∧ r = ⟨g1, w.sof, none⟩) ∨ (∃ A s, (A, [s]) ∈ U ∧ r = ⟨A, s, none⟩) ∨
      ∃ k A rhs j y, U[k]? = some (A, rhs) ∧ 1 ≤ j ∧ rhs[j]? = some y ∧
        (r = ⟨if j + 1 = rhs.length then A else N.name k (j + 1), N.pre k rhs j, some y⟩ ∨
         (UNullable U y ∧ r = ⟨if j + 1 = rhs.length then A else N.name k (j + 1), N.pre k rhs j, none⟩) ∨
         ((∀ s ∈ rhs.take j, UNullable U s) ∧ r = ⟨if j + 1 = rhs.length then A else N.name k (j + 1), y, none⟩)) := by
    intro r hr
    obtain ⟨q, hq, rfl⟩ := List.mem_map.1 hr
    rcases hb.sound q hq with e | e | e
    · exact .inl (h2 _ hr e)
    · rcases h4 _ hr e with e | e
      · exact .inr (.inl e)
      · exact .inr (.inr (.inl ⟨hnull (h5.1 (e ▸ hr)), e⟩))
    · cases e with
      | @single k A s dots hk => exact .inr (.inr (.inr (.inl ⟨A, s, List.mem_of_getElem? hk, rfl⟩)))
      | @both k A j y rhs dots hk h1 hy => exact .inr (.inr (.inr (.inr ⟨k, A, rhs, j, y, hk, h1, hy, .inl rfl⟩)))
      | @dropRight k A j y rhs dots hk h1 hy hn => exact .inr (.inr (.inr (.inr ⟨k, A, rhs, j, y, hk, h1, hy, .inr (.inl ⟨hn, rfl⟩)⟩)))
      | @dropLeft k A j y rhs dots hk h1 hy hn => exact .inr (.inr (.inr (.inr ⟨k, A, rhs, j, y, hk, h1, hy, .inr (.inr ⟨hn, rfl⟩)⟩)))
  -- the parts of a rule
  have parts : ∀ {k A j y X : Nat} {rhs : List Nat}, U[k]? = some (A, rhs) → 1 ≤ j → rhs[j]? = some y →
      X = (if j + 1 = rhs.length then A else N.name k (j + 1)) →
      PlainSym N g1 y ∧ (ownOf N w g1 X, rhs.take j ++ y :: rhs.drop (j + 1)) ∈ augmented U w ∧ ownOf N w g1 X = A ∧
        ((PlainSym N g1 X ∧ rhs.drop (j + 1) = []) ∨ (¬ PlainSym N g1 X ∧ exOf N w g1 X = rhs.take j ++ [y])) := by
    rintro k A j y _ rhs hk hj hy rfl
    have hU := List.mem_of_getElem? hk
    have hjl := (List.getElem?_eq_some_iff.1 hy).1
    have hsplit : rhs = rhs.take j ++ y :: rhs.drop (j + 1) := by
      rw [List.getElem?_eq_some_iff] at hy
      obtain ⟨hy1, hy2⟩ := hy
      rw [← hy2, List.cons_getElem_drop_succ, List.take_append_drop]
    have htake : rhs.take (j + 1) = rhs.take j ++ [y] := by
      rw [List.take_add_one, hy]
      rfl
    have hA : PlainSym N g1 A := hb.plain_lhs hU
    have hown : ownOf N w g1 (if j + 1 = rhs.length then A else N.name k (j + 1)) = A := by
      split
      · exact hA.ex_own.2
      · exact (hb.name_ex hk (by omega) (by omega)).2.2
    refine ⟨hb.plain_rhs hU (List.mem_of_getElem? hy), ?_, hown, ?_⟩
    · rw [← hsplit, hown]
      exact hP _ hU
    · by_cases h' : j + 1 = rhs.length
      · rw [if_pos h']
        exact .inl ⟨hA, by rw [h', List.drop_length]⟩
      · rw [if_neg h']
        obtain ⟨i1, i2, _⟩ := hb.name_ex hk (j := j + 1) (by omega) (by omega)
        exact .inr ⟨i1, by rw [i2, htake]⟩
  refine ⟨fun X hX => hX.ex_own, ?_, ?_⟩
  · intro X B hr
    rcases key _ hr with e | e | ⟨hn, e⟩ | ⟨A, s, hU, e⟩ | ⟨k, A, rhs, j, y, hk, hj, hy, e | ⟨hn, e⟩ | ⟨hn, e⟩⟩
    · simp at e
    · simp at e
    · simp only [Rule.mk.injEq, and_true] at e
      obtain ⟨rfl, rfl⟩ := e
      refine .inr (.inl ⟨w.innerRoot, [w.eof], ?_, hn.augmented, .inr hsof, .inr ⟨hng, ?_⟩⟩)
      · rw [hown, hsof.ex_own.1]
        exact List.mem_cons_self
      · rw [hex, hsof.ex_own.1]
        rfl
    · simp only [Rule.mk.injEq, and_true] at e
      obtain ⟨rfl, rfl⟩ := e
      exact .inl ⟨hb.plain_lhs hU, hb.plain_rhs hU (by simp), hP _ hU⟩
    · simp at e
    · simp only [Rule.mk.injEq, and_true] at e
      obtain ⟨e, rfl⟩ := e
      obtain ⟨_, i2, i3, i4⟩ := parts hk hj hy e
      obtain ⟨j1, j2⟩ := hb.pre_ex hk hj hy
      rw [← j1] at i2 i4
      exact .inr (.inl ⟨y, rhs.drop (j + 1), i2, hn.augmented, j2.imp (fun e => e.trans i3.symm) id, i4⟩)
    · simp only [Rule.mk.injEq, and_true] at e
      obtain ⟨e, rfl⟩ := e
      obtain ⟨i1, i2, i3, i4⟩ := parts hk hj hy e
      exact .inr (.inr ⟨rhs.take j, rhs.drop (j + 1), i1, i2, fun s hs => (hn s hs).augmented, i4⟩)
  · intro X B C hr
    rcases key _ hr with e | e | ⟨_, e⟩ | ⟨A, s, hU, e⟩ | ⟨k, A, rhs, j, y, hk, hj, hy, e | ⟨_, e⟩ | ⟨_, e⟩⟩
    · simp only [Rule.mk.injEq, Option.some.injEq] at e
      obtain ⟨rfl, rfl, rfl⟩ := e
      refine ⟨heof, [], ?_, .inl ?_, .inl ⟨hroot, rfl⟩⟩
      · rw [hroot.ex_own.2, hex]
        exact List.mem_cons_self
      · rw [hown, hroot.ex_own.2]
    · simp only [Rule.mk.injEq, Option.some.injEq] at e
      obtain ⟨rfl, rfl, rfl⟩ := e
      refine ⟨hin, [w.eof], ?_, .inr hsof, .inr ⟨hng, ?_⟩⟩
      · rw [hown, hsof.ex_own.1]
        exact List.mem_cons_self
      · rw [hex, hsof.ex_own.1]
        rfl
    · simp at e
    · simp at e
    · simp only [Rule.mk.injEq, Option.some.injEq] at e
      obtain ⟨e, rfl, rfl⟩ := e
      obtain ⟨i1, i2, i3, i4⟩ := parts hk hj hy e
      obtain ⟨j1, j2⟩ := hb.pre_ex hk hj hy
      rw [← j1] at i2 i4
      exact ⟨i1, rhs.drop (j + 1), i2, j2.imp (fun e => e.trans i3.symm) id, i4⟩
    · simp at e
    · simp at e

/-- In the binarized grammar there are no rules with symbols that derive no non-empty string. -/
def Trimmed (U : URules) (N : Names U) (c : Cfg) : Prop := ∀ r ∈ c.rules, Expected U N r → LiveRule U N r

/-- A one-symbol rule whose symbol is generated comes from a rule with a second symbol, which is kept. -/
theorem Binarizes.unfiltered (hb : Binarizes U N w g0 c) {n : Nat} {depth : Nat → Nat} (hP : ProcessedOK c n w depth)
    (hW : ∀ r ∈ rulesOf c, r.lhs = g0 → r.rhs0 = w.sof) (hR : ∀ r ∈ rulesOf c, r.lhs = w.root → r.rhs0 = g0) {X B : Nat}
    (hr : ⟨X, B, none⟩ ∈ rulesOf c) (hn : n ≤ B) (hplain : ∀ s, PlainSym N g0 s → s < c.numSyms → s < n)
    (hsof : PlainSym N g0 w.sof) (hroot : ∀ r ∈ c.rules, r.lhs = w.root → r.rhs.length = 2) :
    ∃ k A rhs j y, U[k]? = some (A, rhs) ∧ 1 ≤ j ∧ rhs[j]? = some y ∧ B = N.pre k rhs j ∧ N.parts B ≠ none ∧
      X = (if j + 1 = rhs.length then A else N.name k (j + 1)) ∧ ∃ q ∈ c.rules, Expected U N q ∧ q.rhs = [B, y] := by
  obtain ⟨r, hrc, e⟩ := List.mem_map.1 hr
  have hlen := hP.len r hrc
  have hB : r.rhs = [B] := by
    match hq : r.rhs with
    | [] => rw [hq] at hlen; simp at hlen
    | [x] => simp only [ruleOf, hq, Rule.mk.injEq] at e; simp at e; rw [e.2]
    | x :: y :: l => simp [ruleOf, hq] at e
  have hlt : B < c.numSyms := hP.rhs_lt r hrc B (by rw [hB]; simp)
  have hnp : ¬ PlainSym N g0 B := fun h => by have := hplain B h hlt; omega
  have hX : r.lhs = X := by simp only [ruleOf, Rule.mk.injEq] at e; exact e.1
  rcases hb.sound r hrc with h | h | h
  · have := hroot r hrc h
    rw [hB] at this
    cases this
  · have := hW _ hr (hX ▸ h)
    simp only at this
    exact absurd (this ▸ hsof) hnp
  · generalize hrr : r = r' at h
    cases h with
    | @single k A s dots hk =>
      subst hrr
      simp only [List.cons.injEq, and_true] at hB
      subst hB
      exact absurd (hb.plain_rhs (List.mem_of_getElem? hk) (by simp)) hnp
    | @both k A j y rhs dots hk h1 hy =>
      subst hrr
      simp at hB
    | @dropLeft k A j y rhs dots hk h1 hy hnn =>
      subst hrr
      simp only [List.cons.injEq, and_true] at hB
      subst hB
      exact absurd (hb.plain_rhs (List.mem_of_getElem? hk) (List.mem_of_getElem? hy)) hnp
    | @dropRight k A j y rhs dots hk h1 hy hnn =>
      subst hrr
      simp only [List.cons.injEq, and_true] at hB
      subst hB
      have hjl := (List.getElem?_eq_some_iff.1 hy).1
      have hj2 : j ≠ 1 := by
        rintro rfl
        cases rhs with
        | nil => cases hy
        | cons s l => exact hnp (hb.plain_rhs (List.mem_of_getElem? hk) (by simp [Names.pre]))
      have e1 : N.pre k rhs j = N.name k j := by simp [Names.pre, hj2]
      have hparts := N.parts_name k A rhs j hk (by omega) hjl
      refine ⟨k, A, rhs, j, y, hk, h1, hy, rfl, by rw [e1, hparts]; simp, hX.symm, ?_⟩
      -- the rule with two symbols
      obtain ⟨_, hcount, _⟩ := (hP.gen _ hlt).2 hn
      obtain ⟨q, hq, hq1⟩ := List.countP_pos_iff.1 (by rw [hcount]; exact Nat.one_pos)
      simp only [decide_eq_true_eq] at hq1
      obtain ⟨q1, _, q3⟩ := hq1
      have hq0 : (ruleOf q).rhs0 = N.pre k rhs j := by
        simp [ruleOf, List.headD_eq_head?_getD, List.head?_eq_getElem?, q3]
      refine ⟨q, hq, ?_⟩
      rcases hb.sound q hq with h | h | h
      · have := hR _ (List.mem_map_of_mem hq) h
        rw [hq0, e1] at this
        rw [this, (hb.fresh g0 (.inr (.inl rfl))).1] at hparts
        cases hparts
      · have := hW _ (List.mem_map_of_mem hq) h
        rw [hq0] at this
        exact absurd (this ▸ hsof) hnp
      · refine ⟨h, ?_⟩
        cases h with
        | single _ => simp at q1
        | dropRight _ _ _ _ => simp at q1
        | dropLeft _ _ _ _ => simp at q1
        | @both k' A' j' y' rhs' dots' hk' h1' hy' =>
          simp only [List.getElem?_cons_zero, Option.some.injEq] at q3
          have hj2' : j' ≠ 1 := by
            rintro rfl
            cases rhs' with
            | nil => cases hy'
            | cons s l =>
              have : PlainSym N g0 (N.pre k' (s :: l) 1) := hb.plain_rhs (List.mem_of_getElem? hk') (by simp [Names.pre])
              exact hnp (q3 ▸ this)
          have e2 : N.pre k' rhs' j' = N.name k' j' := by simp [Names.pre, hj2']
          have hjl' := (List.getElem?_eq_some_iff.1 hy').1
          have hparts' := N.parts_name k' A' rhs' j' hk' (by omega) hjl'
          rw [← e2, q3, e1, hparts] at hparts'
          simp only [Option.some.injEq, Prod.mk.injEq] at hparts'
          obtain ⟨rfl, rfl⟩ := hparts'
          rw [hk] at hk'
          simp only [Option.some.injEq, Prod.mk.injEq] at hk'
          obtain ⟨rfl, rfl⟩ := hk'
          rw [hy] at hy'
          simp only [Option.some.injEq] at hy'
          subst hy'
          rfl

/-- Symbols of the user's grammar are not generated. -/
theorem Binarizes.plain_lt (hb : Binarizes U N w g0 c) {n : Nat} {depth : Nat → Nat} (hP : ProcessedOK c n w depth) {X : Nat}
    (hX : PlainSym N g0 X) (hlt : X < c.numSyms) : X < n := by
  by_contra hge
  obtain ⟨_, _, _, r, hr, e, ho⟩ := (hP.gen X hlt).2 (by omega)
  have name : ∀ {k A j y : Nat} {rhs : List Nat}, U[k]? = some (A, rhs) → 1 ≤ j → rhs[j]? = some y →
      (if j + 1 = rhs.length then A else N.name k (j + 1)) = X → (if j + 1 = rhs.length then some k else none) = none → False := by
    intro k A j y rhs hk hj hy e ho
    have hjl := (List.getElem?_eq_some_iff.1 hy).1
    by_cases h' : j + 1 = rhs.length
    · simp [h'] at ho
    · rw [if_neg h'] at e
      exact (hb.name_ex hk (j := j + 1) (by omega) (by omega)).1 (e ▸ hX)
  rcases hb.sound r hr with h | h | h
  · have := hP.start_lt
    omega
  · exact hX.2 (e.symm.trans h)
  · cases h with
    | single hk => cases ho
    | both hk hj hy => exact name hk hj hy e ho
    | dropRight hk hj hy => exact name hk hj hy e ho
    | dropLeft hk hj hy => exact name hk hj hy e ho

/-! ### The rule for the wrapped root -/

theorem yields_augmented (hroot : ∀ r ∈ U, w.root ∉ r.2) {X : Nat} {v : List Nat} (h : Yields U X v) :
    X ≠ w.root → Yields (augmented U w) X v := by
  refine Yields.rec (motive_1 := fun X v _ => X ≠ w.root → Yields (augmented U w) X v)
    (motive_2 := fun φ v _ => w.root ∉ φ → YieldsAll (augmented U w) φ v) ?_ ?_ ?_ ?_ h
  · intro a ha hr
    refine .token fun r hr' e => ?_
    rcases List.mem_cons.1 hr' with rfl | hr'
    · exact hr e.symm
    · exact ha r hr' e
  · intro k A rhs u hk _ ih _
    exact .rule (k := k + 1) (by simpa [augmented] using hk) (ih (hroot _ (List.mem_of_getElem? hk)))
  · exact fun _ => .nil
  · intro s ss u v _ _ ih1 ih2 hr
    simp only [List.mem_cons, not_or] at hr
    exact .cons (ih1 fun e => hr.1 e.symm) (ih2 hr.2)

theorem Productive.augmented (h : Productive U) (hroot : ∀ r ∈ U, w.root ∉ r.2) (hinner : ∃ r ∈ U, r.1 = w.innerRoot) (hi : w.innerRoot ≠ w.root)
    (hs : ∀ s, s = w.sof ∨ s = w.eof → s ≠ w.root ∧ ∀ r ∈ U, r.1 ≠ s) : Productive (augmented U w) := by
  have htok : ∀ s, s = w.sof ∨ s = w.eof → Yields (Spec.augmented U w) s [s] := by
    intro s hs'
    refine .token fun r hr e => ?_
    rcases List.mem_cons.1 hr with rfl | hr
    · exact (hs s hs').1 e.symm
    · exact (hs s hs').2 r hr e
  have hall : ∀ (r : Nat × List Nat), r ∈ U → ∀ φ : List Nat, (∀ s ∈ φ, s ∈ r.2) → ∃ v, YieldsAll U φ v := by
    intro r hr φ hφ
    induction φ with
    | nil => exact ⟨[], .nil⟩
    | cons s φ ih =>
      obtain ⟨v, hv⟩ := ih fun s hs => hφ s (by simp [hs])
      obtain ⟨u, hu⟩ := h r hr s (hφ s (by simp))
      exact ⟨u ++ v, .cons hu hv⟩
  intro r hr s hs'
  rcases List.mem_cons.1 hr with rfl | hr
  · simp only [List.mem_cons, List.not_mem_nil, or_false] at hs'
    rcases hs' with rfl | rfl | rfl
    · exact ⟨_, htok _ (.inl rfl)⟩
    · obtain ⟨r, hr, e⟩ := hinner
      obtain ⟨k, hk⟩ := List.getElem?_of_mem hr
      obtain ⟨v, hv⟩ := hall r hr r.2 fun _ h => h
      refine ⟨v, yields_augmented hroot (e ▸ .rule (k := k) (A := r.1) (rhs := r.2) hk hv) hi⟩
    · exact ⟨_, htok _ (.inr rfl)⟩
  · obtain ⟨v, hv⟩ := h r hr s hs'
    exact ⟨v, yields_augmented hroot hv fun e => hroot r hr (e ▸ hs')⟩

/-! ### Other symbols -/

variable {f g : Nat → Nat}

theorem RStep.reflect {P : URules} (hfg : ∀ s, g (f s) = s) {φ ψ' : List Nat} (h : RStep (URules.rename f P) (φ.map f) ψ') :
    ∃ ψ, ψ' = ψ.map f ∧ RStep P φ ψ := by
  generalize hφ : φ.map f = φ' at h
  cases h with
  | @mk A' β' γ' x' hr hx =>
    obtain ⟨⟨A, β⟩, hr, e⟩ := List.mem_map.1 hr
    simp only [Prod.mk.injEq] at e
    obtain ⟨γ, l, rfl, rfl, e2⟩ := List.map_eq_append_iff.1 hφ
    obtain ⟨B, x, rfl, e3, rfl⟩ := List.map_eq_cons_iff.1 e2
    have hAB : A = B := by rw [← hfg A, e.1, ← e3, hfg]
    subst hAB
    refine ⟨γ ++ β ++ x, by rw [← e.2]; simp, .mk hr fun t ht => ?_⟩
    exact (UTerminal.iff hfg).1 (hx (f t) (List.mem_map_of_mem ht))

theorem RForm.reflect {P : URules} {S : Nat} (hfg : ∀ s, g (f s) = s) {φ' : List Nat} (h : RForm (URules.rename f P) (f S) φ') :
    ∃ φ, φ' = φ.map f ∧ RForm P S φ := by
  unfold RForm at h
  induction h with
  | refl => exact ⟨[S], rfl, .refl⟩
  | tail _ h ih =>
    obtain ⟨φ, rfl, h1⟩ := ih
    obtain ⟨ψ, rfl, h2⟩ := h.reflect hfg
    exact ⟨ψ, rfl, h1.tail h2⟩

theorem LR1.rename {P : URules} {S : Nat} (hfg : ∀ s, g (f s) = s) (h : LR1 P S) : LR1 (URules.rename f P) (f S) := by
  have hinj : Function.Injective f := fun a b e => by rw [← hfg a, ← hfg b, e]
  intro γ' δ' β' β'' A' B' x' y' z' hx hy hz h1 hr1 h2 hr2 e hh
  obtain ⟨φ, e1, f1⟩ := h1.reflect hfg
  obtain ⟨φ', e2, f2⟩ := h2.reflect hfg
  obtain ⟨⟨A, β⟩, k1, e3⟩ := List.mem_map.1 hr1
  obtain ⟨⟨B, β1⟩, k2, e4⟩ := List.mem_map.1 hr2
  simp only [Prod.mk.injEq] at e3 e4
  obtain ⟨rfl, rfl⟩ := e3
  obtain ⟨rfl, rfl⟩ := e4
  obtain ⟨γ, l, rfl, rfl, e5⟩ := List.map_eq_append_iff.1 e1.symm
  obtain ⟨A1, x, rfl, e6, rfl⟩ := List.map_eq_cons_iff.1 e5
  obtain ⟨δ, l, rfl, rfl, e7⟩ := List.map_eq_append_iff.1 e2.symm
  obtain ⟨B1, y, rfl, e8, rfl⟩ := List.map_eq_cons_iff.1 e7
  have e6 := hinj e6
  have e8 := hinj e8
  subst e6 e8
  have e' : (δ ++ β1 ++ y).map f = (γ ++ β).map f ++ z' := by simpa using e.symm
  obtain ⟨p, z, e9, e10, rfl⟩ := List.map_eq_append_iff.1 e'
  have e10 := (List.map_injective_iff.2 hinj) e10
  subst e10
  have tok : ∀ {l : List Nat}, (∀ t ∈ l.map f, UTerminal (URules.rename f P) t) → ∀ t ∈ l, UTerminal P t := fun h t ht =>
    (UTerminal.iff hfg).1 (h (f t) (List.mem_map_of_mem ht))
  have := h γ δ β β1 A1 B1 x y z (tok hx) (tok hy) (tok hz) f1 k1 f2 k2 e9.symm (by
    rw [List.head?_map, List.head?_map] at hh
    exact (Option.map_injective hinj) hh)
  have := congrArg (List.map f) this
  simpa using this

theorem Productive.rename (hfg : ∀ s, g (f s) = s) (h : Productive U) : Productive (URules.rename f U) := by
  intro r' hr' s' hs'
  obtain ⟨r, hr, rfl⟩ := List.mem_map.1 hr'
  obtain ⟨s, hs, rfl⟩ := List.mem_map.1 hs'
  obtain ⟨v, hv⟩ := h r hr s hs
  exact ⟨_, hv.rename hfg⟩

/-- Nothing has to be removed if every symbol in a rule derives a non-empty string. -/
theorem Trimmed.of_live (h : ∀ r ∈ U, ∀ s ∈ r.2, Live U s) : Trimmed U N c := by
  have all : ∀ {r : Nat × List Nat}, r ∈ U → ∀ φ : List Nat, (∀ s ∈ φ, s ∈ r.2) → φ ≠ [] → ∃ a u, YieldsAll U φ (a :: u) := by
    intro r hr φ
    induction φ with
    | nil => exact fun _ h => absurd rfl h
    | cons s φ ih =>
      intro hφ _
      obtain ⟨a, u, hu⟩ := h r hr s (hφ s (by simp))
      by_cases hne : φ = []
      · subst hne
        exact ⟨a, u, by simpa using YieldsAll.cons hu .nil⟩
      · obtain ⟨b, v, hv⟩ := ih (fun s hs => hφ s (by simp [hs])) hne
        exact ⟨a, u ++ b :: v, by simpa using YieldsAll.cons hu hv⟩
  have plain : ∀ {r : Nat × List Nat}, r ∈ U → ∀ s ∈ r.2, match N.parts s with
      | none => Live U s
      | some (k, j) => ∃ A rhs a u, U[k]? = some (A, rhs) ∧ YieldsAll U (rhs.take j) (a :: u) := by
    intro r hr s hs
    rw [(N.user r hr).2 s hs]
    exact h r hr s hs
  have pre : ∀ {k A j y : Nat} {rhs : List Nat}, U[k]? = some (A, rhs) → 1 ≤ j → rhs[j]? = some y → match N.parts (N.pre k rhs j) with
      | none => Live U (N.pre k rhs j)
      | some (k, j) => ∃ A rhs a u, U[k]? = some (A, rhs) ∧ YieldsAll U (rhs.take j) (a :: u) := by
    intro k A j y rhs hk h1 hy
    have hU := List.mem_of_getElem? hk
    have hjl := (List.getElem?_eq_some_iff.1 hy).1
    by_cases hj : j = 1
    · subst hj
      cases rhs with
      | nil => cases hy
      | cons s l => exact plain hU _ (by simp [Names.pre])
    · have e : N.pre k rhs j = N.name k j := by simp [Names.pre, hj]
      rw [e, N.parts_name k A rhs j hk (by omega) hjl]
      obtain ⟨a, u, hu⟩ := all hU (rhs.take j) (fun s hs => List.mem_of_mem_take hs) (by
        intro e
        have := congrArg List.length e
        rw [List.length_take] at this
        simp only [List.length_nil] at this
        omega)
      exact ⟨A, rhs, a, u, hk, hu⟩
  intro r _ he s hs
  cases he with
  | single hk => exact plain (List.mem_of_getElem? hk) s hs
  | both hk h1 hy =>
    simp only [List.mem_cons, List.not_mem_nil, or_false] at hs
    rcases hs with rfl | rfl
    · exact pre hk h1 hy
    · exact plain (List.mem_of_getElem? hk) _ (List.mem_of_getElem? hy)
  | dropRight hk h1 hy _ =>
    simp only [List.mem_cons, List.not_mem_nil, or_false] at hs
    subst hs
    exact pre hk h1 hy
  | dropLeft hk h1 hy _ =>
    simp only [List.mem_cons, List.not_mem_nil, or_false] at hs
    subst hs
    exact plain (List.mem_of_getElem? hk) _ (List.mem_of_getElem? hy)

/-- For instance if there are no empty rules. -/
theorem Trimmed.of_noEmpty (hne : NoEmpty U) (hp : Productive U) : Trimmed U N c := by
  refine .of_live fun r hr s hs => ?_
  obtain ⟨v, hv⟩ := hp r hr s hs
  cases v with
  | cons a u => exact ⟨a, u, hv⟩
  | nil =>
    exfalso
    refine not_nullable hne (UNullable.iff_yields.2 ⟨hv, fun ht => ?_⟩)
    have := (yields_steps hv).2.toks (fun t hm => by rw [List.mem_singleton.1 hm]; exact ht)
    cases this

end Gearley.Spec
