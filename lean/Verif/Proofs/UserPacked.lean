import Verif.Spec.UserPacked
import Verif.Spec.Packed
import Verif.Proofs.UserParse
import Mathlib.Data.List.Induction

/-! # Values of ambiguous inputs: from the binarized grammar to the user's grammar -/

namespace Gearley.Spec
open Gearley
variable {U : URules} {N : Names U} {w : WrappedRoot} {g0 : Nat} {c : Cfg} {info : ForestInfo} {inp : Input}
  {α : Type} {E : Evaluator α} {nul : Nat → α}

/-! ### Empty symbols -/

theorem UPrefix.empties {ss : List Nat} (h : ∀ s ∈ ss, UNullable U s) (i : Nat) :
    UPrefix U E nul inp ss i i (ss.map nul) ss.length := by
  induction ss using List.reverseRecOn with
  | nil => exact .nil
  | append_singleton ss y ih =>
    have h1 : ∀ s ∈ ss, UNullable U s := fun s hs => h s (by simp [hs])
    have h2 := h y (by simp)
    have := UPrefix.snoc (U := U) (E := E) (nul := nul) (inp := inp) (ss := ss) (y := y) (i := i) (j := i)
      [⟨0, i, ss.map nul, [nul y], ss.length, 1⟩] (by simp) (by simp) (by
        intro p
        simp only [List.map_cons, List.map_nil, List.mem_singleton]
        constructor
        · rintro rfl
          exact ⟨_, _, UKids.empties h1 _, .empty h2⟩
        · rintro ⟨ts, t, h3, h4⟩
          have := h3.le
          have := h4.le
          omega)
      (by simpa using ih h1) (by simpa using UVals.empty h2)
    simpa using this

/-- A single symbol. -/
theorem UVals.prefix {y i j : Nat} {vs : List α} {n : Nat} (h : UVals U E nul inp y i j vs n) {t : UTree} (ht : UTreeOf U inp t y i j) :
    UPrefix U E nul inp [y] i j vs n := by
  have := UPrefix.snoc (U := U) (E := E) (nul := nul) (inp := inp) (ss := []) (y := y) (i := i) (j := j)
    [⟨0, i, [], vs, 0, n⟩] (by simp) (by simp) (by
      intro p
      simp only [List.map_cons, List.map_nil, List.mem_singleton]
      constructor
      · rintro rfl
        exact ⟨[], t, .nil, ht⟩
      · rintro ⟨ts, t, h3, _⟩
        cases h3
        rfl)
    (by simpa using UPrefix.nil) (by simpa using h)
  simpa using this

/-! ### Alternatives -/

/-- The symbol `A` stands for the first `m + 1` symbols of rule `k`, `rhs`, of which the last is `y`. -/
def Stands (N : Names U) (A k : Nat) (rhs : List Nat) (m y : Nat) : Prop :=
  ∃ A', U[k]? = some (A', rhs) ∧ rhs[m]? = some y ∧ A = (if m + 1 = rhs.length then A' else N.name k (m + 1)) ∧ (m = 0 → rhs.length = 1)

/-- The rule `d` with the split `e` of the binarized grammar is the rule `k` with the last symbol at `p`. -/
inductive Conv (N : Names U) (c : Cfg) (A i j : Nat) (k : Nat) (rhs : List Nat) (m y : Nat) : Nat → Nat → Nat → Prop
  | single {d : Nat} {q : CfgRule} : m = 0 → c.rules[d]? = some q → bare q = { lhs := A, rhs := [y], origin := some k, nullable := none } →
      Conv N c A i j k rhs m y d j i
  | both {d e : Nat} {q : CfgRule} {A' : Nat} : 1 ≤ m → U[k]? = some (A', rhs) → c.rules[d]? = some q → bare q = stepRule N k A' rhs m [N.pre k rhs m, y] none →
      i < e → e < j → Conv N c A i j k rhs m y d e e
  | dropRight {d : Nat} {q : CfgRule} {A' : Nat} : 1 ≤ m → U[k]? = some (A', rhs) → c.rules[d]? = some q → UNullable U y →
      bare q = stepRule N k A' rhs m [N.pre k rhs m] (some (y, true)) → Conv N c A i j k rhs m y d j j
  | dropLeft {d : Nat} {q : CfgRule} {A' : Nat} : 1 ≤ m → U[k]? = some (A', rhs) → c.rules[d]? = some q → (∀ s ∈ rhs.take m, UNullable U s) →
      bare q = stepRule N k A' rhs m [y] (some (N.pre k rhs m, false)) → Conv N c A i j k rhs m y d j i

theorem Stands.unique {A k m m' y y' : Nat} {rhs rhs' : List Nat} (h : Stands N A k rhs m y) (h' : Stands N A k rhs' m' y') :
    rhs = rhs' ∧ m = m' ∧ y = y' := by
  obtain ⟨A1, a1, a2, a3, a4⟩ := h
  obtain ⟨A2, b1, b2, b3, b4⟩ := h'
  rw [a1] at b1
  simp only [Option.some.injEq, Prod.mk.injEq] at b1
  obtain ⟨rfl, rfl⟩ := b1
  have la := getElem?_lt a2
  have lb := getElem?_lt b2
  have hu := (N.user _ (List.mem_of_getElem? a1)).1
  simp only at hu
  have hm : m = m' := by
    by_cases h1 : m + 1 = rhs.length
    · by_cases h2 : m' + 1 = rhs.length
      · omega
      · rw [if_pos h1] at a3
        rw [if_neg h2, a3] at b3
        rw [b3, N.parts_name k A1 rhs (m' + 1) a1 (by omega) (by omega)] at hu
        cases hu
    · by_cases h2 : m' + 1 = rhs.length
      · rw [if_neg h1] at a3
        rw [if_pos h2, a3] at b3
        rw [← b3, N.parts_name k A1 rhs (m + 1) a1 (by omega) (by omega)] at hu
        cases hu
      · rw [if_neg h1] at a3
        rw [if_neg h2, a3] at b3
        have e1 := N.parts_name k A1 rhs (m + 1) a1 (by omega) (by omega)
        rw [b3, N.parts_name k A1 rhs (m' + 1) a1 (by omega) (by omega)] at e1
        simp only [Option.some.injEq, Prod.mk.injEq] at e1
        omega
  subst hm
  rw [a2] at b2
  exact ⟨rfl, rfl, Option.some.inj b2⟩

/-- The rules of a symbol. -/
theorem Binarizes.rule_cases (hb : Binarizes U N w g0 c) {A d : Nat} (hA : Inner w g0 A) {q : CfgRule} (hd : c.rules[d]? = some q) (hl : q.lhs = A) :
    ∃ k rhs m y, Stands N A k rhs m y ∧
      ((m = 0 ∧ bare q = { lhs := A, rhs := [y], origin := some k, nullable := none }) ∨
       (1 ≤ m ∧ ∃ A', U[k]? = some (A', rhs) ∧ (bare q = stepRule N k A' rhs m [N.pre k rhs m, y] none ∨
        (UNullable U y ∧ bare q = stepRule N k A' rhs m [N.pre k rhs m] (some (y, true))) ∨
        ((∀ s ∈ rhs.take m, UNullable U s) ∧ bare q = stepRule N k A' rhs m [y] (some (N.pre k rhs m, false)))))) := by
  subst hl
  have hexp : Expected U N q := by
    rcases hb.sound q (List.mem_of_getElem? hd) with h' | h' | h'
    · exact absurd h' hA.1
    · exact absurd h' hA.2
    · exact h'
  cases hexp with
  | @single k A s dots hk => exact ⟨k, [s], 0, s, ⟨A, hk, rfl, by simp, by simp⟩, .inl ⟨rfl, rfl⟩⟩
  | @both k A j y rhs dots hk hj hy => exact ⟨k, rhs, j, y, ⟨A, hk, hy, rfl, by omega⟩, .inr ⟨hj, A, hk, .inl rfl⟩⟩
  | @dropRight k A j y rhs dots hk hj hy hn => exact ⟨k, rhs, j, y, ⟨A, hk, hy, rfl, by omega⟩, .inr ⟨hj, A, hk, .inr (.inl ⟨hn, rfl⟩)⟩⟩
  | @dropLeft k A j y rhs dots hk hj hy hn => exact ⟨k, rhs, j, y, ⟨A, hk, hy, rfl, by omega⟩, .inr ⟨hj, A, hk, .inr (.inr ⟨hn, rfl⟩)⟩⟩

/-- Every alternative is a rule of the user's grammar and a start of its last symbol. -/
theorem Binarizes.conv_of (hb : Binarizes U N w g0 c) {A i j d e : Nat} (hA : Inner w g0 A) (h : Alternative (rulesOf c) inp A i j d e) :
    ∃ k rhs m y p, Stands N A k rhs m y ∧ Conv N c A i j k rhs m y d e p := by
  have key : ∀ {B : Nat} {C : Option Nat}, (rulesOf c)[d]? = some ⟨A, B, C⟩ → ∃ q, c.rules[d]? = some q ∧ q.lhs = A ∧ ruleOf q = ⟨A, B, C⟩ := by
    intro B C h
    unfold rulesOf at h
    rw [List.getElem?_map, Option.map_eq_some_iff] at h
    obtain ⟨q, h1, h2⟩ := h
    exact ⟨q, h1, congrArg Rule.lhs h2, h2⟩
  rcases h with ⟨B, hr, rfl, t, ht⟩ | ⟨B, C, hr, ⟨t, ht⟩, t', ht'⟩
  · obtain ⟨q, h1, h2, h3⟩ := key hr
    obtain ⟨k, rhs, m, y, hs, hc⟩ := hb.rule_cases hA h1 h2
    rcases hc with ⟨hm, hq⟩ | ⟨hm, A', hk, hq | ⟨hn, hq⟩ | ⟨hn, hq⟩⟩
    · exact ⟨k, rhs, m, y, i, hs, .single hm h1 hq⟩
    · have : ruleOf (bare q) = ⟨A, B, none⟩ := h3
      rw [hq] at this
      simp [ruleOf, stepRule] at this
    · exact ⟨k, rhs, m, y, e, hs, .dropRight hm hk h1 hn hq⟩
    · exact ⟨k, rhs, m, y, i, hs, .dropLeft hm hk h1 hn hq⟩
  · obtain ⟨q, h1, h2, h3⟩ := key hr
    obtain ⟨k, rhs, m, y, hs, hc⟩ := hb.rule_cases hA h1 h2
    rcases hc with ⟨hm, hq⟩ | ⟨hm, A', hk, hq | ⟨hn, hq⟩ | ⟨hn, hq⟩⟩
    · have : ruleOf (bare q) = ⟨A, B, some C⟩ := h3
      rw [hq] at this
      simp [ruleOf] at this
    · exact ⟨k, rhs, m, y, e, hs, .both hm hk h1 hq ht.lt ht'.lt⟩
    · have : ruleOf (bare q) = ⟨A, B, some C⟩ := h3
      rw [hq] at this
      simp [ruleOf, stepRule] at this
    · have : ruleOf (bare q) = ⟨A, B, some C⟩ := h3
      rw [hq] at this
      simp [ruleOf, stepRule] at this

/-- Different alternatives differ in the rule of the user's grammar or in the start of the last symbol. -/
theorem Binarizes.conv_inj (hb : Binarizes U N w g0 c) {A i j k m m' y y' p d d' e e' : Nat} {rhs rhs' : List Nat} (hij : i < j)
    (hs : Stands N A k rhs m y) (hs' : Stands N A k rhs' m' y')
    (h : Conv N c A i j k rhs m y d e p) (h' : Conv N c A i j k rhs' m' y' d' e' p) : d = d' ∧ e = e' := by
  obtain ⟨rfl, rfl, rfl⟩ := hs.unique hs'
  have idx : ∀ {A1 A2 : Nat} {r : List Nat} {nl : Option (Nat × Bool)} {q q' : CfgRule}, U[k]? = some (A1, rhs) → U[k]? = some (A2, rhs) →
      c.rules[d]? = some q → c.rules[d']? = some q' → bare q = stepRule N k A1 rhs m r nl → bare q' = stepRule N k A2 rhs m r nl → d = d' := by
    intro A1 A2 r nl q q' h1 h2 h3 h4 h5 h6
    rw [h1] at h2
    simp only [Option.some.injEq, Prod.mk.injEq, and_true] at h2
    subst h2
    exact bare_index hb.nodup h3 h4 (h5.trans h6.symm)
  cases h with
  | single hm hd hq =>
    cases h' with
    | single hm' hd' hq' => exact ⟨bare_index hb.nodup hd hd' (hq.trans hq'.symm), rfl⟩
    | both => omega
    | dropRight => omega
    | dropLeft => omega
  | both hm hk hd hq h1 h2 =>
    cases h' with
    | single => omega
    | both hm' hk' hd' hq' => exact ⟨idx hk hk' hd hd' hq hq', rfl⟩
    | dropRight => omega
    | dropLeft => omega
  | dropRight hm hk hd hn hq =>
    cases h' with
    | single => omega
    | both => omega
    | dropRight hm' hk' hd' hn' hq' => exact ⟨idx hk hk' hd hd' hq hq', rfl⟩
    | dropLeft => omega
  | dropLeft hm hk hd hn hq =>
    cases h' with
    | single => omega
    | both => omega
    | dropRight => omega
    | dropLeft hm' hk' hd' hn' hq' => exact ⟨idx hk hk' hd hd' hq hq', rfl⟩

/-- Every rule of the user's grammar and start of its last symbol is an alternative. -/
theorem Binarizes.conv_ex (hb : Binarizes U N w g0 c) (hin : InputOK U N inp) {A i j k m y p : Nat} {rhs : List Nat} (hij : i < j)
    (hs : Stands N A k rhs m y) {ts : List UTree} {t : UTree} (hk : UKids U inp ts (rhs.take m) i p) (ht : UTreeOf U inp t y p j) :
    ∃ d e, Conv N c A i j k rhs m y d e p ∧ Alternative (rulesOf c) inp A i j d e := by
  have he : (infoOf c).eval = c.rules.map (·.origin) := rfl
  have hn : (infoOf c).nullingEliminated = c.rules.map (·.nullable) := rfl
  obtain ⟨A', a1, a2, a3, a4⟩ := hs
  have hmem := List.mem_of_getElem? a1
  have hlt := getElem?_lt a2
  have hps : N.parts y = none := (N.user _ hmem).2 y (List.mem_of_getElem? a2)
  have find : ∀ {r : CfgRule}, Expected U N r → LiveRule U N r → ∃ (d : Nat) (q : CfgRule), c.rules[d]? = some q ∧ bare q = bare r ∧ (rulesOf c)[d]? = some (ruleOf r) := by
    intro r h1 h2
    obtain ⟨q, hq, e⟩ := hb.complete r h1 h2
    obtain ⟨d, hd⟩ := List.getElem?_of_mem hq
    refine ⟨d, q, hd, e, ?_⟩
    unfold rulesOf
    rw [List.getElem?_map, hd]
    have e1 : ruleOf (bare q) = ruleOf (bare r) := by rw [e]
    exact congrArg some e1
  have liveY : ∀ {r : CfgRule}, p < j → (match N.parts y with
      | none => Live U y
      | some (k, j) => ∃ A rhs a u, U[k]? = some (A, rhs) ∧ YieldsAll U (rhs.take j) (a :: u)) := fun {r} h => live_user (r := r) hps (ht.live hin.liveInput h)
  have h1 := hk.le
  have h2 := ht.le
  by_cases hm : m = 0
  · subst hm
    have hl := a4 rfl
    rw [if_pos (by omega)] at a3
    subst a3
    rw [List.take_zero] at hk
    cases hk
    obtain ⟨x, hx⟩ : ∃ x, rhs = [x] := List.length_eq_one_iff.1 hl
    subst hx
    have : x = y := by simpa using a2
    subst this
    obtain ⟨b, b1, _⟩ := hb.complete_tree he hn hin ht hij
    obtain ⟨d, q, d1, d2, d3⟩ := find (Expected.single (dots := []) a1) (by
      intro z hz
      simp only [List.mem_singleton] at hz
      subst hz
      exact liveY (r := ⟨0, [], none, none, []⟩) hij)
    exact ⟨d, j, .single rfl d1 (by rw [d2]; rfl), .inl ⟨_, d3, rfl, b, b1⟩⟩
  · have hm1 : 1 ≤ m := by omega
    have left : i < p → ∃ b, TreeOf (rulesOf c) inp b (N.pre k rhs m) i p := by
      intro h
      obtain ⟨b, hb, _⟩ := (hb.assemble he hn hin.liveInput a1 (hb.complete_kids he hn hin.liveInput hk) m rfl (by rw [List.length_take]; omega) h).1 ⟨hm1, hlt⟩
      exact ⟨b, hb⟩
    have liveP : i < p → (match N.parts (N.pre k rhs m) with
      | none => Live U (N.pre k rhs m)
      | some (k, j) => ∃ A rhs a u, U[k]? = some (A, rhs) ∧ YieldsAll U (rhs.take j) (a :: u)) := by
      intro h
      obtain ⟨a, u, hu⟩ := hk.live hin.liveInput h
      exact live_pre a1 hm1 hlt hu
    by_cases hp1 : i < p
    · obtain ⟨b, hb1⟩ := left hp1
      by_cases hp2 : p < j
      · obtain ⟨b', hb2, _⟩ := hb.complete_tree he hn hin ht hp2
        obtain ⟨d, q, d1, d2, d3⟩ := find (Expected.both (dots := []) a1 hm1 a2) (by
          intro z hz
          simp only [List.mem_cons, List.not_mem_nil, or_false] at hz
          rcases hz with rfl | rfl
          · exact liveP hp1
          · exact liveY (r := ⟨0, [], none, none, []⟩) hp2)
        refine ⟨d, p, .both hm1 a1 d1 (by rw [d2]; rfl) hp1 hp2, .inr ⟨N.pre k rhs m, y, ?_, ⟨b, hb1⟩, b', hb2⟩⟩
        rw [d3, a3]
        rfl
      · have : p = j := by omega
        subst this
        obtain ⟨rfl, hnul⟩ := ht.eq_empty rfl
        obtain ⟨d, q, d1, d2, d3⟩ := find (Expected.dropRight (dots := []) a1 hm1 a2 hnul) (by
          intro z hz
          simp only [List.mem_singleton] at hz
          subst hz
          exact liveP hp1)
        refine ⟨d, p, .dropRight hm1 a1 d1 hnul (by rw [d2]; rfl), .inl ⟨N.pre k rhs m, ?_, rfl, b, hb1⟩⟩
        rw [d3, a3]
        rfl
    · have : p = i := by omega
      subst this
      obtain ⟨hts, hnul⟩ := hk.eq_empties
      obtain ⟨b', hb2, _⟩ := hb.complete_tree he hn hin ht hij
      obtain ⟨d, q, d1, d2, d3⟩ := find (Expected.dropLeft (dots := []) a1 hm1 a2 hnul) (by
        intro z hz
        simp only [List.mem_singleton] at hz
        subst hz
        exact liveY (r := ⟨0, [], none, none, []⟩) hij)
      refine ⟨d, j, .dropLeft hm1 a1 d1 hnul (by rw [d2]; rfl), .inl ⟨y, ?_, rfl, b', hb2⟩⟩
      rw [d3, a3]
      rfl

/-- The rule of an alternative. -/
theorem Conv.rule {A i j k m y p d e : Nat} {rhs : List Nat} (hs : Stands N A k rhs m y) (h : Conv N c A i j k rhs m y d e p) :
    (m = 0 ∧ p = i ∧ e = j ∧ (rulesOf c)[d]? = some ⟨A, y, none⟩) ∨
    (1 ≤ m ∧ p = e ∧ i < e ∧ e < j ∧ (rulesOf c)[d]? = some ⟨A, N.pre k rhs m, some y⟩) ∨
    (1 ≤ m ∧ p = j ∧ e = j ∧ UNullable U y ∧ (rulesOf c)[d]? = some ⟨A, N.pre k rhs m, none⟩) ∨
    (1 ≤ m ∧ p = i ∧ e = j ∧ (∀ s ∈ rhs.take m, UNullable U s) ∧ (rulesOf c)[d]? = some ⟨A, y, none⟩) := by
  obtain ⟨A1, a1, a2, a3, a4⟩ := hs
  have key : ∀ {q r : CfgRule}, c.rules[d]? = some q → bare q = r → (rulesOf c)[d]? = some (ruleOf r) := by
    intro q r h1 h2
    unfold rulesOf
    rw [List.getElem?_map, h1, ← h2]
    rfl
  have hA : ∀ {A'}, U[k]? = some (A', rhs) → A = (if m + 1 = rhs.length then A' else N.name k (m + 1)) := by
    intro A' h
    rw [a1] at h
    cases h
    exact a3
  cases h with
  | single hm hd hq => exact .inl ⟨hm, rfl, rfl, key hd hq⟩
  | both hm hk hd hq h1 h2 =>
    refine .inr (.inl ⟨hm, rfl, h1, h2, ?_⟩)
    rw [key hd hq, hA hk]; rfl
  | dropRight hm hk hd hn hq =>
    refine .inr (.inr (.inl ⟨hm, rfl, rfl, hn, ?_⟩))
    rw [key hd hq, hA hk]; rfl
  | dropLeft hm hk hd hn hq =>
    refine .inr (.inr (.inr ⟨hm, rfl, rfl, hn, ?_⟩))
    rw [key hd hq, hA hk]; rfl

/-- The number and the removed symbol of the rule of an alternative. -/
theorem Conv.facts (he : info.eval = c.rules.map (·.origin)) (hn : info.nullingEliminated = c.rules.map (·.nullable))
    {A i j k m y p d e : Nat} {rhs : List Nat} (hs : Stands N A k rhs m y) (h : Conv N c A i j k rhs m y d e p) :
    info.origin d = (if m + 1 = rhs.length then some k else none) ∧
    ((m = 0 ∧ info.removed d = none) ∨ (1 ≤ m ∧ i < p ∧ p < j ∧ info.removed d = none) ∨ (1 ≤ m ∧ p = j ∧ UNullable U y ∧ (rulesOf c)[d]? = some ⟨A, N.pre k rhs m, none⟩ ∧ info.removed d = some (y, true)) ∨
     (1 ≤ m ∧ p = i ∧ (∀ s ∈ rhs.take m, UNullable U s) ∧ (rulesOf c)[d]? = some ⟨A, y, none⟩ ∧ info.removed d = some (N.pre k rhs m, false))) := by
  obtain ⟨A1, a1, a2, a3, a4⟩ := hs
  have hA : ∀ {A'}, U[k]? = some (A', rhs) → A = (if m + 1 = rhs.length then A' else N.name k (m + 1)) := by
    intro A' h
    rw [a1] at h
    cases h
    exact a3
  have key : ∀ {q r : CfgRule}, c.rules[d]? = some q → bare q = r → (rulesOf c)[d]? = some (ruleOf r) ∧ info.origin d = r.origin ∧ info.removed d = r.nullable := by
    intro q r h1 h2
    subst h2
    have h3 : (rulesOf c)[d]? = some (ruleOf q) := by unfold rulesOf; rw [List.getElem?_map, h1]; rfl
    obtain ⟨q', e1, _, _, e2, e3⟩ := rule_at he hn h3
    rw [h1] at e1
    cases e1
    exact ⟨h3, e2, e3⟩
  cases h with
  | single hm hd hq =>
    obtain ⟨_, h1, h2⟩ := key hd hq
    refine ⟨?_, .inl ⟨hm, h2⟩⟩
    rw [h1, if_pos (by rw [hm, a4 hm])]
  | both hm hk hd hq h1 h2 =>
    obtain ⟨_, h3, h4⟩ := key hd hq
    exact ⟨h3, .inr (.inl ⟨hm, h1, h2, h4⟩)⟩
  | dropRight hm hk hd hn hq =>
    obtain ⟨h2, h3, h4⟩ := key hd hq
    refine ⟨h3, .inr (.inr (.inl ⟨hm, rfl, hn, ?_, h4⟩))⟩
    rw [h2, hA hk]; rfl
  | dropLeft hm hk hd hn hq =>
    obtain ⟨h2, h3, h4⟩ := key hd hq
    refine ⟨h3, .inr (.inr (.inr ⟨hm, rfl, hn, ?_, h4⟩))⟩
    rw [h2, hA hk]; rfl

/-- An alternative belongs to one rule of the user's grammar and one start of the last symbol. -/
theorem Conv.unique {A i j k k' m m' y y' p p' d e : Nat} {rhs rhs' : List Nat} (hs : Stands N A k rhs m y) (hs' : Stands N A k' rhs' m' y')
    (h : Conv N c A i j k rhs m y d e p) (h' : Conv N c A i j k' rhs' m' y' d e p') : k = k' ∧ p = p' := by
  obtain ⟨o1, f1⟩ := h.facts (info := infoOf c) rfl rfl hs
  obtain ⟨o2, f2⟩ := h'.facts (info := infoOf c) rfl rfl hs'
  have hk : k = k' := by
    obtain ⟨A1, a1, a2, a3, a4⟩ := hs
    obtain ⟨A2, b1, b2, b3, b4⟩ := hs'
    have la := getElem?_lt a2
    have lb := getElem?_lt b2
    rw [o1] at o2
    by_cases h1 : m + 1 = rhs.length
    · by_cases h2 : m' + 1 = rhs'.length
      · rw [if_pos h1, if_pos h2] at o2
        exact Option.some.inj o2
      · rw [if_pos h1, if_neg h2] at o2
        cases o2
    · by_cases h2 : m' + 1 = rhs'.length
      · rw [if_neg h1, if_pos h2] at o2
        cases o2
      · rw [if_neg h1] at a3
        rw [if_neg h2] at b3
        have e1 := N.parts_name k A1 rhs (m + 1) a1 (by omega) (by omega)
        rw [← a3, b3, N.parts_name k' A2 rhs' (m' + 1) b1 (by omega) (by omega)] at e1
        simp only [Option.some.injEq, Prod.mk.injEq] at e1
        exact e1.1.symm
  subst hk
  obtain ⟨rfl, rfl, rfl⟩ := hs.unique hs'
  refine ⟨rfl, ?_⟩
  have r1 := h.rule hs
  have r2 := h'.rule hs
  have sol : ∀ {p : Nat}, ((m = 0 ∧ p = i ∧ e = j ∧ (rulesOf c)[d]? = some ⟨A, y, none⟩) ∨
    (1 ≤ m ∧ p = e ∧ i < e ∧ e < j ∧ (rulesOf c)[d]? = some ⟨A, N.pre k rhs m, some y⟩) ∨
    (1 ≤ m ∧ p = j ∧ e = j ∧ UNullable U y ∧ (rulesOf c)[d]? = some ⟨A, N.pre k rhs m, none⟩) ∨
    (1 ≤ m ∧ p = i ∧ e = j ∧ (∀ s ∈ rhs.take m, UNullable U s) ∧ (rulesOf c)[d]? = some ⟨A, y, none⟩)) →
    ((m = 0 ∧ (infoOf c).removed d = none) ∨ (1 ≤ m ∧ i < p ∧ p < j ∧ (infoOf c).removed d = none) ∨
     (1 ≤ m ∧ p = j ∧ UNullable U y ∧ (rulesOf c)[d]? = some ⟨A, N.pre k rhs m, none⟩ ∧ (infoOf c).removed d = some (y, true)) ∨
     (1 ≤ m ∧ p = i ∧ (∀ s ∈ rhs.take m, UNullable U s) ∧ (rulesOf c)[d]? = some ⟨A, y, none⟩ ∧ (infoOf c).removed d = some (N.pre k rhs m, false))) →
    p = (if m = 0 then i else match (infoOf c).removed d with
      | none => e
      | some (_, true) => j
      | some (_, false) => i) := by
    intro p r f
    by_cases hm : m = 0
    · rw [if_pos hm]
      omega
    · rw [if_neg hm]
      rcases f with ⟨h, _⟩ | ⟨_, h1, h2, h⟩ | ⟨_, h1, _, _, h⟩ | ⟨_, h1, _, _, h⟩
      · omega
      all_goals rw [h]; simp only
      all_goals omega
  rw [sol r1 f1, ← sol r2 f2]

theorem Binarizes.pre_kids (hb : Binarizes U N w g0 c) (hin : InputOK U N inp) {k A m i p : Nat} {rhs : List Nat} (hk : U[k]? = some (A, rhs))
    (h1 : 1 ≤ m) (h2 : m < rhs.length) {t : PTree} (ht : TreeOf (rulesOf c) inp t (N.pre k rhs m) i p) : ∃ ts, UKids U inp ts (rhs.take m) i p :=
  ⟨_, (FlatOK.pre hk h1 h2 (hb.flat_sound (info := infoOf c) rfl rfl (fun i p hp => (hin i p hp).2) t ht (hb.inner_pre hk h1 h2))).2⟩

theorem Binarizes.user_tree (hb : Binarizes U N w g0 c) (hin : InputOK U N inp) {y i p : Nat} (hA : Inner w g0 y) (hp : N.parts y = none)
    {t : PTree} (ht : TreeOf (rulesOf c) inp t y i p) : ∃ t, UTreeOf U inp t y i p := by
  obtain ⟨u, _, h⟩ := ((hb.flat_sound (info := infoOf c) rfl rfl (fun i p hp => (hin i p hp).2) t ht hA).user hp).2
  exact ⟨u, h⟩

/-- An alternative has trees of the user's grammar. -/
theorem Binarizes.conv_trees (hb : Binarizes U N w g0 c) (hin : InputOK U N inp) {A i j k m y p d e : Nat} {rhs : List Nat}
    (hs : Stands N A k rhs m y) (h : Conv N c A i j k rhs m y d e p) (ha : Alternative (rulesOf c) inp A i j d e) :
    ∃ ts t, UKids U inp ts (rhs.take m) i p ∧ UTreeOf U inp t y p j := by
  have hr := h.rule hs
  obtain ⟨A1, a1, a2, a3, a4⟩ := hs
  have hmem := List.mem_of_getElem? a1
  have hlt := getElem?_lt a2
  have hps : N.parts y = none := (N.user _ hmem).2 y (List.mem_of_getElem? a2)
  have hiy := hb.inner_user hmem (List.mem_of_getElem? a2)
  have un : ∀ {B}, (rulesOf c)[d]? = some ⟨A, B, none⟩ → ∃ t, TreeOf (rulesOf c) inp t B i j := by
    intro B h
    rcases ha with ⟨B', h1, _, t, h2⟩ | ⟨B', C', h1, _⟩
    · rw [h] at h1
      cases h1
      exact ⟨t, h2⟩
    · rw [h] at h1
      cases h1
  rcases hr with ⟨rfl, rfl, rfl, hr⟩ | ⟨hm, rfl, h1, h2, hr⟩ | ⟨hm, rfl, rfl, hn, hr⟩ | ⟨hm, rfl, rfl, hn, hr⟩
  · obtain ⟨t, ht⟩ := un hr
    obtain ⟨u, hu⟩ := hb.user_tree hin hiy hps ht
    exact ⟨[], u, by rw [List.take_zero]; exact .nil, hu⟩
  · rcases ha with ⟨B', h3, _, t, h4⟩ | ⟨B', C', h3, ⟨t, h4⟩, t', h5⟩
    · rw [hr] at h3
      cases h3
    · rw [hr] at h3
      cases h3
      obtain ⟨ts, hts⟩ := hb.pre_kids hin a1 hm hlt h4
      obtain ⟨u, hu⟩ := hb.user_tree hin hiy hps h5
      exact ⟨ts, u, hts, hu⟩
  · obtain ⟨t, ht⟩ := un hr
    obtain ⟨ts, hts⟩ := hb.pre_kids hin a1 hm hlt ht
    exact ⟨ts, _, hts, .empty hn⟩
  · obtain ⟨t, ht⟩ := un hr
    obtain ⟨u, hu⟩ := hb.user_tree hin hiy hps ht
    exact ⟨_, u, UKids.empties hn _, hu⟩

/-! ### Values -/

/-- What the values of a symbol of the binarized grammar are. -/
def SymVals (N : Names U) (E : Evaluator α) (nul : Nat → α) (inp : Input) (A i j : Nat) (vs : List α) (n : Nat) : Prop :=
  match N.parts A with
  | none => UVals U E nul inp A i j vs n
  | some (k, m) => ∃ A' rhs, U[k]? = some (A', rhs) ∧ UPrefix U E nul inp (rhs.take m) i j vs n

theorem SymVals.user {A i j n : Nat} {vs : List α} (h : SymVals N E nul inp A i j vs n) (hp : N.parts A = none) : UVals U E nul inp A i j vs n := by
  unfold SymVals at h
  rw [hp] at h
  exact h

theorem SymVals.pre {k A i j m n : Nat} {rhs : List Nat} {vs : List α} (hk : U[k]? = some (A, rhs)) (h1 : 1 ≤ m) (h2 : m < rhs.length)
    (h : SymVals N E nul inp (N.pre k rhs m) i j vs n) {ts : List UTree} (ht : UKids U inp ts (rhs.take m) i j) :
    UPrefix U E nul inp (rhs.take m) i j vs n := by
  by_cases hm : m = 1
  · subst hm
    cases rhs with
    | nil => simp at h2
    | cons s rhs =>
      rw [Names.pre_one] at h
      have h3 := h.user ((N.user _ (List.mem_of_getElem? hk)).2 s (by simp))
      rw [List.take_succ_cons, List.take_zero] at ht ⊢
      cases ht with
      | cons h4 h5 =>
        cases h5
        exact h3.prefix h4
  · rw [N.pre_ge k rhs (by omega)] at h
    unfold SymVals at h
    rw [N.parts_name k A rhs m hk (by omega) h2] at h
    obtain ⟨A', rhs', h4, h5⟩ := h
    rw [hk] at h4
    cases h4
    exact h5

theorem flatMap_congr_mem {β γ : Type} {f g : β → List γ} {l : List β} (h : ∀ a ∈ l, f a = g a) : l.flatMap f = l.flatMap g := by
  rw [List.flatMap_def, List.flatMap_def, List.map_congr_left h]

theorem sum_map_double {β : Type} {f g : β → Nat} {l : List β} (h : ∀ a ∈ l, f a + 1 ≤ 2 * g a) (hl : l ≠ []) : (l.map f).sum + 1 ≤ 2 * (l.map g).sum := by
  induction l with
  | nil => exact absurd rfl hl
  | cons a l ih =>
    rw [List.map_cons, List.map_cons, List.sum_cons, List.sum_cons]
    have h1 := h a (by simp)
    cases l with
    | nil => simpa using h1
    | cons b l =>
      have := ih (fun b hb => h b (by simp [hb])) (by simp)
      omega

/-- The values of a packed forest of the binarized grammar are those of the user's grammar. -/
theorem Binarizes.packed (hb : Binarizes U N w g0 c) (he : info.eval = c.rules.map (·.origin))
    (hn : info.nullingEliminated = c.rules.map (·.nullable)) (hin : InputOK U N inp) {nv : Nat → List α} {nc : Nat → Nat}
    (hv : ∀ r ∈ c.rules, Inner w g0 r.lhs → ∀ s b, r.nullable = some (s, b) → EmptyVals N E nul nv nc s) {A i j n : Nat} {vs : List α}
    (h : PackedVals info E nv nc (rulesOf c) inp A i j vs n) : Inner w g0 A → ∃ K, n + 1 ≤ 2 * K ∧ SymVals N E nul inp A i j vs K := by
  induction h with
  | @leaf A v i hm =>
    intro hA
    refine ⟨1, by omega, ?_⟩
    unfold SymVals
    rw [(hin i _ hm).2]
    exact .leaf hm
  | @node A i j as hnd hmem hne hun hbl hbr ihu ihl ihr =>
    intro hA
    have halt : ∀ a ∈ as, Alternative (rulesOf c) inp A i j a.rule a.split := fun a ha => (hmem _ _).1 (List.mem_map.2 ⟨a, ha, rfl⟩)
    have hij : i < j := by
      obtain ⟨a, ha⟩ := List.exists_mem_of_ne_nil _ hne
      rcases halt a ha with ⟨_, _, _, t, ht⟩ | ⟨_, _, _, ⟨t, ht⟩, t', ht'⟩
      · exact ht.lt
      · exact Nat.lt_trans ht.lt ht'.lt
    -- each alternative in terms of the user's grammar
    have hex : ∀ a, ∃ b : UAlt α, a ∈ as → ∃ rhs m y, Stands N A b.rule rhs m y ∧ Conv N c A i j b.rule rhs m y a.rule a.split b.split ∧
        UPrefix U E nul inp (rhs.take m) i b.split b.left b.countL ∧ UVals U E nul inp y b.split j b.right b.countR ∧
        applyRule info E a.rule (a.args info nv (rulesOf c)) =
          (if m + 1 = rhs.length then [E.product b.rule (b.left ++ b.right)] else b.left ++ b.right) ∧
        a.cost info nc (rulesOf c) + 1 ≤ 2 * (b.countL + b.countR + (if m + 1 = rhs.length then 1 else 0)) := by
      intro a
      by_cases ha : a ∈ as
      swap
      · exact ⟨⟨0, 0, [], [], 0, 0⟩, fun h => absurd h ha⟩
      obtain ⟨k, rhs, m, y, p, hs, hc⟩ := hb.conv_of hA (halt a ha)
      have hr := hc.rule hs
      obtain ⟨horig, hrem⟩ := hc.facts he hn hs
      have hs0 := hs
      obtain ⟨A1, a1, a2, a3, a4⟩ := hs
      have hmU := List.mem_of_getElem? a1
      have hlt := getElem?_lt a2
      have hps : N.parts y = none := (N.user _ hmU).2 y (List.mem_of_getElem? a2)
      have hiy := hb.inner_user hmU (List.mem_of_getElem? a2)
      obtain ⟨ts, t, hts, ht⟩ := hb.conv_trees hin hs0 hc (halt a ha)
      have happ : ∀ l : List α, applyRule info E a.rule l = (if m + 1 = rhs.length then [E.product k l] else l) := by
        intro l
        unfold applyRule
        rw [horig]
        by_cases hl : m + 1 = rhs.length
        · simp only [if_pos hl]
        · simp only [if_neg hl]
      have hempty : ∀ {s b}, info.removed a.rule = some (s, b) → EmptyVals N E nul nv nc s := by
        intro s b h
        have : ∃ q, (rulesOf c)[a.rule]? = some q ∧ q.lhs = A := by
          rcases halt a ha with ⟨B, h1, _⟩ | ⟨B, C, h1, _⟩
          · exact ⟨_, h1, rfl⟩
          · exact ⟨_, h1, rfl⟩
        obtain ⟨q, hq, hl⟩ := this
        obtain ⟨r, r1, r2, r3, r4, r5⟩ := rule_at he hn hq
        refine hv r r2 ?_ s b (by rw [← r5, h])
        rw [show r.lhs = A by rw [← hl, ← r3]; rfl]
        exact hA
      rcases hr with ⟨h1, h2, h3, hr'⟩ | ⟨h1, h2, h3, h4, hr'⟩ | ⟨h1, h2, h3, h4, hr'⟩ | ⟨h1, h2, h3, h4, hr'⟩
      · have e3 : info.removed a.rule = none := by
          rcases hrem with ⟨_, h⟩ | ⟨h, _⟩ | ⟨h, _⟩ | ⟨h, _⟩
          · exact h
          all_goals omega
        obtain ⟨K, k1, k2⟩ := ihu a ha y hr' hiy
        have hl := a4 h1
        refine ⟨⟨k, p, [], a.left, 0, K⟩, fun _ => ⟨rhs, m, y, hs0, hc, ?_, ?_, ?_, ?_⟩⟩
        · rw [h1, h2, List.take_zero]
          exact .nil
        · rw [h2]
          exact k2.user hps
        · rw [happ]
          simp only [PackedAlt.args, hr', Option.bind_some, e3, List.nil_append, if_pos (show m + 1 = rhs.length by omega)]
        · simp only [PackedAlt.cost, hr', Option.bind_some, e3, if_pos (show m + 1 = rhs.length by omega)]
          omega
      · have e3 : info.removed a.rule = none := by
          rcases hrem with ⟨_, h⟩ | ⟨_, _, _, h⟩ | ⟨_, h, _⟩ | ⟨_, h, _⟩
          · exact h
          · exact h
          all_goals omega
        obtain ⟨K1, k1, k2⟩ := ihl a ha _ _ hr' (hb.inner_pre a1 h1 hlt)
        obtain ⟨K2, k3, k4⟩ := ihr a ha _ _ hr' hiy
        refine ⟨⟨k, p, a.left, a.right, K1, K2⟩, fun _ => ⟨rhs, m, y, hs0, hc, ?_, ?_, ?_, ?_⟩⟩
        · rw [h2] at hts ⊢
          exact k2.pre a1 h1 hlt hts
        · rw [h2]
          exact k4.user hps
        · rw [happ]
          simp only [PackedAlt.args, hr', Option.bind_some]
        · simp only [PackedAlt.cost, hr', Option.bind_some]
          generalize (if m + 1 = rhs.length then 1 else 0) = z
          show a.costL + a.costR + 1 + 1 ≤ _
          omega
      · have e3 : info.removed a.rule = some (y, true) := by
          rcases hrem with ⟨h, _⟩ | ⟨_, _, h, _⟩ | ⟨_, _, _, _, h⟩ | ⟨_, h, _⟩
          · omega
          · omega
          · exact h
          · omega
        obtain ⟨v1, v2⟩ := hempty e3
        rw [emptyKids_user hps] at v1 v2
        obtain ⟨K1, k1, k2⟩ := ihu a ha _ hr' (hb.inner_pre a1 h1 hlt)
        refine ⟨⟨k, p, a.left, [nul y], K1, 1⟩, fun _ => ⟨rhs, m, y, hs0, hc, ?_, ?_, ?_, ?_⟩⟩
        · rw [h2] at hts ⊢
          exact k2.pre a1 h1 hlt hts
        · rw [h2]
          exact .empty h4
        · rw [happ]
          simp only [PackedAlt.args, hr', Option.bind_some, e3, v1]
          rfl
        · simp only [PackedAlt.cost, hr', Option.bind_some, e3]
          simp only [List.length_singleton] at v2
          generalize (if m + 1 = rhs.length then 1 else 0) = z
          show a.costL + nc y + 1 + 1 ≤ _
          omega
      · have e3 : info.removed a.rule = some (N.pre k rhs m, false) := by
          rcases hrem with ⟨h, _⟩ | ⟨_, h, _⟩ | ⟨_, h, _⟩ | ⟨_, _, _, _, h⟩
          · omega
          · omega
          · omega
          · exact h
        obtain ⟨v1, v2⟩ := hempty e3
        rw [emptyKids_pre a1 h1 hlt] at v1 v2
        obtain ⟨K1, k1, k2⟩ := ihu a ha _ hr' hiy
        refine ⟨⟨k, p, (rhs.take m).map nul, a.left, (rhs.take m).length, K1⟩, fun _ => ⟨rhs, m, y, hs0, hc, ?_, ?_, ?_, ?_⟩⟩
        · rw [h2]
          exact .empties h4 _
        · rw [h2]
          exact k2.user hps
        · rw [happ]
          simp only [PackedAlt.args, hr', Option.bind_some, e3, v1, uvals_map_empty]
        · simp only [PackedAlt.cost, hr', Option.bind_some, e3]
          rw [List.length_map] at v2
          generalize (if m + 1 = rhs.length then 1 else 0) = z
          show a.costL + nc (N.pre k rhs m) + 1 + 1 ≤ _
          omega
    choose f hf using hex
    have hnd' : ((as.map f).map fun b => (b.rule, b.split)).Nodup := by
      rw [List.map_map]
      unfold List.Nodup at hnd ⊢
      rw [List.pairwise_map] at hnd ⊢
      refine hnd.imp_of_mem fun {a a'} ha ha' hne' e => hne' ?_
      obtain ⟨rhs, m, y, s1, c1, _⟩ := hf a ha
      obtain ⟨rhs', m', y', s2, c2, _⟩ := hf a' ha'
      simp only [Function.comp, Prod.mk.injEq] at e
      rw [e.1] at s1 c1
      rw [e.2] at c1
      obtain ⟨e1, e2⟩ := hb.conv_inj hij s1 s2 c1 c2
      rw [e1, e2]
    have hall : ∀ k p, (k, p) ∈ ((as.map f).map fun b => (b.rule, b.split)) ↔
        ∃ rhs m y ts t, Stands N A k rhs m y ∧ UKids U inp ts (rhs.take m) i p ∧ UTreeOf U inp t y p j := by
      intro k p
      simp only [List.mem_map, Prod.mk.injEq, exists_exists_and_eq_and]
      constructor
      · rintro ⟨a, ha, rfl, rfl⟩
        obtain ⟨rhs, m, y, s1, c1, _⟩ := hf a ha
        obtain ⟨ts, t, h1, h2⟩ := hb.conv_trees hin s1 c1 (halt a ha)
        exact ⟨rhs, m, y, ts, t, s1, h1, h2⟩
      · rintro ⟨rhs, m, y, ts, t, s1, h1, h2⟩
        obtain ⟨d, e, c1, h3⟩ := hb.conv_ex hin hij s1 h1 h2
        obtain ⟨a, ha, h4⟩ := List.mem_map.1 ((hmem d e).2 h3)
        simp only [Prod.mk.injEq] at h4
        obtain ⟨rfl, rfl⟩ := h4
        refine ⟨a, ha, ?_⟩
        obtain ⟨rhs', m', y', s2, c2, _⟩ := hf a ha
        exact Conv.unique s2 s1 c2 c1
    -- a symbol of the user's grammar, or a name for the beginning of a rule
    have hstand : ∀ {k rhs m y}, Stands N A k rhs m y → (N.parts A = none ∧ m + 1 = rhs.length) ∨
        (N.parts A = some (k, m + 1) ∧ m + 1 ≠ rhs.length) := by
      rintro k rhs m y ⟨A1, a1, a2, a3, a4⟩
      have := getElem?_lt a2
      by_cases hl : m + 1 = rhs.length
      · rw [if_pos hl] at a3
        subst a3
        exact .inl ⟨(N.user _ (List.mem_of_getElem? a1)).1, hl⟩
      · rw [if_neg hl] at a3
        rw [a3]
        exact .inr ⟨N.parts_name k A1 rhs (m + 1) a1 (by omega) (by omega), hl⟩
    rcases hpA : N.parts A with _ | ⟨k0, m0⟩
    · have hw : ∀ {k rhs m y}, Stands N A k rhs m y → m + 1 = rhs.length ∧ U[k]? = some (A, rhs.take m ++ [y]) := by
        intro k rhs m y hs
        rcases hstand hs with ⟨_, h⟩ | ⟨h, _⟩
        · refine ⟨h, ?_⟩
          obtain ⟨A1, a1, a2, a3, a4⟩ := hs
          rw [if_pos h] at a3
          rw [← take_snoc a2, h, List.take_length, a1, a3]
        · rw [hpA] at h
          cases h
      have hw' : ∀ {k ss y}, U[k]? = some (A, ss ++ [y]) → ss ≠ [] ∨ ss = [] → Stands N A k (ss ++ [y]) ss.length y ∧ (ss ++ [y]).take ss.length = ss := by
        intro k ss y hk _
        refine ⟨⟨A, hk, by simp, by simp, fun h => by simp [List.length_eq_zero_iff.1 h]⟩, by simp⟩
      refine ⟨((as.map f).map fun a => a.countL + a.countR + 1).sum, ?_, ?_⟩
      · rw [List.map_map]
        refine sum_map_double (fun a ha => ?_) hne
        obtain ⟨rhs, m, y, s1, c1, h1, h2, h3, h4⟩ := hf a ha
        rw [if_pos (hw s1).1] at h4
        exact h4
      · unfold SymVals
        rw [hpA]
        have e : (as.flatMap fun a => applyRule info E a.rule (a.args info nv (rulesOf c))) =
            (as.map f).map fun a => E.product a.rule (a.left ++ a.right) := by
          rw [List.map_map, List.map_eq_flatMap]
          refine flatMap_congr_mem fun a ha => ?_
          obtain ⟨rhs, m, y, s1, c1, h1, h2, h3, h4⟩ := hf a ha
          rw [h3, if_pos (hw s1).1]
          rfl
        rw [e]
        refine .node (as.map f) hij (by simpa using hne) hnd' (fun k p => (hall k p).trans ⟨?_, ?_⟩) ?_ ?_
        · rintro ⟨rhs, m, y, ts, t, h1, h2, h3⟩
          exact ⟨_, _, _, _, (hw h1).2, h2, h3⟩
        · rintro ⟨ss, y, ts, t, h1, h2, h3⟩
          obtain ⟨s1, s2⟩ := hw' h1 (by tauto)
          exact ⟨_, _, _, ts, t, s1, by rw [s2]; exact h2, h3⟩
        · intro b hb' ss y hU
          obtain ⟨a, ha, rfl⟩ := List.mem_map.1 hb'
          obtain ⟨rhs, m, y', s1, c1, h1, h2, h3, h4⟩ := hf a ha
          obtain ⟨s2, s3⟩ := hw' hU (by tauto)
          obtain ⟨rfl, rfl, rfl⟩ := s1.unique s2
          rwa [s3] at h1
        · intro b hb' ss y hU
          obtain ⟨a, ha, rfl⟩ := List.mem_map.1 hb'
          obtain ⟨rhs, m, y', s1, c1, h1, h2, h3, h4⟩ := hf a ha
          obtain ⟨s2, s3⟩ := hw' hU (by tauto)
          obtain ⟨rfl, rfl, rfl⟩ := s1.unique s2
          exact h2
    · obtain ⟨a0, ha0⟩ := List.exists_mem_of_ne_nil _ hne
      obtain ⟨rhs, m, y, s0, _⟩ := hf a0 ha0
      have hk0 : (f a0).rule = k0 ∧ m + 1 = m0 ∧ m + 1 ≠ rhs.length := by
        rcases hstand s0 with ⟨h, _⟩ | ⟨h, h'⟩
        · rw [hpA] at h
          cases h
        · rw [hpA] at h
          simp only [Option.some.injEq, Prod.mk.injEq] at h
          exact ⟨h.1.symm, h.2.symm, h'⟩
      obtain ⟨hk0, hm0, hml⟩ := hk0
      rw [hk0] at s0
      have hw : ∀ {k rhs' m' y'}, Stands N A k rhs' m' y' → k = k0 ∧ rhs' = rhs ∧ m' = m ∧ y' = y := by
        intro k rhs' m' y' hs
        rcases hstand hs with ⟨h, _⟩ | ⟨h, h'⟩
        · rw [hpA] at h
          cases h
        · rw [hpA] at h
          simp only [Option.some.injEq, Prod.mk.injEq] at h
          have := h.1
          subst this
          exact ⟨rfl, hs.unique s0⟩
      have hfa : ∀ a ∈ as, (f a).rule = k0 ∧ UPrefix U E nul inp (rhs.take m) i (f a).split (f a).left (f a).countL ∧
          UVals U E nul inp y (f a).split j (f a).right (f a).countR ∧
          applyRule info E a.rule (a.args info nv (rulesOf c)) = (f a).left ++ (f a).right ∧
          a.cost info nc (rulesOf c) + 1 ≤ 2 * ((f a).countL + (f a).countR) := by
        intro a ha
        obtain ⟨rhs', m', y', s1, c1, h1, h2, h3, h4⟩ := hf a ha
        obtain ⟨e1, rfl, rfl, rfl⟩ := hw s1
        rw [if_neg hml] at h3 h4
        exact ⟨e1, h1, h2, h3, h4⟩
      refine ⟨((as.map f).map fun a => a.countL + a.countR).sum, ?_, ?_⟩
      · rw [List.map_map]
        exact sum_map_double (fun a ha => (hfa a ha).2.2.2.2) hne
      · unfold SymVals
        rw [hpA]
        obtain ⟨A1, a1, a2, a3, a4⟩ := s0
        refine ⟨A1, rhs, a1, ?_⟩
        have e : (as.flatMap fun a => applyRule info E a.rule (a.args info nv (rulesOf c))) =
            (as.map f).flatMap fun a => a.left ++ a.right := by
          rw [List.flatMap_map]
          exact flatMap_congr_mem fun a ha => (hfa a ha).2.2.2.1
        rw [e, ← hm0, take_snoc a2]
        refine .snoc (as.map f) (by simpa using hne) ?_ (fun p => ⟨fun hp => ?_, ?_⟩) ?_ ?_
        · have hnd2 := hnd'
          unfold List.Nodup at hnd2 ⊢
          rw [List.map_map, List.pairwise_map] at hnd2 ⊢
          refine hnd2.imp_of_mem fun {a a'} ha ha' hne' e => hne' ?_
          simp only [Function.comp] at e ⊢
          rw [(hfa a ha).1, (hfa a' ha').1, e]
        · obtain ⟨b, hb1, rfl⟩ := List.mem_map.1 hp
          obtain ⟨a, ha, rfl⟩ := List.mem_map.1 hb1
          obtain ⟨rhs', m', y', ts, t, h1, h2, h3⟩ := (hall (f a).rule (f a).split).1 (List.mem_map.2 ⟨_, hb1, rfl⟩)
          obtain ⟨_, rfl, rfl, rfl⟩ := hw h1
          exact ⟨ts, t, h2, h3⟩
        · rintro ⟨ts, t, h1, h2⟩
          obtain ⟨b, hb1, hb2⟩ := List.mem_map.1 ((hall k0 p).2 ⟨rhs, m, y, ts, t, ⟨A1, a1, a2, a3, a4⟩, h1, h2⟩)
          simp only [Prod.mk.injEq] at hb2
          exact List.mem_map.2 ⟨b, hb1, hb2.2⟩
        · intro b hb'
          obtain ⟨a, ha, rfl⟩ := List.mem_map.1 hb'
          exact (hfa a ha).2.1
        · intro b hb'
          obtain ⟨a, ha, rfl⟩ := List.mem_map.1 hb'
          exact (hfa a ha).2.2.1

end Gearley.Spec
