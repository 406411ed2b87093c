import Verif.Proofs.UserValues
import Mathlib.Data.List.Dedup

/-! # Every grammar can be binarized as assumed -/

namespace Gearley.Props
open Gearley.Spec Build Classical
variable {U : URules} {N : Names U}

/-- The rules for the first `j + 1` symbols of rule `k`. -/
noncomputable def stepRules (U : URules) (N : Names U) (k A : Nat) (rhs : List Nat) (j y : Nat) : List CfgRule :=
  [{ lhs := if j + 1 = rhs.length then A else N.name k (j + 1), rhs := [N.pre k rhs j, y],
     origin := if j + 1 = rhs.length then some k else none, nullable := none, dots := Example.dots3 }] ++
  (if UNullable U y then
    [{ lhs := if j + 1 = rhs.length then A else N.name k (j + 1), rhs := [N.pre k rhs j],
       origin := if j + 1 = rhs.length then some k else none, nullable := some (y, true), dots := Example.dots3 }] else []) ++
  (if ∀ s ∈ rhs.take j, UNullable U s then
    [{ lhs := if j + 1 = rhs.length then A else N.name k (j + 1), rhs := [y],
       origin := if j + 1 = rhs.length then some k else none, nullable := some (N.pre k rhs j, false), dots := Example.dots3 }] else [])

/-- The rules for rule `k`. -/
noncomputable def rulesFor (U : URules) (N : Names U) (k A : Nat) (rhs : List Nat) : List CfgRule :=
  (match rhs with
    | [s] => [{ lhs := A, rhs := [s], origin := some k, nullable := none, dots := Example.dots3 }]
    | _ => []) ++
  (List.range rhs.length).flatMap fun j => match rhs[j]? with
    | some y => if 1 ≤ j then stepRules U N k A rhs j y else []
    | none => []

noncomputable def userRules (U : URules) (N : Names U) : List CfgRule :=
  (List.range U.length).flatMap fun k => match U[k]? with
    | some r => rulesFor U N k r.1 r.2
    | none => []

theorem mem_stepRules {k A : Nat} {rhs : List Nat} {j y : Nat} (hk : U[k]? = some (A, rhs)) (hj : 1 ≤ j) (hy : rhs[j]? = some y) {r : CfgRule}
    (h : r ∈ stepRules U N k A rhs j y) : Expected U N r ∧ r.dots = Example.dots3 := by
  unfold stepRules at h
  simp only [List.mem_append, List.mem_singleton] at h
  rcases h with (rfl | h) | h
  · exact ⟨.both hk hj hy, rfl⟩
  · by_cases hn : UNullable U y
    · rw [if_pos hn] at h
      cases List.mem_singleton.1 h
      exact ⟨.dropRight hk hj hy hn, rfl⟩
    · rw [if_neg hn] at h
      cases h
  · by_cases hn : ∀ s ∈ rhs.take j, UNullable U s
    · rw [if_pos hn] at h
      cases List.mem_singleton.1 h
      exact ⟨.dropLeft hk hj hy hn, rfl⟩
    · rw [if_neg hn] at h
      cases h

theorem mem_userRules {r : CfgRule} : r ∈ userRules U N ↔ Expected U N r ∧ r.dots = Example.dots3 := by
  constructor
  · intro h
    unfold userRules at h
    obtain ⟨k, _, h⟩ := List.mem_flatMap.1 h
    cases hk : U[k]? with
    | none => rw [hk] at h; cases h
    | some p =>
      obtain ⟨A, rhs⟩ := p
      rw [hk] at h
      simp only [rulesFor, List.mem_append] at h
      rcases h with h | h
      · match rhs, h with
        | [s], h =>
          cases List.mem_singleton.1 h
          exact ⟨.single hk, rfl⟩
      · obtain ⟨j, _, h⟩ := List.mem_flatMap.1 h
        cases hy : rhs[j]? with
        | none => rw [hy] at h; cases h
        | some y =>
          rw [hy] at h
          by_cases hj : 1 ≤ j
          · simp only [if_pos hj] at h
            exact mem_stepRules hk hj hy h
          · simp only [if_neg hj] at h
            cases h
  · rintro ⟨h, hd⟩
    have key : ∀ {k A : Nat} {rhs : List Nat}, U[k]? = some (A, rhs) → r ∈ rulesFor U N k A rhs → r ∈ userRules U N := by
      intro k A rhs hk h
      unfold userRules
      refine List.mem_flatMap.2 ⟨k, List.mem_range.2 (List.getElem?_eq_some_iff.1 hk).1, ?_⟩
      rw [hk]
      exact h
    have key2 : ∀ {k A j y : Nat} {rhs : List Nat}, U[k]? = some (A, rhs) → 1 ≤ j → rhs[j]? = some y → r ∈ stepRules U N k A rhs j y →
        r ∈ userRules U N := by
      intro k A j y rhs hk hj hy h
      refine key hk (List.mem_append_right _ (List.mem_flatMap.2 ⟨j, List.mem_range.2 (List.getElem?_eq_some_iff.1 hy).1, ?_⟩))
      rw [hy]
      simp only [if_pos hj]
      exact h
    cases h with
    | single hk =>
      cases hd
      exact key hk (by simp [rulesFor, Example.dots3])
    | both hk hj hy =>
      cases hd
      exact key2 hk hj hy (by simp [stepRules, Example.dots3])
    | dropRight hk hj hy hn =>
      cases hd
      exact key2 hk hj hy (by simp [stepRules, hn, Example.dots3])
    | dropLeft hk hj hy hn =>
      cases hd
      refine key2 hk hj hy ?_
      unfold stepRules
      rw [if_pos hn]
      exact List.mem_append_right _ (List.mem_singleton.2 rfl)

/-- Names behind the symbols of the user's grammar and of the wrapping. -/
def standardNames (U : URules) (m L : Nat) (hm : ∀ r ∈ U, r.1 < m ∧ ∀ s ∈ r.2, s < m) (hL : ∀ r ∈ U, r.2.length < L) : Names U where
  name k j := m + 4 + (k * L + j)
  parts s := if s < m + 4 then none else some ((s - (m + 4)) / L, (s - (m + 4)) % L)
  parts_name k A rhs j hk h2 hj := by
    have := hL _ (List.mem_of_getElem? hk)
    simp only at this
    have hj : j < L := by omega
    rw [if_neg (by omega), Nat.add_sub_cancel_left]
    rw [Nat.add_comm, Nat.add_mul_div_right _ _ (by omega), Nat.div_eq_of_lt hj, Nat.zero_add, Nat.add_mul_mod_self_right, Nat.mod_eq_of_lt hj]
  user r hr := by
    have := hm r hr
    refine ⟨if_pos (by omega), fun s hs => if_pos ?_⟩
    have := this.2 s hs
    omega

/-- The wrapped root: three new symbols. -/
def standardRoot (m root : Nat) : WrappedRoot := ⟨m, m + 1, m + 2, root⟩

/-- `root ::= g0 eof`. -/
def wrapRoot (m : Nat) : CfgRule := { lhs := m, rhs := [m + 3, m + 2], dots := Example.dots3 }

/-- `g0 ::= sof root`. -/
def wrapBoth (m root : Nat) : CfgRule := { lhs := m + 3, rhs := [m + 1, root], dots := Example.dots3 }

/-- `g0 ::= sof`. -/
def wrapEmpty (m : Nat) : CfgRule := { lhs := m + 3, rhs := [m + 1], dots := Example.dots3 }

/-- The wrapped and binarized grammar. -/
noncomputable def standardCfg (U : URules) (N : Names U) (m L root : Nat) : Cfg where
  numSyms := m + 4 + U.length * L
  rules := ([wrapRoot m, wrapBoth m root] ++ (if UNullable U root then [wrapEmpty m] else []) ++ userRules U N).dedup
  wrappedRoots := [standardRoot m root]

/-- The rules for empty symbols: the two-symbol rules of names. -/
noncomputable def standardNulling (U : URules) (N : Names U) (m L : Nat) : Cfg where
  numSyms := m + 4 + U.length * L
  rules := (userRules U N).filter fun r => r.origin = none ∧ r.rhs.length = 2
  wrappedRoots := []

/-- No symbol derives itself: some ranking of the symbols grows from the left-hand side to a symbol all whose neighbours are
nullable. -/
def UAcyclic (U : URules) : Prop := ∃ rank : Nat → Nat, ∀ (k A : Nat) (rhs : List Nat) (j y : Nat),
  U[k]? = some (A, rhs) → rhs[j]? = some y → (∀ i s, i ≠ j → rhs[i]? = some s → UNullable U s) → rank A < rank y

variable {m L root : Nat}

theorem mem_standard {r : CfgRule} : r ∈ (standardCfg U N m L root).rules ↔ r = wrapRoot m ∨ r = wrapBoth m root ∨
    (UNullable U root ∧ r = wrapEmpty m) ∨ (Expected U N r ∧ r.dots = Example.dots3) := by
  show r ∈ (_ : List CfgRule).dedup ↔ _
  rw [List.mem_dedup, List.mem_append, List.mem_append, mem_userRules]
  by_cases h : UNullable U root
  · simp [h, or_assoc]
  · simp [h, or_assoc]

theorem nodup_standard : (standardCfg U N m L root).rules.Nodup := List.nodup_dedup _

theorem dots_standard {r : CfgRule} (h : r ∈ (standardCfg U N m L root).rules) : r.dots = Example.dots3 := by
  rcases mem_standard.1 h with rfl | rfl | ⟨_, rfl⟩ | ⟨_, h⟩
  · rfl
  · rfl
  · rfl
  · exact h

/-- The rules made from rule `k`. -/
theorem expected_form {r : CfgRule} (h : Expected U N r) : (∃ k A s, U[k]? = some (A, [s]) ∧ r.lhs = A ∧ r.rhs = [s] ∧ r.origin = some k ∧ r.nullable = none) ∨
    ∃ k A rhs j y, U[k]? = some (A, rhs) ∧ 1 ≤ j ∧ rhs[j]? = some y ∧ r.lhs = (if j + 1 = rhs.length then A else N.name k (j + 1)) ∧
      r.origin = (if j + 1 = rhs.length then some k else none) ∧
      ((r.rhs = [N.pre k rhs j, y] ∧ r.nullable = none) ∨ (r.rhs = [N.pre k rhs j] ∧ UNullable U y ∧ r.nullable = some (y, true)) ∨
        (r.rhs = [y] ∧ (∀ s ∈ rhs.take j, UNullable U s) ∧ r.nullable = some (N.pre k rhs j, false))) := by
  cases h with
  | single hk => exact .inl ⟨_, _, _, hk, rfl, rfl, rfl, rfl⟩
  | both hk hj hy => exact .inr ⟨_, _, _, _, _, hk, hj, hy, rfl, rfl, .inl ⟨rfl, rfl⟩⟩
  | dropRight hk hj hy hn => exact .inr ⟨_, _, _, _, _, hk, hj, hy, rfl, rfl, .inr (.inl ⟨rfl, hn, rfl⟩)⟩
  | dropLeft hk hj hy hn => exact .inr ⟨_, _, _, _, _, hk, hj, hy, rfl, rfl, .inr (.inr ⟨rfl, hn, rfl⟩)⟩

section
variable (hm : ∀ r ∈ U, r.1 < m ∧ ∀ s ∈ r.2, s < m) (hL : ∀ r ∈ U, r.2.length < L)

local notation "SN" => standardNames U m L hm hL

/-- A name is at least `m + 4` and below the number of symbols. -/
theorem name_bounds {k A j : Nat} {rhs : List Nat} (hk : U[k]? = some (A, rhs)) (hj : j < rhs.length) :
    m + 4 ≤ (SN).name k j ∧ (SN).name k j < m + 4 + U.length * L := by
  have h1 := (List.getElem?_eq_some_iff.1 hk).1
  have h2 := hL _ (List.mem_of_getElem? hk)
  simp only at h2
  show m + 4 ≤ m + 4 + (k * L + j) ∧ m + 4 + (k * L + j) < _
  have h3 : (k + 1) * L ≤ U.length * L := Nat.mul_le_mul_right L h1
  rw [Nat.add_mul, Nat.one_mul] at h3
  omega

include hm in
theorem user_bounds {k A : Nat} {rhs : List Nat} (hk : U[k]? = some (A, rhs)) : A < m ∧ ∀ (j y : Nat), rhs[j]? = some y → y < m :=
  ⟨(hm _ (List.mem_of_getElem? hk)).1, fun _ _ h => (hm _ (List.mem_of_getElem? hk)).2 _ (List.mem_of_getElem? h)⟩

/-- The first `j` symbols: either one symbol of the user, or a name. -/
theorem pre_bounds {k A j : Nat} {rhs : List Nat} (hk : U[k]? = some (A, rhs)) (h1 : 1 ≤ j) (hj : j < rhs.length) :
    (j = 1 ∧ (SN).pre k rhs j < m ∧ rhs[0]? = some ((SN).pre k rhs j)) ∨ (2 ≤ j ∧ (SN).pre k rhs j = (SN).name k j) := by
  by_cases h : j = 1
  · subst h
    left
    cases rhs with
    | nil => simp at hj
    | cons s rhs =>
      rw [Names.pre_one]
      exact ⟨rfl, (user_bounds hm hk).2 0 s rfl, rfl⟩
  · exact .inr ⟨by omega, if_neg h⟩

theorem name_inj {k A j k' A' j' : Nat} {rhs rhs' : List Nat} (hk : U[k]? = some (A, rhs)) (h1 : 2 ≤ j) (h2 : j < rhs.length)
    (hk' : U[k']? = some (A', rhs')) (h1' : 2 ≤ j') (h2' : j' < rhs'.length) (h : (SN).name k j = (SN).name k' j') : k = k' ∧ j = j' := by
  have a := (SN).parts_name k A rhs j hk h1 h2
  have b := (SN).parts_name k' A' rhs' j' hk' h1' h2'
  rw [h, b] at a
  simpa [eq_comm] using a

/-- The rules in which a symbol of the user, as opposed to a name, is replaced. -/
theorem std_lhs {r : CfgRule} (h : Expected U (SN) r) : (r.lhs < m ∧ r.origin ≠ none) ∨
    ∃ k A rhs j, U[k]? = some (A, rhs) ∧ 2 ≤ j ∧ j < rhs.length ∧ r.lhs = (SN).name k j ∧ r.origin = none := by
  rcases (expected_form h) with ⟨k, A, s, hk, h1, h2, h3, h4⟩ | ⟨k, A, rhs, j, y, hk, hj, hy, h1, h2, _⟩
  · left
    rw [h1, h3]
    exact ⟨(user_bounds hm hk).1, by simp⟩
  · have hlt := (List.getElem?_eq_some_iff.1 hy).1
    by_cases he : j + 1 = rhs.length
    · left
      rw [h1, h2, if_pos he, if_pos he]
      exact ⟨(user_bounds hm hk).1, by simp⟩
    · right
      rw [if_neg he] at h1 h2
      exact ⟨k, A, rhs, j + 1, hk, by omega, by omega, h1, h2⟩

/-- Symbols on the right-hand sides are symbols of the user or names at the beginning. -/
theorem std_rhs {r : CfgRule} (h : Expected U (SN) r) {i s : Nat} (hs : r.rhs[i]? = some s) : s < m ∨
    (i = 0 ∧ ∃ k A rhs j y, U[k]? = some (A, rhs) ∧ 2 ≤ j ∧ j < rhs.length ∧ rhs[j]? = some y ∧ s = (SN).name k j ∧
      r.lhs = (if j + 1 = rhs.length then A else (SN).name k (j + 1)) ∧ r.origin = (if j + 1 = rhs.length then some k else none) ∧
      ((r.rhs = [s, y] ∧ r.nullable = none) ∨ (r.rhs = [s] ∧ UNullable U y ∧ r.nullable = some (y, true)))) := by
  rcases (expected_form h) with ⟨k, A, s', hk, h1, h2, h3, h4⟩ | ⟨k, A, rhs, j, y, hk, hj, hy, h1, h2, h3⟩
  · rw [h2] at hs
    cases i with
    | zero =>
      cases hs
      exact .inl ((user_bounds hm hk).2 0 _ rfl)
    | succ i => cases hs
  · have hlt := (List.getElem?_eq_some_iff.1 hy).1
    have hyU := (user_bounds hm hk).2 j y hy
    rcases h3 with ⟨h3, h4⟩ | ⟨h3, h4, h5⟩ | ⟨h3, h4, h5⟩
    · rw [h3] at hs
      cases i with
      | zero =>
        cases hs
        rcases pre_bounds hm hL hk hj hlt with ⟨rfl, hp, _⟩ | ⟨h2j, hp⟩
        · exact .inl hp
        · exact .inr ⟨rfl, k, A, rhs, j, y, hk, h2j, hlt, hy, hp, h1, h2, .inl ⟨h3, h4⟩⟩
      | succ i =>
        cases i with
        | zero => cases hs; exact .inl hyU
        | succ i => cases hs
    · rw [h3] at hs
      cases i with
      | zero =>
        cases hs
        rcases pre_bounds hm hL hk hj hlt with ⟨rfl, hp, _⟩ | ⟨h2j, hp⟩
        · exact .inl hp
        · exact .inr ⟨rfl, k, A, rhs, j, y, hk, h2j, hlt, hy, hp, h1, h2, .inr ⟨h3, h4, h5⟩⟩
      | succ i => cases hs
    · rw [h3] at hs
      cases i with
      | zero => cases hs; exact .inl hyU
      | succ i => cases hs

/-- The rules that begin with a name. -/
theorem std_name {r : CfgRule} (h : r ∈ (standardCfg U (SN) m L root).rules) (hroot : root < m) {k A j i : Nat} {rhs : List Nat} (hk : U[k]? = some (A, rhs))
    (h1 : 2 ≤ j) (hj : j < rhs.length) (hs : r.rhs[i]? = some ((SN).name k j)) : ∃ y, rhs[j]? = some y ∧ i = 0 ∧
      r.lhs = (if j + 1 = rhs.length then A else (SN).name k (j + 1)) ∧ r.origin = (if j + 1 = rhs.length then some k else none) ∧
      ((r.rhs = [(SN).name k j, y] ∧ r.nullable = none) ∨ (r.rhs = [(SN).name k j] ∧ UNullable U y ∧ r.nullable = some (y, true))) := by
  have hb := (name_bounds hm hL hk hj).1
  have small : ∀ {l : List Nat}, (∀ x ∈ l, x < m + 4) → l[i]? = some ((SN).name k j) → False := fun hl h => by
    have := hl _ (List.mem_of_getElem? h)
    omega
  rcases mem_standard.1 h with rfl | rfl | ⟨_, rfl⟩ | ⟨he, _⟩
  · exact (small (by simp [wrapRoot]) hs).elim
  · exact (small (by simp [wrapBoth]; omega) hs).elim
  · exact (small (by simp [wrapEmpty]) hs).elim
  · rcases std_rhs hm hL he hs with h2 | ⟨rfl, k', A', rhs', j', y, hk', h1', hj', hy, e, h3, h4, h5⟩
    · omega
    · obtain ⟨rfl, rfl⟩ := name_inj hm hL hk h1 hj hk' h1' hj' e
      rw [hk] at hk'
      simp only [Option.some.injEq, Prod.mk.injEq] at hk'
      obtain ⟨rfl, rfl⟩ := hk'
      exact ⟨y, hy, rfl, h3, h4, h5⟩

theorem countP_le_one {α : Type} {p : α → Bool} {l : List α} (hn : l.Nodup) (h : ∀ a ∈ l, ∀ b ∈ l, p a = true → p b = true → a = b) : l.countP p ≤ 1 := by
  rw [List.countP_eq_length_filter]
  by_contra hlt
  have hn' := hn.filter p
  match hl : l.filter p, hn', hlt with
  | [], _, h => simp at h
  | [_], _, h => simp at h
  | a :: b :: l', hn', _ =>
    have ha : a ∈ l.filter p := by rw [hl]; simp
    have hb : b ∈ l.filter p := by rw [hl]; simp
    rw [List.mem_filter] at ha hb
    have := h a ha.1 b hb.1 ha.2 hb.2
    subst this
    simp at hn'

theorem countP_one {α : Type} {p : α → Bool} {l : List α} (hn : l.Nodup) {a : α} (ha : a ∈ l) (hp : p a = true)
    (h : ∀ b ∈ l, p b = true → b = a) : l.countP p = 1 := by
  have h1 := countP_le_one hn (p := p) fun x hx y hy hpx hpy => (h x hx hpx).trans (h y hy hpy).symm
  have h2 := List.countP_pos_iff.2 ⟨a, ha, hp⟩
  omega

theorem rule_ext {q r : CfgRule} (h1 : q.lhs = r.lhs) (h2 : q.rhs = r.rhs) (h3 : q.origin = r.origin) (h4 : q.nullable = r.nullable)
    (h5 : q.dots = r.dots) : q = r := by
  cases q; cases r
  simp only at h1 h2 h3 h4 h5
  rw [h1, h2, h3, h4, h5]

/-- The names are generated symbols. -/
theorem std_generated (hroot : root < m) {k A j : Nat} {rhs : List Nat} (hk : U[k]? = some (A, rhs)) (h1 : 2 ≤ j) (hj : j < rhs.length) :
    Generated (standardCfg U (SN) m L root) ((SN).name k j) := by
  have hb := name_bounds hm hL hk hj
  have hy : rhs[j]? = some rhs[j] := List.getElem?_eq_getElem hj
  have hy' : rhs[j - 1]? = some rhs[j - 1] := List.getElem?_eq_getElem (by omega)
  have hsub : j - 1 + 1 = j := by omega
  have hpre : (SN).pre k rhs j = (SN).name k j := if_neg (by omega)
  -- the rule for the first `j` symbols
  have hown := mem_standard (m := m) (L := L) (root := root) (N := SN) |>.2 (.inr (.inr (.inr ⟨Expected.both (dots := Example.dots3) hk (by omega) hy', rfl⟩)))
  rw [hsub, if_neg (by omega), if_neg (by omega)] at hown
  -- the rule for the first `j + 1` symbols
  have hnext := mem_standard (m := m) (L := L) (root := root) (N := SN) |>.2 (.inr (.inr (.inr ⟨Expected.both (dots := Example.dots3) hk (by omega) hy, rfl⟩)))
  rw [hpre] at hnext
  have hlhs : ∀ b ∈ (standardCfg U (SN) m L root).rules, b.rhs.length = 2 → b.lhs = (SN).name k j →
      b = ⟨(SN).name k j, [(SN).pre k rhs (j - 1), rhs[j - 1]], none, none, Example.dots3⟩ := by
    intro b hmem h2 hl
    have hd := dots_standard hmem
    rcases mem_standard.1 hmem with rfl | rfl | ⟨_, rfl⟩ | ⟨he, _⟩
    · simp only [wrapRoot] at hl; omega
    · simp only [wrapBoth] at hl; omega
    · simp only [wrapEmpty] at hl; omega
    · rcases (expected_form he) with ⟨k', A', s, hk', e1, e2, _⟩ | ⟨k', A', rhs', j', y, hk', hj', hy2, e1, e2, e3⟩
      · rw [e2] at h2; simp at h2
      · have hlt := (List.getElem?_eq_some_iff.1 hy2).1
        by_cases hc : j' + 1 = rhs'.length
        · rw [if_pos hc] at e1
          have := (user_bounds hm hk').1
          omega
        · rw [if_neg hc] at e1 e2
          rw [e1] at hl
          obtain ⟨rfl, hjj⟩ := name_inj hm hL hk' (by omega) (by omega) hk h1 hj hl
          rw [hk'] at hk
          simp only [Option.some.injEq, Prod.mk.injEq] at hk
          obtain ⟨rfl, rfl⟩ := hk
          have hjj : j' = j - 1 := by omega
          subst hjj
          rw [hy'] at hy2
          cases hy2
          rcases e3 with ⟨e3, e4⟩ | ⟨e3, _⟩ | ⟨e3, _⟩
          · exact rule_ext (by rw [e1, hl]) e3 e2 e4 hd
          · rw [e3] at h2; simp at h2
          · rw [e3] at h2; simp at h2
  have hfirst : ∀ b ∈ (standardCfg U (SN) m L root).rules, b.rhs.length = 2 → b.rhs[0]? = some ((SN).name k j) →
      b = ⟨if j + 1 = rhs.length then A else (SN).name k (j + 1), [(SN).name k j, rhs[j]], if j + 1 = rhs.length then some k else none, none, Example.dots3⟩ := by
    intro b hmem h2 hl
    obtain ⟨y, e1, _, e2, e3, e4⟩ := std_name hm hL hmem hroot hk h1 hj hl
    rw [hy] at e1
    cases e1
    rcases e4 with ⟨e4, e5⟩ | ⟨e4, _⟩
    · exact rule_ext e2 e4 e3 e5 (dots_standard hmem)
    · rw [e4] at h2; simp at h2
  refine ⟨countP_one nodup_standard hown ?_ ?_, countP_one nodup_standard hnext ?_ ?_, ?_, ⟨_, hown, rfl, rfl⟩⟩
  · simp only [List.length_cons, List.length_nil, List.getElem?_cons_zero, ne_eq, Option.some.injEq, decide_eq_true_eq, and_true, true_and]
    rcases pre_bounds hm hL hk (j := j - 1) (by omega) (by omega) with ⟨_, hp, _⟩ | ⟨h2j, hp⟩
    · omega
    · rw [hp]
      intro e
      obtain ⟨_, h⟩ := name_inj hm hL hk h2j (by omega) hk h1 hj e
      omega
  · intro b hmem hp
    simp only [decide_eq_true_eq] at hp
    exact hlhs b hmem hp.1 hp.2.2
  · simp only [List.length_cons, List.length_nil, List.getElem?_cons_zero, ne_eq, Option.some.injEq, decide_eq_true_eq, and_true, true_and]
    by_cases hc : j + 1 = rhs.length
    · rw [if_pos hc]
      have := (user_bounds hm hk).1
      omega
    · rw [if_neg hc]
      intro e
      obtain ⟨_, h⟩ := name_inj hm hL hk h1 hj hk (by omega) (by omega) e
      omega
  · intro b hmem hp
    simp only [decide_eq_true_eq] at hp
    exact hfirst b hmem hp.1 hp.2.2
  · intro r hr hmem
    obtain ⟨i, hi⟩ := List.getElem?_of_mem hmem
    rw [List.getElem?_drop] at hi
    obtain ⟨_, _, h, _⟩ := std_name hm hL hr hroot hk h1 hj hi
    omega

/-- The generated symbols are the names and the symbol for the start marker and the root. -/
theorem std_generated_only {A : Nat} (h : Generated (standardCfg U (SN) m L root) A) : A = m + 3 ∨
    ∃ k A' rhs j, U[k]? = some (A', rhs) ∧ 2 ≤ j ∧ j < rhs.length ∧ A = (SN).name k j := by
  obtain ⟨_, h2, _, r, hr, rfl, ho⟩ := h
  rcases mem_standard.1 hr with rfl | rfl | ⟨_, rfl⟩ | ⟨he, _⟩
  · exfalso
    have : 0 < ((standardCfg U (SN) m L root).rules.countP fun r => r.rhs.length = 2 ∧ r.rhs[0]? ≠ some r.lhs ∧ r.rhs[0]? = some (wrapRoot m).lhs) := by omega
    obtain ⟨q, hq, hp⟩ := List.countP_pos_iff.1 this
    simp only [decide_eq_true_eq] at hp
    have hp := hp.2.2
    rcases mem_standard.1 hq with rfl | rfl | ⟨_, rfl⟩ | ⟨he, _⟩
    · simp [wrapRoot] at hp
    · simp [wrapRoot, wrapBoth] at hp
    · simp [wrapRoot, wrapEmpty] at hp
    · rcases std_rhs hm hL he hp with h2 | ⟨_, k', A', rhs', j', y, hk', h1', hj', hy, e, _⟩
      · simp [wrapRoot] at h2
      · have := (name_bounds hm hL hk' hj').1
        simp only [wrapRoot] at e
        omega
  · exact .inl rfl
  · exact .inl rfl
  · rcases std_lhs hm hL he with ⟨_, h⟩ | ⟨k, A, rhs, j, hk, h1, hj, e, _⟩
    · exact absurd ho h
    · exact .inr ⟨k, A, rhs, j, hk, h1, hj, e⟩

theorem std_binarizedOK (hroot : root < m) : BinarizedOK (standardCfg U (SN) m L root) (standardRoot m root) where
  len r hr := by
    rcases mem_standard.1 hr with rfl | rfl | ⟨_, rfl⟩ | ⟨he, _⟩
    · exact .inr rfl
    · exact .inr rfl
    · exact .inl rfl
    · rcases (expected_form he) with ⟨k, A, s, _, _, h, _⟩ | ⟨k, A, rhs, j, y, _, _, _, _, _, ⟨h, _⟩ | ⟨h, _⟩ | ⟨h, _⟩⟩ <;> rw [h]
      · exact .inl rfl
      · exact .inr rfl
      · exact .inl rfl
      · exact .inl rfl
  lhs_lt r hr := by
    show _ < m + 4 + U.length * L
    rcases mem_standard.1 hr with rfl | rfl | ⟨_, rfl⟩ | ⟨he, _⟩
    · simp only [wrapRoot]; omega
    · simp only [wrapBoth]; omega
    · simp only [wrapEmpty]; omega
    · rcases std_lhs hm hL he with ⟨h, _⟩ | ⟨k, A, rhs, j, hk, h1, hj, e, _⟩
      · omega
      · rw [e]
        exact (name_bounds hm hL hk hj).2
  rhs_lt r hr s hs := by
    show _ < m + 4 + U.length * L
    rcases mem_standard.1 hr with rfl | rfl | ⟨_, rfl⟩ | ⟨he, _⟩
    · simp only [wrapRoot, List.mem_cons, List.not_mem_nil, or_false] at hs; omega
    · simp only [wrapBoth, List.mem_cons, List.not_mem_nil, or_false] at hs; omega
    · simp only [wrapEmpty, List.mem_cons, List.not_mem_nil, or_false] at hs; omega
    · obtain ⟨i, hi⟩ := List.getElem?_of_mem hs
      rcases std_rhs hm hL he hi with h | ⟨_, k, A, rhs, j, y, hk, _, hj, _, rfl, _⟩
      · omega
      · exact (name_bounds hm hL hk hj).2
  fresh r hr s hs := by
    rcases mem_standard.1 hr with rfl | rfl | ⟨_, rfl⟩ | ⟨he, _⟩
    · simp [wrapRoot] at hs
    · simp [wrapBoth] at hs
    · simp only [wrapEmpty, List.cons.injEq, and_true] at hs
      subst hs
      refine ⟨fun _ _ => by simp [wrapEmpty], fun _ hg => ?_⟩
      rcases std_generated_only hm hL hg with h | ⟨k, A', rhs, j, hk, _, hj, e⟩
      · omega
      · have := (name_bounds hm hL hk hj).1
        omega
    · have hi : r.rhs[0]? = some s := by rw [hs]; rfl
      rcases std_rhs hm hL he hi with h | ⟨_, k, A, rhs, j, y, hk, h1, hj, _, rfl, hl, _⟩
      · refine ⟨fun hg _ => ?_, fun _ hg => ?_⟩
        · rcases std_generated_only hm hL hg with h' | ⟨k, A', rhs, j, hk, _, hj, e⟩
          · omega
          · have := (name_bounds hm hL hk hj).1
            omega
        · rcases std_generated_only hm hL hg with h' | ⟨k, A', rhs, j, hk, _, hj, e⟩
          · omega
          · have := (name_bounds hm hL hk hj).1
            omega
      · refine ⟨fun _ hg => absurd (std_generated hm hL hroot hk h1 hj) hg, fun hg _ => ?_⟩
        by_cases hc : j + 1 = rhs.length
        · rw [hl, if_pos hc]
          have := (user_bounds hm hk).1
          have := (name_bounds hm hL hk hj).1
          omega
        · rw [hl, if_neg hc] at hg
          exact absurd (std_generated hm hL hroot hk (by omega) (by omega)) hg
  genLhs r₁ h₁ r₂ h₂ A e₁ e₂ hg := by
    rcases std_generated_only hm hL hg with rfl | ⟨k, A', rhs, j, hk, h1, hj, rfl⟩
    · have : ∀ r ∈ (standardCfg U (SN) m L root).rules, r.rhs[0]? = some (m + 3) → r.lhs = m := by
        intro r hr e
        rcases mem_standard.1 hr with rfl | rfl | ⟨_, rfl⟩ | ⟨he, _⟩
        · rfl
        · simp [wrapBoth] at e
        · simp [wrapEmpty] at e
        · rcases std_rhs hm hL he e with h | ⟨_, k, A, rhs, j, y, hk, _, hj, _, e, _⟩
          · omega
          · have := (name_bounds hm hL hk hj).1
            omega
      rw [this _ h₁ e₁, this _ h₂ e₂]
    · obtain ⟨_, _, _, e3, _⟩ := std_name hm hL h₁ hroot hk h1 hj e₁
      obtain ⟨_, _, _, e4, _⟩ := std_name hm hL h₂ hroot hk h1 hj e₂
      rw [e3, e4]
  genUnary A hg := by
    refine countP_le_one nodup_standard fun q hq r hr hpq hpr => ?_
    simp only [decide_eq_true_eq] at hpq hpr
    rcases std_generated_only hm hL hg with rfl | ⟨k, A', rhs, j, hk, h1, hj, rfl⟩
    · exfalso
      have e : q.rhs[0]? = some (m + 3) := by rw [hpq]; rfl
      rcases mem_standard.1 hq with rfl | rfl | ⟨_, rfl⟩ | ⟨he, _⟩
      · simp [wrapRoot] at hpq
      · simp [wrapBoth] at e
      · simp [wrapEmpty] at e
      · rcases std_rhs hm hL he e with h | ⟨_, k, A, rhs, j, y, hk, _, hj, _, e, _⟩
        · omega
        · have := (name_bounds hm hL hk hj).1
          omega
    · obtain ⟨y, b1, _, b2, b3, b4⟩ := std_name hm hL hq hroot hk h1 hj (i := 0) (by rw [hpq]; rfl)
      obtain ⟨y', c1, _, c2, c3, c4⟩ := std_name hm hL hr hroot hk h1 hj (i := 0) (by rw [hpr]; rfl)
      rw [b1] at c1
      cases c1
      rcases b4 with ⟨b4, _⟩ | ⟨b4, _, b5⟩
      · rw [hpq] at b4; simp at b4
      · rcases c4 with ⟨c4, _⟩ | ⟨c4, _, c5⟩
        · rw [hpr] at c4; simp at c4
        · exact rule_ext (b2.trans c2.symm) (hpq.trans hpr.symm) (b3.trans c3.symm) (b5.trans c5.symm) ((dots_standard hq).trans (dots_standard hr).symm)
  nested := by
    refine ⟨fun s => if s < m + 3 then 0 else if s = m + 3 then 1 else L + 2 - (s - (m + 4)) % L, ?_⟩
    intro r hr A e hg
    rcases std_generated_only hm hL hg with rfl | ⟨k, A', rhs, j, hk, h1, hj, rfl⟩
    · have hl : r.lhs = m := by
        rcases mem_standard.1 hr with rfl | rfl | ⟨_, rfl⟩ | ⟨he, _⟩
        · rfl
        · simp [wrapBoth] at e
        · simp [wrapEmpty] at e
        · rcases std_rhs hm hL he e with h | ⟨_, k, A, rhs, j, y, hk, _, hj, _, e, _⟩
          · omega
          · have := (name_bounds hm hL hk hj).1
            omega
      rw [hl]
      simp
    · obtain ⟨y, e1, _, e2, _⟩ := std_name hm hL hr hroot hk h1 hj e
      have hb := (name_bounds hm hL hk hj).1
      have hlen := hL _ (List.mem_of_getElem? hk)
      simp only at hlen
      have hmod : ∀ i, i < L → ((SN).name k i - (m + 4)) % L = i := by
        intro i hi
        show (m + 4 + (k * L + i) - (m + 4)) % L = i
        rw [Nat.add_sub_cancel_left, Nat.add_comm, Nat.add_mul_mod_self_right, Nat.mod_eq_of_lt hi]
      simp only
      rw [if_neg (show ¬ (SN).name k j < m + 3 by omega), if_neg (show ¬ (SN).name k j = m + 3 by omega), hmod j (by omega)]
      by_cases hc : j + 1 = rhs.length
      · rw [e2, if_pos hc]
        have := (user_bounds hm hk).1
        rw [if_pos (by omega)]
        omega
      · rw [e2, if_neg hc]
        have hb' := (name_bounds hm hL hk (j := j + 1) (by omega)).1
        rw [if_neg (by omega), if_neg (by omega), hmod (j + 1) (by omega)]
        omega
  dots r hr := by
    rw [dots_standard hr]
    decide
  numRoots := rfl
  root := rfl
  startRule := ⟨wrapRoot m, mem_standard.2 (.inl rfl), rfl, rfl⟩
  eofOnce := by
    refine countP_one nodup_standard (mem_standard.2 (.inl rfl)) (by simp [wrapRoot, standardRoot]) fun b hb hp => ?_
    have hp : b.rhs[1]? = some (m + 2) := of_decide_eq_true hp
    rcases mem_standard.1 hb with rfl | rfl | ⟨_, rfl⟩ | ⟨he, _⟩
    · rfl
    · simp [wrapBoth] at hp; omega
    · simp [wrapEmpty] at hp
    · rcases std_rhs hm hL he hp with h | ⟨h, _⟩
      · omega
      · cases h
  eofNot0 r hr e := by
    simp only [standardRoot] at e
    rcases mem_standard.1 hr with rfl | rfl | ⟨_, rfl⟩ | ⟨he, _⟩
    · simp [wrapRoot] at e
    · simp [wrapBoth] at e
    · simp [wrapEmpty] at e
    · rcases std_rhs hm hL he e with h | ⟨_, k, A, rhs, j, y, hk, _, hj, _, e, _⟩
      · omega
      · have := (name_bounds hm hL hk hj).1
        omega
  eofTerm r hr e := by
    simp only [standardRoot] at e
    rcases mem_standard.1 hr with rfl | rfl | ⟨_, rfl⟩ | ⟨he, _⟩
    · simp [wrapRoot] at e
    · simp [wrapBoth] at e
    · simp [wrapEmpty] at e
    · rcases std_lhs hm hL he with ⟨h, _⟩ | ⟨k, A, rhs, j, hk, h1, hj, e', _⟩
      · omega
      · have := (name_bounds hm hL hk hj).1
        omega
  startNot r hr e := by
    simp only [standardRoot] at e
    rcases mem_standard.1 hr with rfl | rfl | ⟨_, rfl⟩ | ⟨he, _⟩
    · simp [wrapRoot] at e
    · simp [wrapBoth] at e; omega
    · simp [wrapEmpty] at e
    · obtain ⟨i, hi⟩ := List.getElem?_of_mem e
      rcases std_rhs hm hL he hi with h | ⟨_, k, A, rhs, j, y, hk, _, hj, _, e, _⟩
      · omega
      · have := (name_bounds hm hL hk hj).1
        omega
  sofUsed := ⟨wrapBoth m root, mem_standard.2 (.inr (.inl rfl)), by simp [wrapBoth, standardRoot]⟩
  sofTerm r hr e := by
    simp only [standardRoot] at e
    rcases mem_standard.1 hr with rfl | rfl | ⟨_, rfl⟩ | ⟨he, _⟩
    · simp [wrapRoot] at e
    · simp [wrapBoth] at e
    · simp [wrapEmpty] at e
    · rcases std_lhs hm hL he with ⟨h, _⟩ | ⟨k, A, rhs, j, hk, h1, hj, e', _⟩
      · omega
      · have := (name_bounds hm hL hk hj).1
        omega

theorem std_binarizes : Binarizes U (SN) (standardRoot m root) (m + 3) (standardCfg U (SN) m L root) where
  sound r hr := by
    rcases mem_standard.1 hr with rfl | rfl | ⟨_, rfl⟩ | ⟨he, _⟩
    · exact .inl rfl
    · exact .inr (.inl rfl)
    · exact .inr (.inl rfl)
    · exact .inr (.inr he)
  complete r he _ := by
    refine ⟨{ r with dots := Example.dots3 }, mem_standard.2 (.inr (.inr (.inr ⟨?_, rfl⟩))), rfl⟩
    cases he with
    | single hk => exact .single hk
    | both hk hj hy => exact .both hk hj hy
    | dropRight hk hj hy hn => exact .dropRight hk hj hy hn
    | dropLeft hk hj hy hn => exact .dropLeft hk hj hy hn
  nodup := by
    refine List.Nodup.map_on (fun q hq r hr e => ?_) nodup_standard
    have e' : ∀ x : CfgRule, x = { bare x with dots := x.dots } := fun x => rfl
    rw [e' q, e' r, e, dots_standard hq, dots_standard hr]
  once q hq r hr h1 h2 h3 := by
    have key : ∀ x ∈ (standardCfg U (SN) m L root).rules, x.lhs = m + 3 → bare x = { lhs := m + 3, rhs := x.rhs } := by
      intro x hx hl
      rcases mem_standard.1 hx with rfl | rfl | ⟨_, rfl⟩ | ⟨he, _⟩
      · simp [wrapRoot] at hl
      · rfl
      · rfl
      · rcases std_lhs hm hL he with ⟨h, _⟩ | ⟨k, A, rhs, j, hk, h1, hj, e', _⟩
        · omega
        · have := (name_bounds hm hL hk hj).1
          omega
    rw [key q hq h1, key r hr h2, h3]
  fresh s hs := by
    have hb : m ≤ s ∧ s < m + 4 := by
      simp only [standardRoot] at hs
      omega
    refine ⟨if_pos hb.2, fun r hr => ⟨?_, fun h => ?_⟩⟩
    · have := (hm r hr).1
      omega
    · have := (hm r hr).2 s h
      omega

theorem std_wrapping : Wrapping (rulesOf (standardCfg U (SN) m L root)) (standardRoot m root) (UNullable U root) := by
  have hlhs : ∀ r ∈ rulesOf (standardCfg U (SN) m L root), m ≤ r.lhs → r.lhs ≤ m + 3 →
      r = ⟨m, m + 3, some (m + 2)⟩ ∨ r = ⟨m + 3, m + 1, some root⟩ ∨ (UNullable U root ∧ r = ⟨m + 3, m + 1, none⟩) := by
    intro r hr h1 h2
    obtain ⟨q, hq, rfl⟩ := List.mem_map.1 hr
    rcases mem_standard.1 hq with rfl | rfl | ⟨hn, rfl⟩ | ⟨he, _⟩
    · exact .inl rfl
    · exact .inr (.inl rfl)
    · exact .inr (.inr ⟨hn, rfl⟩)
    · have h1 : m ≤ q.lhs := h1
      have h2 : q.lhs ≤ m + 3 := h2
      rcases std_lhs hm hL he with ⟨h, _⟩ | ⟨k, A, rhs, j, hk, _, hj, e', _⟩
      · omega
      · have := (name_bounds hm hL hk hj).1
        omega
  refine ⟨⟨m + 3, ⟨?_, ?_⟩, ?_, ⟨?_, ?_⟩, ?_⟩, ?_, ?_, ?_⟩
  · exact List.mem_map.2 ⟨wrapRoot m, mem_standard.2 (.inl rfl), rfl⟩
  · intro r hr hl
    simp only [standardRoot] at hl
    rcases hlhs r hr (by omega) (by omega) with rfl | rfl | ⟨_, rfl⟩
    · rfl
    · simp at hl
    · simp at hl
  · exact List.mem_map.2 ⟨wrapBoth m root, mem_standard.2 (.inr (.inl rfl)), rfl⟩
  · intro h
    rcases hlhs _ h (by simp) (by simp) with h | h | ⟨h, _⟩
    · simp at h
    · simp at h
    · exact h
  · exact fun h => List.mem_map.2 ⟨wrapEmpty m, mem_standard.2 (.inr (.inr (.inl ⟨h, rfl⟩))), rfl⟩
  · intro r hr hl
    rcases hlhs r hr (by omega) (by omega) with rfl | rfl | ⟨_, rfl⟩
    · simp at hl
    · exact .inl rfl
    · exact .inr rfl
  · intro g1 h e
    subst e
    rcases hlhs _ h (by simp [standardRoot]) (by simp [standardRoot]) with h | h | ⟨_, h⟩ <;> simp [standardRoot] at h
  · intro r hr hl
    simp only [standardRoot] at hl
    rcases hlhs r hr (by omega) (by omega) with rfl | rfl | ⟨_, rfl⟩ <;> simp at hl
  · intro r hr hl
    simp only [standardRoot] at hl
    rcases hlhs r hr (by omega) (by omega) with rfl | rfl | ⟨_, rfl⟩ <;> simp at hl

theorem std_acyclic (hroot : root < m) (ha : UAcyclic U) : UnaryAcyclic (rulesOf (standardCfg U (SN) m L root)) := by
  obtain ⟨rank, hrank⟩ := ha
  -- names whose rest is nullable come after their left-hand side, the others before everything
  let R : Nat → Nat := fun s => if s < m then (rank s + 1) * (L + 2) else if s = m + 3 then 0 else if s < m + 4 then 1 else
    match U[(s - (m + 4)) / L]? with
    | none => 0
    | some (A, rhs) => (if ∀ t ∈ rhs.drop ((s - (m + 4)) % L), UNullable U t then (rank A + 1) * (L + 2) else 0) + (rhs.length - (s - (m + 4)) % L)
  have hname : ∀ {k A j : Nat} {rhs : List Nat}, U[k]? = some (A, rhs) → 2 ≤ j → j < rhs.length →
      R ((SN).name k j) = (if ∀ t ∈ rhs.drop j, UNullable U t then (rank A + 1) * (L + 2) else 0) + (rhs.length - j) := by
    intro k A j rhs hk h1 hj
    have hb := (name_bounds hm hL hk hj).1
    have hlen := hL _ (List.mem_of_getElem? hk)
    simp only at hlen
    have e : (SN).name k j - (m + 4) = j + k * L := by
      show m + 4 + (k * L + j) - (m + 4) = _
      omega
    show (if _ then _ else if _ then _ else if _ then _ else _) = _
    rw [if_neg (by omega), if_neg (by omega), if_neg (by omega), e, Nat.add_mul_div_right _ _ (by omega), Nat.div_eq_of_lt (by omega : j < L),
      Nat.zero_add, hk]
    simp only
    rw [Nat.add_mul_mod_self_right, Nat.mod_eq_of_lt (by omega : j < L)]
  have huser : ∀ {s : Nat}, s < m → R s = (rank s + 1) * (L + 2) := fun h => if_pos h
  have hstep : ∀ {a b : Nat}, a < b → (a + 1) * (L + 2) + (L + 2) ≤ (b + 1) * (L + 2) := by
    intro a b h
    have := Nat.mul_le_mul_right (L + 2) (show a + 1 + 1 ≤ b + 1 by omega)
    rw [Nat.add_mul (a + 1), Nat.one_mul] at this
    exact this
  have hpos : ∀ b : Nat, L + 2 ≤ (b + 1) * (L + 2) := by
    intro b
    have := Nat.mul_le_mul_right (L + 2) (show 1 ≤ b + 1 by omega)
    rw [Nat.one_mul] at this
    exact this
  refine ⟨R, fun r hr hn => ?_⟩
  obtain ⟨q, hq, rfl⟩ := List.mem_map.1 hr
  rcases mem_standard.1 hq with rfl | rfl | ⟨_, rfl⟩ | ⟨he, _⟩
  · simp [ruleOf, wrapRoot] at hn
  · simp [ruleOf, wrapBoth] at hn
  · show R (m + 3) < R (m + 1)
    have h1 : R (m + 3) = 0 := by
      show (if _ then _ else if _ then _ else _) = _
      rw [if_neg (by omega), if_pos rfl]
    have h2 : R (m + 1) = 1 := by
      show (if _ then _ else if _ then _ else if _ then _ else _) = _
      rw [if_neg (by omega), if_neg (by omega), if_pos (by omega)]
    omega
  · rcases (expected_form he) with ⟨k, A, s, hk, h1, h2, _⟩ | ⟨k, A, rhs, j, y, hk, hj, hy, h1, h2, h3⟩
    · have e : ruleOf q = ⟨A, s, none⟩ := by
        unfold ruleOf
        rw [h1, h2]
        rfl
      rw [e]
      show R A < R s
      have hb := user_bounds hm hk
      rw [huser hb.1, huser (hb.2 0 s rfl)]
      have := hstep (hrank k A [s] 0 s hk rfl (by
        intro i s' hi hs'
        cases i with
        | zero => exact absurd rfl hi
        | succ i => cases hs'))
      omega
    · have hlt := (List.getElem?_eq_some_iff.1 hy).1
      have hlen := hL _ (List.mem_of_getElem? hk)
      simp only at hlen
      have hb := user_bounds hm hk
      -- a symbol of the user on its own: its neighbours are nullable
      have one : ∀ {i s : Nat}, rhs[i]? = some s → i ≤ j → (∀ i' s', i' ≠ i → i' < j + 1 → rhs[i']? = some s' → UNullable U s') → R q.lhs < R s := by
        intro i s hs hij hnul
        rw [huser (hb.2 i s hs), h1]
        by_cases hc : j + 1 = rhs.length
        · rw [if_pos hc, huser hb.1]
          have := hstep (hrank k A rhs i s hk hs fun i' s' hi' hs' => hnul i' s' hi' (by
            have := (List.getElem?_eq_some_iff.1 hs').1
            omega) hs')
          omega
        · rw [if_neg hc, hname hk (by omega) (by omega)]
          by_cases hr : ∀ t ∈ rhs.drop (j + 1), UNullable U t
          · rw [if_pos hr]
            have := hstep (hrank k A rhs i s hk hs fun i' s' hi' hs' => by
              by_cases hi'' : i' < j + 1
              · exact hnul i' s' hi' hi'' hs'
              · refine hr s' (List.mem_of_getElem? (i := i' - (j + 1)) ?_)
                rw [List.getElem?_drop, show j + 1 + (i' - (j + 1)) = i' by omega]
                exact hs')
            omega
          · rw [if_neg hr]
            have := hpos (rank s)
            omega
      have hrhs0 : ∀ {s : Nat}, q.rhs = [s] → (ruleOf q).rhs0 = s := by
        intro s h
        unfold ruleOf
        rw [h]
        rfl
      rcases h3 with ⟨h3, _⟩ | ⟨h3, h4, _⟩ | ⟨h3, h4, _⟩
      · unfold ruleOf at hn
        rw [h3] at hn
        simp at hn
      · show R q.lhs < R (ruleOf q).rhs0
        rw [hrhs0 h3]
        rcases pre_bounds hm hL hk hj hlt with ⟨rfl, _, hp⟩ | ⟨h2j, hp⟩
        · refine one hp (by omega) fun i' s' hi' hlt' hs' => ?_
          have : i' = 1 := by omega
          subst this
          rw [hy] at hs'
          cases hs'
          exact h4
        · rw [hp, hname hk h2j hlt, h1]
          have hdrop : rhs.drop j = y :: rhs.drop (j + 1) := by
            rw [List.drop_eq_getElem_cons hlt]
            rw [List.getElem?_eq_getElem hlt] at hy
            cases hy
            rfl
          have hiff : (∀ t ∈ rhs.drop j, UNullable U t) ↔ ∀ t ∈ rhs.drop (j + 1), UNullable U t := by
            rw [hdrop, List.forall_mem_cons]
            exact ⟨fun h => h.2, fun h => ⟨h4, h⟩⟩
          by_cases hc : j + 1 = rhs.length
          · rw [if_pos hc, huser hb.1, if_pos (hiff.2 (by rw [hc, List.drop_length]; simp))]
            omega
          · rw [if_neg hc, hname hk (by omega) (by omega)]
            by_cases hr : ∀ t ∈ rhs.drop (j + 1), UNullable U t
            · rw [if_pos hr, if_pos (hiff.2 hr)]
              omega
            · rw [if_neg hr, if_neg (mt hiff.1 hr)]
              omega
      · show R q.lhs < R (ruleOf q).rhs0
        rw [hrhs0 h3]
        refine one hy (Nat.le_refl _) fun i' s' hi' hlt' hs' => h4 s' (List.mem_of_getElem? (i := i') ?_)
        rw [List.getElem?_take_of_lt (by omega)]
        exact hs'

theorem std_occurs {r : CfgRule} (h : r ∈ userRules U (SN)) : r ∈ (standardCfg U (SN) m L root).rules :=
  mem_standard.2 (.inr (.inr (.inr (mem_userRules.1 h))))

/-- Every grammar with a root that has rules can be turned into a parser that satisfies all assumptions but that there are no cycles. -/
theorem parserOf_exists_of {X : CfgCrate} (hX : CrateOK X) (hroot : ∃ r ∈ U, r.1 = root) : ∃ g,
    ParserOf X U (SN) (standardRoot m root) (m + 3) (standardCfg U (SN) m L root) (standardNulling U (SN) m L) g ∧
    EmptyKept U (SN) (standardCfg U (SN) m L root) (standardNulling U (SN) m L) g ∧
    ∀ t, (∃ r ∈ U, r.2 = [t] ∨ (2 ≤ r.2.length ∧ t ∈ r.2)) → Occurs (standardCfg U (SN) m L root) t := by
  have hlt : root < m := by
    obtain ⟨r, hr, rfl⟩ := hroot
    exact (hm r hr).1
  have hOK := std_binarizedOK hm hL hlt
  obtain ⟨c', n, ext, hR, hext, hocc, hb, hg⟩ := C46_prepared (nulling := standardNulling U (SN) m L) hX hOK
  have hnulmem : ∀ r ∈ (standardNulling U (SN) m L).rules, r ∈ (standardCfg U (SN) m L root).rules := fun r hr => std_occurs hm hL (List.mem_filter.1 hr).1
  obtain ⟨g, hg⟩ := hg fun r hr _ _ =>
    ⟨hocc _ ⟨r, hnulmem r hr, .inl rfl⟩, fun s hs => hocc _ ⟨r, hnulmem r hr, .inr hs⟩⟩
  obtain ⟨_, hmap, _⟩ := hb g hg
  have hboth : ∀ {k A j y : Nat} {rhs : List Nat}, U[k]? = some (A, rhs) → 1 ≤ j → rhs[j]? = some y →
      Occurs (standardCfg U (SN) m L root) y ∧ Occurs (standardCfg U (SN) m L root) ((SN).pre k rhs j) := by
    intro k A j y rhs hk hj hy
    have := mem_standard (m := m) (L := L) (root := root) (N := SN) |>.2 (.inr (.inr (.inr ⟨Expected.both (dots := Example.dots3) hk hj hy, rfl⟩)))
    exact ⟨⟨_, this, .inr (by simp)⟩, ⟨_, this, .inr (by simp)⟩⟩
  refine ⟨g, ⟨hX, hOK, hg, std_binarizes hm hL, std_wrapping hm hL, ?_, hroot⟩, ⟨⟨?_, ?_⟩, ?_, ?_⟩, ?_⟩
  · exact List.mem_map.2 ⟨wrapRoot m, mem_standard.2 (.inl rfl), rfl⟩
  · intro r hr ho h2
    have he := (mem_userRules.1 (List.mem_filter.1 hr).1).1
    rcases (expected_form he) with ⟨k, A, s, hk, _, h3, _⟩ | ⟨k, A, rhs, j, y, hk, hj, hy, h3, h4, h5⟩
    · rw [h3] at h2
      simp at h2
    · have hlt' := (List.getElem?_eq_some_iff.1 hy).1
      by_cases hc : j + 1 = rhs.length
      · rw [ho, if_pos hc] at h4
        cases h4
      · rw [if_neg hc] at h3
        rcases h5 with ⟨h5, _⟩ | ⟨h5, _⟩ | ⟨h5, _⟩
        · exact ⟨k, A, rhs, j, y, hk, hj, by omega, hy, h3, h5⟩
        · rw [h5] at h2; simp at h2
        · rw [h5] at h2; simp at h2
  · intro k A rhs j y hk hj hlt' hy _
    have hm' := mem_userRules (N := SN) |>.2 ⟨Expected.both (dots := Example.dots3) hk hj hy, rfl⟩
    rw [if_neg (by omega), if_neg (by omega)] at hm'
    exact ⟨_, List.mem_filter.2 ⟨hm', by simp⟩, rfl, rfl, rfl⟩
  · intro r hr
    exact ⟨hOK.lhs_lt r (hnulmem r hr), hOK.rhs_lt r (hnulmem r hr)⟩
  · intro r hr p hp
    have hocc' : Occurs (standardCfg U (SN) m L root) p.1 := by
      rcases mem_standard.1 hr with rfl | rfl | ⟨_, rfl⟩ | ⟨he, _⟩
      · cases hp
      · cases hp
      · cases hp
      · cases he with
        | single => cases hp
        | both => cases hp
        | dropRight hk hj hy _ => cases hp; exact (hboth hk hj hy).1
        | dropLeft hk hj hy _ => cases hp; exact (hboth hk hj hy).2
    have hmem := hocc _ hocc'
    refine ⟨hext _ hmem, fun e => ?_⟩
    rw [(hmap _ hmem).1] at e
    cases pure_inj_M e
  · rintro t ⟨⟨A, rhs⟩, hr, h⟩
    obtain ⟨k, hk⟩ := List.getElem?_of_mem hr
    rcases h with h | ⟨h2, ht⟩
    · simp only at h
      subst h
      exact ⟨_, mem_standard (N := SN) |>.2 (.inr (.inr (.inr ⟨Expected.single (dots := Example.dots3) hk, rfl⟩))), .inr (by simp)⟩
    · simp only at h2 ht
      obtain ⟨i, hi⟩ := List.getElem?_of_mem ht
      cases i with
      | zero =>
        have := (hboth hk (Nat.le_refl 1) (List.getElem?_eq_getElem (by omega))).2
        rcases pre_bounds hm hL hk (Nat.le_refl 1) (by omega) with ⟨_, _, hp⟩ | ⟨h, _⟩
        · rw [hi] at hp
          cases hp
          exact this
        · omega
      | succ i => exact (hboth hk (by omega) hi).1

theorem parserOf_exists (hroot : ∃ r ∈ U, r.1 = root) : ∃ g,
    ParserOf plainCrate U (SN) (standardRoot m root) (m + 3) (standardCfg U (SN) m L root) (standardNulling U (SN) m L) g ∧
    EmptyKept U (SN) (standardCfg U (SN) m L root) (standardNulling U (SN) m L) g ∧
    ∀ t, (∃ r ∈ U, r.2 = [t] ∨ (2 ≤ r.2.length ∧ t ∈ r.2)) → Occurs (standardCfg U (SN) m L root) t :=
  parserOf_exists_of hm hL plainCrate_ok hroot

/-- Every grammar without cycles, with a root that has rules, can be turned into a parser that satisfies all assumptions. -/
theorem userParser_exists_of {X : CfgCrate} (hX : CrateOK X) (hroot : ∃ r ∈ U, r.1 = root) (ha : UAcyclic U) : ∃ g,
    UserParser X U (SN) (standardRoot m root) (m + 3) (standardCfg U (SN) m L root) (standardNulling U (SN) m L) g ∧
    EmptyKept U (SN) (standardCfg U (SN) m L root) (standardNulling U (SN) m L) g ∧
    ∀ t, (∃ r ∈ U, r.2 = [t] ∨ (2 ≤ r.2.length ∧ t ∈ r.2)) → Occurs (standardCfg U (SN) m L root) t := by
  have hlt : root < m := by
    obtain ⟨r, hr, rfl⟩ := hroot
    exact (hm r hr).1
  obtain ⟨g, h1, h2⟩ := parserOf_exists_of hm hL hX hroot
  exact ⟨g, ⟨h1, std_acyclic hm hL hlt ha⟩, h2⟩

theorem userParser_exists (hroot : ∃ r ∈ U, r.1 = root) (ha : UAcyclic U) : ∃ g,
    UserParser plainCrate U (SN) (standardRoot m root) (m + 3) (standardCfg U (SN) m L root) (standardNulling U (SN) m L) g ∧
    EmptyKept U (SN) (standardCfg U (SN) m L root) (standardNulling U (SN) m L) g ∧
    ∀ t, (∃ r ∈ U, r.2 = [t] ∨ (2 ≤ r.2.length ∧ t ∈ r.2)) → Occurs (standardCfg U (SN) m L root) t :=
  userParser_exists_of hm hL plainCrate_ok hroot ha

end

end Gearley.Props
