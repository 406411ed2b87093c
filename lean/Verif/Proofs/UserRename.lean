import Verif.Proofs.User
import Verif.Proofs.Renumber

/-! # Renaming the symbols of the user's grammar -/

namespace Gearley.Spec
open Gearley Build

/-- The user's grammar with other symbols. -/
def URules.rename (f : Nat → Nat) (U : URules) : URules := U.map fun r => (f r.1, r.2.map f)

mutual
/-- The tree with other symbols. -/
def UTree.rename (f : Nat → Nat) : UTree → UTree
  | .leaf s v => .leaf (f s) v
  | .empty s => .empty (f s)
  | .node k kids => .node k (UTree.renames f kids)
def UTree.renames (f : Nat → Nat) : List UTree → List UTree
  | [] => []
  | t :: ts => t.rename f :: UTree.renames f ts
end

mutual
theorem UTree.size_rename (f : Nat → Nat) : (t : UTree) → (t.rename f).size = t.size
  | .leaf _ _ => rfl
  | .empty _ => rfl
  | .node k kids => by simp only [UTree.rename, UTree.size, UTree.sizes_renames f kids]
theorem UTree.sizes_renames (f : Nat → Nat) : (ts : List UTree) → UTree.sizes (UTree.renames f ts) = UTree.sizes ts
  | [] => rfl
  | t :: ts => by simp only [UTree.renames, UTree.sizes, UTree.size_rename f t, UTree.sizes_renames f ts]
end

mutual
theorem uval_rename {α : Type} (E E' : Evaluator α) (nul : Nat → α) (f : Nat → Nat) (h1 : ∀ s v, E'.leaf s v = E.leaf (f s) v)
    (h2 : ∀ k args, E'.product k args = E.product k args) : (t : UTree) → uval E nul (t.rename f) = uval E' (fun s => nul (f s)) t
  | .leaf s v => by simp only [UTree.rename, uval, h1]
  | .empty s => by simp only [UTree.rename, uval]
  | .node k kids => by simp only [UTree.rename, uval, h2, uvals_renames E E' nul f h1 h2 kids]
theorem uvals_renames {α : Type} (E E' : Evaluator α) (nul : Nat → α) (f : Nat → Nat) (h1 : ∀ s v, E'.leaf s v = E.leaf (f s) v)
    (h2 : ∀ k args, E'.product k args = E.product k args) :
    (ts : List UTree) → uvals E nul (UTree.renames f ts) = uvals E' (fun s => nul (f s)) ts
  | [] => rfl
  | t :: ts => by simp only [UTree.renames, uvals, uval_rename E E' nul f h1 h2 t, uvals_renames E E' nul f h1 h2 ts]
end

variable {U : URules} {f g : Nat → Nat}

theorem URules.rename_get (k : Nat) : (URules.rename f U)[k]? = U[k]?.map fun r => (f r.1, r.2.map f) := by
  unfold URules.rename
  rw [List.getElem?_map]

theorem URules.rename_some {k A : Nat} {rhs : List Nat} (h : U[k]? = some (A, rhs)) : (URules.rename f U)[k]? = some (f A, rhs.map f) := by
  rw [URules.rename_get, h]
  rfl

theorem URules.of_rename {k A' : Nat} {rhs' : List Nat} (h : (URules.rename f U)[k]? = some (A', rhs')) :
    ∃ A rhs, U[k]? = some (A, rhs) ∧ A' = f A ∧ rhs' = rhs.map f := by
  rw [URules.rename_get, Option.map_eq_some_iff] at h
  obtain ⟨⟨A, rhs⟩, h1, h2⟩ := h
  cases h2
  exact ⟨A, rhs, h1, rfl, rfl⟩

theorem UNullable.rename {s : Nat} (h : UNullable U s) : UNullable (URules.rename f U) (f s) := by
  induction h with
  | rule hk _ ih =>
    refine .rule (URules.rename_some hk) fun s hs => ?_
    obtain ⟨x, hx, rfl⟩ := List.mem_map.1 hs
    exact ih x hx

theorem UNullable.reflect (hfg : ∀ s, g (f s) = s) {s' : Nat} (h : UNullable (URules.rename f U) s') : UNullable U (g s') := by
  induction h with
  | rule hk _ ih =>
    obtain ⟨A, rhs, h1, rfl, rfl⟩ := URules.of_rename hk
    rw [hfg]
    refine .rule h1 fun s hs => ?_
    have := ih (f s) (List.mem_map_of_mem hs)
    rwa [hfg] at this

theorem UNullable.iff (hfg : ∀ s, g (f s) = s) {s : Nat} : UNullable (URules.rename f U) (f s) ↔ UNullable U s :=
  ⟨fun h => by have := h.reflect hfg; rwa [hfg] at this, fun h => h.rename⟩

theorem UTerminal.iff (hfg : ∀ s, g (f s) = s) {s : Nat} : UTerminal (URules.rename f U) (f s) ↔ UTerminal U s := by
  constructor
  · intro h r hr e
    exact h (f r.1, r.2.map f) (List.mem_map.2 ⟨r, hr, rfl⟩) (by rw [e])
  · intro h r' hr' e
    obtain ⟨r, hr, rfl⟩ := List.mem_map.1 hr'
    refine h r hr ?_
    have := congrArg g e
    simp only [hfg] at this
    exact this

mutual
theorem Yields.reflect (hfg : ∀ s, g (f s) = s) {s' : Nat} {v : List Nat} (h : Yields (URules.rename f U) s' v) :
    ∀ s, s' = f s → ∃ u, v = u.map f ∧ Yields U s u :=
  match h with
  | .token ht => fun s hs => ⟨[s], by simp [hs], .token ((UTerminal.iff hfg).1 (hs ▸ ht))⟩
  | .rule hk hy => fun s hs => by
    obtain ⟨A, rhs, h1, h2, h3⟩ := URules.of_rename hk
    obtain ⟨u, h4, h5⟩ := hy.reflect hfg rhs h3
    have : A = s := by rw [← hfg A, ← h2, hs, hfg]
    exact ⟨u, h4, .rule (this ▸ h1) h5⟩
theorem YieldsAll.reflect (hfg : ∀ s, g (f s) = s) {ss' v : List Nat} (h : YieldsAll (URules.rename f U) ss' v) :
    ∀ ss, ss' = ss.map f → ∃ u, v = u.map f ∧ YieldsAll U ss u :=
  match h with
  | .nil => fun ss hs => by
    cases ss with
    | nil => exact ⟨[], rfl, .nil⟩
    | cons _ _ => cases hs
  | .cons h1 h2 => fun ss hs => by
    cases ss with
    | nil => cases hs
    | cons s ss =>
      simp only [List.map_cons, List.cons.injEq] at hs
      obtain ⟨u, a1, a2⟩ := h1.reflect hfg s hs.1
      obtain ⟨v, b1, b2⟩ := h2.reflect hfg ss hs.2
      exact ⟨u ++ v, by simp [a1, b1], .cons a2 b2⟩
end

theorem live_reflect (hfg : ∀ s, g (f s) = s) {s : Nat} (h : Live (URules.rename f U) (f s)) : Live U s := by
  obtain ⟨a, v, h⟩ := h
  obtain ⟨u, h1, h2⟩ := h.reflect hfg s rfl
  cases u with
  | nil => cases h1
  | cons x u => exact ⟨x, u, h2⟩

/-! ### Trees -/

variable {inp inp' : Input}

mutual
theorem UTreeOf.rename (hin : ∀ i a v, (a, v) ∈ inp i → (f a, v) ∈ inp' (i + 1)) {t : UTree} {A i j : Nat} (h : UTreeOf U inp t A i j) :
    UTreeOf (URules.rename f U) inp' (t.rename f) (f A) (i + 1) (j + 1) :=
  match h with
  | .leaf h => .leaf (hin _ _ _ h)
  | .empty h => .empty h.rename
  | .node hk hkids hij => .node (URules.rename_some hk) (hkids.rename hin) (by omega)
theorem UKids.rename (hin : ∀ i a v, (a, v) ∈ inp i → (f a, v) ∈ inp' (i + 1)) {ts : List UTree} {ss : List Nat} {i j : Nat}
    (h : UKids U inp ts ss i j) : UKids (URules.rename f U) inp' (UTree.renames f ts) (ss.map f) (i + 1) (j + 1) :=
  match h with
  | .nil => .nil
  | .cons h1 h2 => .cons (h1.rename hin) (h2.rename hin)
end

mutual
theorem UTreeOf.reflect (hfg : ∀ s, g (f s) = s) (hin : ∀ i a' v, (a', v) ∈ inp' (i + 1) → ∃ a, a' = f a ∧ (a, v) ∈ inp i)
    {t' : UTree} {A' i' j' : Nat} (h : UTreeOf (URules.rename f U) inp' t' A' i' j') :
    ∀ A i, A' = f A → i' = i + 1 → ∃ t j, t' = t.rename f ∧ j' = j + 1 ∧ UTreeOf U inp t A i j :=
  match h with
  | .leaf (a := a') (v := v) (i := i') h => fun A i hA hi => by
    subst hi
    obtain ⟨a, h1, h2⟩ := hin i a' v h
    have : A = a := by rw [← hfg A, ← hA, h1, hfg]
    subst this
    exact ⟨.leaf A v, i + 1, by rw [h1]; rfl, rfl, .leaf h2⟩
  | .empty h => fun A i hA hi => ⟨.empty A, i, by rw [hA]; rfl, hi, .empty ((UNullable.iff hfg).1 (hA ▸ h))⟩
  | .node (k := k) hk hkids hij => fun A i hA hi => by
    obtain ⟨A2, rhs, h1, h2, h3⟩ := URules.of_rename hk
    have : A2 = A := by rw [← hfg A2, ← h2, hA, hfg]
    subst this
    obtain ⟨ts, j, h4, h5, h6⟩ := hkids.reflect hfg hin rhs i h3 hi
    exact ⟨.node k ts, j, by rw [h4]; rfl, h5, .node h1 h6 (by omega)⟩
theorem UKids.reflect (hfg : ∀ s, g (f s) = s) (hin : ∀ i a' v, (a', v) ∈ inp' (i + 1) → ∃ a, a' = f a ∧ (a, v) ∈ inp i)
    {ts' : List UTree} {ss' : List Nat} {i' j' : Nat} (h : UKids (URules.rename f U) inp' ts' ss' i' j') :
    ∀ ss i, ss' = ss.map f → i' = i + 1 → ∃ ts j, ts' = UTree.renames f ts ∧ j' = j + 1 ∧ UKids U inp ts ss i j :=
  match h with
  | .nil => fun ss i hs hi => by
    cases ss with
    | nil => exact ⟨[], i, rfl, hi, .nil⟩
    | cons _ _ => cases hs
  | .cons h1 h2 => fun ss i hs hi => by
    cases ss with
    | nil => cases hs
    | cons s ss =>
      simp only [List.map_cons, List.cons.injEq] at hs
      obtain ⟨t, k, a1, a2, a3⟩ := h1.reflect hfg hin s i hs.1 hi
      obtain ⟨ts, j, b1, b2, b3⟩ := h2.reflect hfg hin ss k hs.2 a2
      exact ⟨t :: ts, j, by rw [a1, b1]; rfl, b2, .cons a3 b3⟩
end

/-! ### The binarized grammar -/

/-- The names after renaming. -/
def Names.rename (N : Names U) (hfg : ∀ s, g (f s) = s) : Names (URules.rename f U) where
  name k j := f (N.name k j)
  parts s := N.parts (g s)
  parts_name k A' rhs' j hk h1 h2 := by
    obtain ⟨A, rhs, h3, rfl, rfl⟩ := URules.of_rename hk
    rw [hfg]
    exact N.parts_name k A rhs j h3 h1 (by simpa using h2)
  user r' hr' := by
    obtain ⟨r, hr, rfl⟩ := List.mem_map.1 hr'
    refine ⟨by rw [hfg]; exact (N.user r hr).1, fun s hs => ?_⟩
    obtain ⟨x, hx, rfl⟩ := List.mem_map.1 hs
    rw [hfg]
    exact (N.user r hr).2 x hx

/-- A rule with other symbols. -/
def renRule (f : Nat → Nat) (r : CfgRule) : CfgRule :=
  { r with lhs := f r.lhs, rhs := r.rhs.map f, nullable := r.nullable.map fun p => (f p.1, p.2) }

/-- A wrapped root with other symbols. -/
def renRoot (f : Nat → Nat) (w : WrappedRoot) : WrappedRoot := ⟨f w.root, f w.sof, f w.eof, f w.innerRoot⟩

variable {N : Names U} {w : WrappedRoot} {g0 : Nat} {c c' : Cfg} {hfg : ∀ s, g (f s) = s}

theorem Names.rename_pre (k : Nat) {rhs : List Nat} {j : Nat} (h : rhs ≠ []) : (N.rename hfg).pre k (rhs.map f) j = f (N.pre k rhs j) := by
  unfold Names.pre
  split
  · cases rhs with
    | nil => exact absurd rfl h
    | cons s rhs => rfl
  · rfl

theorem Expected.rename {r : CfgRule} (h : Expected U N r) : Expected (URules.rename f U) (N.rename hfg) (renRule f r) := by
  have ne : ∀ {rhs : List Nat} {j y : Nat}, rhs[j]? = some y → rhs ≠ [] := by
    rintro rhs j y h rfl
    simp at h
  have hif : ∀ (P : Prop) [Decidable P] (a b : Nat), f (if P then a else b) = if P then f a else f b := by
    intro P _ a b
    split <;> rfl
  cases h with
  | single hk => exact .single (URules.rename_some hk)
  | @both k A j y rhs dots hk hj hy =>
    have := Expected.both (N := N.rename hfg) (dots := dots) (URules.rename_some (f := f) hk) hj (y := f y) (by rw [List.getElem?_map, hy]; rfl)
    rw [Names.rename_pre k (ne hy), List.length_map] at this
    unfold renRule
    simp only [hif, List.map_cons, List.map_nil, Option.map_none]
    exact this
  | @dropRight k A j y rhs dots hk hj hy hn =>
    have := Expected.dropRight (N := N.rename hfg) (dots := dots) (URules.rename_some (f := f) hk) hj (y := f y) (by rw [List.getElem?_map, hy]; rfl) hn.rename
    rw [Names.rename_pre k (ne hy), List.length_map] at this
    unfold renRule
    simp only [hif, List.map_cons, List.map_nil, Option.map_some]
    exact this
  | @dropLeft k A j y rhs dots hk hj hy hn =>
    have := Expected.dropLeft (N := N.rename hfg) (dots := dots) (URules.rename_some (f := f) hk) hj (y := f y) (by rw [List.getElem?_map, hy]; rfl) (by
      intro s hs
      rw [← List.map_take] at hs
      obtain ⟨x, hx, rfl⟩ := List.mem_map.1 hs
      exact (hn x hx).rename)
    rw [Names.rename_pre k (ne hy), List.length_map] at this
    unfold renRule
    simp only [hif, List.map_cons, List.map_nil, Option.map_some]
    exact this

theorem Expected.reflect {r' : CfgRule} (h : Expected (URules.rename f U) (N.rename hfg) r') : ∃ r, r' = renRule f r ∧ Expected U N r := by
  have ne : ∀ {rhs : List Nat} {j y : Nat}, rhs[j]? = some y → rhs ≠ [] := by
    rintro rhs j y h rfl
    simp at h
  have hif : ∀ (P : Prop) [Decidable P] (a b : Nat), f (if P then a else b) = if P then f a else f b := by
    intro P _ a b
    split <;> rfl
  cases h with
  | @single k A' s' dots hk =>
    obtain ⟨A, rhs, h1, rfl, h2⟩ := URules.of_rename hk
    match rhs, h2, h1 with
    | [s], h2, h1 =>
      simp only [List.map_cons, List.map_nil, List.cons.injEq, and_true] at h2
      subst h2
      exact ⟨_, rfl, .single (dots := dots) h1⟩
  | @both k A' j y' rhs' dots hk hj hy =>
    obtain ⟨A, rhs, h1, rfl, rfl⟩ := URules.of_rename hk
    rw [List.getElem?_map, Option.map_eq_some_iff] at hy
    obtain ⟨y, hy, rfl⟩ := hy
    refine ⟨_, ?_, .both (dots := dots) h1 hj hy⟩
    rw [Names.rename_pre k (ne hy), List.length_map]
    unfold renRule
    simp only [hif, List.map_cons, List.map_nil, Option.map_none]
    rfl
  | @dropRight k A' j y' rhs' dots hk hj hy hn =>
    obtain ⟨A, rhs, h1, rfl, rfl⟩ := URules.of_rename hk
    rw [List.getElem?_map, Option.map_eq_some_iff] at hy
    obtain ⟨y, hy, rfl⟩ := hy
    refine ⟨_, ?_, .dropRight (dots := dots) h1 hj hy ((UNullable.iff hfg).1 hn)⟩
    rw [Names.rename_pre k (ne hy), List.length_map]
    unfold renRule
    simp only [hif, List.map_cons, List.map_nil, Option.map_some]
    rfl
  | @dropLeft k A' j y' rhs' dots hk hj hy hn =>
    obtain ⟨A, rhs, h1, rfl, rfl⟩ := URules.of_rename hk
    rw [List.getElem?_map, Option.map_eq_some_iff] at hy
    obtain ⟨y, hy, rfl⟩ := hy
    refine ⟨_, ?_, .dropLeft (dots := dots) h1 hj hy fun s hs => (UNullable.iff hfg).1 (hn (f s) (by
      rw [← List.map_take]; exact List.mem_map_of_mem hs))⟩
    rw [Names.rename_pre k (ne hy), List.length_map]
    unfold renRule
    simp only [hif, List.map_cons, List.map_nil, Option.map_some]
    rfl

theorem LiveRule.reflect {r : CfgRule} (h : LiveRule (URules.rename f U) (N.rename hfg) (renRule f r)) : LiveRule U N r := by
  intro s hs
  have h1 := h (f s) (List.mem_map_of_mem hs)
  have h2 : (N.rename hfg).parts (f s) = N.parts s := by
    show N.parts (g (f s)) = _
    rw [hfg]
  rw [h2] at h1
  split
  · next hp =>
    rw [hp] at h1
    exact live_reflect hfg h1
  · next k j hp =>
    rw [hp] at h1
    obtain ⟨A', rhs', a, v, hk, hy⟩ := h1
    obtain ⟨A, rhs, h3, rfl, rfl⟩ := URules.of_rename hk
    obtain ⟨u, h4, h5⟩ := hy.reflect hfg (rhs.take j) (by rw [List.map_take])
    cases u with
    | nil => cases h4
    | cons x u => exact ⟨A, rhs, x, u, h3, h5⟩

theorem bare_renRule (r : CfgRule) : bare (renRule f r) = renRule f (bare r) := rfl

theorem renRule_inj (hfg : ∀ s, g (f s) = s) {q r : CfgRule} (h : renRule f q = renRule f r) : q = r := by
  have key : ∀ q : CfgRule, renRule g (renRule f q) = q := by
    intro q
    obtain ⟨l, rhs, o, nn, d⟩ := q
    simp only [renRule, hfg, List.map_map, Option.map_map, CfgRule.mk.injEq, true_and, and_true]
    constructor
    · conv => rhs; rw [← List.map_id rhs]
      exact List.map_congr_left fun s _ => hfg s
    · cases nn with
      | none => rfl
      | some p => simp [hfg]
  rw [← key q, h, key r]

theorem Binarizes.rename (hb : Binarizes U N w g0 c) (hfg : ∀ s, g (f s) = s) (hp : c'.rules.Perm (c.rules.map (renRule f))) :
    Binarizes (URules.rename f U) (N.rename hfg) (renRoot f w) (f g0) c' where
  sound r' hr' := by
    obtain ⟨r, hr, rfl⟩ := List.mem_map.1 (hp.mem_iff.1 hr')
    rcases hb.sound r hr with h | h | h
    · exact .inl (by show f r.lhs = f w.root; rw [h])
    · exact .inr (.inl (by show f r.lhs = f g0; rw [h]))
    · exact .inr (.inr h.rename)
  complete r' h hl := by
    obtain ⟨r, rfl, h1⟩ := h.reflect
    obtain ⟨q, hq, e⟩ := hb.complete r h1 hl.reflect
    exact ⟨renRule f q, hp.mem_iff.2 (List.mem_map_of_mem hq), by rw [bare_renRule, bare_renRule, e]⟩
  nodup := by
    have h1 : (c'.rules.map bare).Perm ((c.rules.map bare).map (renRule f)) := by
      refine (hp.map bare).trans (List.Perm.of_eq ?_)
      rw [List.map_map, List.map_map]
      rfl
    rw [h1.nodup_iff]
    exact hb.nodup.map fun a b h => renRule_inj hfg h
  once q' hq' r' hr' h1 h2 h3 := by
    obtain ⟨q, hq, rfl⟩ := List.mem_map.1 (hp.mem_iff.1 hq')
    obtain ⟨r, hr, rfl⟩ := List.mem_map.1 (hp.mem_iff.1 hr')
    have e1 : q.lhs = g0 := by rw [← hfg q.lhs, show f q.lhs = f g0 from h1, hfg]
    have e2 : r.lhs = g0 := by rw [← hfg r.lhs, show f r.lhs = f g0 from h2, hfg]
    have e3 : q.rhs = r.rhs := List.map_injective_iff.2 (fun a b h => by rw [← hfg a, h, hfg]) (show q.rhs.map f = r.rhs.map f from h3)
    rw [bare_renRule, bare_renRule, hb.once q hq r hr e1 e2 e3]
  fresh s' hs' := by
    have key : ∀ s, (s = w.root ∨ s = g0 ∨ s = w.sof ∨ s = w.eof) → s' = f s →
        (N.rename hfg).parts s' = none ∧ ∀ r ∈ URules.rename f U, r.1 ≠ s' ∧ s' ∉ r.2 := by
      rintro s hs rfl
      obtain ⟨h1, h2⟩ := hb.fresh s hs
      refine ⟨by show N.parts (g (f s)) = none; rw [hfg]; exact h1, fun r' hr' => ?_⟩
      obtain ⟨r, hr, rfl⟩ := List.mem_map.1 hr'
      refine ⟨fun e => (h2 r hr).1 ?_, fun e => (h2 r hr).2 ?_⟩
      · rw [← hfg r.1, show f r.1 = f s from e, hfg]
      · obtain ⟨x, hx, e⟩ := List.mem_map.1 e
        rwa [← hfg s, ← e, hfg]
    rcases hs' with rfl | rfl | rfl | rfl
    · exact key _ (.inl rfl) rfl
    · exact key _ (.inr (.inl rfl)) rfl
    · exact key _ (.inr (.inr (.inl rfl))) rfl
    · exact key _ (.inr (.inr (.inr rfl))) rfl

/-! ### The numbers given by `remap_symbols` -/

/-- The new numbers, with numbers for removed symbols as well. -/
def intNum (ext : List Nat) (s : Nat) : Nat := if s ∈ ext then newNumber ext s else ext.length + s

/-- The inverse of `intNum`. -/
def extNum (ext : List Nat) (s : Nat) : Nat := if s < ext.length then oldNumber ext s else s - ext.length

theorem ext_int (ext : List Nat) (s : Nat) : extNum ext (intNum ext s) = s := by
  unfold extNum intNum
  by_cases h : s ∈ ext
  · rw [if_pos h, if_pos (newNumber_lt h), old_new h]
  · rw [if_neg h, if_neg (by omega)]
    omega

theorem intNum_mem {ext : List Nat} {s : Nat} (h : s ∈ ext) : intNum ext s = newNumber ext s := if_pos h

theorem renRule_eq {ext : List Nat} {r : CfgRule} (h : r.lhs ∈ ext ∧ ∀ s ∈ r.rhs, s ∈ ext) (hn : ∀ p, r.nullable = some p → p.1 ∈ ext) :
    renumberRule ext r = renRule (intNum ext) r := by
  unfold renumberRule renRule
  rw [intNum_mem h.1]
  congr 1
  · exact List.map_congr_left fun s hs => (intNum_mem (h.2 s hs)).symm
  · cases hp : r.nullable with
    | none => rfl
    | some p =>
      simp only [Option.map_some]
      rw [intNum_mem (hn p hp)]

end Gearley.Spec
