import Verif.Model.CartesianProduct
import Verif.Proofs.Effects
import Mathlib.Data.List.Nodup

/-!
# C31: the cartesian product
-/

namespace Gearley.Spec

/-- All combinations of one element of each list, the first one varying fastest. -/
def combos {V : Type} : List (List V) → List (List V)
  | [] => [[]]
  | f :: fs => (combos fs).flatMap fun t => f.map (· :: t)

end Gearley.Spec

namespace Gearley.Props
open Gearley.Spec CartProd
variable {V : Type}

/-- Loading factors one after the other. -/
def pushAllSlices (c : CartProd V) (ss : List (Slice V)) : CartProd V := ss.foldl CartProd.push c

theorem pushAllSlices_eq (ss : List (Slice V)) (c : CartProd V) :
    pushAllSlices c ss = { ranges := c.ranges ++ ss.map Factor.new, ptrs := c.ptrs ++ ss.map fun s => ⟨s, 0⟩ } := by
  induction ss generalizing c with
  | nil => simp [pushAllSlices]
  | cons s ss ih =>
    have := ih (c.push s)
    simp only [pushAllSlices, List.foldl_cons] at this ⊢
    rw [this]
    simp [CartProd.push, Factor.new]

/-- `extend` on an empty product loads the same as `push`. -/
theorem C31_extend_new (ss : List (Slice V)) : (CartProd.new : CartProd V).extend ss = pushAllSlices CartProd.new ss := by
  rw [pushAllSlices_eq]
  simp [CartProd.extend, CartProd.new, Factor.new]

/-- The state reached from `ps` over all combinations: `rows` are the values read. -/
inductive Visits (fs : List (Factor V)) : List (Ptr V) → List (List V) → List (Ptr V) → Prop
  | last {ps v ps'} : ps.mapM Ptr.read = (pure v : M _) → advanceLoop ps fs = (ps', false) → Visits fs ps [v] ps'
  | more {ps v ps' rows ps''} : ps.mapM Ptr.read = (pure v : M _) → advanceLoop ps fs = (ps', true) →
      Visits fs ps' rows ps'' → Visits fs ps (v :: rows) ps''

theorem Visits.visit {fs : List (Factor V)} {ps ps' : List (Ptr V)} {rows : List (List V)} (h : Visits fs ps rows ps')
    (acc : List (List V)) : loop visitStep ((⟨ps, fs⟩ : CartProd V), acc) = pure (⟨ps', fs⟩, acc ++ rows) := by
  induction h generalizing acc with
  | last h1 h2 =>
    refine loop_inr ?_
    unfold visitStep asSlice CartProd.advance
    rw [h1, pure_bind]
    simp only
    rw [h2]; rfl
  | @more ps v ps' rows ps'' h1 h2 _ ih =>
    rw [loop_inl (a' := (⟨ps', fs⟩, acc ++ [v])) ?_, ih]
    · simp
    · unfold visitStep asSlice CartProd.advance
      rw [h1, pure_bind]
      simp only
      rw [h2]; rfl

theorem read_eq {s : Slice V} {i : Nat} {a : V} (h : s.elems[i]? = some a) : Ptr.read ⟨s, i⟩ = pure a := indexM_eq h

/-- The first factor runs through its elements from position `i`, then the rest advances. -/
theorem visits_first {fs : List (Factor V)} {ps ps' : List (Ptr V)} {s : Slice V} {t : List V}
    (hr : ps.mapM Ptr.read = (pure t : M _)) {rows : List (List V)} {fin : List (Ptr V)}
    (hrest : (advanceLoop ps fs = (ps', false) ∧ rows = [] ∧ fin = ⟨s, 0⟩ :: ps') ∨
      (advanceLoop ps fs = (ps', true) ∧ Visits (Factor.new s :: fs) (⟨s, 0⟩ :: ps') rows fin)) :
    ∀ (l : List V) (i : Nat), s.elems.drop i = l → l ≠ [] →
      Visits (Factor.new s :: fs) (⟨s, i⟩ :: ps) (l.map (· :: t) ++ rows) fin := by
  intro l
  induction l with
  | nil => intro _ _ h; exact absurd rfl h
  | cons a l ih =>
    intro i hi _
    have hlt : i < s.elems.length := by
      by_cases h : i < s.elems.length
      · exact h
      · rw [List.drop_eq_nil_of_le (by omega)] at hi; cases hi
    have hd := List.drop_eq_getElem_cons hlt
    rw [hi] at hd
    obtain ⟨rfl, hl⟩ := List.cons.inj hd
    have hread : (⟨s, i⟩ :: ps : List (Ptr V)).mapM Ptr.read = (pure (s.elems[i] :: t) : M _) := by
      rw [List.mapM_cons, read_eq (List.getElem?_eq_getElem hlt), pure_bind, hr]; rfl
    rcases l with _ | ⟨b, l⟩
    · have hlen : s.elems.length = i + 1 := by
        have := List.drop_eq_nil_iff.1 hl.symm; omega
      have hadv : (Factor.new s).advance ⟨s, i⟩ = (⟨s, 0⟩, true) := by
        unfold Factor.advance Factor.new Ptr.offset1 Ptr.addr
        simp only
        rw [if_pos (by omega)]
      rcases hrest with ⟨h1, rfl, rfl⟩ | ⟨h1, h2⟩
      · refine .last hread ?_
        simp only [advanceLoop, hadv, h1]
      · refine .more hread ?_ h2
        simp only [advanceLoop, hadv, h1]
    · have hlen : i + 1 < s.elems.length := by
        by_cases h : i + 1 < s.elems.length
        · exact h
        · rw [List.drop_eq_nil_of_le (by omega)] at hl; cases hl
      have hadv : (Factor.new s).advance ⟨s, i⟩ = (⟨s, i + 1⟩, false) := by
        unfold Factor.advance Factor.new Ptr.offset1 Ptr.addr
        simp only
        rw [if_neg (by omega)]
      refine .more hread (ps' := ⟨s, i + 1⟩ :: ps) ?_ ?_
      · simp only [advanceLoop, hadv]
      · exact ih (i + 1) hl.symm (by simp)

theorem visits_cons {fs : List (Factor V)} {s : Slice V} (hs : s.elems ≠ []) {ps ps' : List (Ptr V)} {rows : List (List V)}
    (h : Visits fs ps rows ps') : Visits (Factor.new s :: fs) (⟨s, 0⟩ :: ps) (rows.flatMap fun t => s.elems.map (· :: t))
      (⟨s, 0⟩ :: ps') := by
  induction h with
  | @last ps v ps' h1 h2 =>
    rw [List.flatMap_cons]
    exact visits_first h1 (.inl ⟨h2, rfl, rfl⟩) _ 0 rfl hs
  | @more ps v ps' rows ps'' h1 h2 _ ih =>
    rw [List.flatMap_cons]
    exact visits_first h1 (.inr ⟨h2, ih⟩) _ 0 rfl hs

theorem visits_start (ss : List (Slice V)) (h : ∀ s ∈ ss, s.elems ≠ []) :
    Visits (ss.map Factor.new) (ss.map fun s => ⟨s, 0⟩) (combos (ss.map (·.elems))) (ss.map fun s => ⟨s, 0⟩) := by
  induction ss with
  | nil => exact .last rfl rfl
  | cons s ss ih => exact visits_cons (h s (by simp)) (ih fun x hx => h x (by simp [hx]))

/-- C31. After loading non-empty factors, reading and advancing until `advance` returns `false` reads every combination
exactly once in order, the first factor varying fastest, and the product is back in its first state. -/
theorem C31_all_combinations (ss : List (Slice V)) (h : ∀ s ∈ ss, s.elems ≠ []) :
    (pushAllSlices CartProd.new ss).visit =
      pure (pushAllSlices CartProd.new ss, combos (ss.map (·.elems))) := by
  rw [pushAllSlices_eq]
  have := (visits_start ss h).visit []
  simpa [CartProd.visit, CartProd.new] using this

/-- The combinations are what their name says: `t` is one exactly if it has one element of each factor. -/
theorem C31_mem_combos (fs : List (List V)) (t : List V) :
    t ∈ combos fs ↔ t.length = fs.length ∧ ∀ i (h1 : i < t.length) (h2 : i < fs.length), t[i] ∈ fs[i] := by
  induction fs generalizing t with
  | nil =>
    rw [combos, List.mem_singleton]
    constructor
    · rintro rfl; exact ⟨rfl, fun i h1 => absurd h1 (by simp)⟩
    · rintro ⟨h, _⟩; exact List.eq_nil_of_length_eq_zero h
  | cons f fs ih =>
    simp only [combos, List.mem_flatMap, List.mem_map]
    constructor
    · rintro ⟨t', ht', a, ha, rfl⟩
      obtain ⟨h1, h2⟩ := (ih t').1 ht'
      refine ⟨by simp [h1], fun i i1 i2 => ?_⟩
      match i with
      | 0 => exact ha
      | i + 1 => exact h2 i _ _
    · rintro ⟨h1, h2⟩
      match t with
      | [] => simp at h1
      | a :: t =>
        refine ⟨t, (ih t).2 ⟨by simpa using h1, fun i i1 i2 => ?_⟩, a, h2 0 (by simp) (by simp), rfl⟩
        exact h2 (i + 1) (by simpa using i1) (by simpa using i2)

/-- There are as many as the product of the lengths. -/
theorem C31_length_combos (fs : List (List V)) : (combos fs).length = (fs.map List.length).foldr (· * ·) 1 := by
  induction fs with
  | nil => rfl
  | cons f fs ih =>
    simp only [combos, List.length_flatMap, List.length_map, List.map_const', List.sum_replicate_nat, List.map_cons, List.foldr_cons]
    rw [ih, Nat.mul_comm]

/-- If no factor repeats an element, no combination is visited twice. -/
theorem C31_nodup_combos (fs : List (List V)) (h : ∀ f ∈ fs, f.Nodup) : (combos fs).Nodup := by
  induction fs with
  | nil => exact List.nodup_singleton _
  | cons f fs ih =>
    have ih := ih fun g hg => h g (by simp [hg])
    have hf := h f (by simp)
    rw [combos, List.nodup_flatMap]
    refine ⟨fun t _ => ?_, ?_⟩
    · exact hf.map fun a b hab => (List.cons.inj hab).1
    · refine List.Pairwise.imp ?_ ih
      intro a b hab x hx hy
      obtain ⟨_, _, rfl⟩ := List.mem_map.1 hx
      obtain ⟨_, _, e⟩ := List.mem_map.1 hy
      exact hab (List.cons.inj e).2.symm

/-- `extend` on a product that already has factors adds their pointers again: with `k` factors before, each later
combination has `k` values too many. -/
theorem C31_extend_later (ss ts : List (Slice V)) (v : List V)
    (h : ((pushAllSlices CartProd.new ss).extend ts).asSlice = pure v) : v.length = 2 * ss.length + ts.length := by
  unfold asSlice at h
  have hlen : ∀ (ps : List (Ptr V)) (v : List V), ps.mapM Ptr.read = (pure v : M _) → v.length = ps.length := by
    intro ps
    induction ps with
    | nil => intro v h; cases pure_inj_M h; rfl
    | cons p ps ih =>
      intro v h
      rw [List.mapM_cons] at h
      obtain ⟨a, _, h⟩ := bind_eq_pure h
      obtain ⟨as, h1, h⟩ := bind_eq_pure h
      cases pure_inj_M h
      simp [ih as h1]
  rw [hlen _ _ h, pushAllSlices_eq]
  simp [CartProd.extend, CartProd.new]; omega

/-- An empty factor is undefined behaviour: the read goes outside of the slice. -/
theorem C31_empty_factor (s : Slice V) (hs : s.elems = []) : ((CartProd.new : CartProd V).push s).visit = panicM .index := by
  unfold CartProd.visit
  rw [loop_eq]
  unfold visitStep asSlice CartProd.push CartProd.new
  simp only [List.nil_append, List.mapM_cons, Factor.new, Ptr.read, indexM, hs]
  rfl

-- the combinations of the test in the code (cartesian_product.rs:88-112)
def testFactors : List (Slice Nat) := [⟨0, [1, 2, 3]⟩, ⟨10, [1, 2]⟩, ⟨20, [1, 2, 3]⟩]
example : ∀ s ∈ testFactors, s.elems ≠ [] := by decide
example : (combos (testFactors.map (·.elems))).map (fun v => v.foldl (fun x y => x * 10 + y) 0) =
    [111, 211, 311, 121, 221, 321, 112, 212, 312, 122, 222, 322, 113, 213, 313, 123, 223, 323] := by decide
example : ((pushAllSlices CartProd.new [⟨0, [1, 2]⟩]).extend [⟨10, [3]⟩]).asSlice = pure [1, 1, 3] := by decide +kernel

end Gearley.Props
