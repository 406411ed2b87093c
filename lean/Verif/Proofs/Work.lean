import Verif.Spec.Evaluate
import Verif.Proofs.Effects
import Verif.Proofs.SimpleBocage

/-!
# The work stack of `evaluate`
-/

namespace Gearley
open Gearley.Spec
variable {α : Type}

/-- Indices refer to values. -/
def Refs (rs : List α) (idx : List Nat) (u : List α) : Prop := List.Forall₂ (fun i a => rs[i]? = some a) idx u

theorem Refs.mono {rs : List α} (new : List α) {idx : List Nat} {u : List α} (h : Refs rs idx u) : Refs (rs ++ new) idx u := by
  refine List.Forall₂.imp ?_ h
  intro i a hi
  exact Simple.getElem?_prefix ⟨new, rfl⟩ hi

theorem Refs.lt {rs : List α} {idx : List Nat} {u : List α} (h : Refs rs idx u) : ∀ i ∈ idx, i < rs.length := by
  induction h with
  | nil => simp
  | cons h _ ih =>
    intro i hi
    rcases List.mem_cons.1 hi with rfl | hi
    · exact (List.getElem?_eq_some_iff.1 h).1
    · exact ih i hi

theorem Refs.append {rs : List α} {a b : List Nat} {u v : List α} (h : Refs rs a u) (k : Refs rs b v) :
    Refs rs (a ++ b) (u ++ v) := by
  induction h with
  | nil => exact k
  | cons h _ ih => exact .cons h ih

theorem Refs.mapM {rs : List α} {idx : List Nat} {u : List α} (h : Refs rs idx u) :
    (idx.mapM fun v => indexM rs v) = pure u := by
  induction h with
  | nil => rfl
  | cons h _ ih => rw [List.mapM_cons, indexM_eq h, pure_bind, ih, pure_bind]

/-- The stack after the values `u` were delivered to the stack entry `p`, and the results after that. -/
structure Pushed (rs rs' : List α) (S S' : List WorkNode) (p : Nat) (u : List α) (n : Nat) : Prop where
  res : ∃ new, rs' = rs ++ new ∧ new.length ≤ n
  stk : ∃ w idx, S[p]? = some w ∧ S' = S.set p { w with results := w.results ++ idx } ∧ Refs rs' idx u ∧
    idx.Pairwise (· < ·) ∧ ∀ i ∈ idx, rs.length ≤ i

namespace Pushed
variable {rs rs' rs'' : List α} {S S' S'' : List WorkNode} {p : Nat} {u v : List α} {m n : Nat}

theorem nil (hp : p < S.length) : Pushed rs rs S S p [] 0 := by
  refine ⟨⟨[], by simp, Nat.le_refl _⟩, S[p], [], List.getElem?_eq_getElem hp, ?_, .nil, .nil, by simp⟩
  rw [List.append_nil]
  exact (List.set_getElem_self hp).symm

theorem weaken (h : Pushed rs rs' S S' p u m) (hn : m ≤ n) : Pushed rs rs' S S' p u n :=
  ⟨let ⟨new, h1, h2⟩ := h.res; ⟨new, h1, Nat.le_trans h2 hn⟩, h.stk⟩

theorem length (h : Pushed rs rs' S S' p u m) : rs'.length ≤ rs.length + m := by
  obtain ⟨new, h1, h2⟩ := h.res
  rw [h1, List.length_append]; omega

theorem length_stack (h : Pushed rs rs' S S' p u m) : S'.length = S.length := by
  obtain ⟨w, idx, _, h1, _⟩ := h.stk
  rw [h1, List.length_set]

theorem append (h : Pushed rs rs' S S' p u m) (k : Pushed rs' rs'' S' S'' p v n) :
    Pushed rs rs'' S S'' p (u ++ v) (m + n) := by
  obtain ⟨new, rfl, h1⟩ := h.res
  obtain ⟨new', rfl, k1⟩ := k.res
  obtain ⟨w, idx, h2, rfl, h3, h4, h5⟩ := h.stk
  obtain ⟨w', idx', k2, rfl, k3, k4, k5⟩ := k.stk
  refine ⟨⟨new ++ new', by simp, by simp; omega⟩, w, idx ++ idx', h2, ?_, (h3.mono new').append k3, ?_, ?_⟩
  · have hp := (List.getElem?_eq_some_iff.1 h2).1
    rw [List.getElem?_set_self hp] at k2
    cases k2
    simp [List.set_set]
  · refine List.pairwise_append.2 ⟨h4, k4, fun a ha b hb => ?_⟩
    exact Nat.lt_of_lt_of_le (h3.lt a ha) (k5 b hb)
  · intro i hi
    rcases List.mem_append.1 hi with hi | hi
    · exact h5 i hi
    · have := k5 i hi; rw [List.length_append] at this; omega

/-- Values delivered below the top entry. -/
theorem inner {w : WorkNode} {S1 : List WorkNode} (h : Pushed rs rs' (S ++ [w]) S1 p u n) (hp : p < S.length) :
    ∃ S', S1 = S' ++ [w] ∧ Pushed rs rs' S S' p u n := by
  obtain ⟨w', idx, h2, rfl, h3⟩ := h.stk
  rw [List.getElem?_append_left hp] at h2
  refine ⟨_, List.set_append_left _ _ hp, h.res, w', idx, h2, rfl, h3⟩

/-- Values delivered to the top entry. -/
theorem top {w : WorkNode} {S1 : List WorkNode} (h : Pushed rs rs' (S ++ [w]) S1 S.length u n) :
    ∃ idx, S1 = S ++ [{ w with results := w.results ++ idx }] ∧ Refs rs' idx u ∧ idx.Pairwise (· < ·) ∧
      ∀ i ∈ idx, rs.length ≤ i := by
  obtain ⟨w', idx, h2, rfl, h3⟩ := h.stk
  rw [List.getElem?_append_right (Nat.le_refl _), Nat.sub_self] at h2
  cases h2
  refine ⟨idx, ?_, h3⟩
  rw [List.set_append_right _ _ (Nat.le_refl _), Nat.sub_self]
  rfl

end Pushed

theorem pushResults_eq {S : List WorkNode} {p : Nat} {w : WorkNode} (h : S[p]? = some w) (vs : List Nat) :
    pushResults S p vs = pure (S.set p { w with results := w.results ++ vs }) := by
  unfold pushResults
  rw [indexM_eq h]; rfl

/-- One new result, delivered to entry `p`. -/
theorem pushed_one {rs : List α} {S : List WorkNode} {p : Nat} (hp : p < S.length) (a : α) (hl : rs.length + 1 < 2 ^ 32) :
    ∃ S', pushResults S p [u32Pred (rs ++ [a]).length] = pure S' ∧ Pushed rs (rs ++ [a]) S S' p [a] 1 := by
  refine ⟨_, pushResults_eq (List.getElem?_eq_getElem hp) _, ⟨[a], rfl, by simp⟩, S[p], [rs.length],
    List.getElem?_eq_getElem hp, ?_, .cons (by simp) .nil, by simp, by simp⟩
  rw [u32Pred_eq (by simp; omega) (by simp)]
  simp

/-- The result of a nulling leaf. -/
theorem pushed_nulling {rs : List α} {S : List WorkNode} {p : Nat} (hp : p < S.length) (a : α) (extra : List α)
    (hl : rs.length < 2 ^ 32) :
    ∃ S', pushResults S p [u32 rs.length] = pure S' ∧ Pushed rs (rs ++ a :: extra) S S' p [a] (1 + extra.length) := by
  refine ⟨_, pushResults_eq (List.getElem?_eq_getElem hp) _, ⟨a :: extra, rfl, by simp; omega⟩, S[p], [rs.length],
    List.getElem?_eq_getElem hp, ?_, .cons (by simp) .nil, by simp, by simp⟩
  rw [u32_of_lt' hl]

/-- The results of an entry without external origin are passed on. -/
theorem pushed_pass {rs rs' : List α} {S : List WorkNode} {p n : Nat} (hp : p < S.length) {idx : List Nat} {u : List α}
    (h : ∃ new, rs' = rs ++ new ∧ new.length ≤ n) (hr : Refs rs' idx u) (hi : idx.Pairwise (· < ·))
    (hb : ∀ i ∈ idx, rs.length ≤ i) :
    ∃ S', pushResults S p idx = pure S' ∧ Pushed rs rs' S S' p u n :=
  ⟨_, pushResults_eq (List.getElem?_eq_getElem hp) _, h, S[p], idx, List.getElem?_eq_getElem hp, rfl, hr, hi, hb⟩

theorem takeResults_eq (d : α) {idx : List Nat} {rs u : List α} (h : Refs rs idx u) (hi : idx.Pairwise (· < ·)) :
    takeResults d idx rs = pure u := by
  induction idx generalizing rs u with
  | nil => cases h; rfl
  | cons i idx ih =>
    cases h with
    | cons h1 h2 =>
      rw [List.pairwise_cons] at hi
      rw [takeResults, indexM_eq h1, pure_bind, ih ?_ hi.2, pure_bind]
      have hne : ∀ j ∈ idx, i ≠ j := fun j hj => Nat.ne_of_lt (hi.1 j hj)
      clear ih hi
      induction h2 with
      | nil => exact .nil
      | cons h _ ih =>
        refine .cons ?_ (ih fun j hj => hne j (by simp [hj]))
        rw [List.getElem?_set_ne (hne _ (by simp))]
        exact h

/-- Rounds of a loop. -/
inductive Steps {σ ρ : Type} (f : σ → M (σ ⊕ ρ)) : σ → σ → Prop
  | refl (s) : Steps f s s
  | step {s t u} : f s = pure (.inl t) → Steps f t u → Steps f s u

theorem Steps.trans {σ ρ : Type} {f : σ → M (σ ⊕ ρ)} {s t u : σ} (h : Steps f s t) (k : Steps f t u) : Steps f s u := by
  induction h with
  | refl => exact k
  | step h _ ih => exact .step h (ih k)

theorem Steps.loop {σ ρ : Type} {f : σ → M (σ ⊕ ρ)} {s t : σ} (h : Steps f s t) : loop f s = Gearley.loop f t := by
  induction h with
  | refl => rfl
  | step h _ ih => rw [loop_inl h, ih]

/-- `originId` is the external number, as long as the action numbers stay below `NULL_ACTION`. -/
theorem originId_eq {info : ForestInfo} (h : info.eval.length < 2 ^ 32) (d : Nat) : info.originId d = info.origin d := by
  unfold ForestInfo.originId ForestInfo.origin
  split
  · rename_i hd
    rw [List.getElem?_eq_none (by unfold nullAction at hd; omega)]; rfl
  · rfl

end Gearley

namespace Gearley
open Gearley.Spec
variable {α : Type} {info : ForestInfo} {E : Evaluator α} {nv : Nat → List α} {nc : Nat → Nat}

/-! ### Values and costs of trees -/

def IsPair : PTree → Prop
  | .pair _ _ => True
  | _ => False

theorem treeVals_pair {d : Nat} {f : PTree} (h : IsPair f) :
    treeVals info E nv (.node d f) = applyRule info E d (treeVals info E nv f) ∧
    treeCost info nc (.node d f) = treeCost info nc f + 1 := by
  cases f <;> first | exact h.elim | exact ⟨by simp [treeVals], by simp [treeCost]⟩

theorem treeVals_other {d : Nat} {f : PTree} (h : ¬ IsPair f) :
    treeVals info E nv (.node d f) = applyRule info E d (match info.removed d with
      | none => treeVals info E nv f
      | some (s, true) => treeVals info E nv f ++ nv s
      | some (s, false) => nv s ++ treeVals info E nv f) ∧
    treeCost info nc (.node d f) = treeCost info nc f + (match info.removed d with
      | none => 0
      | some (s, _) => nc s) + 1 := by
  cases f with
  | pair a b => exact absurd trivial h
  | leaf s v | nulling s | node d' f' =>
    constructor <;> simp only [treeVals, treeCost] <;> rcases info.removed d with _ | ⟨s, _ | _⟩ <;> rfl

/-- All rules of the tree are below `k`, and it has no nulling leaves. -/
def Covered (k : Nat) : PTree → Prop
  | .leaf _ _ => True
  | .nulling _ => False
  | .pair a b => Covered k a ∧ Covered k b
  | .node d f => d < k ∧ Covered k f

theorem TreeOf.covered {R : Rules} {inp : Input} {t : PTree} {A i j : Nat} (h : TreeOf R inp t A i j) :
    Covered R.length t := by
  induction h with
  | leaf _ => trivial
  | unary hr _ ih => exact ⟨(List.getElem?_eq_some_iff.1 hr).1, ih⟩
  | binary hr _ _ ih1 ih2 => exact ⟨(List.getElem?_eq_some_iff.1 hr).1, ih1, ih2⟩

theorem sum_map_add (l : List PTree) (c : PTree → Nat) (k : Nat) (h : l ≠ []) :
    (l.map c).sum + k ≤ (l.map fun t => c t + k).sum := by
  induction l with
  | nil => exact absurd rfl h
  | cons a l ih =>
    simp only [List.map_cons, List.sum_cons]
    rcases l with _ | ⟨b, l⟩
    · simp
    · have := ih (by simp); omega

theorem sum_pairs_le (ls rs : List PTree) (hl : ls ≠ []) (hr : rs ≠ []) :
    (ls.map (treeCost info nc)).sum + (rs.map (treeCost info nc)).sum ≤ ((pairs ls rs).map (treeCost info nc)).sum := by
  have key : ∀ ls : List PTree, (ls.map fun a => treeCost info nc a + (rs.map (treeCost info nc)).sum).sum ≤
      ((pairs ls rs).map (treeCost info nc)).sum := by
    intro ls
    induction ls with
    | nil => simp
    | cons a ls ih =>
      have e : pairs (a :: ls) rs = rs.map (PTree.pair a) ++ pairs ls rs := by simp [pairs]
      rw [e, List.map_append, List.sum_append, List.map_cons, List.sum_cons]
      have h1 := sum_map_add rs (treeCost info nc) (treeCost info nc a) hr
      have h2 : (rs.map (PTree.pair a)).map (treeCost info nc) = rs.map fun t => treeCost info nc t + treeCost info nc a := by
        rw [List.map_map]
        refine List.map_congr_left fun t _ => ?_
        simp [treeCost, Nat.add_comm]
      rw [h2]
      omega
  exact Nat.le_trans (sum_map_add ls _ _ hl) (key ls)

theorem pairs_single {ls rs : List PTree} {t : PTree} (h : pairs ls rs = [t]) : ∃ a b, ls = [a] ∧ rs = [b] ∧ t = .pair a b := by
  rcases ls with _ | ⟨a, ls⟩
  · simp [pairs] at h
  rcases rs with _ | ⟨b, rs⟩
  · exfalso
    have : pairs (a :: ls) [] = [] := by simp [pairs]
    rw [this] at h; cases h
  have e : pairs (a :: ls) (b :: rs) = .pair a b :: (rs.map (PTree.pair a) ++ pairs ls (b :: rs)) := by simp [pairs]
  rw [e, List.cons.injEq, List.append_eq_nil_iff] at h
  obtain ⟨rfl, h1, h2⟩ := h
  rcases ls with _ | ⟨c, ls⟩
  · refine ⟨a, b, rfl, ?_, rfl⟩
    simpa using h1
  · simp [pairs] at h2

theorem mem_pairs {ls rs : List PTree} {t : PTree} : t ∈ pairs ls rs ↔ ∃ a ∈ ls, ∃ b ∈ rs, t = .pair a b := by
  simp only [pairs, List.mem_flatMap, List.mem_map]
  constructor
  · rintro ⟨a, ha, b, hb, rfl⟩; exact ⟨a, ha, b, hb, rfl⟩
  · rintro ⟨a, ha, b, hb, rfl⟩; exact ⟨a, ha, b, hb, rfl⟩

theorem pairs_covered {k : Nat} {ls rs : List PTree} (hl : ls ≠ []) (hr : rs ≠ []) (h : ∀ t ∈ pairs ls rs, Covered k t) :
    (∀ t ∈ ls, Covered k t) ∧ ∀ t ∈ rs, Covered k t := by
  constructor
  · intro t ht
    obtain ⟨b, hb⟩ := List.exists_mem_of_ne_nil rs hr
    exact (h _ (mem_pairs.2 ⟨t, ht, b, hb, rfl⟩)).1
  · intro t ht
    obtain ⟨a, ha⟩ := List.exists_mem_of_ne_nil ls hl
    exact (h _ (mem_pairs.2 ⟨a, ha, t, ht, rfl⟩)).2

end Gearley
