import Verif.Proofs.Groups

/-!
# Queued items of one group are about different rules or different splits

Two queued items with the same rule and the same origin come from different source sets, so their trees are split at
different places.
-/

namespace Gearley
open Gearley.Spec

/-- Where the first symbol of a two-symbol rule ends, counted from its start. -/
def treeSplit : PTree → Option Nat
  | .pair l _ => some l.width
  | _ => none

/-- Two summands (rule, trees) with no rule and split in common. -/
def Sep (x y : Nat × List PTree) : Prop := x.1 = y.1 → ∀ t ∈ x.2, ∀ u ∈ y.2, treeSplit t ≠ treeSplit u

theorem Sep.symm {x y : Nat × List PTree} (h : Sep x y) : Sep y x := fun e t ht u hu he => h e.symm u hu t ht he.symm

/-- The same for queued items with the same origin. -/
def SepI (x y : TItem) : Prop := x.origin = y.origin → Sep (x.dot, x.node) (y.dot, y.node)

theorem SepI.symm {x y : TItem} (h : SepI x y) : SepI y x := fun e => (h e.symm).symm

/-- The last symbol of rule `d`. -/
def lastOf (R : Rules) (d : Nat) : Option Nat := R[d]?.map fun r => r.rhs1.getD r.rhs0

namespace EC
variable {c : EC}

/-- The queued item `y` was created from set `k`, when the last symbol of its rule was finished. -/
def Src (c : EC) (loc : List Nat) (y : TItem) (k : Nat) : Prop :=
  (rhs1Of c.R y.dot = none → k = y.origin) ∧
  (rhs1Of c.R y.dot ≠ none → ∀ t ∈ y.node, ∃ a p, treeSplit t = some a ∧ loc[y.origin]? = some p ∧ loc[k]? = some (p + a))

/-- The group `(k, A)` will not come up any more. -/
def Past (c : EC) (toks pre : List (Nat × Nat)) (heap : List TItem) (k A : Nat) : Prop :=
  (A ∈ pre.map (·.1) ∧ Terminal c.R A) ∨ (pre = toks ∧ ∀ it ∈ heap, KeyLt (keyOf c.R it) (k, A))

/-- All queued items are separate. -/
def JSep (c : EC) (loc : List Nat) (toks pre : List (Nat × Nat)) (heap _cur : List TItem) : Prop :=
  heap.Pairwise SepI ∧ ∀ y ∈ heap, ∃ k A, lastOf c.R y.dot = some A ∧ c.Src loc y k ∧ c.Past toks pre heap k A

/-- The sets of the chart are about the input. -/
structure LocOK (c : EC) (loc : List Nat) : Prop where
  mono : loc.Pairwise (· < ·)
  fact : ∀ (k : Nat) (l : List TItem), c.S[k]? = some l → ∀ it ∈ l, ∀ t ∈ it.node, ∃ p, loc[it.origin]? = some p ∧
    loc[k]? = some (p + t.width)
  once : ∀ l ∈ c.S, (l.map dotOrigin).Nodup

theorem mem_heapNew {o A : Nat} {N : List PTree} {y : TItem}
    (h : y ∈ heapNew c.g c.R c.root c.la c.hint c.pm c.S o A N) :
    (∃ x ∈ c.S[o]?.getD [], rhs1Of c.R x.dot = some A ∧ y = ⟨x.dot, x.origin, pairs x.node N⟩) ∨
    (∃ r, c.R[y.dot]? = some r ∧ r.rhs0 = A ∧ r.rhs1 = none ∧ y = ⟨y.dot, o, N⟩) := by
  simp only [heapNew] at h
  split at h
  · rcases List.mem_append.1 h with h | h
    · simp only [medPart, List.mem_map, List.mem_filter, Bool.and_eq_true, decide_eq_true_eq] at h
      obtain ⟨x, ⟨hx, h1, _⟩, rfl⟩ := h
      exact .inl ⟨x, hx, h1, rfl⟩
    · simp only [unPart, List.mem_map, List.mem_filter] at h
      obtain ⟨p, ⟨hp, _⟩, rfl⟩ := h
      obtain ⟨r, h1, h2, h3, _⟩ := mem_unTrans.1 hp
      exact .inr ⟨r, h1, h2, h3, rfl⟩
  · simp at h

theorem heapNew_last {o A : Nat} {N : List PTree} {y : TItem}
    (h : y ∈ heapNew c.g c.R c.root c.la c.hint c.pm c.S o A N) : lastOf c.R y.dot = some A := by
  rcases mem_heapNew h with ⟨x, _, hx, rfl⟩ | ⟨r, h1, h2, h3, _⟩
  · simp only [rhs1Of] at hx
    cases hr : c.R[x.dot]? with
    | none => simp [hr] at hx
    | some r => simp [hr] at hx; simp [lastOf, hr, hx]
  · simp [lastOf, h1, h2, h3]

theorem heapNew_src {loc : List Nat} (hl : c.LocOK loc) {o A : Nat} {N : List PTree} {y : TItem}
    (h : y ∈ heapNew c.g c.R c.root c.la c.hint c.pm c.S o A N) : c.Src loc y o := by
  rcases mem_heapNew h with ⟨x, hx, h1, rfl⟩ | ⟨r, h1, h2, h3, h4⟩
  · refine ⟨fun h => by simp [h1] at h, fun _ t ht => ?_⟩
    simp only [pairs, List.mem_flatMap, List.mem_map] at ht
    obtain ⟨a, ha, b, hb, rfl⟩ := ht
    cases hS : c.S[o]? with
    | none => simp [hS] at hx
    | some l =>
      rw [hS] at hx
      obtain ⟨p, h2, h3⟩ := hl.fact o l hS x hx a ha
      exact ⟨a.width, p, rfl, h2, h3⟩
  · refine ⟨fun _ => by rw [h4], fun h => ?_⟩
    simp [rhs1Of, h1, h3] at h

theorem heapNew_sep {loc : List Nat} (hl : c.LocOK loc) (o A : Nat) (N : List PTree) :
    (heapNew c.g c.R c.root c.la c.hint c.pm c.S o A N).Pairwise SepI := by
  simp only [heapNew]
  split
  swap
  · exact .nil
  rw [List.pairwise_append]
  refine ⟨?_, ?_, ?_⟩
  · simp only [medPart, List.pairwise_map]
    have h1 : ((c.S[o]?.getD []).map dotOrigin).Nodup := by
      cases hS : c.S[o]? with
      | none => simp
      | some l => exact hl.once l (List.mem_of_getElem? hS)
    have h2 : (c.S[o]?.getD []).Pairwise fun x y => dotOrigin x ≠ dotOrigin y := List.pairwise_map.1 h1
    exact (h2.sublist List.filter_sublist).imp fun {x y} h he hd => absurd (by simp [dotOrigin] at *; exact ⟨hd, he⟩) h
  · simp only [unPart, List.pairwise_map]
    have h2 : (unTrans c.R c.root A).Pairwise fun x y => x.dot ≠ y.dot := List.pairwise_map.1 (unTrans_dots_nodup c.R c.root A)
    exact (h2.sublist List.filter_sublist).imp fun {x y} h he hd => absurd hd h
  · intro x hx y hy _ hd
    simp only [medPart, List.mem_map, List.mem_filter, Bool.and_eq_true, decide_eq_true_eq] at hx
    obtain ⟨x, ⟨_, h1, _⟩, rfl⟩ := hx
    simp only [unPart, List.mem_map, List.mem_filter] at hy
    obtain ⟨p, ⟨hp, _⟩, rfl⟩ := hy
    obtain ⟨r, h2, _, h3, _⟩ := mem_unTrans.1 hp
    simp only at hd
    simp [rhs1Of, hd, h2, h3] at h1

/-- Items from different sets, or with different last symbols, are separate. -/
theorem sep_of_src {loc : List Nat} (hl : c.LocOK loc) {x y : TItem} {k k' A A' : Nat} (hx : c.Src loc x k)
    (hy : c.Src loc y k') (ax : lastOf c.R x.dot = some A) (ay : lastOf c.R y.dot = some A')
    (hne : A = A' → k ≠ k') : SepI x y := by
  intro he hd t ht u hu hs
  simp only at hd ht hu
  rw [hd, ay, Option.some.injEq] at ax
  have hne := hne ax.symm
  by_cases h1 : rhs1Of c.R x.dot = none
  · have e1 := hx.1 h1
    have e2 := hy.1 (by rw [← hd]; exact h1)
    exact hne (by rw [e1, e2, he])
  · obtain ⟨a, p, e1, e2, e3⟩ := hx.2 h1 t ht
    obtain ⟨a', p', e1', e2', e3'⟩ := hy.2 (by rw [← hd]; exact h1) u hu
    rw [hs, e1', Option.some.injEq] at e1
    rw [he, e2', Option.some.injEq] at e2
    subst e1 e2
    exact hne (loc_inj hl.mono e3 e3')

theorem pairwise_sepI_perm {l l' : List TItem} (h : l.Perm l') (hl : l.Pairwise SepI) : l'.Pairwise SepI :=
  h.pairwise hl SepI.symm

theorem keeps_sep (hc : c.OK) {loc : List Nat} (hl : c.LocOK loc) (ho : Ordered c.R) {toks : List (Nat × Nat)}
    (hnd : (toks.map (·.1)).Nodup) (hterm : ∀ t ∈ toks, Terminal c.R t.1) : c.Keeps toks (c.JSep loc toks) where
  init := ⟨.nil, by simp⟩
  scan := by
    intro pre post a v heap heap' cur htoks hJ hheap hp
    obtain ⟨h1, h2⟩ := hJ
    have hpre : pre ≠ toks := by
      intro h; rw [← h] at htoks; simp at htoks
    have hta := hterm (a, v) (by rw [htoks]; simp)
    have hfresh : a ∉ pre.map (·.1) := by
      rw [htoks, List.map_append, List.map_cons, List.nodup_append] at hnd
      exact fun h => hnd.2.2 _ h _ (by simp) rfl
    refine ⟨pairwise_sepI_perm hp.symm (List.pairwise_append.2 ⟨h1, heapNew_sep hl _ _ _, ?_⟩), ?_⟩
    · intro x hx y hy
      obtain ⟨k, A, h3, h4, h5⟩ := h2 x hx
      refine sep_of_src hl h4 (heapNew_src hl hy) h3 (heapNew_last hy) ?_
      rintro rfl
      rcases h5 with ⟨h5, _⟩ | ⟨h5, _⟩
      · exact absurd h5 hfresh
      · exact absurd h5 hpre
    · intro y hy
      rcases List.mem_append.1 (hp.mem_iff.1 hy) with h | h
      · obtain ⟨k, A, h3, h4, h5⟩ := h2 y h
        refine ⟨k, A, h3, h4, .inl ?_⟩
        rcases h5 with ⟨h5, h6⟩ | ⟨h5, _⟩
        · exact ⟨by rw [List.map_append]; exact List.mem_append_left _ h5, h6⟩
        · exact absurd h5 hpre
      · exact ⟨_, a, heapNew_last h, heapNew_src hl h, .inl ⟨by simp, hta⟩⟩
  step := by
    intro heap heap' cur G rest o A hJ hG hperm hheap hkey hrest hp
    obtain ⟨h1, h2⟩ := hJ
    obtain ⟨it, G', rfl⟩ := List.exists_cons_of_ne_nil hG
    have hit : it ∈ heap := hperm.mem_iff.2 (by simp)
    have hkit := hkey it (by simp)
    obtain ⟨hn, hlt, r, hr⟩ := hheap it hit
    simp only [keyOf, lhsOf_eq hr, Prod.mk.injEq] at hkit
    obtain ⟨rfl, rfl⟩ := hkit
    have hnt : ¬ Terminal c.R r.lhs := fun h => h r (List.mem_of_getElem? hr) rfl
    have hN : (it :: G').flatMap sumTrees ≠ [] := by
      simp only [List.flatMap_cons, ne_eq, List.append_eq_nil_iff, sumTrees, List.map_eq_nil_iff, hn, false_and,
        not_false_iff]
    have hnew : ∀ y ∈ heap', KeyLt (keyOf c.R y) (it.origin, r.lhs) := by
      intro y hy
      rcases List.mem_append.1 (hp.mem_iff.1 hy) with h | h
      · exact hrest y h
      · obtain ⟨_, _, r', e1, e2⟩ := heapNew_items hc hlt hN y h
        rcases e2 with e2 | ⟨e2, e3, e4⟩
        · simp only [KeyLt, keyOf]; omega
        · have := ho r' (List.mem_of_getElem? e1) e3
          simp only [KeyLt, keyOf, lhsOf_eq e1]; omega
    have hrs : ∀ x ∈ rest, x ∈ heap := fun x hx => hperm.mem_iff.2 (List.mem_append_right _ hx)
    refine ⟨pairwise_sepI_perm hp.symm (List.pairwise_append.2 ⟨?_, heapNew_sep hl _ _ _, ?_⟩), ?_⟩
    · exact (List.pairwise_append.1 (pairwise_sepI_perm hperm h1)).2.1
    · intro x hx y hy
      obtain ⟨k, A, h3, h4, h5⟩ := h2 x (hrs x hx)
      refine sep_of_src hl h4 (heapNew_src hl hy) h3 (heapNew_last hy) ?_
      rintro rfl rfl
      rcases h5 with ⟨_, h5⟩ | ⟨_, h5⟩
      · exact hnt h5
      · have := h5 it hit
        simp only [KeyLt, keyOf, lhsOf_eq hr] at this; omega
    · intro y hy
      rcases List.mem_append.1 (hp.mem_iff.1 hy) with h | h
      · obtain ⟨k, A, h3, h4, h5⟩ := h2 y (hrs y h)
        refine ⟨k, A, h3, h4, ?_⟩
        rcases h5 with h5 | ⟨h5, h6⟩
        · exact .inl h5
        · refine .inr ⟨h5, fun x hx => ?_⟩
          have e1 := hnew x hx
          have e2 := h6 it hit
          simp only [KeyLt, keyOf, lhsOf_eq hr] at e1 e2 ⊢; omega
      · exact ⟨_, r.lhs, heapNew_last h, heapNew_src hl h, .inr ⟨rfl, hnew⟩⟩

end EC
end Gearley
