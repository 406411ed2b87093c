import Verif.Model.Heap
import Verif.Proofs.Effects

/-! # The completion queue is a max-heap: lemmas -/

namespace Gearley

namespace Item
variable {ν : Type}

theorem le_iff (a b : Item ν) :
    a.le b = true ↔ a.origin < b.origin ∨ (a.origin = b.origin ∧ a.dot ≤ b.dot) := by
  unfold le cmp
  rcases Nat.lt_trichotomy a.origin b.origin with h | h | h
  · simp [Nat.compare_eq_lt.2 h, h, Ordering.isLE, Ordering.then]
  · rw [h, Nat.compare_eq_eq.2 rfl]
    simp [Ordering.then, Nat.isLE_compare]
  · simp [Nat.compare_eq_gt.2 h, Ordering.isLE, Ordering.then]; omega

theorem ge_eq (a b : Item ν) : a.ge b = b.le a := by
  unfold ge le cmp
  rcases Nat.lt_trichotomy a.origin b.origin with h | h | h
  · simp [Nat.compare_eq_lt.2 h, Nat.compare_eq_gt.2 h, Ordering.isGE, Ordering.isLE, Ordering.then]
  · rw [h, Nat.compare_eq_eq.2 rfl]
    rcases Nat.lt_trichotomy a.dot b.dot with h | h | h
    · simp [Nat.compare_eq_lt.2 h, Nat.compare_eq_gt.2 h, Ordering.isGE, Ordering.isLE, Ordering.then]
    · rw [h, Nat.compare_eq_eq.2 rfl]; rfl
    · simp [Nat.compare_eq_lt.2 h, Nat.compare_eq_gt.2 h, Ordering.isGE, Ordering.isLE, Ordering.then]
  · simp [Nat.compare_eq_lt.2 h, Nat.compare_eq_gt.2 h, Ordering.isGE, Ordering.isLE, Ordering.then]

theorem gt_eq (a b : Item ν) : a.gt b = !a.le b := by
  unfold gt le
  cases cmp a b <;> rfl

theorem le_refl (a : Item ν) : a.le a = true := by simp [le_iff]
theorem le_trans {a b c : Item ν} (h : a.le b = true) (h' : b.le c = true) : a.le c = true := by
  simp only [le_iff] at *; omega
theorem le_total (a b : Item ν) : a.le b = true ∨ b.le a = true := by
  simp only [le_iff]; omega
theorem le_of_not {a b : Item ν} (h : ¬ a.le b = true) : b.le a = true := by
  simp only [le_iff] at *; omega
end Item

namespace Heap
variable {ν : Type}

/-- The max-heap shape: every element is at most its parent. -/
def IsHeap (l : List (Item ν)) : Prop :=
  ∀ i (h : i < l.length), 0 < i → (l[i]).le (l[(i - 1) / 2]'(by omega)) = true

theorem isHeap_nil : IsHeap ([] : List (Item ν)) := fun i h => by simp at h

theorem IsHeap.root_max {l : List (Item ν)} (hl : IsHeap l) (i : Nat) (h : i < l.length) :
    (l[i]).le (l[0]'(by omega)) = true := by
  induction i using Nat.strongRecOn with
  | _ i ih =>
    by_cases h0 : i = 0
    · subst h0; exact Item.le_refl _
    · exact Item.le_trans (hl i h (by omega)) (ih ((i-1)/2) (by omega) (by omega))

/-- swapping two positions is a permutation, in "hole" form -/
theorem hole_perm (l : List (Item ν)) (i j : Nat) (hi : i < l.length) (hj : j < l.length) (e : Item ν)
    (hij : i ≠ j) : ((l.set i l[j]).set j e).Perm (l.set i e) := by
  have h := List.set_set_perm (as := l.set i e) (i := i) (j := j) (by simpa using hi) (by simpa using hj)
  simp only [List.getElem_set, hij, if_true, if_false, List.set_set] at h
  exact h

theorem siftUpLoop_spec (e : Item ν) (fuel : Nat) (l : List (Item ν)) (pos : Nat) (hpos : pos < l.length)
    (hfuel : pos ≤ fuel)
    (h1 : ∀ i (h : i < (l.set pos e).length), 0 < i → i ≠ pos →
      ((l.set pos e)[i]).le ((l.set pos e)[(i - 1) / 2]'(by omega)) = true)
    (h2 : ∀ i (h : i < (l.set pos e).length), 0 < i → (i - 1) / 2 = pos → 0 < pos →
      ((l.set pos e)[i]).le ((l.set pos e)[(pos - 1) / 2]'(by simp; omega)) = true) :
    Returns (siftUpLoop e 0 fuel l pos) (fun l' => l'.Perm (l.set pos e) ∧ IsHeap l') := by
  induction fuel generalizing l pos with
  | zero =>
    have : pos = 0 := by omega
    subst this
    rw [siftUpLoop, setM_eq hpos]
    refine returns_pure ⟨List.Perm.refl _, fun i h hi => h1 i h hi (by omega)⟩
  | succ fuel ih =>
    rw [siftUpLoop]
    by_cases hp : pos > 0
    · rw [if_pos hp]
      have hpar : (pos - 1) / 2 < l.length := by omega
      have hne : (pos - 1) / 2 ≠ pos := by omega
      have hne' : pos ≠ (pos - 1) / 2 := by omega
      simp only [indexM_lt hpar, pure_bind]
      by_cases hle : e.le l[(pos - 1) / 2] = true
      · rw [if_pos hle, setM_eq hpos]
        refine returns_pure ⟨List.Perm.refl _, fun i h hi => ?_⟩
        by_cases hip : i = pos
        · subst hip
          simp only [List.getElem_set_self]
          rw [List.getElem_set_ne hne']
          exact hle
        · exact h1 i h hi hip
      · rw [if_neg hle, setM_eq hpos, pure_bind]
        have hle' := Item.le_of_not hle
        have hh1 : ∀ i (hi : i < l.length), i ≠ pos → (l.set pos e)[i]'(by simpa using hi) = l[i] := by
          intro i hi hne; rw [List.getElem_set_ne (fun h => hne h.symm)]
        have ih' := ih (l.set pos l[(pos - 1) / 2]) ((pos - 1)/2) (by simpa using hpar) (by omega) ?_ ?_
        · refine ih'.mono ?_
          rintro l' ⟨hperm, hheap⟩
          exact ⟨hperm.trans (hole_perm l pos _ hpos hpar e hne'), hheap⟩
        · intro i h hi hine
          simp only [List.length_set] at h
          by_cases hip : i = pos
          · subst hip
            simp only [List.getElem_set_self]
            rw [List.getElem_set_ne hne, List.getElem_set_self]
            exact hle'
          · rw [List.getElem_set_ne (fun h => hine h.symm), List.getElem_set_ne (fun h => hip h.symm)]
            have a1 := h1 i (by simpa using h) hi hip
            rw [hh1 i h hip] at a1
            by_cases hpi : (i - 1) / 2 = pos
            · -- child of pos: use h2
              have a2 := h2 i (by simpa using h) hi hpi hp
              rw [hh1 i h hip, hh1 _ hpar hne] at a2
              have hpi' : (pos - 1) / 2 ≠ (i - 1) / 2 := by omega
              simp only [List.getElem_set, hpi, hne, if_true, if_false]
              simpa using a2
            · by_cases hpp : (i - 1) / 2 = (pos - 1) / 2
              · simp only [hpp, List.getElem_set_self]
                rw [hh1 _ (by omega) hpi] at a1
                simp only [hpp] at a1
                exact Item.le_trans a1 hle'
              · rw [List.getElem_set_ne (fun h => hpp h.symm), List.getElem_set_ne (fun h => hpi h.symm)]
                rw [hh1 _ (by omega) hpi] at a1
                exact a1
        · intro i h hi hpi h0
          simp only [List.length_set] at h
          have hgg : ((pos - 1)/2 - 1)/2 ≠ pos := by omega
          have hgg' : (pos - 1)/2 ≠ ((pos - 1)/2 - 1)/2 := by omega
          have hi1 : i ≠ (pos - 1)/2 := by omega
          have b1 := h1 ((pos - 1)/2) (by simpa using hpar) h0 hne
          rw [hh1 _ hpar hne, hh1 _ (by omega) hgg] at b1
          rw [List.getElem_set_ne (fun h => hi1 h.symm), List.getElem_set_ne hgg',
            List.getElem_set_ne (fun h => hgg h.symm)]
          by_cases hip : i = pos
          · subst hip
            simp only [List.getElem_set_self]
            exact b1
          · rw [List.getElem_set_ne (fun h => hip h.symm)]
            have a1 := h1 i (by simpa using h) hi hip
            rw [hh1 i h hip, hh1 _ (by omega) (by omega)] at a1
            simp only [hpi] at a1
            exact Item.le_trans a1 b1
    · rw [if_neg hp, setM_eq hpos]
      have : pos = 0 := by omega
      subst this
      exact returns_pure ⟨List.Perm.refl _, fun i h hi => h1 i h hi (by omega)⟩

/-- `heap_push` keeps the multiset plus the new item, and the heap shape. -/
theorem push_spec (l : List (Item ν)) (x : Item ν) (hl : IsHeap l) :
    Returns (push l x) (fun l' => l'.Perm (x :: l) ∧ IsHeap l') := by
  have hlen : l.length < (l ++ [x]).length := by simp
  have hx : (l ++ [x])[l.length] = x := by simp
  have hset : (l ++ [x]).set l.length x = l ++ [x] := by simp
  rw [push, siftUp, indexM_lt hlen, pure_bind, hx]
  refine (siftUpLoop_spec x l.length (l ++ [x]) l.length hlen (Nat.le_refl _) ?_ ?_).mono ?_
  · intro i h hi hne
    simp only [hset] at h ⊢
    have hil : i < l.length := by simp at h; omega
    rw [List.getElem_append_left hil, List.getElem_append_left (by omega)]
    exact hl i hil hi
  · intro i h hi hp h0
    simp at h; omega
  · rintro l' ⟨hp, hh⟩
    rw [hset] at hp
    exact ⟨hp.trans (List.perm_append_comm.trans (by simp)), hh⟩

theorem siftDownLoop_spec (e : Item ν) (fuel : Nat) (l : List (Item ν)) (pos : Nat) (hpos : pos < l.length)
    (hfuel : l.length ≤ fuel + pos)
    (h1 : ∀ i (h : i < (l.set pos e).length), 0 < i → (i - 1) / 2 ≠ pos →
      ((l.set pos e)[i]).le ((l.set pos e)[(i - 1) / 2]'(by omega)) = true)
    (h2 : ∀ i (h : i < (l.set pos e).length), 0 < i → (i - 1) / 2 = pos → 0 < pos →
      ((l.set pos e)[i]).le ((l.set pos e)[(pos - 1) / 2]'(by simp; omega)) = true) :
    Returns (siftDownLoop e l.length fuel l pos) (fun l' => l'.Perm (l.set pos e) ∧ IsHeap l') := by
  induction fuel generalizing l pos with
  | zero => omega
  | succ fuel ih =>
    rw [siftDownLoop]
    by_cases hc : 2 * pos + 1 < l.length
    · simp only [if_pos hc]
      -- the chosen child
      have hch : ∃ c, ∃ (hcl : c < l.length), (c - 1) / 2 = pos ∧ 0 < c ∧
          (∀ i (hi : i < l.length), 0 < i → (i - 1) / 2 = pos → (l[i]).le l[c] = true) ∧
          (if 2 * pos + 1 + 1 < l.length then do
            let a ← unwrapM l[2 * pos + 1]?
            let b ← unwrapM l[2 * pos + 1 + 1]?
            pure (if (!(Item.gt a b)) = true then 2 * pos + 1 + 1 else 2 * pos + 1)
          else pure (2 * pos + 1) : M Nat) = pure c := by
        by_cases hr : 2 * pos + 1 + 1 < l.length
        · rw [if_pos hr, List.getElem?_eq_getElem hc, List.getElem?_eq_getElem hr, unwrapM_some, unwrapM_some,
            pure_bind, pure_bind, Item.gt_eq, Bool.not_not]
          by_cases hab : (l[2 * pos + 1]).le l[2 * pos + 1 + 1] = true
          · refine ⟨2 * pos + 1 + 1, hr, by omega, by omega, ?_, by rw [if_pos hab]⟩
            intro i hi h0 hip
            have : i = 2 * pos + 1 ∨ i = 2 * pos + 1 + 1 := by omega
            rcases this with rfl | rfl
            · exact hab
            · exact Item.le_refl _
          · refine ⟨2 * pos + 1, hc, by omega, by omega, ?_, by rw [if_neg hab]⟩
            intro i hi h0 hip
            have : i = 2 * pos + 1 ∨ i = 2 * pos + 1 + 1 := by omega
            rcases this with rfl | rfl
            · exact Item.le_refl _
            · exact Item.le_of_not hab
        · refine ⟨2 * pos + 1, hc, by omega, by omega, ?_, by rw [if_neg hr]⟩
          intro i hi h0 hip
          have : i = 2 * pos + 1 := by omega
          subst this
          exact Item.le_refl _
      obtain ⟨c, hcl, hcp, hc0, hcmax, hceq⟩ := hch
      have hcpos : c ≠ pos := by omega
      have hposc : pos ≠ c := by omega
      rw [hceq, pure_bind, List.getElem?_eq_getElem hcl, unwrapM_some, pure_bind]
      have hh1 : ∀ i (hi : i < l.length), i ≠ pos → (l.set pos e)[i]'(by simpa using hi) = l[i] := by
        intro i hi hne; rw [List.getElem_set_ne (fun h => hne h.symm)]
      by_cases hge : e.ge l[c] = true
      · rw [if_pos hge, setM_eq hpos]
        refine returns_pure ⟨List.Perm.refl _, fun i h hi => ?_⟩
        by_cases hip : (i - 1) / 2 = pos
        · simp only [List.length_set] at h
          rw [hh1 i h (by omega)]
          simp only [hip, List.getElem_set_self]
          rw [Item.ge_eq] at hge
          exact Item.le_trans (hcmax i h hi hip) hge
        · exact h1 i h hi hip
      · rw [if_neg hge, setM_eq hpos, pure_bind]
        have hlt : e.le l[c] = true := by
          rw [Item.ge_eq] at hge; exact Item.le_of_not hge
        have hlen' : (l.set pos l[c]).length = l.length := by simp
        have ih' := ih (l.set pos l[c]) c (by simpa using hcl) (by simp; omega) ?_ ?_
        · rw [hlen'] at ih'
          refine ih'.mono ?_
          rintro l' ⟨hperm, hheap⟩
          exact ⟨hperm.trans (hole_perm l pos c hpos hcl e hposc), hheap⟩
        · intro i h hi hine
          simp only [List.length_set] at h
          by_cases hipos : (i - 1) / 2 = pos
          · -- i is a child of pos; parent now holds l[c]
            simp only [hipos]
            rw [List.getElem_set_ne hcpos, List.getElem_set_self]
            by_cases hic : i = c
            · subst hic
              rw [List.getElem_set_self]
              exact hlt
            · rw [List.getElem_set_ne (fun h => hic h.symm), List.getElem_set_ne (by omega)]
              exact hcmax i h hi hipos
          · have a1 := h1 i (by simpa using h) hi hipos
            rw [hh1 _ (by omega) hipos] at a1
            rw [List.getElem_set_ne (fun h => hine h.symm), List.getElem_set_ne (fun h => hipos h.symm)]
            by_cases hip : i = pos
            · subst hip
              rw [List.getElem_set_ne hcpos, List.getElem_set_self]
              have b := h2 c (by simpa using hcl) hc0 hcp hi
              rw [hh1 c hcl hcpos, hh1 _ (by omega) hipos] at b
              exact b
            · by_cases hic : i = c
              · subst hic; omega
              · rw [List.getElem_set_ne (fun h => hic h.symm), List.getElem_set_ne (fun h => hip h.symm)]
                rw [hh1 i h hip] at a1
                exact a1
        · intro i h hi hip h0
          simp only [List.length_set] at h
          have hic : i ≠ c := by omega
          have hipos : i ≠ pos := by omega
          rw [List.getElem_set_ne (fun h => hic h.symm), List.getElem_set_ne (fun h => hipos h.symm)]
          simp only [hcp]
          rw [List.getElem_set_ne hcpos, List.getElem_set_self]
          have a1 := h1 i (by simpa using h) hi (by omega)
          rw [hh1 i h hipos, hh1 _ (by omega) (by omega)] at a1
          simp only [hip] at a1
          exact a1
    · simp only [if_neg hc]
      rw [setM_eq hpos]
      refine returns_pure ⟨List.Perm.refl _, fun i h hi => h1 i h hi ?_⟩
      simp at h; omega

/-- `heap_pop` returns a maximal item, keeps the rest of the multiset, and the heap shape. -/
theorem pop_spec (l : List (Item ν)) (hl : IsHeap l) :
    match l with
    | [] => pop l = pure ([], none)
    | root :: _ => Returns (pop l) (fun r => r.2 = some root ∧ l.Perm (root :: r.1) ∧ IsHeap r.1) := by
  match l, hl with
  | [], _ => rfl
  | [root], _ => exact returns_pure ⟨rfl, List.Perm.refl _, isHeap_nil⟩
  | root :: a :: tl', hl =>
    have hpop : pop (root :: a :: tl') = (do
        let l' ← siftDownRange (((root :: (a :: tl').dropLast)).set 0 ((a :: tl').getLast (by simp))) 0
          (root :: (a :: tl').dropLast).length
        pure (l', some root)) := rfl
    have hsplit : (a :: tl').dropLast ++ [(a :: tl').getLast (by simp)] = a :: tl' :=
      List.dropLast_concat_getLast (by simp)
    simp only [hpop]
    generalize (a :: tl').getLast (by simp) = x at *
    generalize (a :: tl').dropLast = r at *
    simp only [List.set_cons_zero]
    rw [siftDownRange, indexM_lt (by simp), pure_bind]
    simp only [List.getElem_cons_zero]
    have hlen : (root :: r).length = (x :: r).length := by simp
    rw [hlen]
    have hs := siftDownLoop_spec x (x :: r).length (x :: r) 0 (by simp) (by simp) ?_ ?_
    · refine returns_bind (hs.mono ?_)
      rintro l' ⟨hp, hh⟩
      refine returns_pure ⟨rfl, ?_, hh⟩
      simp only [List.set_cons_zero] at hp
      rw [← hsplit]
      refine List.Perm.cons _ (List.Perm.trans ?_ hp.symm)
      exact List.perm_append_comm.trans (by simp)
    · intro i h hi hpi
      simp only [List.set_cons_zero, List.length_cons] at h ⊢
      have hlen2 : (a :: tl').length = r.length + 1 := by rw [← hsplit]; simp
      have hlen3 : (root :: a :: tl').length = r.length + 2 := by
        rw [List.length_cons, hlen2]
      have hg : ∀ j (hj : j < (x :: r).length) (h0 : 0 < j),
          (x :: r)[j] = (root :: a :: tl')[j]'(by simp only [List.length_cons] at hj; omega) := by
        intro j hj h0
        obtain ⟨k, rfl⟩ : ∃ k, j = k + 1 := ⟨j - 1, by omega⟩
        simp only [List.getElem_cons_succ]
        have hk : k < r.length := by simpa using hj
        have : (a :: tl')[k]'(by omega) = (r ++ [x])[k]'(by simp; omega) := by
          simp only [hsplit]
        rw [this, List.getElem_append_left hk]
      rw [hg i h hi, hg ((i-1)/2) (by simp only [List.length_cons]; omega) (by omega)]
      exact hl i (by omega) hi
    · intro i h hi hp h0
      omega

end Heap
end Gearley
