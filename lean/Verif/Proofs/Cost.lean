import Mathlib.Algebra.BigOperators.Group.Finset.Basic
import Mathlib.Algebra.Order.BigOperators.Group.Finset
import Verif.Spec.Counting
import Verif.Proofs.Groups

/-! # The number of forest operations -/

namespace Gearley
open Gearley.Spec
variable {σ ν : Type}

/-- A counted forest does not panic if the forest does not. -/
theorem counting_safe {F : ForestOps σ ν} {f : σ} {dots syms : Nat} (h : SafeStart F f dots syms) (k : Nat) :
    SafeStart (counting F) (f, k) dots syms := by
  obtain ⟨okDot, okLeaf, S, w, hI, hd, hl⟩ := h
  refine ⟨okDot, okLeaf,
    { γ := S.γ, le := S.le, refl := S.refl, trans := S.trans, Valid := S.Valid, mono := S.mono,
      Idle := fun w s => S.Idle w s.1, Summing := fun w k s => S.Summing w k s.1,
      beginSum := ?_, pushSummand := ?_, sum := ?_, product := ?_, leaf := ?_ }, w, hI, hd, hl⟩
  · intro w s h
    obtain ⟨s', h1, h2⟩ := S.beginSum h
    exact ⟨(s', s.2 + 1), by simp only [counting, h1, pure_bind], h2⟩
  · intro w k s d o a h h' h''
    obtain ⟨s', h1, h2⟩ := S.pushSummand (o := o) h h' h''
    exact ⟨(s', s.2 + 1), by simp only [counting, h1, pure_bind], h2⟩
  · intro w k s lhs o h h'
    obtain ⟨s', n, h1, h2⟩ := S.sum (lhs := lhs) (o := o) h h'
    exact ⟨(s', s.2 + 1), n, by simp only [counting, h1, pure_bind], h2⟩
  · intro w s a c h h' h''
    obtain ⟨s', n, h1, h2⟩ := S.product h h' h''
    exact ⟨(s', s.2 + 1), n, by simp only [counting, h1, pure_bind], h2⟩
  · intro w s sym pos val h h'
    obtain ⟨s', n, h1, h2⟩ := S.leaf (pos := pos) h h'
    exact ⟨(s', s.2 + 1), n, by simp only [counting, h1, pure_bind], h2⟩

/-! ### Lengths of the queue -/

theorem setM_length {α : Type} {l l' : List α} {i : Nat} {x : α} (h : setM l i x = pure l') : l'.length = l.length := by
  unfold setM at h
  split at h
  · rw [← pure_inj_M h]; simp
  · exact absurd h panicM_ne_pure

namespace Heap

theorem siftUpLoop_length {e : Item ν} {start : Nat} : ∀ (n : Nat) {l l' : List (Item ν)} {pos : Nat},
    siftUpLoop e start n l pos = pure l' → l'.length = l.length := by
  intro n
  induction n with
  | zero => intro l l' pos h; exact setM_length h
  | succ n ih =>
    intro l l' pos h
    unfold siftUpLoop at h
    split at h
    · obtain ⟨p, _, h⟩ := bind_eq_pure h
      split at h
      · exact setM_length h
      · obtain ⟨l1, h1, h⟩ := bind_eq_pure h
        rw [ih h, setM_length h1]
    · exact setM_length h

theorem push_length {l l' : List (Item ν)} {x : Item ν} (h : push l x = pure l') : l'.length = l.length + 1 := by
  unfold push siftUp at h
  obtain ⟨e, _, h⟩ := bind_eq_pure h
  rw [siftUpLoop_length _ h]; simp

theorem siftDownLoop_length {e : Item ν} {hi : Nat} : ∀ (n : Nat) {l l' : List (Item ν)} {pos : Nat},
    siftDownLoop e hi n l pos = pure l' → l'.length = l.length := by
  intro n
  induction n with
  | zero => intro l l' pos h; exact setM_length h
  | succ n ih =>
    intro l l' pos h
    unfold siftDownLoop at h
    dsimp only at h
    split at h
    · obtain ⟨c, _, h⟩ := bind_eq_pure h
      obtain ⟨x, _, h⟩ := bind_eq_pure h
      split at h
      · exact setM_length h
      · obtain ⟨l1, h1, h⟩ := bind_eq_pure h
        rw [ih h, setM_length h1]
    · exact setM_length h

theorem pop_length {l : List (Item ν)} {r : List (Item ν) × Option (Item ν)} (h : pop l = pure r) :
    r.1.length = l.length - 1 := by
  unfold pop at h
  split at h
  · next hl =>
    have := pure_inj_M h
    rw [← this]
    rw [List.getLast?_eq_none_iff] at hl
    simp [hl]
  · dsimp only at h
    split at h
    · next hr =>
      rw [← pure_inj_M h, ← List.length_dropLast, hr]
    · next root tl hr =>
      obtain ⟨l1, h1, h⟩ := bind_eq_pure h
      rw [← pure_inj_M h]
      unfold siftDownRange at h1
      obtain ⟨e, _, h1⟩ := bind_eq_pure h1
      rw [siftDownLoop_length _ h1, List.length_set, List.length_dropLast]

theorem pushAll_length {xs : List (Item ν)} : ∀ {l l' : List (Item ν)}, xs.foldlM push l = pure l' →
    l'.length = l.length + xs.length := by
  induction xs with
  | nil => intro l l' h; rw [← pure_inj_M h]; simp
  | cons x xs ih =>
    intro l l' h
    rw [List.foldlM_cons] at h
    obtain ⟨l1, h1, h⟩ := bind_eq_pure h
    rw [ih h, push_length h1, List.length_cons]; omega

end Heap

/-! ### Cost of the parts of the completion pass -/

namespace Rec
variable {E : Env σ ν}

/-- Operations so far, and one more for each queued item. -/
def cost (s : Rec (σ × Nat) ν) : Nat := s.forest.2 + s.complete.length

theorem takeWhileM_prefix {α : Type} {p : α → M Bool} : ∀ {l r : List α}, takeWhileM p l = pure r →
    r.Sublist l ∧ ∀ x ∈ r, p x = pure true := by
  intro l
  induction l with
  | nil => intro r h; rw [← pure_inj_M h]; simp
  | cons x l ih =>
    intro r h
    unfold takeWhileM at h
    obtain ⟨b, h1, h⟩ := bind_eq_pure h
    cases b with
    | false =>
      simp only [Bool.false_eq_true, if_false] at h
      rw [← pure_inj_M h]; simp
    | true =>
      simp only [if_true] at h
      obtain ⟨r1, h2, h⟩ := bind_eq_pure h
      rw [← pure_inj_M h]
      obtain ⟨h3, h4⟩ := ih h2
      refine ⟨h3.cons_cons x, ?_⟩
      intro y hy
      rcases List.mem_cons.1 hy with rfl | hy
      · exact h1
      · exact h4 y hy

theorem medialMatches_sub {E : Env σ ν} {set items : List (Item ν)} {sym : Nat} (h : medialMatches E set sym = pure items) :
    items.Sublist set ∧ ∀ x ∈ items, E.g.getRhs1 x.dot = pure (some sym) := by
  unfold medialMatches at h
  obtain ⟨i, _, h⟩ := bind_eq_pure h
  obtain ⟨tail, h1, h⟩ := bind_eq_pure h
  obtain ⟨h2, h3⟩ := takeWhileM_prefix h
  constructor
  · refine h2.trans ?_
    unfold sliceFromM at h1
    split at h1 <;> split at h1
    · rw [← pure_inj_M h1]; exact List.drop_sublist _ _
    · exact absurd h1 panicM_ne_pure
    · rw [← pure_inj_M h1]; exact List.drop_sublist _ _
    · exact absurd h1 panicM_ne_pure
  · intro x hx
    obtain ⟨r, h4, h5⟩ := bind_eq_pure (h3 x hx)
    rw [h4]
    have := pure_inj_M h5
    rw [of_decide_eq_true this]

theorem completeMedialItem_cost {n : ν} {s s' : Rec (σ × Nat) ν} {item : Item ν}
    (h : completeMedialItem E.counting n s item = pure s') : s'.cost ≤ s.cost + 2 := by
  unfold completeMedialItem at h
  obtain ⟨u, _, h⟩ := bind_eq_pure h
  split at h
  · obtain ⟨⟨f, m⟩, h1, h⟩ := bind_eq_pure h
    obtain ⟨heap, h2, h⟩ := bind_eq_pure h
    rw [← pure_inj_M h]
    obtain ⟨⟨f', m'⟩, _, h3⟩ := bind_eq_pure (show (E.F.product s.forest.1 item.node n >>= fun r =>
      pure ((r.1, s.forest.2 + 1), r.2)) = pure (f, m) from h1)
    have := pure_inj_M h3
    simp only [Prod.mk.injEq] at this
    simp only [cost, Heap.push_length h2, ← this.1]
    omega
  · rw [← pure_inj_M h]; omega

theorem completeMedialFold_cost {n : ν} {items : List (Item ν)} : ∀ {s s' : Rec (σ × Nat) ν},
    items.foldlM (completeMedialItem E.counting n) s = pure s' → s'.cost ≤ s.cost + 2 * items.length := by
  induction items with
  | nil => intro s s' h; rw [← pure_inj_M h]; simp
  | cons x l ih =>
    intro s s' h
    rw [List.foldlM_cons] at h
    obtain ⟨s1, h1, h⟩ := bind_eq_pure h
    have := ih h
    have := completeMedialItem_cost h1
    simp only [List.length_cons]; omega

theorem completeMedialItems_cost {n : ν} {s s' : Rec (σ × Nat) ν} {o A : Nat}
    (h : completeMedialItems E.counting s o A n = pure s') :
    ∃ set, ∃ items : List (Item ν), s.medial.index o = pure set ∧ items.Sublist set ∧
      (∀ x ∈ items, E.g.getRhs1 x.dot = pure (some A)) ∧ s'.cost ≤ s.cost + 2 * items.length := by
  unfold completeMedialItems at h
  obtain ⟨set, h1, h⟩ := bind_eq_pure h
  obtain ⟨items, h2, h⟩ := bind_eq_pure h
  obtain ⟨h3, h4⟩ := medialMatches_sub h2
  exact ⟨set, items, h1, h3, h4, completeMedialFold_cost h⟩

theorem last_length {α : Type} {v : Vec2d α} {l : List α} (h : v.last = pure l) :
    ∃ i, v.indices.getLast? = some i ∧ i ≤ v.chart.length ∧ l.length = v.chart.length - i := by
  unfold Vec2d.last at h
  obtain ⟨i, h1, h⟩ := bind_eq_pure h
  refine ⟨i, ?_, ?_⟩
  · cases hx : v.indices.getLast? with
    | none => rw [hx] at h1; exact absurd h1 panicM_ne_pure
    | some j => rw [hx] at h1; rw [pure_inj_M h1]
  · unfold sliceFromM at h
    split at h
    · next hi => rw [← pure_inj_M h, List.length_drop]; exact ⟨hi, rfl⟩
    · exact absurd h panicM_ne_pure

theorem completePredictions_loop {n : ν} {o : Nat} : ∀ {comps : List PT} {p q : Rec (σ × Nat) ν × Nat},
    comps.foldlM (completePrediction E.counting o n) p = pure q →
    q.1.forest = p.1.forest ∧ q.1.complete = p.1.complete ∧ q.1.medial.indices = p.1.medial.indices ∧
    q.1.medial.chart.length ≤ p.1.medial.chart.length + comps.length ∧ p.2 ≤ q.2 := by
  intro comps
  induction comps with
  | nil => intro p q h; rw [← pure_inj_M h]; simp
  | cons x l ih =>
    intro p q h
    rw [List.foldlM_cons] at h
    obtain ⟨p1, h1, h⟩ := bind_eq_pure h
    obtain ⟨e1, e2, e3, e4, e5⟩ := ih h
    have : p1.1.forest = p.1.forest ∧ p1.1.complete = p.1.complete ∧ p1.1.medial.indices = p.1.medial.indices ∧
        p1.1.medial.chart.length ≤ p.1.medial.chart.length + 1 ∧ p.2 ≤ p1.2 := by
      unfold completePrediction at h1
      obtain ⟨b, _, h1⟩ := bind_eq_pure h1
      obtain ⟨u, _, h1⟩ := bind_eq_pure h1
      split at h1
      · rw [← pure_inj_M h1]
        exact ⟨rfl, rfl, rfl, by simp [Vec2d.pushItem], by simp⟩
      · rw [← pure_inj_M h1]
        exact ⟨rfl, rfl, rfl, by omega, by omega⟩
    obtain ⟨f1, f2, f3, f4, f5⟩ := this
    refine ⟨e1.trans f1, e2.trans f2, e3.trans f3, ?_, by omega⟩
    simp only [List.length_cons]; omega

theorem completePredictions_cost {n : ν} {s s' : Rec (σ × Nat) ν} {o A : Nat}
    (h : completePredictions E.counting s o A n = pure s') :
    ∃ comps, E.g.completions A = pure comps ∧ s'.cost ≤ s.cost + comps.length := by
  unfold completePredictions at h
  obtain ⟨last, h1, h⟩ := bind_eq_pure h
  obtain ⟨comps, h2, h⟩ := bind_eq_pure h
  obtain ⟨⟨s1, k⟩, h3, h⟩ := bind_eq_pure h
  obtain ⟨last', h4, h⟩ := bind_eq_pure h
  obtain ⟨heap, h5, h⟩ := bind_eq_pure h
  obtain ⟨extra, _, h⟩ := bind_eq_pure h
  obtain ⟨keep, _, h⟩ := bind_eq_pure h
  refine ⟨comps, h2, ?_⟩
  rw [← pure_inj_M h]
  obtain ⟨e1, e2, e3, e4, e5⟩ := completePredictions_loop h3
  simp only at e1 e2 e3 e4 e5
  obtain ⟨i, hi, hi1, hi2⟩ := last_length h1
  obtain ⟨j, hj, hj1, hj2⟩ := last_length h4
  rw [e3, hi, Option.some.injEq] at hj
  subst hj
  have := Heap.pushAll_length h5
  rw [List.length_drop] at this
  simp only [cost, this, e1, e2]
  omega

theorem completeGenerated_cost {n : ν} {s s' : Rec (σ × Nat) ν} {o A : Nat}
    (h : completeGenerated E.counting s o A n = pure s') :
    ∃ b u, E.g.genCompletion A = pure (b, u) ∧ s'.cost ≤ s.cost + u.toList.length := by
  unfold completeGenerated at h
  obtain ⟨⟨b, u⟩, h1, h⟩ := bind_eq_pure h
  refine ⟨b, u, h1, ?_⟩
  obtain ⟨s1, h2, h⟩ := bind_eq_pure h
  have e1 : s1.cost ≤ s.cost + u.toList.length := by
    cases u with
    | none => rw [← pure_inj_M h2]; simp
    | some t =>
      obtain ⟨p, _, h2⟩ := bind_eq_pure h2
      split at h2
      · obtain ⟨heap, h3, h2⟩ := bind_eq_pure h2
        rw [← pure_inj_M h2]
        simp only [cost, Heap.push_length h3, Option.toList_some, List.length_singleton]; omega
      · rw [← pure_inj_M h2]; omega
  have e2 : s'.cost = s1.cost := by
    cases b with
    | none => rw [← pure_inj_M h]
    | some t =>
      obtain ⟨p, _, h⟩ := bind_eq_pure h
      split at h
      · rw [← pure_inj_M h]; rfl
      · rw [← pure_inj_M h]
  omega

/-- Completing a symbol costs two operations for every matching item and one for every transition. -/
theorem completeSym_cost {n : ν} {s s' : Rec (σ × Nat) ν} {o A : Nat} (hleo : E.leo = false)
    (h : completeSym E.counting s o A n = pure s') :
    s'.cost ≤ s.cost ∨
    (E.g.syms ≤ A ∧ ∃ b u, E.g.genCompletion A = pure (b, u) ∧ s'.cost ≤ s.cost + u.toList.length) ∨
    (A < E.g.syms ∧ ∃ set, ∃ items : List (Item ν), ∃ comps, s.medial.index o = pure set ∧ items.Sublist set ∧
      (∀ x ∈ items, E.g.getRhs1 x.dot = pure (some A)) ∧ E.g.completions A = pure comps ∧
      s'.cost ≤ s.cost + 2 * items.length + comps.length) := by
  unfold completeSym at h
  split at h
  · next hA => exact .inr (.inl ⟨hA, completeGenerated_cost h⟩)
  · next hA =>
    obtain ⟨b, _, h⟩ := bind_eq_pure h
    cases b with
    | false =>
      simp only [Bool.false_eq_true, if_false] at h
      rw [← pure_inj_M h]; exact .inl (Nat.le_refl _)
    | true =>
      simp only [if_true, show E.counting.leo = false from hleo, Bool.false_eq_true, if_false] at h
      obtain ⟨s1, h1, h⟩ := bind_eq_pure h
      obtain ⟨set, items, e1, e2, e3, e4⟩ := completeMedialItems_cost h1
      obtain ⟨comps, e5, e6⟩ := completePredictions_cost h
      exact .inr (.inr ⟨Nat.lt_of_not_le hA, set, items, comps, e1, e2, e3, e5, by omega⟩)

theorem nextSummand_cost {s s' : Rec (σ × Nat) ν} {o A : Nat} {x : Option (Item ν)}
    (h : nextSummand E.counting s o A = pure (s', x)) :
    s'.medial = s.medial ∧ s'.cost + x.toList.length = s.cost := by
  unfold nextSummand at h
  cases hp : Heap.peek s.complete with
  | none =>
    rw [hp] at h
    have := pure_inj_M h
    simp only [Prod.mk.injEq] at this
    rw [← this.1, ← this.2]; simp
  | some ei =>
    rw [hp] at h
    obtain ⟨l, _, h⟩ := bind_eq_pure h
    split at h
    · obtain ⟨⟨heap, y⟩, h1, h⟩ := bind_eq_pure h
      have := pure_inj_M h
      simp only [Prod.mk.injEq] at this
      rw [← this.1, ← this.2]
      have hl := Heap.pop_length h1
      have : 0 < s.complete.length := by
        rcases hs : s.complete with _ | ⟨a, l⟩
        · rw [hs] at hp; simp [Heap.peek] at hp
        · simp
      simp only at hl
      simp only [cost, hl, Option.toList_some, List.length_singleton]
      exact ⟨trivial, by omega⟩
    · have := pure_inj_M h
      simp only [Prod.mk.injEq] at this
      rw [← this.1, ← this.2]; simp

theorem summandLoop_cost {o A : Nat} : ∀ (k : Nat) {s s' : Rec (σ × Nat) ν},
    summandLoop E.counting o A k s = pure s' → s'.medial = s.medial ∧ s'.cost = s.cost := by
  intro k
  induction k with
  | zero => intro s s' h; rw [← pure_inj_M h]; exact ⟨rfl, rfl⟩
  | succ k ih =>
    intro s s' h
    unfold summandLoop at h
    obtain ⟨⟨s1, x⟩, h1, h⟩ := bind_eq_pure h
    obtain ⟨e1, e2⟩ := nextSummand_cost h1
    cases x with
    | none =>
      rw [← pure_inj_M h]
      exact ⟨e1, by simpa using e2⟩
    | some item =>
      obtain ⟨s2, h2, h⟩ := bind_eq_pure h
      obtain ⟨e3, e4⟩ := ih h
      unfold pushSummand at h2
      obtain ⟨f, h3, h2⟩ := bind_eq_pure h2
      obtain ⟨f', _, h4⟩ := bind_eq_pure (show (E.F.pushSummand s1.forest.1 item >>= fun r =>
        pure (r, s1.forest.2 + 1)) = pure f from h3)
      have h2 := pure_inj_M h2
      subst h2
      refine ⟨e3.trans e1, ?_⟩
      rw [e4]
      simp only [Option.toList_some, List.length_singleton] at e2
      rw [← e2]
      simp only [cost, ← pure_inj_M h4]; omega

/-- What completing a symbol may cost: two operations for every item of set `o` waiting for `A`, one for every
transition of `A`. -/
def SymCost (E : Env σ ν) (m : Vec2d (Item ν)) (o A k : Nat) : Prop :=
    k = 0 ∨
    (E.g.syms ≤ A ∧ ∃ b u, E.g.genCompletion A = pure (b, u) ∧ k = u.toList.length) ∨
    (A < E.g.syms ∧ ∃ set, ∃ items : List (Item ν), ∃ comps, m.index o = pure set ∧ items.Sublist set ∧
      (∀ x ∈ items, E.g.getRhs1 x.dot = pure (some A)) ∧ E.g.completions A = pure comps ∧
      k = 2 * items.length + comps.length)

theorem completeEntireSum_cost {s s' : Rec (σ × Nat) ν} {o A : Nat} (hleo : E.leo = false)
    (h : completeEntireSum E.counting s o A = pure s') :
    ∃ k, SymCost E s.medial o A k ∧ s'.cost ≤ s.cost + 2 + k := by
  unfold completeEntireSum at h
  obtain ⟨f, h1, h⟩ := bind_eq_pure h
  obtain ⟨s1, h2, h⟩ := bind_eq_pure h
  obtain ⟨⟨s2, n⟩, h3, h⟩ := bind_eq_pure h
  have h := pure_inj_M h
  subst h
  obtain ⟨f', _, h4⟩ := bind_eq_pure (show (E.F.beginSum s.forest.1 >>= fun r =>
        pure (r, s.forest.2 + 1)) = pure f from h1)
  have h4 := pure_inj_M h4
  obtain ⟨e1, e2⟩ := summandLoop_cost _ h2
  unfold completeSum at h3
  obtain ⟨⟨f2, m⟩, h5, h3⟩ := bind_eq_pure h3
  obtain ⟨s3, h6, h3⟩ := bind_eq_pure h3
  have h3 := pure_inj_M h3
  simp only [Prod.mk.injEq] at h3
  obtain ⟨rfl, rfl⟩ := h3
  obtain ⟨f3, _, h7⟩ := bind_eq_pure (show (E.F.sum s1.forest.1 A o >>= fun r =>
        pure ((r.1, s1.forest.2 + 1), r.2)) = pure (f2, m) from h5)
  have h7 := pure_inj_M h7
  simp only [Prod.mk.injEq] at h7
  have e3 : ({ s1 with forest := f2 } : Rec (σ × Nat) ν).cost = s.cost + 2 := by
    have : ({ s1 with forest := f2 } : Rec (σ × Nat) ν).cost = s1.cost + 1 := by
      simp only [cost, ← h7.1]; omega
    rw [this, e2]
    simp only [cost, ← h4]; omega
  have e1 : s1.medial = s.medial := e1
  rcases completeSym_cost hleo h6 with h8 | ⟨h8, b, u, h9, h10⟩ | ⟨h8, set, items, comps, h9, h10, h11, h12, h13⟩
  · exact ⟨0, .inl rfl, by omega⟩
  · exact ⟨_, .inr (.inl ⟨h8, b, u, h9, rfl⟩), by omega⟩
  · exact ⟨_, .inr (.inr ⟨h8, set, items, comps, by rw [← e1]; exact h9, h10, h11, h12, rfl⟩), by omega⟩

theorem scan_cost {s s' : Rec (σ × Nat) ν} {A v : Nat} (hleo : E.leo = false)
    (h : scan E.counting s A v = pure s') :
    ∃ k, SymCost E s.medial s.earleme A k ∧ s'.cost ≤ s.cost + 1 + k := by
  unfold scan at h
  obtain ⟨_, _, h⟩ := bind_eq_pure h
  obtain ⟨⟨f2, m⟩, h5, h6⟩ := bind_eq_pure h
  obtain ⟨f3, _, h7⟩ := bind_eq_pure (show (E.F.leaf s.forest.1 A (s.earleme + 1) v >>= fun r =>
        pure ((r.1, s.forest.2 + 1), r.2)) = pure (f2, m) from h5)
  have h7 := pure_inj_M h7
  simp only [Prod.mk.injEq] at h7
  have e3 : ({ s with forest := f2 } : Rec (σ × Nat) ν).cost = s.cost + 1 := by
      simp only [cost, ← h7.1]; omega
  rcases completeSym_cost hleo h6 with h8 | ⟨h8, b, u, h9, h10⟩ | ⟨h8, set, items, comps, h9, h10, h11, h12, h13⟩
  · exact ⟨0, .inl rfl, by omega⟩
  · exact ⟨_, .inr (.inl ⟨h8, b, u, h9, rfl⟩), by omega⟩
  · exact ⟨_, .inr (.inr ⟨h8, set, items, comps, h9, h10, h11, h12, rfl⟩), by omega⟩

end Rec
end Gearley
