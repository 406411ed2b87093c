import Verif.Proofs.Vec2d
import Verif.Proofs.Heap
import Verif.Spec.Containers

/-!
# C16, C17, C40: containers
-/

namespace Gearley.Props
open Gearley.Spec

/-! ### C40: the item order -/

/-- The order an Earley item should have: by origin, then by dot. -/
def ItemLE {ν : Type} (a b : Item ν) : Prop :=
  a.origin < b.origin ∨ (a.origin = b.origin ∧ a.dot ≤ b.dot)

/-- C40. `<=`, `>=`, `>`, `==` and `cmp` all agree with the order by (origin, dot); equality ignores the node. -/
theorem C40_item_order {ν : Type} (a b : Item ν) :
    (a.le b = true ↔ ItemLE a b) ∧ (a.ge b = true ↔ ItemLE b a) ∧ (a.gt b = true ↔ ¬ ItemLE a b) ∧
    (a.beq b = true ↔ a.origin = b.origin ∧ a.dot = b.dot) ∧
    (a.cmp b = .eq ↔ a.beq b = true) ∧ (a.cmp b = .lt ↔ ¬ ItemLE b a) ∧ (a.cmp b = .gt ↔ ¬ ItemLE a b) := by
  have hle := Item.le_iff a b
  have hle' := Item.le_iff b a
  have hge := Item.ge_eq a b
  have hgt := Item.gt_eq a b
  have hcmp : ∀ o, a.cmp b = o → (a.le b = o.isLE ∧ a.gt b = o.isGT ∧ a.ge b = o.isGE) := by
    rintro o rfl; exact ⟨rfl, rfl, rfl⟩
  have hbeq : a.beq b = true ↔ a.origin = b.origin ∧ a.dot = b.dot := by simp [Item.beq]
  refine ⟨hle, by rw [hge]; exact hle', by rw [hgt]; simp [ItemLE, ← hle], hbeq, ?_, ?_, ?_⟩
  · rw [hbeq]
    rcases h : a.cmp b with _ | _ | _
    all_goals
      obtain ⟨h1, h2, h3⟩ := hcmp _ h
      simp [Ordering.isLE, Ordering.isGT, Ordering.isGE] at h1 h2 h3
      rw [hge] at h3
    · have : ¬ (b.le a = true) := by simp [h3]
      rw [hle'] at this; simp; omega
    · rw [hle] at h1; rw [hle'] at h3; simp; omega
    · have : ¬ (a.le b = true) := by simp [h1]
      rw [hle] at this; simp; omega
  · rcases h : a.cmp b with _ | _ | _
    all_goals
      obtain ⟨h1, h2, h3⟩ := hcmp _ h
      simp [Ordering.isLE, Ordering.isGT, Ordering.isGE] at h1 h2 h3
      rw [hge] at h3
      simp [ItemLE, ← hle', h3]
  · rcases h : a.cmp b with _ | _ | _
    all_goals
      obtain ⟨h1, h2, h3⟩ := hcmp _ h
      simp [Ordering.isLE, Ordering.isGT, Ordering.isGE] at h1 h2 h3
      simp [ItemLE, ← hle, h1]

/-- C40. The item order is a total preorder. -/
theorem C40_total_preorder {ν : Type} : (∀ a : Item ν, a.le a = true) ∧
    (∀ a b c : Item ν, a.le b = true → b.le c = true → a.le c = true) ∧
    (∀ a b : Item ν, a.le b = true ∨ b.le a = true) :=
  ⟨Item.le_refl, fun _ _ _ => Item.le_trans, Item.le_total⟩

example : (⟨5, 1, ()⟩ : Item Unit).le ⟨3, 2, ()⟩ = true ∧ (⟨3, 2, ()⟩ : Item Unit).le ⟨5, 1, ()⟩ = false := by
  decide
example : (⟨5, 1, 7⟩ : Item Nat).beq ⟨5, 1, 8⟩ = true := by decide

/-! ### C16: the completion queue -/

/-- Run a sequence of pushes and pops on the heap array, collecting what the pops return. -/
def runQueue {ν : Type} : List (Item ν) → List (QueueOp (Item ν)) → M (List (Option (Item ν)) × List (Item ν))
  | l, [] => pure ([], l)
  | l, .push x :: ops => do
    let l' ← Heap.push l x
    runQueue l' ops
  | l, .pop :: ops => do
    let (l', r) ← Heap.pop l
    let (outs, e) ← runQueue l' ops
    pure (r :: outs, e)

theorem QueueRun.perm {β : Type} {le : β → β → Prop} {q q₂ : List β} {ops outs q'} (hp : q₂.Perm q)
    (h : QueueRun le q ops outs q') : QueueRun le q₂ ops outs q' := by
  induction h generalizing q₂ with
  | done h => exact .done (hp.trans h)
  | push _ ih => exact .push (ih (hp.cons _))
  | popEmpty h ih =>
    rw [List.perm_nil.1 hp]
    exact .popEmpty h
  | pop h1 h2 h3 _ => exact .pop (hp.trans h1) (fun x hx => h2 x (hp.mem_iff.1 hx)) h3

theorem runQueue_spec {ν : Type} (l : List (Item ν)) (hl : Heap.IsHeap l) (ops : List (QueueOp (Item ν))) :
    Returns (runQueue l ops) (fun r => QueueRun ItemLE l ops r.1 r.2 ∧ Heap.IsHeap r.2) := by
  induction ops generalizing l with
  | nil => exact returns_pure ⟨.done (List.Perm.refl _), hl⟩
  | cons o ops ih =>
    cases o with
    | push x =>
      refine returns_bind ((Heap.push_spec l x hl).mono ?_)
      rintro l' ⟨hp, hh⟩
      exact (ih l' hh).mono fun r hr => ⟨.push (QueueRun.perm hp.symm hr.1), hr.2⟩
    | pop =>
      have hpop := Heap.pop_spec l hl
      match l, hl, hpop with
      | [], hl, hpop =>
        simp only at hpop
        simp only [runQueue, hpop, pure_bind]
        refine returns_bind ((ih [] hl).mono ?_)
        rintro ⟨outs, e⟩ ⟨h1, h2⟩
        exact returns_pure ⟨.popEmpty h1, h2⟩
      | root :: t, hl, hpop =>
        simp only at hpop
        refine returns_bind (hpop.mono ?_)
        rintro ⟨l', r⟩ ⟨h1, h2, h3⟩
        simp only at h1 h2 h3
        subst h1
        refine returns_bind ((ih l' h3).mono ?_)
        rintro ⟨outs, e⟩ ⟨h4, h5⟩
        refine returns_pure ⟨.pop h2 ?_ h4, h5⟩
        intro x hx
        obtain ⟨i, hi, rfl⟩ := List.mem_iff_getElem.1 hx
        exact (Item.le_iff _ _).1 (hl.root_max i hi)

/-- C16. Every sequence of pushes and pops on the (initially empty) completion queue runs without panic, and its
outputs are those of a bag from which each pop removes a maximal item. -/
theorem C16_queue {ν : Type} (ops : List (QueueOp (Item ν))) :
    Returns (runQueue [] ops) (fun r => QueueRun ItemLE [] ops r.1 r.2) :=
  (runQueue_spec [] Heap.isHeap_nil ops).mono fun _ h => h.1

/-- C16. The heap shape is preserved by every operation, from every heap; `heap_peek` shows a maximal item. -/
theorem C16_heap_preserved {ν : Type} (l : List (Item ν)) (hl : Heap.IsHeap l) :
    (∀ x, Returns (Heap.push l x) (fun l' => l'.Perm (x :: l) ∧ Heap.IsHeap l')) ∧
    Returns (Heap.pop l) (fun r => Heap.IsHeap r.1 ∧ r.2 = Heap.peek l ∧ (r.2.toList ++ r.1).Perm l) ∧
    (∀ m, Heap.peek l = some m → m ∈ l ∧ ∀ x ∈ l, ItemLE x m) ∧ (Heap.peek l = none ↔ l = []) := by
  refine ⟨fun x => Heap.push_spec l x hl, ?_, ?_, ?_⟩
  · have hpop := Heap.pop_spec l hl
    match l, hl, hpop with
    | [], _, hpop =>
      simp only at hpop
      rw [hpop]
      exact returns_pure ⟨Heap.isHeap_nil, rfl, List.Perm.refl _⟩
    | root :: t, _, hpop =>
      simp only at hpop
      exact hpop.mono fun r hr => ⟨hr.2.2, by rw [hr.1]; rfl, by rw [hr.1]; exact hr.2.1.symm⟩
  · intro m hm
    match l, hl, hm with
    | root :: t, hl, hm =>
      simp [Heap.peek] at hm
      subst hm
      refine ⟨by simp, fun x hx => ?_⟩
      obtain ⟨i, hi, rfl⟩ := List.mem_iff_getElem.1 hx
      exact (Item.le_iff _ _).1 (hl.root_max i hi)
  · cases l <;> simp [Heap.peek]

/-- A run with interleaved pushes and pops, computed by the model. -/
example : runQueue [] [.push ⟨1, 2, 'a'⟩, .push ⟨9, 0, 'b'⟩, .push ⟨4, 2, 'c'⟩, .pop, .push ⟨0, 3, 'd'⟩, .pop, .pop,
    .pop, .pop] = pure ([some ⟨4, 2, 'c'⟩, some ⟨0, 3, 'd'⟩, some ⟨1, 2, 'a'⟩, some ⟨9, 0, 'b'⟩, none], []) := by
  decide

/-! ### C17: `Vec2d` -/

/-- Perform an abstract operation with the code's methods. `truncateCurrent n` is `truncate_chart(last start + n)`. -/
def vecStep {α : Type} (v : Vec2d α) : SetsOp α → M (Vec2d α)
  | .clear => pure v.clear
  | .push x => pure (v.pushItem x)
  | .pop => pure v.popItem.1
  | .next => pure v.nextSet
  | .extendWithSet s => pure (v.extendWithSet s)
  | .truncate n => v.truncate n
  | .truncateCurrent n => do
    let i ← v.indexAt (v.len - 1)
    pure (v.truncateChart (i + n))

def vecSteps {α : Type} (v : Vec2d α) : List (SetsOp α) → M (Vec2d α)
  | [] => pure v
  | o :: os => do
    let v' ← vecStep v o
    vecSteps v' os

/-- What the observers of `Vec2d` must report for a list of sets. -/
structure Observes {α : Type} (v : Vec2d α) (s : Sets α) : Prop where
  len : v.len = s.closed.length + 1
  last : v.last = pure s.current
  index : ∀ i (h : i < s.closed.length), v.index i = pure s.closed[i]
  index_oob : ∀ i, s.closed.length ≤ i → v.index i = panicM .index
  count : v.itemCount = (s.closed.flatten ++ s.current).length
  item : ∀ i, v.getItem i = (s.closed.flatten ++ s.current)[i]?
  lastItem : v.lastItem = (s.closed.flatten ++ s.current).getLast?

theorem observes_ofSets {α : Type} (s : Sets α) : Observes (Vec2d.ofSets (s.closed ++ [s.current])) s where
  len := by simp [Vec2d.len_eq]
  last := Vec2d.last_eq _ _
  index i h := Vec2d.index_eq _ _ _ (by simp; omega) (by simp [List.getElem?_append, h])
  index_oob i h := Vec2d.index_panic _ _ (by simp; omega)
  count := by rw [Vec2d.itemCount_eq]; simp
  item i := by rw [Vec2d.getItem_eq]; simp
  lastItem := by simp [Vec2d.lastItem, Vec2d.ofSets]

theorem vecStep_spec {α : Type} (s : Sets α) (o : SetsOp α) (t : Sets α) (h : s.step o = some t) :
    vecStep (Vec2d.ofSets (s.closed ++ [s.current])) o = pure (Vec2d.ofSets (t.closed ++ [t.current])) := by
  cases o <;> simp only [Sets.step, Option.some.injEq] at h
  case clear => subst h; rfl
  case push x => subst h; simp [vecStep, Vec2d.pushItem_eq]
  case pop =>
    split at h
    · simp at h
    · next hne =>
      simp only [Option.some.injEq] at h
      subst h
      have := Vec2d.popItem_eq s.closed s.current.dropLast (s.current.getLast hne)
      rw [List.dropLast_concat_getLast] at this
      simp [vecStep, this]
  case next => subst h; simp [vecStep, Vec2d.nextSet_eq]
  case extendWithSet x => subst h; simp only [vecStep, Vec2d.extendWithSet_eq]
  case truncate n =>
    split at h
    · next hn =>
      simp only [Option.some.injEq] at h
      subst h
      exact Vec2d.truncate_eq _ _ _ hn
    · simp at h
  case truncateCurrent n =>
    subst h
    have h1 : (Vec2d.ofSets (s.closed ++ [s.current])).len - 1 = s.closed.length := by simp [Vec2d.len_eq]
    simp only [vecStep, h1]
    rw [Vec2d.indexAt_eq _ _ (by simp)]
    simp only [pure_bind, List.take_left, Vec2d.truncateChart_eq]

/-- C17. After any sequence of operations on a new `Vec2d` that stays within the contract, no call has panicked and
every observer reports the list of sets obtained by performing the same operations abstractly. -/
theorem C17_vec2d {α : Type} (ops : List (SetsOp α)) (s : Sets α) (h : Sets.steps ⟨[], []⟩ ops = some s) :
    Returns (vecSteps Vec2d.new ops) (fun v => Observes v s) := by
  have key : ∀ (s₀ : Sets α), Sets.steps s₀ ops = some s →
      vecSteps (Vec2d.ofSets (s₀.closed ++ [s₀.current])) ops = pure (Vec2d.ofSets (s.closed ++ [s.current])) := by
    clear h
    induction ops with
    | nil => intro s₀ h; simp only [Sets.steps, Option.some.injEq] at h; subst h; rfl
    | cons o os ih =>
      intro s₀ h
      simp only [Sets.steps] at h
      split at h
      · simp at h
      · next t ht => rw [vecSteps, vecStep_spec s₀ o t ht, pure_bind]; exact ih t h
  exact ⟨_, key ⟨[], []⟩ h, observes_ofSets s⟩

/-- C17. Keeping more sets than exist panics. -/
theorem C17_truncate_oob {α : Type} (ops : List (SetsOp α)) (s : Sets α) (h : Sets.steps ⟨[], []⟩ ops = some s)
    (n : Nat) (hn : s.closed.length < n) :
    Returns (vecSteps Vec2d.new ops) (fun v => v.truncate n = panicM .index) := by
  obtain ⟨v, hv, ho⟩ := C17_vec2d ops s h
  refine ⟨v, hv, ?_⟩
  have h1 : v.indices.length ≤ n := by have := ho.len; simp only [Vec2d.len] at this; omega
  simp only [Vec2d.truncate, indexM_panic h1]
  rfl

/-- C17. `pop_item` returns the newest element of the current set (the operation itself is part of `C17_vec2d`). -/
theorem C17_pop_value {α : Type} (ops : List (SetsOp α)) (s : Sets α) (h : Sets.steps ⟨[], []⟩ ops = some s)
    (hne : s.current ≠ []) : Returns (vecSteps Vec2d.new ops) (fun v => v.popItem.2 = s.current.getLast?) := by
  refine (C17_vec2d ops s h).mono fun v hv => ?_
  have : v.popItem.2 = v.lastItem := rfl
  rw [this, hv.lastItem, List.getLast?_append]
  cases hl : s.current.getLast? with
  | none => simp at hl; exact absurd hl hne
  | some x => rfl

/-- C17. Collecting an iterator of sets gives exactly these sets, followed by an empty current one. -/
theorem C17_from_iter {α : Type} (sets : List (List α)) : Observes (Vec2d.fromIter sets) ⟨sets, []⟩ := by
  rw [Vec2d.fromIter_eq]; exact observes_ofSets ⟨sets, []⟩

/-- C17 (limit of the contract). Popping from an empty current set is *not* the identity on the sets: it removes an
element of the previous set without adjusting the index, after which reading that set panics. -/
theorem C17_pop_empty_breaks :
    let v := (((Vec2d.new.pushItem 1).nextSet).popItem).1
    v.last = panicM .index ∧ v.index 0 = panicM .index := by decide

example : Sets.steps (α := Nat) ⟨[], []⟩ [.push 1, .push 2, .next, .extendWithSet [3], .push 4, .push 5, .pop,
    .truncate 1] = some ⟨[[1, 2]], [4]⟩ := by decide
example : vecSteps (α := Nat) Vec2d.new [.push 1, .push 2, .next, .extendWithSet [3], .push 4, .push 5, .pop,
    .truncate 1] = pure ⟨[1, 2, 4], [0, 2]⟩ := by decide

end Gearley.Props
