import Verif.Proofs.Manual
import Verif.Props.Recognition
import Verif.Props.Forest

/-! # C30: completion by hand -/

namespace Gearley.Props
open Gearley Gearley.Spec

variable {σ ν : Type} {E : Env σ ν} {c : Cfg} {n : Nat} {w : WrappedRoot}

/-- C30 (partial). Without a pending hint, completion by hand and `advance_after_completion` do what `end_earleme` does: same
result, same state, same panics, same divergence, from every state. Required: `begin_sum` of the forest does nothing, or the
client completes every group with `complete_entire_sum`.
Missing: other forests (false for the compact bocage, `C30_compact_panics`), and pending hints (false, `C30_stale_hint`; see
`C30_with_hint` for what holds). -/
theorem C30_partial {entire : Rec σ ν → Bool} (hb : (∀ f, E.F.beginSum f = pure f) ∨ ∀ s, entire s = true)
    {s : Rec σ ν} (hs : s.lookahead = none) : Rec.manualEarleme E entire s = Rec.endEarleme E s :=
  Rec.endEarleme_manual hb hs

/-- With any hint: the client has to call `lookahead().clear_hint()` between completion and `advance_after_completion`. -/
theorem C30_with_hint {entire : Rec σ ν → Bool} (hb : (∀ f, E.F.beginSum f = pure f) ∨ ∀ s, entire s = true)
    (s : Rec σ ν) : Rec.endEarlemeWith E (fun s => Rec.manualAll E entire s >>= fun s => pure s.clearHint) s =
      Rec.endEarleme E s := by
  unfold Rec.endEarleme Rec.endEarlemeWith
  simp only [Rec.completeAll_manual hb]

/-- C30 for a whole session without hints. -/
theorem C30_session {entire : Rec σ ν → Bool} (hb : (∀ f, E.F.beginSum f = pure f) ∨ ∀ s, entire s = true)
    (f : σ) {steps : List Step} (hno : NoHints steps) :
    (Rec.new E f >>= Rec.manualSession E entire steps) = (Rec.new E f >>= Rec.session E steps) := by
  have cons : ∀ (ca : Rec σ ν → M (Rec σ ν)) h toks rest s, Rec.sessionWith E ca ((h, toks) :: rest) s =
      (Rec.scanAll E (Rec.applyHint s h).beginEarleme toks >>= fun s => Rec.endEarlemeWith E ca s >>= fun r =>
        if r.2 then Rec.sessionWith E ca rest r.1 else pure (r.1, false)) := by
    intro ca h toks rest s
    simp only [Rec.sessionWith, Rec.positionWith, LawfulMonad.bind_assoc]
  have key : ∀ s : Rec σ ν, s.lookahead = none → Rec.manualSession E entire steps s = Rec.session E steps s := by
    clear f
    unfold Rec.manualSession Rec.session
    induction steps with
    | nil => intro s _; rfl
    | cons st rest ih =>
      intro s hs
      obtain ⟨h, toks⟩ := st
      have hh : (Rec.applyHint s h).beginEarleme.lookahead = none := by
        cases h with
        | keep => exact hs
        | clear => rfl
        | set x => exact absurd rfl (hno _ List.mem_cons_self x)
      have ih := ih fun st hst => hno st (List.mem_cons_of_mem _ hst)
      rw [cons, cons]
      have hscan := Rec.scanAll_fix (E := E) (h := none) ⟨hh, rfl⟩ toks
      refine bind_congr_gives hscan fun s1 ⟨h1, _⟩ => ?_
      have he : Rec.endEarlemeWith E (Rec.manualAll E entire) s1 = Rec.endEarlemeWith E (Rec.completeAll E) s1 :=
        Rec.endEarleme_manual hb h1
      rw [he]
      refine bind_congr_gives (Rec.endEarleme_hint (E := E) h1) ?_
      rintro ⟨s2, ok⟩ h2
      cases ok with
      | false => rfl
      | true =>
        simp only [if_true]
        exact ih s2 h2
  have hnew : Gives (Rec.new E f) fun s => s.lookahead = none := by
    unfold Rec.new
    exact Gives.any.bind fun m _ => .pure rfl
  exact bind_congr_gives hnew fun s hs => key s hs

/-- `skip_entire_sum` on the group that `next_sum` offers removes exactly the items of this group (origin and symbol of the
left-hand side) from the queue, and changes nothing else. -/
theorem C30_skip (hB : Prepared c n w E.g) {s : Rec σ ν} (hq : Heap.IsHeap s.complete)
    (hdot : ∀ it ∈ s.complete, it.dot < c.rules.length) {o A : Nat} (hnext : Rec.nextSum E s = pure (some (o, A))) :
    ∃ s', Rec.skipEntireSum E o A s.complete.length s = pure s' ∧ s' = { s with complete := s'.complete } ∧
      Heap.IsHeap s'.complete ∧
      s'.complete.Perm (s.complete.filter fun it => !decide (it.origin = o ∧ ((rulesOf c)[it.dot]?).map (·.lhs) = some A)) ∧
      s'.complete.length < s.complete.length := by
  obtain ⟨root, g0, hR⟩ := hB.ready0
  refine Rec.skip_group hR.ok s hq (fun it hit => ?_) hnext
  have hl : (rulesOf c).length = c.rules.length := by simp [rulesOf]
  exact ⟨_, List.getElem?_eq_getElem (by rw [hl]; exact hdot it hit)⟩

/-! ### Where completion by hand differs -/

/-- With the compact bocage, completion by hand never returns once there is a group to complete: `sum` unwraps a position
that only `begin_sum` sets, and the client cannot call `begin_sum`. -/
theorem C30_compact_panics {E : Env Compact.Bocage Nat} (hF : E.F = Compact.forest) {s : Rec Compact.Bocage Nat}
    (hb : s.forest.sumStart = none) {o A : Nat} (hnext : Rec.nextSum E s = pure (some (o, A))) (r : Rec Compact.Bocage Nat) :
    Rec.manualAll E (fun _ => false) s ≠ pure r := by
  refine Rec.manualAll_never (I := fun b => b.sumStart = none) ?_ ?_ hb hnext r
  · rw [hF]
    exact fun f it hf => .pure hf
  · rw [hF]
    intro f A o r hf h
    have h : f.sum = pure r := h
    unfold Compact.Bocage.sum at h
    rw [hf] at h
    exact panicM_ne_pure h

section
open Gearley.Example

/-- `a + a` in the grammar `E ::= E plus E | a`, with the honest hint `a` set when `plus` is read. -/
def staleSteps : List Step := [(.keep, [(1, 0)]), (.keep, [(5, 0)]), (.set 5, [(2, 0)]), (.keep, [(5, 0)])]

/-- After completion by hand the hint stays and filters the next position: a valid token is rejected. With `end_earleme` the
same session goes through. -/
theorem C30_stale_hint :
    (∃ s, (Rec.new env () >>= Rec.session env staleSteps) = pure (s, true)) ∧
    ∃ s, (Rec.new env () >>= Rec.manualSession env (fun _ => false) staleSteps) = pure (s, false) := by
  constructor
  · have h : (do
        let r ← Rec.new env () >>= Rec.sessionWith env (Rec.completeAllFuel env 20) staleSteps
        pure r.2) = pure true := by decide +kernel
    obtain ⟨⟨s, b⟩, hr, hb⟩ := bind_eq_pure h
    cases pure_inj_M hb
    exact ⟨s, Below.bind (.refl _) (fun s => Rec.session_below 20 _ s) _ hr⟩
  · have h : (do
        let r ← Rec.new env () >>= Rec.sessionWith env (Rec.manualAllFuel env (fun _ => false) 20) staleSteps
        pure r.2) = pure false := by decide +kernel
    obtain ⟨⟨s, b⟩, hr, hb⟩ := bind_eq_pure h
    cases pure_inj_M hb
    exact ⟨s, Below.bind (.refl _) (fun s => Rec.manualSession_below _ 20 _ s) _ hr⟩

-- the forests to which `C30_partial` applies for every client
example (f : Unit) : nullForest.beginSum f = pure f := rfl
example (b : Simple.Bocage) : Simple.forest.beginSum b = pure b := rfl

/-- A session by hand without hints goes through. -/
example : ∃ s, (Rec.new env () >>= Rec.manualSession env (fun _ => false) [(.keep, [(1, 0)]), (.keep, [(5, 0)])]) = pure (s, true) := by
  rw [C30_session (.inl fun _ => rfl) () (by intro st hst x; simp at hst; rcases hst with rfl | rfl <;> simp)]
  have h : (do
      let r ← Rec.new env () >>= Rec.sessionWith env (Rec.completeAllFuel env 20) [(.keep, [(1, 0)]), (.keep, [(5, 0)])]
      pure r.2) = pure true := by decide +kernel
  obtain ⟨⟨s, b⟩, hr, hb⟩ := bind_eq_pure h
  cases pure_inj_M hb
  exact ⟨s, Below.bind (.refl _) (fun s => Rec.session_below 20 _ s) _ hr⟩

/-- A queue of two groups: skipping the first leaves the second. -/
def twoGroups : Rec Unit Unit :=
  { forest := (), predicted := BitMatrix.new 8 6, medial := Vec2d.new, complete := [⟨2, 1, ()⟩, ⟨4, 0, ()⟩, ⟨1, 1, ()⟩] }

example : Rec.nextSum env twoGroups = pure (some (1, 4)) := by decide +kernel
example : Heap.IsHeap twoGroups.complete := by
  have : ∀ i, (h : i < 3) → 0 < i → ([⟨2, 1, ()⟩, ⟨4, 0, ()⟩, ⟨1, 1, ()⟩] : List (Item Unit))[i].le
      (([⟨2, 1, ()⟩, ⟨4, 0, ()⟩, ⟨1, 1, ()⟩] : List (Item Unit))[(i - 1) / 2]'(by simp; omega)) = true := by decide
  exact this
example : Rec.skipEntireSum env 1 4 3 twoGroups = pure { twoGroups with complete := [⟨4, 0, ()⟩] } := by decide +kernel

/-- The compact bocage in the first position of any input. -/
example : (do
    let b ← Compact.Bocage.new grammar.forestInfo
    let s ← Rec.new compactEnv b
    let s ← Rec.scanAll compactEnv s.beginEarleme [(1, 0)]
    let s1 ← Rec.endEarlemeWith compactEnv (Rec.completeAllFuel compactEnv 20) s
    let s ← Rec.scanAll compactEnv s1.1.beginEarleme [(5, 0)]
    let n ← Rec.nextSum compactEnv s
    pure (s.forest.sumStart, n) : M (Option Nat × Option (Nat × Nat))) = pure (none, some (1, 4)) := by decide +kernel

end
end Gearley.Props
