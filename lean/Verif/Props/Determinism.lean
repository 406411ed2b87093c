import Verif.Proofs.SortFree
import Verif.Props.Chart
import Verif.Props.Forest

/-!
# C42: the unstable sort cannot be observed
-/

namespace Gearley.Props
open Gearley.Spec
variable {σ ν : Type} {c : Cfg} {n : Nat} {w : WrappedRoot} {E : Env σ ν} {f : σ}

theorem last_of_nextSet {α : Type} {v : Vec2d α} {l : List α} (h : v.nextSet.index (wrappingSub2 v.nextSet.len) = pure l) :
    v.last = pure l := by
  obtain ⟨ch, ix⟩ := v
  rcases List.eq_nil_or_concat ix with rfl | ⟨ix, i, rfl⟩
  · exact absurd h panicM_ne_pure
  · have hlen : wrappingSub2 (Vec2d.nextSet ⟨ch, ix ++ [i]⟩).len = ix.length := by
      simp [Vec2d.nextSet, Vec2d.len, wrappingSub2]
    rw [List.concat_eq_append, hlen] at h
    rw [List.concat_eq_append]
    unfold Vec2d.index at h
    have h1 : indexM (Vec2d.nextSet ⟨ch, ix ++ [i]⟩).indices ix.length = pure i := by simp [Vec2d.nextSet, indexM]
    have h2 : indexM (Vec2d.nextSet ⟨ch, ix ++ [i]⟩).indices (ix.length + 1) = pure ch.length := by
      simp [Vec2d.nextSet, indexM]
    rw [h1, pure_bind, h2, pure_bind] at h
    unfold Vec2d.last
    simp only [List.getLast?_append, List.getLast?_singleton, Option.some_or, unwrapM, pure_bind]
    unfold sliceM at h
    unfold sliceFromM
    split at h
    · next hi =>
      rw [if_pos hi.1, ← h]
      simp [Vec2d.nextSet]
    · exact absurd h panicM_ne_pure

/-- C42. `sort_unstable_by_key` may order items with equal keys in any way. If the tokens at each position are distinct
terminals, this cannot be observed: with any other sort, every session gives the same result and leaves the recognizer and
its forest in the same state. -/
theorem C42_sort_irrelevant (hB : Built c n w E.g) (hleo : E.leo = false) (ho : UnaryOrdered (rulesOf c))
    (hF : SafeStart E.F f c.rules.length c.numSyms) {steps : List Step} (htok : TokensOK c.numSyms steps)
    (hin : HintsIn n steps) (hlen : steps.length + 1 < 2 ^ 64)
    (hterm : ∀ st ∈ steps, (st.2.map (·.1)).Nodup ∧ Terminals c n (st.2.map (·.1))) (T : Sorter) :
    (Rec.new (E.withSort T) f >>= Rec.session (E.withSort T) steps) = (Rec.new E f >>= Rec.session E steps) := by
  induction steps using List.reverseRecOn with
  | nil => simp only [Rec.session, Rec.sessionWith, Rec.new_withSort]
  | append_singleton pre st ih =>
    have hsub : ∀ x ∈ pre, x ∈ pre ++ [st] := fun x h => List.mem_append_left _ h
    rw [List.length_append] at hlen
    have hpre := ih (fun x h => htok x (hsub x h)) (fun x h => hin x (hsub x h)) (by simp at hlen; omega)
      (fun x h => hterm x (hsub x h))
    obtain ⟨r, h1, h2⟩ := C15_groups_decrease hB hleo ho hF htok hin (by rw [List.length_append]; exact hlen)
    rw [h1]
    obtain ⟨s0, h0, h1⟩ := bind_eq_pure h1
    have h0' : Rec.new (E.withSort T) f = pure s0 := by rw [Rec.new_withSort, h0]
    rw [h0, h0', pure_bind, pure_bind] at hpre
    rw [h0', pure_bind]
    obtain ⟨op, toks⟩ := st
    rw [Rec.session_snoc] at h1 ⊢
    rw [hpre]
    obtain ⟨⟨s1, ok⟩, h3, h4⟩ := bind_eq_pure h1
    rw [h3, pure_bind]
    cases ok with
    | false =>
      simp only [Bool.false_eq_true, if_false] at h4 ⊢
      exact h4
    | true =>
      simp only [if_true] at h4 ⊢
      obtain ⟨s2, b⟩ := r
      refine Rec.position_withSort h4 (fun hb => ?_) T
      obtain ⟨items, h8, h9⟩ := (h2 hb).2 hterm
      unfold Rec.medialItems Rec.earleme Rec.beginEarleme at h8
      exact ⟨items, last_of_nextSet h8, h9⟩

/-! ### Examples -/

section
open Gearley.Example

/-- A sort that orders items with equal keys the other way round. -/
def otherSorter : Sorter where
  sort k l := sorter.sort k l.reverse
  perm k l := (sorter.perm k l.reverse).trans (List.reverse_perm l)
  sorted k l := sorter.sorted k l.reverse
  natural k f l := by rw [← List.map_reverse]; exact sorter.natural k f l.reverse

-- the two sorts differ
example : sorter.sort (fun _ => ((0, 0, 0) : Key)) [1, 2] ≠ otherSorter.sort (fun _ => ((0, 0, 0) : Key)) [1, 2] := by decide

theorem chartSteps_hints : HintsIn 6 chartSteps := by
  intro st hst x hx
  simp only [chartSteps, List.mem_cons, List.not_mem_nil, or_false] at hst
  rcases hst with rfl | rfl | rfl | rfl <;> simp at hx

-- the hypotheses are met by a session of Examples/Sums.lean with a bocage; see `chartSteps` for the tokens
example {b : Simple.Bocage} (hb : Simple.Bocage.new grammar.forestInfo = pure b) :
    (Rec.new (simpleEnv.withSort otherSorter) b >>= Rec.session (simpleEnv.withSort otherSorter) chartSteps) =
      (Rec.new simpleEnv b >>= Rec.session simpleEnv chartSteps) :=
  C42_sort_irrelevant (c := cfg) (n := 6) (w := wrap) built rfl (by unfold UnaryOrdered; decide) ((C02_forests _ _).2.1 _ _ hb)
    (by unfold TokensOK; decide) chartSteps_hints (by decide) (by unfold Terminals Terminal; decide) _

/-- Where the nodes of the current set are after a session, computed. -/
def lastNodes (so : Sorter) (steps : List Step) : M (List (Nat × Nat × Nat)) := do
  let b ← Simple.Bocage.new grammar.forestInfo
  let E := simpleEnv.withSort so
  let s ← Rec.new E b
  let (s, _) ← Rec.sessionWith E (Rec.completeAllFuel E 50) steps s
  let l ← s.medial.last
  pure (l.map fun it => (it.dot, it.origin, it.node))

/-- Tokens have to be distinct: if the start marker is scanned twice, the order of the two items of the current set depends
on the sort. -/
theorem C42_repeated_token : lastNodes sorter [(.keep, [(1, 20), (1, 21)])] ≠ lastNodes otherSorter [(.keep, [(1, 20), (1, 21)])] := by
  decide +kernel

end

end Gearley.Props
