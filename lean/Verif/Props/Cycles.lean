import Verif.Examples.Cyclic
import Verif.Proofs.Cycle
import Verif.Props.Recognition

/-! # C03: one-symbol cycles -/

namespace Gearley.Props
open Gearley Gearley.Spec

variable {σ ν : Type} {E : Env σ ν} {c : Cfg} {n : Nat} {w : WrappedRoot} {f : σ}

/-- Some symbol on a cycle of one-symbol rules is predicted and completed within the session. -/
def CycleCompletes (c : Cfg) (w : WrappedRoot) (steps : List Step) : Prop :=
  ∃ k A, k ≤ steps.length ∧ Completes (rulesOf c) w.root (inputOf steps) k A ∧ OnCycle (rulesOf c) A

/-- C03, the other direction: a session that completes no symbol on a cycle returns, whatever the hints are and whatever
cycles the grammar has. -/
theorem C03_returns_without_cycle (hB : Prepared c n w E.g) (hleo : E.leo = false)
    (hF : SafeStart E.F f c.rules.length c.numSyms) {steps : List Step} (htok : TokensOK c.numSyms steps)
    (hin : HintsIn n steps) (hlen : steps.length < 2 ^ 64) (hno : ¬ CycleCompletes c w steps) :
    ∃ r, (Rec.new E f >>= Rec.session E steps) = pure r := by
  obtain ⟨root, g0, hR⟩ := hB.ready0
  obtain ⟨r0, h0, _⟩ := session_settles (la := E.lookahead) (so := E.sorter) hR.ok hlen (stepsOK_of0 hR htok hin)
    (fun k A hk hA hc => hno ⟨k, A, hk, by rw [← hR.start]; exact hA, hc⟩) []
  obtain ⟨r, h, _⟩ := (safe_rel hleo hR hF htok []).returns h0
  exact ⟨r, h⟩

/-- A session never panics, whatever cycles the grammar has. -/
theorem C03_no_panic (hB : Prepared c n w E.g) (hleo : E.leo = false)
    (hF : SafeStart E.F f c.rules.length c.numSyms) {steps : List Step} (htok : TokensOK c.numSyms steps)
    (hin : HintsIn n steps) (hlen : steps.length < 2 ^ 64) (p : Panic) :
    (Rec.new E f >>= Rec.session E steps) ≠ panicM p := by
  obtain ⟨root, g0, hR⟩ := hB.ready0
  intro hp
  have hrel := safe_rel hleo hR hF htok []
  rcases session_no_panic (la := E.lookahead) (so := E.sorter) hR.ok hlen (stepsOK_of0 hR htok hin) [] with ⟨r0, h0, _⟩ | ⟨_, h0⟩
  · obtain ⟨r, h, _⟩ := hrel.returns h0
    rw [h] at hp
    exact panicM_ne_pure hp.symm
  · rw [h0, hp] at hrel
    rcases hrel with ⟨_, _, h, _⟩ | ⟨_, _, h⟩ | ⟨h, _⟩ | ⟨h, _⟩
    · exact panicM_ne_pure h
    · exact absurd (show (none : Option (Except Panic _)) = some (.error _) from h) (by simp)
    · exact absurd (show (some (.error _) : Option (Except Panic _)) = none from h) (by simp)
    · exact h

/-- C03. Without hints, a session diverges if and only if it completes a predicted symbol on a cycle of one-symbol rules
(such as `A ::= A`). In all other cases it returns. -/
theorem C03_diverges_iff (hB : Prepared c n w E.g) (hleo : E.leo = false)
    (hF : SafeStart E.F f c.rules.length c.numSyms) {steps : List Step} (htok : TokensOK c.numSyms steps)
    (hstart : ∀ st ∈ steps, ∀ t ∈ st.2, t.1 ≠ w.root) (hno : NoHints steps) (hlen : steps.length < 2 ^ 64) :
    (Rec.new E f >>= Rec.session E steps) = diverge ↔ CycleCompletes c w steps := by
  constructor
  · intro hd
    by_contra hc
    obtain ⟨r, hr⟩ := C03_returns_without_cycle hB hleo hF htok (fun st hst x hx => absurd hx (hno st hst x)) hlen hc
    rw [hd] at hr
    exact diverge_ne_pure hr
  · rintro ⟨k, A, hk, hA, hcyc⟩
    obtain ⟨root, g0, hR⟩ := hB.ready0
    -- the positions up to `k` already diverge
    have hsub : ∀ st ∈ steps.take k, st ∈ steps := fun st h => List.mem_of_mem_take h
    have hl : (steps.take k).length = k := by rw [List.length_take]; omega
    have hin : ∀ q, q < k → inputOf steps q = inputOf (steps.take k) q := by
      intro q hq
      simp only [inputOf, List.getElem?_take, if_pos hq]
    have htok' : TokensOK c.numSyms (steps.take k) := fun st hst => htok st (hsub st hst)
    have hA' : Completes (rulesOf c) E.g.startSym (inputOf (steps.take k)) (steps.take k).length A := by
      rw [hl, hR.start]; exact Completes.congr hA hin
    have hne : steps.take k ≠ [] := by
      intro h0
      obtain ⟨a, t, _, h2⟩ := hA
      have := h2.lt
      rw [h0] at hl
      simp at hl; omega
    have hcy := session_cycle (la := E.lookahead) (so := E.sorter) hR.ok hne (by omega)
      (stepsOK_of0 hR htok' fun st hst x hx => absurd hx (hno st (hsub st hst) x)) (fun _ st hst => hno st (hsub st hst))
      (by rw [hR.start]; exact fun st hst => hstart st (hsub st hst)) hA' hcyc []
    have hrel := safe_rel hleo hR hF htok' []
    rw [hcy] at hrel
    have hd : (Rec.new E f >>= Rec.session E (steps.take k)) = diverge := by
      rcases hrel with ⟨_, _, _, h, _⟩ | ⟨_, _, h⟩ | ⟨h, _⟩ | ⟨h, _⟩
      · exact absurd h diverge_ne_pure
      · exact absurd (show (none : Option (Except Panic _)) = some (.error _) from h) (by simp)
      · exact h
      · exact h.elim
    have happ : (Rec.new E f >>= Rec.session E steps) = ((Rec.new E f >>= Rec.session E (steps.take k)) >>= fun r =>
        if r.2 then Rec.session E (steps.drop k) r.1 else pure (r.1, false)) := by
      conv_lhs => rw [← List.take_append_drop k steps]
      rw [LawfulMonad.bind_assoc]
      congr 1
      funext s
      exact Rec.sessionWith_append _ _ _
    rw [happ, hd]
    rfl

/-- C03, for one call of `end_earleme`: if a session has got through, and the next position completes a predicted symbol on
a cycle, the tokens are scanned but `end_earleme` never returns. -/
theorem C03_end_earleme_never_returns (hB : Prepared c n w E.g) (hleo : E.leo = false)
    (hF : SafeStart E.F f c.rules.length c.numSyms) {steps : List Step} {toks : List (Nat × Nat)}
    (htok : TokensOK c.numSyms (steps ++ [(.keep, toks)]))
    (hstart : ∀ st ∈ steps ++ [(Rec.HintOp.keep, toks)], ∀ t ∈ st.2, t.1 ≠ w.root)
    (hno : NoHints (steps ++ [(.keep, toks)])) (hlen : steps.length + 1 < 2 ^ 64) {s : Rec σ ν}
    (hs : (Rec.new E f >>= Rec.session E steps) = pure (s, true)) {A : Nat}
    (hA : Completes (rulesOf c) w.root (inputOf (steps ++ [(.keep, toks)])) (steps.length + 1) A)
    (hcyc : OnCycle (rulesOf c) A) :
    (Rec.scanAll E s.beginEarleme toks >>= Rec.endEarleme E) = diverge := by
  have hd := (C03_diverges_iff hB hleo hF htok hstart hno (by simpa using hlen)).2
    ⟨steps.length + 1, A, by simp, hA, hcyc⟩
  have happ : (Rec.new E f >>= Rec.session E (steps ++ [(.keep, toks)])) =
      ((Rec.new E f >>= Rec.session E steps) >>= fun r =>
        if r.2 then Rec.session E [(.keep, toks)] r.1 else pure (r.1, false)) := by
    rw [LawfulMonad.bind_assoc]
    congr 1
    funext s
    exact Rec.sessionWith_append _ _ _
  rw [happ, hs, pure_bind] at hd
  simp only [if_true] at hd
  have hpos : Rec.session E [(.keep, toks)] s = ((Rec.scanAll E s.beginEarleme toks >>= Rec.endEarleme E) >>=
      fun r => if r.2 then pure (r.1, true) else pure (r.1, false)) := by
    show (Rec.positionWith E _ (Rec.applyHint s .keep) toks >>= _) = _
    rfl
  rw [hpos] at hd
  rcases bind_cases (Rec.scanAll E s.beginEarleme toks >>= Rec.endEarleme E) (fun r =>
    (if r.2 then pure (r.1, true) else pure (r.1, false) : M (Rec σ ν × Bool))) with ⟨a, ha, hf⟩ | ⟨p, ha, hf⟩ | ⟨ha, _⟩
  · rw [hd] at hf
    split at hf <;> exact absurd hf diverge_ne_pure
  · rw [hd] at hf
    exact absurd (show (none : Option (Except Panic _)) = some (.error _) from hf) (by simp)
  · exact ha

section
open Gearley.Example.Cyclic

/-- Reading `a` with the grammar `S ::= S | a`: the recognizer does not come back. -/
example : (Rec.new env () >>= Rec.session env [(.keep, [(1, 0)]), (.keep, [(2, 0)])]) = diverge := by
  refine (C03_diverges_iff prepared rfl safe (by unfold TokensOK; decide) (by decide) ?_ (by decide)).2
    ⟨2, 4, by decide, ?_, cycle⟩
  · intro st hst x; simp at hst; rcases hst with rfl | rfl <;> simp
  · refine ⟨1, .node 2 (.leaf 2 0), ?_, .unary (A := 4) (B := 2) (by decide) (.leaf (by decide))⟩
    have h0 : Pred (rulesOf cfg) wrap.root (inputOf [(.keep, [(1, 0)]), (.keep, [(2, 0)])]) 0 5 :=
      .corner .start ⟨⟨3, 5, some 0⟩, by decide, rfl, rfl⟩
    exact .medial (d := 3) (A := 5) (B := 1) (t := .leaf 1 0) (by decide) h0 (.leaf (by decide))

/-- Before `a` is read nothing on the cycle is completed. -/
example : ¬ CycleCompletes cfg wrap [(.keep, [(1, 0)])] := by
  rw [← C03_diverges_iff (E := env) prepared rfl safe (by unfold TokensOK; decide) (by decide)
    (by intro st hst x; simp at hst; subst hst; simp) (by decide)]
  have h : (do
      let r ← Rec.new env () >>= Rec.sessionWith env (Rec.completeAllFuel env 20) [(.keep, [(1, 0)])]
      pure r.2) = pure true := by decide +kernel
  obtain ⟨r, hr, _⟩ := bind_eq_pure h
  have : (Rec.new env () >>= Rec.session env [(.keep, [(1, 0)])]) = pure r := by
    obtain ⟨s, h1, h2⟩ := bind_eq_pure hr
    rw [h1, pure_bind]
    exact Rec.session_below 20 _ _ _ h2
  rw [this]
  exact fun h => diverge_ne_pure h.symm

end
end Gearley.Props
