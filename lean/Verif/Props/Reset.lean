import Verif.Proofs.Reset
import Verif.Props.Recognition
import Verif.Props.Independence

/-! # C11: reset -/

namespace Gearley.Props
open Gearley Gearley.Spec

variable {σ ν : Type} {E : Env σ ν} {c : Cfg} {n : Nat} {w : WrappedRoot} {f : σ}

/-- What a client learns from a session on the recognizer `s`: did all positions succeed, and is it finished then? -/
def acceptedFrom (E : Env σ ν) (s : Rec σ ν) (steps : List Step) : M Bool := do
  let (s, ok) ← Rec.session E steps s
  if ok then Rec.isFinished E s else pure false

/-- C11 (partial). After any sequence of calls `hist` on a new recognizer (any calls, in any order, as long as they return) and
a `reset`, a session accepts its input if and only if a new recognizer accepts it, that is, if and only if the input is a
sentence. Required: no hint is pending, or the session sets or clears the hint at its first position.
Missing: equal results of the other calls (false, `C11_stale_predictions`), and pending hints (false, `C11_stale_hint`). -/
theorem C11_partial (hB : Built c n w E.g) (hleo : E.leo = false) {hist : List Call} {s : Rec σ ν} {obs : List Obs}
    (hist_ok : (Rec.new E f >>= Rec.calls E hist) = pure (s, obs))
    (hF : SafeStart E.F f c.rules.length c.numSyms) (hF' : SafeStart E.F s.forest c.rules.length c.numSyms)
    (hhint : ∀ h, s.lookahead = some h → h < n) :
    ∃ s0, Rec.reset E s = pure s0 ∧ ∀ steps, TokensOK c.numSyms steps → HintsIn n steps →
      Honest (fun t => t < n ∧ Terminal (rulesOf c) t) w.eof steps → steps ≠ [] → steps.length < 2 ^ 64 - 1 →
      NoPending s.lookahead steps →
      ∃ b, acceptedFrom E s0 steps = pure b ∧ accepted E f steps = pure b ∧ (b = true ↔ Sentence c w steps) := by
  obtain ⟨root, rank, g0, hR⟩ := hB.ready
  have hkept : Kept E.g (rulesOf c) s.predicted :=
    (Rec.new_kept hR.ok f).bind (fun s0 h0 => Rec.calls_kept hR.ok (secondOK_of hB.toPrepared) hist h0) _ hist_ok
  obtain ⟨s0, h0, hrun⟩ := reset_session hleo hR hF' hkept hhint
  refine ⟨s0, h0, ?_⟩
  intro steps htok hin hh hne hlen hpend
  obtain ⟨b, hb, hiff⟩ := accepted_spec hB hleo hF htok hin hh hne hlen
  obtain ⟨⟨r, ok⟩, h1, h2, h3⟩ := (hrun steps htok hin hpend).1 hne hlen (fun _ => hh)
  rw [hR.accepts] at h2 h3
  refine ⟨b, ?_, hb, hiff⟩
  unfold acceptedFrom
  rw [h1, pure_bind]
  cases ok with
  | false =>
    have := mt hiff.1 (h3 rfl)
    simp only [Bool.not_eq_true] at this
    rw [this]
    rfl
  | true =>
    obtain ⟨b', e1, e2⟩ := h2 rfl
    have hbb : b' = b := by
      rw [Bool.eq_iff_iff, e2, hiff]
      exact Iff.rfl
    subst hbb
    exact e1

/-- Wherever a new recognizer gets through without hints, a recognizer after `reset` gets through. (It may get through where a
new one fails, `C11_stale_predictions`.) -/
theorem C11_through (hB : Built c n w E.g) (hleo : E.leo = false) {hist : List Call} {s : Rec σ ν} {obs : List Obs}
    (hist_ok : (Rec.new E f >>= Rec.calls E hist) = pure (s, obs))
    (hF : SafeStart E.F f c.rules.length c.numSyms) (hF' : SafeStart E.F s.forest c.rules.length c.numSyms)
    (hhint : ∀ h, s.lookahead = some h → h < n) {s0 : Rec σ ν} (hs0 : Rec.reset E s = pure s0) {steps : List Step}
    (htok : TokensOK c.numSyms steps) (hno : NoHints steps) (hstart : ∀ st ∈ steps, ∀ t ∈ st.2, t.1 ≠ w.root)
    (hlen : steps.length < 2 ^ 64) (hpend : NoPending s.lookahead steps) {r : Rec σ ν}
    (hfresh : (Rec.new E f >>= Rec.session E steps) = pure (r, true)) :
    ∃ r', Rec.session E steps s0 = pure (r', true) := by
  obtain ⟨root, rank, g0, hR⟩ := hB.ready
  have hin : HintsIn n steps := fun st hst x hx => absurd hx (hno st hst x)
  have hkept : Kept E.g (rulesOf c) s.predicted :=
    (Rec.new_kept hR.ok f).bind (fun s0 h0 => Rec.calls_kept hR.ok (secondOK_of hB.toPrepared) hist h0) _ hist_ok
  obtain ⟨s0', h0, hrun⟩ := reset_session hleo hR hF' hkept hhint
  rw [hs0] at h0
  cases pure_inj_M h0
  have hv : Viable (rulesOf c) w.root steps := by
    have := safe_run hleo hR hF htok (Q := fun r => r.2 = true → Viable (rulesOf c) E.g.startSym steps)
      (fun f0 => session_sound hR.ok hR.ranked hlen (stepsOK_of hR htok hin) f0)
    obtain ⟨r0, h1, h2, _⟩ := this.of_eq hfresh
    rw [← hR.start]
    exact h1 h2.symm
  obtain ⟨⟨r', ok⟩, h1, h2⟩ := (hrun steps htok hin hpend).2 hlen (fun _ => hno) hstart hv
  simp only at h2
  subst h2
  exact ⟨r', h1⟩

section
open Gearley.Example

/-- One position with one token. -/
def tok (t : Nat) : List Call := [.beginEarleme, .scan t 0, .endEarleme]

/-- Calls before the reset: `a plus` is read. -/
def usedCalls : List Call := tok 1 ++ tok 5 ++ tok 2 ++ [.reset]

/-- Calls after the reset: `a` is read, then a second `a`, which cannot follow. -/
def laterCalls : List Call := tok 1 ++ tok 5 ++ tok 5

/-- What is observed is not what a new recognizer shows: predictions of the earlier parse survive, and `end_earleme` succeeds
where it should report failure. -/
theorem C11_stale_predictions :
    (∃ s, (Rec.new env () >>= Rec.calls env laterCalls) = pure (s, [.unit, .unit, .bool true, .unit, .unit, .bool true,
      .unit, .unit, .bool false])) ∧
    ∃ s, (Rec.new env () >>= Rec.calls env (usedCalls ++ laterCalls)) = pure (s, [.unit, .unit, .bool true, .unit, .unit,
      .bool true, .unit, .unit, .bool true, .unit, .unit, .unit, .bool true, .unit, .unit, .bool true,
      .unit, .unit, .bool true]) :=
  ⟨observations_real (by decide +kernel), observations_real (by decide +kernel)⟩

/-- Calls before the reset: a token that cannot start the input, with the hint `plus`. -/
def hintedCalls : List Call := [.beginEarleme, .setHint 2, .scan 5 0, .endEarleme, .reset]

/-- A hint that was pending when a position failed survives `reset`: the next parse fails at its first token. -/
theorem C11_stale_hint :
    (∃ s, (Rec.new env () >>= Rec.calls env (tok 1)) = pure (s, [.unit, .unit, .bool true])) ∧
    ∃ s, (Rec.new env () >>= Rec.calls env (hintedCalls ++ tok 1)) = pure (s, [.unit, .unit, .unit, .bool false, .unit,
      .unit, .unit, .bool false]) :=
  ⟨observations_real (by decide +kernel), observations_real (by decide +kernel)⟩

/-- The hypotheses of `C11_partial` hold for a recognizer that has read `a plus`, whose predictions are stale. -/
example : ∃ s obs, (Rec.new env () >>= Rec.calls env (tok 1 ++ tok 5 ++ tok 2)) = pure (s, obs) ∧
    SafeStart env.F s.forest cfg.rules.length cfg.numSyms := by
  obtain ⟨s, h⟩ := observations_real (E := env) (f := ()) (cs := tok 1 ++ tok 5 ++ tok 2)
    (o := [.unit, .unit, .bool true, .unit, .unit, .bool true, .unit, .unit, .bool true]) (by decide +kernel)
  exact ⟨s, _, h, nullForest_safeStart _ _⟩

end
end Gearley.Props
