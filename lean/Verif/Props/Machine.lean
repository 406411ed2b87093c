import Verif.Props.Retained

/-!
# C51: positions in 32 bits

`Model/Recognizer.lean` treats origins as exact numbers, `Model/Machine.lean` has the `u32` of the code.
-/

namespace Gearley.Props
open Gearley.Spec
variable {σ ν : Type} {c : Cfg} {n : Nat} {w : WrappedRoot} {E : Env σ ν} {f : σ}

/-- C51. For every grammar and forest, and all sequences of calls of the public interface, in any order, in which
`begin_earleme` is called less than `2 ^ 32` times: the conversion to 32 bits makes no difference. -/
theorem C51_calls (E : Env σ ν) (f : σ) {cs : List Call} (h : cs.count .beginEarleme < 2 ^ 32) :
    (Rec.new E f >>= Rec.calls32 E (Rec.completeAll E) cs) = (Rec.new E f >>= Rec.calls E cs) := by
  refine bind_congr_pure fun s hs => ?_
  have := Rec.new_len hs
  exact Rec.calls32_eq Rec.completeAll_keepsSets cs s (by omega) (by omega)

/-- C51 for `parse`: up to `2 ^ 32 - 2` tokens are read as with exact numbers. -/
theorem C51_parse (E : Env σ ν) (f : σ) {tokens : List Nat} (h : tokens.length + 2 ≤ 2 ^ 32) :
    (Rec.new E f >>= fun s => Rec.parse32 E (Rec.completeAll E) s tokens) = (Rec.new E f >>= fun s => Rec.parse E s tokens) := by
  refine bind_congr_pure fun s hs => ?_
  have := Rec.new_len hs
  exact Rec.parse32_eq (by omega)

/-- C51, memory instead of length: the input may be of any length as long as less than `2 ^ 32` sets are kept. For example, with
left-linear grammars there is no limit on the length of the input. -/
theorem C51_left_linear (hB : Built c n w E.g) (hleo : E.leo = false)
    (hF : SafeStart E.F f c.rules.length c.numSyms) (hmark : Marked (rulesOf c) w.root w.eof)
    (hlin : LeftLinear (rulesOf c) w.root) {steps : List Step}
    (htok : TokensOK c.numSyms steps) (hin : HintsIn n steps) (hlen : steps.length < 2 ^ 64)
    (huser : ∀ st ∈ steps, ∀ p ∈ st.2, p.1 < n ∧ p.1 ≠ w.eof) :
    (Rec.new E f >>= Rec.session32 E steps) = (Rec.new E f >>= Rec.session E steps) := by
  refine bind_congr_pure fun s hs => ?_
  refine Rec.session32_eq_of steps s fun pre more hp r h1 h2 => ?_
  have hsub : ∀ st ∈ pre, st ∈ steps := fun st h => by rw [hp]; exact List.mem_append_left _ h
  have hl : pre.length ≤ steps.length := by rw [hp]; simp
  obtain ⟨r', e1, e2, _⟩ := C52_left_linear hB hleo hF hmark hlin (steps := pre) (fun st h => htok st (hsub st h))
    (fun st h => hin st (hsub st h)) (by omega) (fun st h => huser st (hsub st h))
  rw [hs, pure_bind, h1] at e1
  have e1 := pure_inj_M e1
  subst e1
  have := e2 h2
  omega

section
open Gearley.Example

/-- C51 is sharp: the grammar `S ::= a S | a` on a list of `k + 1 = 2 ^ 32 - 1` elements is too long by one. With exact numbers
the list is read without error; `scan` panics on its last element. -/
theorem C51_sharp (hg : E.g = Right.grammar) (hleo : E.leo = false)
    (hF : SafeStart E.F f Right.cfg.rules.length Right.cfg.numSyms) {k : Nat} (hk : k + 2 = 2 ^ 32) :
    (∃ r, (Rec.new E f >>= Rec.session32 E (listSteps k)) = pure r ∧ r.2 = true) ∧
    (∃ r, (Rec.new E f >>= Rec.session E (listSteps (k + 1))) = pure r ∧ r.2 = true) ∧
    (Rec.new E f >>= Rec.session32 E (listSteps (k + 1))) = panicM .overflow := by
  obtain ⟨r, h1, h2, h3⟩ := C52_right_recursion hg hleo hF k (by omega)
  obtain ⟨r', h4, h5, _⟩ := C52_right_recursion hg hleo hF (k + 1) (by omega)
  obtain ⟨s0, e0, h1⟩ := bind_eq_pure h1
  have e1 : Rec.session32 E (listSteps k) s0 = pure r := by
    rw [Rec.session32_eq _ _ (by rw [Rec.new_len e0]; simp only [listSteps, List.length_cons, List.length_replicate]; omega), h1]
  refine ⟨⟨r, ?_, h2⟩, ⟨r', h4, h5⟩, ?_⟩
  · rw [e0, pure_bind, e1]
  · rw [e0, pure_bind, listSteps_succ, Rec.session32_snoc, e1, pure_bind, h2]
    exact Rec.position32_overflow (by rw [Rec.applyHint_medial, h3, hk])

-- the grammar and the forests of the crates meet the conditions
example {b : Simple.Bocage} (hb : Simple.Bocage.new Right.grammar.forestInfo = pure b) {k : Nat} (hk : k + 2 = 2 ^ 32) :
    (Rec.new { g := Right.grammar, F := Simple.forest, sorter := sorter } b >>=
      Rec.session32 { g := Right.grammar, F := Simple.forest, sorter := sorter } (listSteps (k + 1))) = panicM .overflow :=
  (C51_sharp (E := { g := Right.grammar, F := Simple.forest, sorter := sorter }) rfl rfl ((C02_forests _ _).2.1 _ _ hb) hk).2.2

end
end Gearley.Props
