import Verif.Proofs.SLR
import Verif.Proofs.CalculatorExists
import Verif.Props.LR
import Verif.Props.NewBocage

/-!
# C65 for the calculator

The grammar of `precedenced_math` (`gearley-example-grammars`) is SLR(1), hence LR(1), so parsers of arithmetic expressions take
linear time.
-/

namespace Gearley.Props
open Gearley.Spec Build Gearley.Calculator Gearley.Calculator.Precedenced

/-- Every rule is reached from the start symbol if every symbol with a rule, other than the start symbol, is in a rule of a symbol
of lower rank. -/
theorem Reached.of_rank {R : Rules} {start : Nat} (rank : Nat → Nat)
    (h : ∀ r ∈ R, r.lhs = start ∨ ∃ q ∈ R, rank q.lhs < rank r.lhs ∧ (q.rhs0 = r.lhs ∨ q.rhs1 = some r.lhs)) : Reached R start := by
  have key : ∀ n, ∀ r ∈ R, rank r.lhs ≤ n → ∃ α β, Derives R start (α ++ r.lhs :: β) := by
    intro n
    induction n with
    | zero =>
      intro r hr hn
      rcases h r hr with e | ⟨q, hq, h1, h2⟩
      · exact ⟨[], [], by rw [e]; exact .refl _⟩
      · omega
    | succ n ih =>
      intro r hr hn
      rcases h r hr with e | ⟨q, hq, h1, h2⟩
      · exact ⟨[], [], by rw [e]; exact .refl _⟩
      · obtain ⟨α, β, h3⟩ := ih q hq (by omega)
        have : ∃ α' β', Derives R q.lhs (α' ++ r.lhs :: β') := by
          cases hq1 : q.rhs1 with
          | none =>
            rcases h2 with h2 | h2
            · exact ⟨[], [], .unary hq hq1 (by rw [h2]; exact .refl _)⟩
            · rw [hq1] at h2; cases h2
          | some C =>
            have := Derives.binary hq hq1 (.refl _) (.refl _)
            rcases h2 with h2 | h2
            · exact ⟨[], [C], by rw [h2] at this; exact this⟩
            · rw [hq1, Option.some.injEq] at h2
              exact ⟨[q.rhs0], [], by rw [h2] at this; exact this⟩
        obtain ⟨α', β', h4⟩ := this
        exact ⟨α ++ α', β' ++ β, by simpa using Derives.subst h4 h3 α β rfl⟩
  exact fun r hr => key _ r hr (Nat.le_refl _)

set_option maxRecDepth 100000 in
theorem calc_table : (SLRTable.build (augmented grammar (standardRoot 20 0)) 20 24 5 100).check (augmented grammar (standardRoot 20 0)) 20 = true ∧
    0 < (SLRTable.build (augmented grammar (standardRoot 20 0)) 20 24 5 100).items.length := by decide +kernel

theorem calc_lr1 : LR1 (augmented grammar (standardRoot 20 0)) 20 := SLR.lr1 (SLR.of_check calc_table.1) calc_table.2

theorem calc_noEmpty : Spec.NoEmpty grammar := by unfold Spec.NoEmpty; decide +kernel

theorem calc_productive : Spec.Productive grammar := by
  have ht : ∀ s, 4 ≤ s → Yields grammar s [s] := fun s hs => .token (by
    have : ∀ r ∈ grammar, r.1 < 4 := by decide +kernel
    intro r hr e
    have := this r hr
    omega)
  have h3 : Yields grammar 3 [10] := .rule (k := 9) rfl (.cons (ht 10 (by decide)) .nil)
  have h2 : Yields grammar 2 [10] := .rule (k := 7) rfl (.cons h3 .nil)
  have h1 : Yields grammar 1 [10] := .rule (k := 5) rfl (.cons h2 .nil)
  have h0 : Yields grammar 0 [10] := .rule (k := 2) rfl (.cons h1 .nil)
  intro r _ s _
  match s with
  | 0 => exact ⟨_, h0⟩
  | 1 => exact ⟨_, h1⟩
  | 2 => exact ⟨_, h2⟩
  | 3 => exact ⟨_, h3⟩
  | s + 4 => exact ⟨_, ht _ (by omega)⟩

theorem calc_reached : Reached (rulesOf calcCfg) 20 :=
  Reached.of_rank (fun s => if s = 20 then 0 else if s = 23 then 1 else if s = 0 then 2 else if s = 1 ∨ s = 24 ∨ s = 25 then 3
    else if s = 2 ∨ s = 26 ∨ s = 27 then 4 else 5) (by decide +kernel)

theorem calc_nodup : grammar.Nodup := by decide +kernel

/-- The tokens of the calculator: operators, parentheses and digits. -/
theorem calc_tokens {toks : List Nat} (h : ∀ t ∈ toks, 4 ≤ t ∧ t < 20) : Tokens grammar calcCfg toks := by
  intro t ht
  obtain ⟨h1, h2⟩ := h t ht
  have h3 : ∀ r ∈ grammar, r.1 < 4 := by decide +kernel
  have h4 : ∀ t, t < 20 → 4 ≤ t → (∃ r ∈ grammar, t ∈ r.2) ∧ ∃ r ∈ calcCfg.rules, t ∈ r.rhs := by decide +kernel
  obtain ⟨h5, r, hr, h6⟩ := h4 t h2 h1
  refine ⟨fun r hr e => ?_, h5, r, hr, .inr h6⟩
  have := h3 r hr
  omega

/-- C65 for the calculator: with look-ahead and FOLLOW sets by the textbook rules, a parser of arithmetic expressions takes linear
time on every string of operators, parentheses and digits. -/
theorem C65_calculator {X : CfgCrate} {σ ν : Type} {E : Env σ ν} {f : σ} (hX : CrateOK X) (htb : Textbook X)
    (hg : fromBinarized X calcCfg Example.noRules = pure E.g) (hleo : E.leo = false) (hla : E.lookahead = true)
    (hF : SafeStart E.F f calcCfg.rules.length calcCfg.numSyms) {toks : List Nat} (ht : ∀ t ∈ toks, 4 ≤ t ∧ t < 20)
    (hlen : toks.length + 1 < 2 ^ 64 - 1) :
    ∃ s res, (Rec.new E.counting (f, 0) >>= fun s => Rec.parse E.counting s toks) = pure (s, res) ∧
      s.forest.2 ≤ lrCost 29 35 * (toks.length + 1) ∧ (∀ b, res = .ok b → s.medial.itemCount ≤ lrCost 29 35 * (toks.length + 1)) := by
  obtain ⟨g, h1, h2⟩ := calc_parser hX
  have h3 := h1.made
  rw [hg] at h3
  cases pure_inj_M h3
  have hlr : LR1 (augmented grammar (standardRoot 20 0)) (standardRoot 20 0).root := calc_lr1
  exact C65_linear h1 h2 calc_nodup hleo hla hF hlr calc_productive (Trimmed.of_noEmpty calc_noEmpty calc_productive)
    (FollowTight.of_textbook hX htb calc_ok calc_reached hg) (calc_tokens ht) hlen

/-! ### Examples -/

-- parsers with the compact bocage exist, and on `((((…1` with any number of parentheses they take linear time
example : ∃ (E : Env Compact.Bocage Nat) (b : Compact.Bocage), fromBinarized textbookCrate calcCfg Example.noRules = pure E.g ∧
    Compact.Bocage.new E.g.forestInfo = pure b ∧ ∀ k, k + 2 < 2 ^ 64 - 1 →
      ∃ s res, (Rec.new E.counting (b, 0) >>= fun s => Rec.parse E.counting s (List.replicate k 8 ++ [11])) = pure (s, res) ∧
        s.forest.2 ≤ lrCost 29 35 * (k + 2) := by
  obtain ⟨g, ⟨⟨_, _, h1, _, _, _, _⟩, _⟩, _⟩ := calc_parser textbookCrate_ok
  obtain ⟨-, b, hb⟩ := C36_made textbookCrate_ok calc_ok h1 (by decide) (by decide)
  refine ⟨{ g := g, F := Compact.forest, leo := false, sorter := Example.sorter }, b, h1, hb, fun k hk => ?_⟩
  obtain ⟨s, res, h3, h4, _⟩ := C65_calculator (E := { g := g, F := Compact.forest, leo := false, sorter := Example.sorter }) (toks := List.replicate k 8 ++ [11])
    textbookCrate_ok textbookCrate_exact h1 rfl rfl ((C02_forests _ _).2.2 b) (by
      intro t ht
      rcases List.mem_append.1 ht with ht | ht
      · cases List.eq_of_mem_replicate ht; decide
      · cases List.mem_singleton.1 ht; decide) (by simpa using hk)
  exact ⟨s, res, h3, by simpa using h4⟩

-- `C65_memory` for these parsers: the bocage has linearly many bytes
example : ∃ (E : Env Compact.Bocage Nat) (b : Compact.Bocage), Compact.Bocage.new E.g.forestInfo = pure b ∧ ∀ toks : List Nat, (∀ t ∈ toks, 4 ≤ t ∧ t < 20) →
    toks.length + 1 < 2 ^ 64 - 1 → ∃ s res, (Rec.new E b >>= fun s => Rec.parse E s toks) = pure (s, res) ∧
      s.forest.graph.length ≤ b.graph.length + 9 * (lrCost 29 35 * (toks.length + 1)) := by
  obtain ⟨g, h1, h2⟩ := calc_parser textbookCrate_ok
  obtain ⟨-, b, hb⟩ := C36_made textbookCrate_ok calc_ok h1.made (by decide) (by decide)
  have hlr : LR1 (augmented grammar (standardRoot 20 0)) (standardRoot 20 0).root := calc_lr1
  refine ⟨{ g := g, F := Compact.forest, leo := false, sorter := Example.sorter }, b, hb, fun toks ht hlen => ?_⟩
  obtain ⟨s, res, h3, h4, _⟩ := C65_memory (E := { g := g, F := Compact.forest, leo := false, sorter := Example.sorter }) h1 h2 calc_nodup
    rfl rfl ((C02_forests _ _).2.2 b) C54_forests.2 hlr calc_productive (Trimmed.of_noEmpty calc_noEmpty calc_productive) (FollowTight.of_textbook textbookCrate_ok textbookCrate_exact calc_ok calc_reached h1.made)
    (calc_tokens ht) hlen
  exact ⟨s, res, h3, h4⟩

end Gearley.Props
