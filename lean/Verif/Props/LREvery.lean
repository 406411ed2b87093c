import Verif.Proofs.LREvery
import Verif.Proofs.LRTable
import Verif.Props.LR
import Verif.Props.UserCycle

/-!
# C65: every LR(1) grammar has a linear parser
-/

namespace Gearley.Props
open Gearley.Spec Build
variable {U : URules} {m root : Nat}

/-- LR(1) grammars have no cycles: no symbol derives itself. -/
theorem C65_acyclic {w : WrappedRoot} (hlr : LR1 (augmented U w) w.root) (hprod : Spec.Productive U) (hreach : ∀ r ∈ U, UReached U w.innerRoot r.1)
    (hroot : ∃ r ∈ U, r.1 = w.innerRoot) (hnew : ∀ s, s = w.root ∨ s = w.sof ∨ s = w.eof → ∀ r ∈ U, r.1 ≠ s ∧ s ∉ r.2)
    (hne : w.root ∉ [w.sof, w.innerRoot, w.eof]) (A : Nat) : ¬ UCyclic U A := by
  simp only [List.mem_cons, List.not_mem_nil, or_false, not_or] at hne
  have hrootU : ∀ r ∈ U, w.root ∉ r.2 := fun r hr => (hnew _ (.inl rfl) r hr).2
  have hG : LRGrammar (augmented U w) w.root := by
    refine ⟨hlr, fun r hr hm => ?_⟩
    rcases List.mem_cons.1 hr with rfl | hr
    · simp only [List.mem_cons, List.not_mem_nil, or_false] at hm
      rcases hm with e | e | e
      · exact hne.1 e
      · exact hne.2.1 e
      · exact hne.2.2 e
    · exact hrootU r hr hm
  have hprodA : Spec.Productive (augmented U w) := by
    refine hprod.augmented hrootU hroot (fun e => hne.2.1 e.symm) ?_
    rintro s (rfl | rfl)
    · exact ⟨fun e => hne.1 e.symm, fun r hr => (hnew _ (.inr (.inl rfl)) r hr).1⟩
    · exact ⟨fun e => hne.2.2 e.symm, fun r hr => (hnew _ (.inr (.inr rfl)) r hr).1⟩
  have heof : UTerminal (augmented U w) w.eof := by
    intro r hr e
    rcases List.mem_cons.1 hr with rfl | hr
    · exact hne.2.2 e
    · exact (hnew _ (.inr (.inr rfl)) r hr).1 e
  intro h
  -- the symbol is on both sides of rules
  obtain ⟨k, rhs, hk⟩ : ∃ (k : Nat) (rhs : List Nat), U[k]? = some (A, rhs) := by
    have : ∀ {B C : Nat}, Relation.TransGen (UStep U) B C → ∃ (k : Nat) (rhs : List Nat), U[k]? = some (C, rhs) := by
      intro B C h
      cases h with
      | single h => exact ⟨_, _, h.choose_spec.choose_spec.choose_spec.1⟩
      | tail _ h => exact ⟨_, _, h.choose_spec.choose_spec.choose_spec.1⟩
    exact this h
  have hr := List.mem_of_getElem? hk
  obtain ⟨γ, x, h1, h2⟩ := (hreach _ hr).form hprodA heof
  obtain ⟨v, hv, hs⟩ := hprodA.all (List.mem_cons_of_mem _ hr : (A, rhs) ∈ augmented U w) rhs fun _ h => h
  refine hG.no_cycle (fun r hr => List.mem_cons_of_mem _ hr) h1 h2 (v := v) (.head ?_ hs) hv h
  have := RStep.mk (P := augmented U w) (γ := []) (x := []) (List.mem_cons_of_mem _ hr) (by simp)
  simpa using this

/-- C65: every LR(1) grammar has a parser that takes linear time. `U` is a grammar whose symbols are less than `m`, with the root
`root`, that is LR(1) together with the rule for a new start symbol and new marks. No rule is given twice or out of reach, and all
symbols in rules derive non-empty strings. Then there is a parser such that for all tokens, with look-ahead, `parse` takes at most
`K` operations for each token, and accepts exactly the strings of the grammar. -/
theorem C65_every_grammar (hm : ∀ r ∈ U, r.1 < m ∧ ∀ s ∈ r.2, s < m) (hroot : ∃ r ∈ U, r.1 = root)
    (hlr : LR1 (augmented U (standardRoot m root)) m) (hnd : U.Nodup) (hreach : ∀ r ∈ U, UReached U root r.1)
    (hlive : ∀ r ∈ U, ∀ s ∈ r.2, Live U s) :
    ∃ (N : Names U) (c nulling : Cfg) (g : DefaultGrammar) (K : Nat), UserParser textbookCrate U N (standardRoot m root) (m + 3) c nulling g ∧
      EmptyKept U N c nulling g ∧
      ∀ {σ ν : Type} {E : Env σ ν} {f : σ}, E.g = g → E.leo = false → E.lookahead = true → (∀ dots syms, SafeStart E.F f dots syms) →
        ∀ toks : List Nat, (∀ t ∈ toks, UTerminal U t ∧ ∃ r ∈ U, t ∈ r.2) → toks.length + 1 < 2 ^ 64 - 1 →
          ∃ s res, (Rec.new E.counting (f, 0) >>= fun s => Rec.parse E.counting s toks) = pure (s, res) ∧
            s.forest.2 ≤ K * (toks.length + 1) ∧ (∀ b, res = .ok b → s.medial.itemCount ≤ K * (toks.length + 1)) ∧
            (res = .ok true ↔ Yields U root toks) := by
  obtain ⟨_, L, _, hL⟩ := bounds_exist U
  have hprod : Spec.Productive U := fun r hr s hs => by
    obtain ⟨a, u, hu⟩ := hlive r hr s hs
    exact ⟨_, hu⟩
  have hrm : root < m := by
    obtain ⟨r, hr, rfl⟩ := hroot
    exact (hm r hr).1
  have hac : UAcyclic U := by
    refine uacyclic_iff.2 (C65_acyclic (w := standardRoot m root) hlr hprod hreach hroot ?_ ?_)
    · intro s hs r hr
      have h1 := hm r hr
      have : m ≤ s := by rcases hs with rfl | rfl | rfl <;> simp [standardRoot]
      exact ⟨by omega, fun h2 => by have := h1.2 s h2; omega⟩
    · simp [standardRoot]
      omega
  obtain ⟨g, h1, h2, h3⟩ := userParser_exists_of hm hL textbookCrate_ok hroot hac
  have htok := tokens_standard (root := root) hm hL h3
  refine ⟨_, _, _, g, lrCost (m + 4 + U.length * L) (standardCfg U (standardNames U m L hm hL) m L root).rules.length, h1, h2, ?_⟩
  intro σ ν E f hg hleo hla hF toks ht hlen
  subst hg
  have ht' := (htok toks).2 ht
  obtain ⟨s, res, h4, h5, h6⟩ := C65_linear h1 h2 hnd hleo hla (hF _ _) hlr hprod (.of_live hlive)
    (FollowTight.of_textbook textbookCrate_ok textbookCrate_exact h1.ok (std_reached hm hL hreach) h1.made) ht' hlen
  obtain ⟨s0, s', res', h7, h8, h9⟩ := C55_accepts (E := E.counting) (f := (f, 0)) h1 hleo (fun dots syms => counting_safe (hF dots syms) 0) ht' hlen
  rw [h7, pure_bind, h8] at h4
  have h4 := pure_inj_M h4
  simp only [Prod.mk.injEq] at h4
  obtain ⟨rfl, rfl⟩ := h4
  exact ⟨s', res', by rw [h7, pure_bind, h8], h5, h6, h9⟩

/-! ### Example: a grammar with an empty rule -/

namespace LRExample

/-- `S ::= x O S`, `S ::= z x O`, `O ::= y`, `O ::= ε`: `S` is 0, `O` 1, `x` 3, `y` 4, `z` 5. -/
def rules : URules := [(0, [3, 1, 0]), (0, [5, 3, 1]), (1, [4]), (1, [])]

/-- The table of an LR(1) parser. -/
def table : LRTable where
  items := [[(0, 0, none)],
    [(0, 1, none), (1, 0, some 8), (2, 0, some 8)],
    [(0, 2, none)],
    [(1, 1, some 8), (3, 0, some 3), (3, 0, some 5), (4, 0, some 3), (4, 0, some 5)],
    [(2, 1, some 8)],
    [(0, 3, none)],
    [(1, 0, some 8), (1, 2, some 8), (2, 0, some 8)],
    [(3, 1, some 3), (3, 1, some 5)],
    [(2, 2, some 8), (3, 0, some 8), (4, 0, some 8)],
    [(1, 3, some 8)],
    [(2, 3, some 8)],
    [(3, 1, some 8)]]
  goto := [[(7, 1)], [(0, 2), (3, 3), (5, 4)], [(8, 5)], [(1, 6), (4, 7)], [(3, 8)], [], [(0, 9), (3, 3), (5, 4)], [], [(1, 10), (4, 11)], [], [], []]
  first := [[3, 5], [4], [], [], [], [], [7]]
  null := [1]

theorem lr1 : LR1 (augmented rules (standardRoot 6 0)) 6 := LRTableOK.lr1 (LRTableOK.of_check (T := table) (by decide +kernel))

theorem live : ∀ r ∈ rules, ∀ s ∈ r.2, Live rules s := by
  have ht : ∀ s, 2 ≤ s → Yields rules s [s] := fun s hs => .token (by
    have : ∀ r ∈ rules, r.1 < 2 := by decide +kernel
    intro r hr e
    have := this r hr
    omega)
  have h1 : Yields rules 1 [4] := .rule (k := 2) rfl (.cons (ht 4 (by decide)) .nil)
  have h0 : Yields rules 0 [5, 3, 4] := .rule (k := 1) rfl (.cons (ht 5 (by decide)) (.cons (ht 3 (by decide)) (.cons h1 .nil)))
  intro r _ s _
  match s with
  | 0 => exact ⟨_, _, h0⟩
  | 1 => exact ⟨_, _, h1⟩
  | s + 2 => exact ⟨_, _, ht _ (by omega)⟩

theorem reached : ∀ r ∈ rules, UReached rules 0 r.1 := by
  have h1 : UReached rules 0 1 := .rule (A := 0) (rhs := [3, 1, 0]) .root (by decide) (by decide)
  intro r hr
  have : r.1 = 0 ∨ r.1 = 1 := by
    revert r
    decide +kernel
  rcases this with e | e
  · rw [e]; exact .root
  · rw [e]; exact h1

-- the assumptions hold for this grammar, the string `x x y z x` belongs to it and the compact bocage can be used
example : ∃ (N : Names rules) (c nulling : Cfg) (g : DefaultGrammar) (K : Nat),
    UserParser textbookCrate rules N (standardRoot 6 0) 9 c nulling g ∧
    ∀ (b : Compact.Bocage) (toks : List Nat), (∀ t ∈ toks, 3 ≤ t ∧ t ≤ 5) → toks.length + 1 < 2 ^ 64 - 1 →
      ∃ s res, (Rec.new ({ g := g, F := Compact.forest, leo := false, sorter := Example.sorter } : Env Compact.Bocage Nat).counting (b, 0) >>= fun s =>
          Rec.parse ({ g := g, F := Compact.forest, leo := false, sorter := Example.sorter } : Env Compact.Bocage Nat).counting s toks) = pure (s, res) ∧
        s.forest.2 ≤ K * (toks.length + 1) ∧ (res = .ok true ↔ Yields rules 0 toks) := by
  obtain ⟨N, c, nulling, g, K, h1, _, h3⟩ := C65_every_grammar (m := 6) (root := 0) (by decide +kernel) ⟨(0, [3, 1, 0]), by decide, rfl⟩ lr1 (by decide) reached live
  refine ⟨N, c, nulling, g, K, h1, fun b toks ht hlen => ?_⟩
  obtain ⟨s, res, h4, h5, _, h6⟩ := h3 (E := ({ g := g, F := Compact.forest, leo := false, sorter := Example.sorter } : Env Compact.Bocage Nat)) (f := b) rfl rfl rfl
    (fun dots syms => (C02_forests _ _).2.2 b) toks (fun t htm => by
      obtain ⟨h7, h8⟩ := ht t htm
      have : ∀ t, t ≤ 5 → 3 ≤ t → (∀ r ∈ rules, r.1 ≠ t) ∧ ∃ r ∈ rules, t ∈ r.2 := by decide +kernel
      exact this t h8 h7) hlen
  exact ⟨s, res, h4, h5, h6⟩

example : Yields rules 0 [3, 3, 4, 5, 3] := by
  have ht : ∀ s, 2 ≤ s → Yields rules s [s] := fun s hs => .token (by
    have : ∀ r ∈ rules, r.1 < 2 := by decide +kernel
    intro r hr e
    have := this r hr
    omega)
  have h1 : Yields rules 1 [4] := .rule (k := 2) rfl (.cons (ht 4 (by decide)) .nil)
  have h2 : Yields rules 1 [] := .rule (k := 3) rfl .nil
  have h3 : Yields rules 0 [5, 3] := .rule (k := 1) rfl (.cons (ht 5 (by decide)) (.cons (ht 3 (by decide)) (.cons h2 .nil)))
  have h4 : Yields rules 0 [3, 4, 5, 3] := .rule (k := 0) rfl (.cons (ht 3 (by decide)) (.cons h1 (.cons h3 .nil)))
  exact .rule (k := 0) rfl (.cons (ht 3 (by decide)) (.cons h2 (.cons h4 .nil)))

end LRExample

end Gearley.Props
