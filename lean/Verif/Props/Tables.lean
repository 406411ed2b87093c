import Verif.Proofs.Setup
import Verif.Examples.Sums

/-!
# C22 – C25: the tables computed by `from_processed_grammars`
-/

namespace Gearley.Props
open Gearley.Spec Gearley.Build
variable {c : Cfg} {n : Nat} {w : WrappedRoot} {depth : Nat → Nat} {maps : Mapping} {nulling : Cfg}
  {first follow : List (Nat × List Nat)} {g : DefaultGrammar}

/-- C22. Row `A` of the prediction table has the ordinary symbol `B` exactly if `B` is reached from `A` by zero or more
steps to the first symbol of a rule. The steps may go through generated symbols. -/
theorem C22_prediction_table (hc : ProcessedOK c n w depth) (hb : fromProcessed c maps nulling first follow = pure g) {A : Nat}
    (hA : A < n) : ∃ row, g.predictionRow A = pure row ∧ row.length = n ∧
      ∀ B, B < n → (row[B]? = some true ↔ Relation.ReflTransGen (Corner (rulesOf c)) A B) := by
  obtain ⟨root, hB⟩ := built_ok hc hb
  have := hB.ok.predRow A (by rw [hB.syms]; exact hA)
  rw [hB.syms] at this
  exact this

/-- `Ancestor R n A B`: `B` is the ordinary symbol whose rules the symbol `A` was split from. Ordinary symbols (below `n`)
are their own ancestors; a generated symbol has the ancestor of the left-hand side of a rule that starts with it. -/
inductive Ancestor (R : Rules) (n : Nat) : Nat → Nat → Prop
  | ordinary {A} : A < n → Ancestor R n A A
  | generated {r : Rule} {B} : r ∈ R → n ≤ r.rhs0 → Ancestor R n r.lhs B → Ancestor R n r.rhs0 B

/-- In a processed grammar a symbol has at most one ancestor. -/
theorem Ancestor.unique (hc : ProcessedOK c n w depth) {A B B' : Nat} (h : Ancestor (rulesOf c) n A B)
    (h' : Ancestor (rulesOf c) n A B') : B = B' := by
  induction h with
  | ordinary hA =>
    cases h' with
    | ordinary _ => rfl
    | generated _ hn _ => omega
  | @generated r B hr hn _ ih =>
    generalize hx : r.rhs0 = X at h'
    cases h' with
    | ordinary _ => omega
    | @generated r' _ hr' hn' h2 =>
      refine ih ?_
      obtain ⟨q, hq, rfl⟩ := List.mem_map.1 hr
      obtain ⟨q', hq', rfl⟩ := List.mem_map.1 hr'
      have e1 := hc.rhs0 hq
      have e2 := hc.rhs0 hq'
      have := hc.genLhs q hq q' hq' (by rw [e1, e2, hx]) (by
        intro A hA
        rw [e1] at hA
        simp only [Option.mem_some_iff] at hA
        omega)
      show Ancestor _ _ q.lhs _
      rw [this]
      exact h2

theorem ancestor_root (hc : ProcessedOK c n w depth) {root : Nat → Nat} (hg : GrammarOK g (rulesOf c) root)
    (hs : g.syms = n) : ∀ {A}, A < c.numSyms → Ancestor (rulesOf c) n A (root A) := by
  intro A
  generalize hk : depth A = k
  induction k using Nat.strongRecOn generalizing A with
  | ind k ih =>
    intro hA
    by_cases hn : A < n
    · rw [hg.root_id A (by omega)]; exact .ordinary hn
    · obtain ⟨_, h2, _⟩ := (hc.gen A hA).2 (by omega)
      obtain ⟨q, hq, hp⟩ : ∃ q ∈ c.rules, q.rhs[0]? = some A := by
        have : 0 < c.rules.countP fun r => r.rhs.length = 2 ∧ r.rhs[0]? ≠ some r.lhs ∧ r.rhs[0]? = some A := by omega
        obtain ⟨q, hq, hp⟩ := List.countP_pos_iff.1 this
        simp only [decide_eq_true_eq] at hp
        exact ⟨q, hq, hp.2.2⟩
      have e1 := hc.rhs0 hq
      have e2 : (ruleOf q).rhs0 = A := by rw [e1] at hp; exact Option.some.inj hp
      have hm : ruleOf q ∈ rulesOf c := List.mem_map_of_mem hq
      have hd := hc.depth q hq A (by rw [hp]; rfl) (by omega)
      have hr := hg.root_gen _ hm (by rw [e2]; omega)
      rw [e2] at hr
      rw [hr]
      have := ih (depth q.lhs) (by omega) rfl (hc.lhs_lt q hq)
      rw [← e2]
      exact .generated hm (by rw [e2]; omega) this

/-- C23. The completion table. For an ordinary symbol `A` the list has one entry for every rule that starts with `A`, with
the rule's number, its kind and its ancestor; two-symbol rules come first, and rules of the same kind are in rule order.
For a generated symbol the two entries are the two-symbol rule, which exists and is the only one, and the one-symbol rule,
if any. -/
theorem C23_completion_table (hc : ProcessedOK c n w depth) (hb : fromProcessed c maps nulling first follow = pure g) :
    (∀ A, A < n → ∃ ts, g.completions A = pure ts ∧
      (∀ d, (∃ t ∈ ts, t.dot = d) ↔ ∃ r, (rulesOf c)[d]? = some r ∧ r.rhs0 = A) ∧
      (∀ t ∈ ts, ∃ r, (rulesOf c)[t.dot]? = some r ∧ t.isUnary = r.rhs1.isNone ∧ Ancestor (rulesOf c) n r.lhs t.symbol) ∧
      ts.Pairwise fun a b => (a.isUnary = false ∧ b.isUnary = true) ∨ (a.isUnary = b.isUnary ∧ a.dot < b.dot)) ∧
    (∀ A, n ≤ A → A < c.numSyms → ∃ b u, g.genCompletion A = pure (b, u) ∧
      (∃ t, b = some t ∧ t.isUnary = false) ∧ (∀ t, u = some t → t.isUnary = true) ∧
      (∀ d r, (rulesOf c)[d]? = some r → r.rhs0 = A → ∃ t, (if r.rhs1.isSome then b else u) = some t ∧ t.dot = d) ∧
      (∀ t, b = some t ∨ u = some t → ∃ r, (rulesOf c)[t.dot]? = some r ∧ r.rhs0 = A ∧ t.isUnary = r.rhs1.isNone ∧
        Ancestor (rulesOf c) n r.lhs t.symbol)) := by
  obtain ⟨root, hB⟩ := built_ok hc hb
  have hanc : ∀ r ∈ rulesOf c, Ancestor (rulesOf c) n r.lhs (root r.lhs) := by
    intro r hr
    obtain ⟨q, hq, rfl⟩ := List.mem_map.1 hr
    exact ancestor_root hc hB.ok hB.syms (hc.lhs_lt q hq)
  have hpw : ∀ (p : Rule × Nat → Bool) (f : Rule × Nat → PT), (∀ x, (f x).dot = x.2) →
      (((rulesOf c).zipIdx.filter p).map f).Pairwise fun a b => a.dot < b.dot := by
    intro p f hf
    rw [List.pairwise_map]
    refine List.Pairwise.filter p ?_
    simp only [hf]
    have : ((rulesOf c).zipIdx.map Prod.snd).Pairwise (· < ·) := by
      rw [List.zipIdx_map_snd]
      exact List.pairwise_lt_range'
    exact List.pairwise_map.1 this
  refine ⟨?_, ?_⟩
  · intro A hA
    refine ⟨_, hB.ok.comps A (by rw [hB.syms]; exact hA), ?_, ?_, ?_⟩
    · intro d
      constructor
      · rintro ⟨t, ht, rfl⟩
        rcases List.mem_append.1 ht with h | h
        · obtain ⟨r, h1, h2, _⟩ := mem_binTrans.1 h
          exact ⟨r, h1, h2⟩
        · obtain ⟨r, h1, h2, _⟩ := mem_unTrans.1 h
          exact ⟨r, h1, h2⟩
      · rintro ⟨r, h1, h2⟩
        cases h3 : r.rhs1 with
        | some x =>
          exact ⟨⟨root r.lhs, d, false⟩, List.mem_append.2 (.inl (mem_binTrans.2 ⟨r, h1, h2, by rw [h3]; rfl, rfl, rfl⟩)), rfl⟩
        | none =>
          exact ⟨⟨root r.lhs, d, true⟩, List.mem_append.2 (.inr (mem_unTrans.2 ⟨r, h1, h2, h3, rfl, rfl⟩)), rfl⟩
    · intro t ht
      rcases List.mem_append.1 ht with h | h
      · obtain ⟨r, h1, h2, h3, h4, h5⟩ := mem_binTrans.1 h
        refine ⟨r, h1, ?_, h4 ▸ hanc r (List.mem_of_getElem? h1)⟩
        rw [h5]; cases hx : r.rhs1 <;> simp_all
      · obtain ⟨r, h1, h2, h3, h4, h5⟩ := mem_unTrans.1 h
        exact ⟨r, h1, by rw [h5, h3]; rfl, h4 ▸ hanc r (List.mem_of_getElem? h1)⟩
    · rw [List.pairwise_append]
      refine ⟨?_, ?_, ?_⟩
      · refine (hpw _ _ fun _ => rfl).imp_of_mem ?_
        intro a b ha hb hab
        obtain ⟨_, _, _, _, _, h5⟩ := mem_binTrans.1 ha
        obtain ⟨_, _, _, _, _, h6⟩ := mem_binTrans.1 hb
        exact .inr ⟨by rw [h5, h6], hab⟩
      · refine (hpw _ _ fun _ => rfl).imp_of_mem ?_
        intro a b ha hb hab
        obtain ⟨_, _, _, _, _, h5⟩ := mem_unTrans.1 ha
        obtain ⟨_, _, _, _, _, h6⟩ := mem_unTrans.1 hb
        exact .inr ⟨by rw [h5, h6], hab⟩
      · intro a ha b hb
        obtain ⟨_, _, _, _, _, h5⟩ := mem_binTrans.1 ha
        obtain ⟨_, _, _, _, _, h6⟩ := mem_unTrans.1 hb
        exact .inl ⟨h5, h6⟩
  · intro A hA hA'
    obtain ⟨b, u, h1, h2, h3⟩ := hB.ok.gens A (by rw [hB.syms]; exact hA) (by rw [hB.syms, hB.gensyms]; have := hc.syms_le; omega)
    have hbm : ∀ t, b = some t ↔ t ∈ binTrans (rulesOf c) root A := fun t => by rw [← h2, Option.mem_toList]
    have hum : ∀ t, u = some t ↔ t ∈ unTrans (rulesOf c) root A := fun t => by rw [← h3, Option.mem_toList]
    refine ⟨b, u, h1, ?_, ?_, ?_, ?_⟩
    · obtain ⟨_, h4, _⟩ := (hc.gen A hA').2 hA
      have : 0 < c.rules.countP fun r => r.rhs.length = 2 ∧ r.rhs[0]? ≠ some r.lhs ∧ r.rhs[0]? = some A := by omega
      obtain ⟨q, hq, hp⟩ := List.countP_pos_iff.1 this
      simp only [decide_eq_true_eq] at hp
      obtain ⟨d, hd⟩ := List.mem_iff_getElem?.1 hq
      have hR : (rulesOf c)[d]? = some (ruleOf q) := by simp [rulesOf, hd]
      have e2 : (ruleOf q).rhs0 = A := by have := hp.2.2; rw [hc.rhs0 hq] at this; exact Option.some.inj this
      refine ⟨⟨root q.lhs, d, false⟩, (hbm _).2 (mem_binTrans.2 ⟨_, hR, e2, ?_, rfl, rfl⟩), rfl⟩
      show (q.rhs[1]?).isSome
      rw [List.getElem?_eq_getElem (by omega)]; rfl
    · intro t ht
      obtain ⟨_, _, _, _, _, h6⟩ := mem_unTrans.1 ((hum t).1 ht)
      exact h6
    · intro d r hr hA2
      cases h4 : r.rhs1 with
      | some x =>
        exact ⟨⟨root r.lhs, d, false⟩, (hbm _).2 (mem_binTrans.2 ⟨r, hr, hA2, by rw [h4]; rfl, rfl, rfl⟩), rfl⟩
      | none =>
        exact ⟨⟨root r.lhs, d, true⟩, (hum _).2 (mem_unTrans.2 ⟨r, hr, hA2, h4, rfl, rfl⟩), rfl⟩
    · rintro t (ht | ht)
      · obtain ⟨r, h4, h5, h6, h7, h8⟩ := mem_binTrans.1 ((hbm t).1 ht)
        refine ⟨r, h4, h5, ?_, h7 ▸ hanc r (List.mem_of_getElem? h4)⟩
        rw [h8]; cases hx : r.rhs1 <;> simp_all
      · obtain ⟨r, h4, h5, h6, h7, h8⟩ := mem_unTrans.1 ((hum t).1 ht)
        exact ⟨r, h4, h5, by rw [h8, h6]; rfl, h7 ▸ hanc r (List.mem_of_getElem? h4)⟩

/-- C24 (part). For every rule list over `numSyms` symbols, `find_gensyms` marks exactly the symbols that satisfy
`Generated`; and if moreover no rule `A ::= A b` exists for a marked symbol `A`, then `A` is the left-hand side of exactly
one two-symbol rule and the first symbol of exactly one two-symbol rule, and it is never a later symbol.

What is missing: without the condition about `A ::= A b` the claim is false, see `C24_two_continuations`; and rules with
one symbol are not counted by the code at all. -/
theorem C24_generated_partial (c : Cfg) (hlhs : ∀ r ∈ c.rules, r.lhs < c.numSyms)
    (hrhs : ∀ r ∈ c.rules, ∀ s ∈ r.rhs, s < c.numSyms) :
    ∃ bits, findGensyms c = pure bits ∧ bits.length = c.numSyms ∧
      (∀ A, A < c.numSyms → (bits[A]? = some true ↔ Generated c A)) ∧
      ∀ A : Nat, bits[A]? = some true → (∀ r ∈ c.rules, r.lhs = A → r.rhs.length = 2 → r.rhs[0]? ≠ some A) →
        (c.rules.countP fun r => r.rhs.length = 2 ∧ r.lhs = A) = 1 ∧
        (c.rules.countP fun r => r.rhs.length = 2 ∧ r.rhs[0]? = some A) = 1 ∧
        (∀ r ∈ c.rules, A ∉ r.rhs.drop 1) ∧ ∃ r ∈ c.rules, r.lhs = A ∧ r.origin = none := by
  refine ⟨_, findGensyms_spec c hlhs hrhs, by simp, ?_, ?_⟩
  · intro A hA
    simp [hA]
  · intro A hA hself
    have hlt : A < c.numSyms := by
      by_cases h : A < c.numSyms
      · exact h
      · simp [h] at hA
    have hG : Generated c A := by simpa [hlt] using hA
    obtain ⟨h1, h2, h3, h4⟩ := hG
    refine ⟨?_, ?_, h3, h4⟩
    · rw [← h1]
      refine List.countP_congr fun r hr => ?_
      simp only [decide_eq_true_eq]
      constructor
      · rintro ⟨ha, hb⟩
        exact ⟨ha, by rw [hb]; exact hself r hr hb ha, hb⟩
      · rintro ⟨ha, _, hb⟩; exact ⟨ha, hb⟩
    · rw [← h2]
      refine List.countP_congr fun r hr => ?_
      simp only [decide_eq_true_eq]
      constructor
      · rintro ⟨ha, hb⟩
        refine ⟨ha, ?_, hb⟩
        intro hx
        rw [hb] at hx
        have hx := Option.some.inj hx
        exact hself r hr hx.symm ha (by rw [hb])
      · rintro ⟨ha, _, hb⟩; exact ⟨ha, hb⟩

/-- The rules `2 ::= 0 1`, `2 ::= 2 1` and `3 ::= 2 0`, the first without external origin. -/
def selfRecursive : Cfg where
  numSyms := 4
  rules := [{ lhs := 2, rhs := [0, 1] }, { lhs := 2, rhs := [2, 1] }, { lhs := 3, rhs := [2, 0] }]
  wrappedRoots := []

/-- C24 fails in general: `find_gensyms` ignores rules of the shape `A ::= A b`, so it marks the symbol 2 although it is
the left-hand side of two two-symbol rules and has two continuations. -/
theorem C24_two_continuations : findGensyms selfRecursive = pure [false, false, true, false] ∧
    (selfRecursive.rules.countP fun r => r.rhs.length = 2 ∧ r.lhs = 2) = 2 ∧
    (selfRecursive.rules.countP fun r => r.rhs.length = 2 ∧ r.rhs[0]? = some 2) = 2 := by
  decide

/-- C25. The look-ahead row consulted for a rule with a second symbol `C` is that symbol's FIRST row (with `C` itself);
for a one-symbol rule it is the FOLLOW row of the left-hand side, which is also the row of a completed left-hand side. -/
theorem C25_lookahead_rows (hc : ProcessedOK c n w depth) (hb : fromProcessed c maps nulling first follow = pure g) :
    (∀ d r C, (rulesOf c)[d]? = some r → r.rhs1 = some C → ∃ row, g.lookaheadSet d = pure row ∧ row.length = n ∧
      ∀ B, B < n → (row[B]? = some true ↔ C = B ∨ ∃ p ∈ first, p.1 = C ∧ B ∈ p.2)) ∧
    (∀ d r, (rulesOf c)[d]? = some r → r.rhs1 = none → r.lhs < n → ∃ row, g.lookaheadSet d = pure row ∧ row.length = n ∧
      ∀ B, B < n → (row[B]? = some true ↔ ∃ p ∈ follow, p.1 = r.lhs ∧ B ∈ p.2)) ∧
    (∀ A, A < n → ∃ row, g.lhsLrSet A = pure row ∧ row.length = n ∧
      ∀ B, B < n → (row[B]? = some true ↔ ∃ p ∈ follow, p.1 = A ∧ B ∈ p.2)) := by
  obtain ⟨root, hB⟩ := built_ok hc hb
  have hrow : ∀ k, k < 2 * n → ∃ row, g.lrSets.row k = pure row ∧ row.length = n ∧
      ∀ B : Nat, row[B]? = some true ↔ g.lrSets.has k B := by
    intro k hk
    have hk' : k < g.lrSets.rows.length := by rw [hB.ok.lrLen, hB.syms]; exact hk
    refine ⟨g.lrSets.rows[k], indexM_lt hk', ?_, ?_⟩
    · rw [← hB.syms]; exact hB.ok.lrRow _ (List.getElem_mem hk')
    · intro B
      unfold BitMatrix.has
      rw [List.getElem?_eq_getElem hk']
      simp
  refine ⟨?_, ?_, ?_⟩
  · intro d r C hr hC
    have hCn : C < n := by rw [← hB.syms]; exact hB.ok.rhs1_lt r (List.mem_of_getElem? hr) C hC
    obtain ⟨row, h1, h2, h3⟩ := hrow (C * 2) (by omega)
    refine ⟨row, ?_, h2, fun B hBn => by rw [h3, hB.firstRow C B hCn hBn]⟩
    unfold DefaultGrammar.lookaheadSet DefaultGrammar.rhs1OrLhs
    rw [hB.ok.getRhs1 d r hr, pure_bind, hC]
    simp only [pure_bind, Option.isNone_some, Bool.false_eq_true, if_false, Nat.add_zero]
    exact h1
  · intro d r hr hC hl
    obtain ⟨row, h1, h2, h3⟩ := hrow (r.lhs * 2 + 1) (by omega)
    refine ⟨row, ?_, h2, fun B hBn => by rw [h3, hB.followRow r.lhs B hl hBn]⟩
    unfold DefaultGrammar.lookaheadSet DefaultGrammar.rhs1OrLhs
    rw [hB.ok.getRhs1 d r hr, pure_bind, hC]
    simp only [hB.ok.getLhs d r hr, pure_bind, Option.isNone_none, if_true]
    exact h1
  · intro A hA
    obtain ⟨row, h1, h2, h3⟩ := hrow (A * 2 + 1) (by omega)
    exact ⟨row, h1, h2, fun B hBn => by rw [h3, hB.followRow A B hA hBn]⟩

/-! ### Example: the grammar of Examples/Sums.lean -/

section
open Gearley.Example

-- the hypotheses of C22, C23 and C25
example : (∃ depth, ProcessedOK cfg 6 wrap depth) ∧ fromProcessed cfg {} noRules Example.first Example.follow = pure grammar :=
  ⟨⟨_, processed⟩, grammar_eq⟩

-- E predicts itself and a, looking through the generated symbol 7
example : grammar.predictionRow 4 = pure [false, false, false, false, true, true] := by decide +kernel
-- the rules that start with E: only `7 ::= E plus`, with ancestor E
example : grammar.completions 4 = pure [⟨4, 4, false⟩] := by decide +kernel
-- the rules that start with a: `E ::= a`
example : grammar.completions 5 = pure [⟨4, 2, true⟩] := by decide +kernel
-- the continuation of 7: `E ::= 7 E`
example : grammar.genCompletion 7 = pure (some ⟨4, 1, false⟩, none) := by decide +kernel
-- look-ahead of `E ::= 7 E` is FIRST of E with E itself, look-ahead of `E ::= a` is FOLLOW of E
example : grammar.lookaheadSet 1 = pure [false, false, false, false, true, true] := by decide +kernel
example : grammar.lookaheadSet 2 = pure [true, false, true, false, false, false] := by decide +kernel
-- C24 on this grammar: 6 and 7 are generated
example : findGensyms cfg = pure [false, false, false, false, false, false, true, true] := by decide +kernel

end

end Gearley.Props
