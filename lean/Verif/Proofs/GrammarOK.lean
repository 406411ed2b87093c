import Verif.Model.Recognizer
import Verif.Spec.Grammar
import Verif.Proofs.Effects

/-!
# What the recognizer needs to know about the tables

`GrammarOK g R root`: the tables of `g` represent the rules `R`; `root` maps a generated symbol to the ordinary symbol
whose rules it was split from. `Proofs/Tables.lean` proves it for the tables built by the code.
-/

namespace Gearley
open Gearley.Spec

/-- Transitions of the two-symbol rules that start with `A`, in rule order. -/
def binTrans (R : Rules) (root : Nat → Nat) (A : Nat) : List PT :=
  (R.zipIdx.filter fun p => decide (p.1.rhs0 = A) && p.1.rhs1.isSome).map fun p => ⟨root p.1.lhs, p.2, false⟩

/-- Transitions of the one-symbol rules that start with `A`, in rule order. -/
def unTrans (R : Rules) (root : Nat → Nat) (A : Nat) : List PT :=
  (R.zipIdx.filter fun p => decide (p.1.rhs0 = A) && p.1.rhs1.isNone).map fun p => ⟨root p.1.lhs, p.2, true⟩

structure GrammarOK (g : DefaultGrammar) (R : Rules) (root : Nat → Nat) : Prop where
  /-- columns -/
  getLhs : ∀ d r, R[d]? = some r → g.getLhs d = pure r.lhs
  getRhs1 : ∀ d r, R[d]? = some r → g.getRhs1 d = pure r.rhs1
  /-- rules are sorted by left-hand side -/
  sorted : R.Pairwise fun a b => a.lhs ≤ b.lhs
  /-- symbols are in range; the second symbol is never generated -/
  lhs_lt : ∀ r ∈ R, r.lhs < g.syms + g.gensyms
  rhs0_lt : ∀ r ∈ R, r.rhs0 < g.syms + g.gensyms
  rhs1_lt : ∀ r ∈ R, ∀ c, r.rhs1 = some c → c < g.syms
  /-- the climbing function -/
  root_id : ∀ A, A < g.syms → root A = A
  root_gen : ∀ r ∈ R, g.syms ≤ r.rhs0 → root r.rhs0 = root r.lhs
  root_lt : ∀ r ∈ R, root r.lhs < g.syms
  root_corner : ∀ r ∈ R, Relation.ReflTransGen (Corner R) (root r.lhs) r.lhs
  /-- the prediction table -/
  predRow : ∀ A, A < g.syms → ∃ row, g.predictionRow A = pure row ∧ row.length = g.syms ∧
    ∀ B, B < g.syms → (row[B]? = some true ↔ Relation.ReflTransGen (Corner R) A B)
  /-- the completion tables -/
  comps : ∀ A, A < g.syms → g.completions A = pure (binTrans R root A ++ unTrans R root A)
  gens : ∀ A, g.syms ≤ A → A < g.syms + g.gensyms → ∃ b u, g.genCompletion A = pure (b, u) ∧
    b.toList = binTrans R root A ∧ u.toList = unTrans R root A
  /-- look-ahead rows -/
  lrLen : g.lrSets.rows.length = 2 * g.syms
  lrRow : ∀ row ∈ g.lrSets.rows, row.length = g.syms
  /-- the start rule `start ::= _ eof` -/
  start_lt : g.startSym < g.syms
  eof_lt : g.eofSym < g.syms
  startRule : ∃ g0, R[g.dotBeforeEof]? = some ⟨g.startSym, g0, some g.eofSym⟩
  eofOnce : ∀ d r, R[d]? = some r → r.rhs1 = some g.eofSym → d = g.dotBeforeEof
  eofNot0 : ∀ r ∈ R, r.rhs0 ≠ g.eofSym
  eofMin : ∀ r ∈ R, ∀ c, r.rhs1 = some c → g.eofSym ≤ c
  eofTerm : Terminal R g.eofSym
  startNot0 : ∀ r ∈ R, r.rhs0 ≠ g.startSym
  startNot1 : ∀ r ∈ R, r.rhs1 ≠ some g.startSym

/-- Bit `h` of the look-ahead row consulted when a medial item with rule `d` is completed (true for generated left-hand
sides). -/
def useM (g : DefaultGrammar) (R : Rules) (h d : Nat) : Bool :=
  match R[d]? with
  | none => false
  | some r => decide (g.syms ≤ r.lhs) || ((g.lrSets.rows[r.lhs * 2 + 1]?.bind (·[h]?)) == some true)

/-- Bit `h` of the look-ahead row consulted when rule `d` is entered. -/
def useP (g : DefaultGrammar) (R : Rules) (h d : Nat) : Bool :=
  match R[d]? with
  | none => false
  | some r => match r.rhs1 with
    | some c => (g.lrSets.rows[c * 2]?.bind (·[h]?)) == some true
    | none => decide (g.syms ≤ r.lhs) || ((g.lrSets.rows[r.lhs * 2 + 1]?.bind (·[h]?)) == some true)

/-- The look-ahead rows contain FIRST and FOLLOW for the symbols in `T` (the possible hints). -/
structure LookaheadOK (g : DefaultGrammar) (R : Rules) (T : Nat → Prop) : Prop where
  first : ∀ C t u, C < g.syms → T t → Derives R C (t :: u) → g.lrSets.rows[C * 2]?.bind (·[t]?) = some true
  follow : ∀ A t α β, A < g.syms → T t → Derives R g.startSym (α ++ A :: t :: β) →
    g.lrSets.rows[A * 2 + 1]?.bind (·[t]?) = some true

variable {g : DefaultGrammar} {R : Rules} {root : Nat → Nat}

theorem mem_binTrans {A : Nat} {p : PT} : p ∈ binTrans R root A ↔
    ∃ r, R[p.dot]? = some r ∧ r.rhs0 = A ∧ r.rhs1.isSome ∧ p.symbol = root r.lhs ∧ p.isUnary = false := by
  simp only [binTrans, List.mem_map, List.mem_filter, List.mem_zipIdx_iff_getElem?, Bool.and_eq_true, decide_eq_true_eq]
  constructor
  · rintro ⟨⟨r, d⟩, ⟨h1, h2, h3⟩, rfl⟩
    exact ⟨r, h1, h2, h3, rfl, rfl⟩
  · rintro ⟨r, h1, h2, h3, h4, h5⟩
    refine ⟨(r, p.dot), ⟨h1, h2, h3⟩, ?_⟩
    cases p; simp_all

theorem mem_unTrans {A : Nat} {p : PT} : p ∈ unTrans R root A ↔
    ∃ r, R[p.dot]? = some r ∧ r.rhs0 = A ∧ r.rhs1 = none ∧ p.symbol = root r.lhs ∧ p.isUnary = true := by
  simp only [unTrans, List.mem_map, List.mem_filter, List.mem_zipIdx_iff_getElem?, Bool.and_eq_true, decide_eq_true_eq,
    Option.isNone_iff_eq_none]
  constructor
  · rintro ⟨⟨r, d⟩, ⟨h1, h2, h3⟩, rfl⟩
    exact ⟨r, h1, h2, h3, rfl, rfl⟩
  · rintro ⟨r, h1, h2, h3, h4, h5⟩
    refine ⟨(r, p.dot), ⟨h1, h2, h3⟩, ?_⟩
    cases p; simp_all

theorem GrammarOK.corner_root (hg : GrammarOK g R root) {A B : Nat} (hA : A < g.syms)
    (h : Relation.ReflTransGen (Corner R) A B) : Relation.ReflTransGen (Corner R) A (root B) := by
  induction h with
  | refl => rw [hg.root_id A hA]
  | @tail X B hx hc ih =>
    obtain ⟨r, hr, rfl, rfl⟩ := hc
    rcases Nat.lt_or_ge r.rhs0 g.syms with h | h
    · rw [hg.root_id _ h]; exact hx.tail ⟨r, hr, rfl, rfl⟩
    · rw [hg.root_gen r hr h]; exact ih

end Gearley
