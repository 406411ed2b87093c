import Verif.Proofs.AmbiguousExists
import Verif.Props.Calculator

/-!
# C59: the ambiguous calculator of gearley-example-grammars

`ambiguous_math` has an ambiguous grammar of arithmetic: `expr ::= expr op expr | num`. The property: the parser accepts exactly the
arithmetic expressions without parentheses, and evaluation computes the values of all ways to group them.

It is false. Evaluation returns one value for each operation of the text, not one for each way to group it (`C59_number_simple`), and
from three operations on it takes the second value of the left operand for the operation (`C59_wrong_operands`, `C59_wrong_value`,
`C59_unreachable`). As in C56, no parser reads all characters right (`C59_no_order`), and with a stable sort each digit is taken for
the next one (`C59_shifted`). `C59_partial` is what is left: texts with at most two operations and numbers of at most two digits, if
the tokens kept their numbers.
-/

namespace Gearley.Calculator.Ambiguous
open Gearley.Spec Gearley.Props Build
open Gearley.Calculator.Precedenced (tokInput_mem prefix_one prefix_cons prefix_append orderCrate orderCrate_ok toInternal_of fromBinarized_maps)
variable {N : Names grammar} {w : WrappedRoot} {g0 : Nat} {c nulling : Cfg} {X : CfgCrate} {σ ν α : Type}

/-! ### What the evaluator computes -/

/-- The number the evaluator has for an operation. -/
def opCode : Op → Int
  | .add => 0
  | .sub => 1
  | .mul => 2
  | .div => 3

/-- How the evaluator reads a number, given the values of digits. -/
def readNumber (lf : Nat → Option Int) : List (Fin 10) → Option Int
  | [] => none
  | [d] => lf (7 + d)
  | d :: ds => do
    let a ← lf (7 + d)
    let b ← readNumber lf ds
    shiftI32 a b

/-- What the evaluator computes for an operation. -/
def readOp (lf : Nat → Option Int) (o : Op) : Option Int := (lf (tok o.char)).map fun _ => opCode o

/-- What the evaluator computes for an expression if there is only one way to group it, where `lf` is the value of a token, `none` if
the lookup panics. -/
def calculated (lf : Nat → Option Int) : Expr → Option Int
  | .num ds => readNumber lf ds
  | .bin o l r => do
    let a ← calculated lf l
    let _ ← lf (tok o.char)
    let b ← calculated lf r
    Expr.compute o a b
  | .paren _ => none

theorem action_op (o : Op) (a d : Int) : action 0 a (opCode o) d = Expr.compute o a d := by
  cases o <;> simp [action, opCode, Expr.compute, i32_eq, divI32]

theorem action_digit (d : Fin 10) (a b e : Int) : action (6 + 2 * d) a b e = shiftI32 a b ∧ action (7 + 2 * d) a b e = some a := by
  have : ∀ d : Fin 10, (6 + 2 * d.val ∈ [6, 8, 10, 12, 14, 16, 18, 20, 22, 24] ∧ 6 + 2 * d.val ∉ [0, 1, 2, 3, 4, 5]) ∧
      7 + 2 * d.val ∈ [7, 9, 11, 13, 15, 17, 19, 21, 23, 25] ∧ 7 + 2 * d.val ∉ [0, 1, 2, 3, 4, 5, 6, 8, 10, 12, 14, 16, 18, 20, 22, 24] := by
    decide
  obtain ⟨⟨h1, h2⟩, h3, h4⟩ := this d
  unfold action
  constructor
  · simp only [List.mem_cons, List.not_mem_nil, or_false, not_or] at h2
    simp only [if_neg h2.1, if_neg h2.2.1, if_neg h2.2.2.1, if_neg h2.2.2.2.1, if_neg h2.2.2.2.2.1, if_neg h2.2.2.2.2.2, if_pos h1]
  · have h5 : 7 + 2 * d.val ∉ [6, 8, 10, 12, 14, 16, 18, 20, 22, 24] := fun h => h4 (by
      simp only [List.mem_cons, List.not_mem_nil, or_false] at h ⊢
      omega)
    simp only [List.mem_cons, List.not_mem_nil, or_false, not_or] at h4
    simp only [if_neg h4.1, if_neg h4.2.1, if_neg h4.2.2.1, if_neg h4.2.2.2.1, if_neg h4.2.2.2.2.1, if_neg h4.2.2.2.2.2.1, if_neg h5, if_pos h3]

/-- The value of a token, whose number in the parser is `int t`. -/
def tokenValue (int : Nat → Nat) (t : Nat) : Option Int := leafTable[int t]?

variable (int : Nat → Nat) (nul : Nat → Option Int)

theorem uval_op (o : Op) (i : Nat) : uval (userEval int evaluator) nul (opTree o i) = readOp (tokenValue int) o := by
  show (args3 [tokenValue int (tok o.char)] >>= fun p => action (opRule o) p.1 p.2.1 p.2.2) = _
  rw [args_one]
  unfold readOp
  cases tokenValue int (tok o.char) with
  | none => rfl
  | some a => cases o <;> rfl

theorem uval_num : ∀ (ds : List (Fin 10)) (i : Nat), ds ≠ [] →
    uval (userEval int evaluator) nul (numTree i ds) = readNumber (tokenValue int) ds
  | [], _, h => absurd rfl h
  | [d], i, _ => by
    show (args3 [tokenValue int (7 + d)] >>= fun p => action (7 + 2 * d) p.1 p.2.1 p.2.2) = tokenValue int (7 + d)
    rw [args_one]
    cases h : tokenValue int (7 + d) with
    | none => rfl
    | some a => exact (action_digit d a (-1) (-1)).2
  | d :: d' :: ds, i, _ => by
    have ih := uval_num (d' :: ds) (i + 1) (by simp)
    show (args3 [tokenValue int (7 + d), uval (userEval int evaluator) nul (numTree (i + 1) (d' :: ds))] >>= fun p => action (6 + 2 * d) p.1 p.2.1 p.2.2) = _
    have hr : readNumber (tokenValue int) (d :: d' :: ds) = (do
      let a ← tokenValue int (7 + d)
      let b ← readNumber (tokenValue int) (d' :: ds)
      shiftI32 a b) := rfl
    rw [ih, args_two, hr]
    cases h : tokenValue int (7 + d) with
    | none => rfl
    | some a =>
      cases h' : readNumber (tokenValue int) (d' :: ds) with
      | none => rfl
      | some b => exact (action_digit d a b (-1)).1

theorem uval_leaf (ds : List (Fin 10)) (i : Nat) (h : ds ≠ []) : uval (userEval int evaluator) nul (tree (.num ds) i) = readNumber (tokenValue int) ds := by
  show (args3 [uval (userEval int evaluator) nul (numTree i ds)] >>= fun p => action 1 p.1 p.2.1 p.2.2) = _
  rw [uval_num int nul ds i h, args_one]
  cases readNumber (tokenValue int) ds <;> rfl

theorem uval_tree {e : Expr} (he : e.Plain) (i : Nat) : uval (userEval int evaluator) nul (tree e i) = calculated (tokenValue int) e := by
  induction e generalizing i with
  | num ds => exact uval_leaf int nul ds i he
  | bin o l r ihl ihr =>
    show (args3 [uval (userEval int evaluator) nul (tree l i), uval (userEval int evaluator) nul (opTree o (i + l.text.length)),
      uval (userEval int evaluator) nul (tree r (i + l.text.length + 1))] >>= fun p => action 0 p.1 p.2.1 p.2.2) = _
    have hr : calculated (tokenValue int) (.bin o l r) = (do
      let a ← calculated (tokenValue int) l
      let _ ← tokenValue int (tok o.char)
      let b ← calculated (tokenValue int) r
      Expr.compute o a b) := rfl
    rw [uval_op, ihl he.1, ihr he.2, args_three, hr, readOp]
    cases calculated (tokenValue int) l with
    | none => rfl
    | some a =>
      cases tokenValue int (tok o.char) with
      | none => rfl
      | some b =>
        cases calculated (tokenValue int) r with
        | none => rfl
        | some d => exact action_op o a d
  | paren e ih => cases he

/-! ### Tokens -/

/-- `tokenize` returns if all characters are known. -/
theorem tokenize_ok {s : List Char} (h : ∀ ch ∈ s, ch ∈ chars) : tokenize s = pure (s.map tok) := by
  have key : ∀ (s : List Char) (acc : List Nat), (∀ ch ∈ s, ch ∈ chars) → s.foldlM (fun result ch =>
    match chars.idxOf? ch with
    | some pos => do
      let x ← indexM (List.range (chars.length + 3)) (pos + 3)
      pure (result ++ [x])
    | none => panicM .assert) acc = (pure (acc ++ s.map tok) : M (List Nat)) := by
    intro s
    induction s with
    | nil => intro acc _; simp
    | cons a s ih =>
      intro acc hs
      have ha := List.idxOf_lt_length_iff.2 (hs a (by simp))
      have hall : ∀ c ∈ chars, chars.idxOf? c = some (chars.idxOf c) := by decide +kernel
      have := hall a (hs a (by simp))
      rw [List.foldlM_cons, this]
      simp only
      rw [indexM_lt (by simpa using ha)]
      simp only [pure_bind, List.getElem_range]
      rw [ih _ (fun ch hch => hs ch (by simp [hch]))]
      simp [tok, Nat.add_comm]
  exact key s [] h

/-- `tokenize` panics at the first character that is not known. -/
theorem tokenize_panic {s : List Char} (h : ∃ ch ∈ s, ch ∉ chars) : tokenize s = panicM .assert := by
  have key : ∀ (s : List Char) (acc : List Nat), (∃ ch ∈ s, ch ∉ chars) → s.foldlM (fun result ch =>
    match chars.idxOf? ch with
    | some pos => do
      let x ← indexM (List.range (chars.length + 3)) (pos + 3)
      pure (result ++ [x])
    | none => panicM .assert) acc = (panicM .assert : M (List Nat)) := by
    intro s
    induction s with
    | nil => rintro acc ⟨ch, h, _⟩; cases h
    | cons a s ih =>
      rintro acc ⟨ch, hch, hn⟩
      rw [List.foldlM_cons]
      by_cases ha : a ∈ chars
      · have hs : ∃ ch ∈ s, ch ∉ chars := by
          rcases List.mem_cons.1 hch with rfl | hch
          · exact absurd ha hn
          · exact ⟨ch, hch, hn⟩
        have hall : ∀ c ∈ chars, chars.idxOf? c = some (chars.idxOf c) := by decide +kernel
        have hlt := List.idxOf_lt_length_iff.2 ha
        rw [hall a ha]
        simp only
        rw [indexM_lt (by simpa using hlt)]
        simp only [pure_bind]
        exact ih _ hs
      · rw [List.idxOf?_eq_none_iff.2 ha]
        rfl
  exact key s [] h

/-- The characters of expressions without parentheses. -/
def Known (ch : Char) : Prop := ('0' ≤ ch ∧ ch ≤ '9') ∨ ch = '+' ∨ ch = '-' ∨ ch = '*' ∨ ch = '/'

theorem known_iff (ch : Char) : Known ch ↔ ch ∈ chars := by
  constructor
  · rintro (⟨h1, h2⟩ | rfl | rfl | rfl | rfl)
    · have hd : ∀ n, 48 ≤ n → n ≤ 57 → Char.ofNat n ∈ chars := by
        intro n h1 h2
        have : n = 48 ∨ n = 49 ∨ n = 50 ∨ n = 51 ∨ n = 52 ∨ n = 53 ∨ n = 54 ∨ n = 55 ∨ n = 56 ∨ n = 57 := by omega
        rcases this with rfl | rfl | rfl | rfl | rfl | rfl | rfl | rfl | rfl | rfl <;> decide
      have := hd ch.toNat h1 h2
      rwa [Char.ofNat_toNat] at this
    all_goals decide
  · intro h
    simp only [chars, List.mem_cons, List.not_mem_nil, or_false] at h
    unfold Known
    rcases h with rfl | rfl | rfl | rfl | rfl | rfl | rfl | rfl | rfl | rfl | rfl | rfl | rfl | rfl <;> decide

theorem tok_range {ch : Char} (h : ch ∈ chars) : 3 ≤ tok ch ∧ tok ch < 17 := by
  have := List.idxOf_lt_length_iff.2 h
  have h16 : chars.length = 14 := rfl
  unfold tok
  omega

theorem grammar_terminal {t : Nat} (h : 3 ≤ t) : UTerminal grammar t := by
  have : ∀ r ∈ grammar, r.1 < 3 := by decide +kernel
  intro r hr e
  have := this r hr
  omega

theorem live_terminal {t : Nat} (h : 3 ≤ t) : Live grammar t := ⟨t, [], .token (grammar_terminal h)⟩

theorem live_sym (s : Nat) : Live grammar s := by
  have one : ∀ {k A s : Nat}, grammar[k]? = some (A, [s]) → Live grammar s → Live grammar A := by
    rintro k A s hk ⟨a, u, h⟩
    exact ⟨a, u, .rule hk (by simpa using YieldsAll.cons h .nil)⟩
  have h2 : Live grammar 2 := one (k := 7) (s := 7) (by decide +kernel) (live_terminal (by omega))
  have h1 : Live grammar 1 := one (k := 2) (s := 3) (by decide +kernel) (live_terminal (by omega))
  have h0 : Live grammar 0 := one (k := 1) (s := 2) (by decide +kernel) h2
  by_cases h : 3 ≤ s
  · exact live_terminal h
  · have : s = 0 ∨ s = 1 ∨ s = 2 := by omega
    rcases this with rfl | rfl | rfl <;> assumption

theorem tokens_of {g : DefaultGrammar} (h : UserParser X grammar N w g0 c nulling g) {toks : List Nat} (ht : ∀ t ∈ toks, 3 ≤ t ∧ t < 17) :
    Tokens grammar c toks := by
  intro t hm
  obtain ⟨h1, h2⟩ := ht t hm
  have hr : ∃ r ∈ grammar, t ∈ r.2 := by
    have : ∀ t : Fin 14, ∃ r ∈ grammar, t.val + 3 ∈ r.2 := by decide +kernel
    obtain ⟨r, hr, h⟩ := this ⟨t - 3, by omega⟩
    rw [show t - 3 + 3 = t by omega] at h
    exact ⟨r, hr, h⟩
  obtain ⟨⟨A, rhs⟩, hr', h3⟩ := hr
  obtain ⟨k, hk⟩ := List.getElem?_of_mem hr'
  exact ⟨grammar_terminal h1, ⟨_, hr', h3⟩, binarizes_occurs h.bin hk (fun s _ => live_sym s) h3⟩

theorem all_tokens {g : DefaultGrammar} (h : UserParser X grammar N w g0 c nulling g) (t : Nat) (h1 : 3 ≤ t) (h2 : t < 17) : Occurs c t :=
  (tokens_of h (toks := [t]) (by simpa using ⟨h1, h2⟩) t (by simp)).2.2

theorem text_tokens {s : List Char} (hs : ∀ ch ∈ s, ch ∈ chars) : ∀ t ∈ s.map tok, 3 ≤ t ∧ t < 17 := by
  intro t ht
  obtain ⟨ch, hch, rfl⟩ := List.mem_map.1 ht
  exact tok_range (hs ch hch)

theorem tree_whole {s : List Char} (hs : ∀ ch ∈ s, ch ∈ chars) (u : UTree) :
    UTreeOf grammar (tokInput (s.map tok)) u 0 0 (s.map tok).length ↔ ∃ e : Expr, e.Plain ∧ e.text = s ∧ u = tree e 0 := by
  have := trees_iff (toks := s.map tok) (fun t ht => (text_tokens hs t ht).1) (i := 0) hs (by simp) u
  rwa [Nat.zero_add, ← List.length_map (f := tok)] at this

/-- C59. `tokenize` panics exactly on texts with other characters than digits and operators. On all other texts `parse` returns
`Ok(true)` exactly if the text is an arithmetic expression without parentheses. -/
theorem _root_.Gearley.Props.C59_accepts {E : Env σ ν} {f : σ} (h : UserParser X grammar N w g0 c nulling E.g) (hroot : w.innerRoot = 0) (hleo : E.leo = false)
    (hF : ∀ dots syms, SafeStart E.F f dots syms) (s : List Char) (hlen : s.length + 1 < 2 ^ 64 - 1) :
    ((∃ ch ∈ s, ¬ Known ch) → tokenize s = panicM .assert) ∧
    ((∀ ch ∈ s, Known ch) → ∃ toks s0 r res, tokenize s = pure toks ∧ Rec.new E f = pure s0 ∧ Rec.parse E s0 toks = pure (r, res) ∧
      (res = .ok true ↔ ∃ e : Expr, e.Plain ∧ e.text = s)) := by
  refine ⟨fun ⟨ch, h1, h2⟩ => tokenize_panic ⟨ch, h1, fun h3 => h2 ((known_iff ch).2 h3)⟩, fun hk => ?_⟩
  have hk : ∀ ch ∈ s, ch ∈ chars := fun ch hch => (known_iff ch).1 (hk ch hch)
  have hT := tokens_of h (text_tokens hk)
  obtain ⟨s0, r, res, h1, h2, h3⟩ := C55_accepts h hleo hF hT (by simpa using hlen)
  refine ⟨_, s0, r, res, tokenize_ok hk, h1, h2, h3.trans ?_⟩
  rw [hroot, yields_iff_tree (hT.user N)]
  constructor
  · rintro ⟨u, hu⟩
    obtain ⟨e, h4, h5, _⟩ := (tree_whole hk u).1 hu
    exact ⟨e, h4, h5⟩
  · rintro ⟨e, h4, h5⟩
    exact ⟨_, (tree_whole hk _).2 ⟨e, h4, h5, rfl⟩⟩

/-! ### Parsers -/

/-- A recognizer for the ambiguous grammar with an empty simple bocage. -/
structure SimpleParser (N : Names grammar) (w : WrappedRoot) (g0 : Nat) (c nulling : Cfg) (X : CfgCrate) (E : Env Simple.Bocage Nat) (b : Simple.Bocage) : Prop where
  parser : UserParser X grammar N w g0 c nulling E.g
  kept : EmptyKept grammar N c nulling E.g
  down : UnaryDown c E.g
  root : w.innerRoot = 0
  leo : E.leo = false
  F : E.F = Simple.forest
  bocage : Simple.Bocage.new E.g.forestInfo = pure b
  rules : c.rules.length < 2 ^ 32
  syms : c.numSyms ≤ 2 ^ 32

/-- A recognizer for the ambiguous grammar with an empty compact bocage. -/
structure CompactParser (N : Names grammar) (w : WrappedRoot) (g0 : Nat) (c nulling : Cfg) (X : CfgCrate) (E : Env Compact.Bocage Nat) (b : Compact.Bocage) : Prop where
  parser : UserParser X grammar N w g0 c nulling E.g
  kept : EmptyKept grammar N c nulling E.g
  down : UnaryDown c E.g
  root : w.innerRoot = 0
  leo : E.leo = false
  F : E.F = Compact.forest
  bocage : Compact.Bocage.new E.g.forestInfo = pure b
  rules : c.rules.length < 2 ^ 32
  syms : c.numSyms ≤ 2 ^ 32

/-- The values `vs` of the text according to C58, and the number of tokens and rules they are computed from. -/
def Evaluates (g : DefaultGrammar) (toks : List Nat) (vs : List (Option Int)) (K : Nat) : Prop :=
  ∃ int, (∀ t, 3 ≤ t → t < 17 → g.toInternal t = pure (some (int t))) ∧
    UVals grammar (userEval int evaluator) (fun _ => none) (tokInput toks) 0 0 toks.length vs K

/-- The text is accepted, and evaluation returns values with the property `P`, unless the graph gets too long. A value `none` means
that evaluation panics. -/
def ValuesSimple (E : Env Simple.Bocage Nat) (b : Simple.Bocage) (s : List Char) (P : List (Option Int) → Prop) : Prop :=
  ∃ toks s0 r x, tokenize s = pure toks ∧ Rec.new E b = pure s0 ∧ Rec.parse E s0 toks = pure (r, .ok true) ∧
    Rec.finishedNode E r = pure (some x) ∧ (r.forest.graph.length < 2 ^ 32 → ∃ vs K, Evaluates E.g toks vs K ∧ P vs ∧
      (r.forest.graph.length + 2 * K ≤ 2 ^ 32 → ∃ b', r.forest.evaluate evaluator x = pure (b', vs)))

/-- The same for the compact bocage. -/
def ValuesCompact (E : Env Compact.Bocage Nat) (b : Compact.Bocage) (s : List Char) (P : List (Option Int) → Prop) : Prop :=
  ∃ toks s0 r x, tokenize s = pure toks ∧ Rec.new E b = pure s0 ∧ Rec.parse E s0 toks = pure (r, .ok true) ∧
    Rec.finishedNode E r = pure (some x) ∧ (r.forest.graph.length < 2 ^ 32 → ∃ vs K, Evaluates E.g toks vs K ∧ P vs ∧
      (r.forest.graph.length + 18 * K ≤ 2 ^ 32 → ∃ b', r.forest.evaluate evaluator x = pure (b', vs)))

theorem values_simple {E : Env Simple.Bocage Nat} {b : Simple.Bocage} (h : SimpleParser N w g0 c nulling X E b) {e : Expr} (he : e.Plain)
    (hlen : e.text.length + 1 < 2 ^ 64 - 1) {P : List (Option Int) → Prop} (hP : ∀ vs K, Evaluates E.g (e.text.map tok) vs K → P vs) : ValuesSimple E b e.text P := by
  have hT := tokens_of h.parser (text_tokens (text_chars he))
  obtain ⟨int, s0, r, x, h1, _, h3, h4, h5, h6⟩ := C58_values_simple (α := Option Int) h.parser h.kept h.down h.leo h.F h.bocage h.rules h.syms
    hT (by simpa using he.ne_nil) (by simpa using hlen) (by
      rw [h.root, yields_iff_tree (hT.user N)]
      exact ⟨_, (tree_whole (text_chars he) _).2 ⟨e, he, rfl, rfl⟩⟩)
  refine ⟨_, s0, r, x, tokenize_ok (text_chars he), h3, h4, h5, fun hl => ?_⟩
  obtain ⟨vs, K, h7, h8⟩ := h6 hl evaluator (fun _ => none) fun _ _ => rfl
  rw [h.root] at h7
  have hE : Evaluates E.g (e.text.map tok) vs K := ⟨int, fun t a1 a2 => h1 t (all_tokens h.parser t a1 a2), h7⟩
  exact ⟨vs, K, hE, hP vs K hE, fun hl' => by obtain ⟨b', h9, _⟩ := h8 hl'; exact ⟨b', h9⟩⟩

theorem values_compact {E : Env Compact.Bocage Nat} {b : Compact.Bocage} (h : CompactParser N w g0 c nulling X E b) {e : Expr} (he : e.Plain)
    (hlen : e.text.length + 1 < 2 ^ 64 - 1) {P : List (Option Int) → Prop} (hP : ∀ vs K, Evaluates E.g (e.text.map tok) vs K → P vs) : ValuesCompact E b e.text P := by
  have hT := tokens_of h.parser (text_tokens (text_chars he))
  obtain ⟨int, s0, r, x, h1, _, h3, h4, h5, h6⟩ := C58_values_compact (α := Option Int) h.parser h.kept h.down h.leo h.F h.bocage h.rules h.syms
    hT (by simpa using he.ne_nil) (by simpa using hlen) (by
      rw [h.root, yields_iff_tree (hT.user N)]
      exact ⟨_, (tree_whole (text_chars he) _).2 ⟨e, he, rfl, rfl⟩⟩)
  refine ⟨_, s0, r, x, tokenize_ok (text_chars he), h3, h4, h5, fun hl => ?_⟩
  obtain ⟨vs, K, h7, h8⟩ := h6 hl evaluator (fun _ => none) fun _ _ => rfl
  rw [h.root] at h7
  have hE : Evaluates E.g (e.text.map tok) vs K := ⟨int, fun t a1 a2 => h1 t (all_tokens h.parser t a1 a2), h7⟩
  exact ⟨vs, K, hE, hP vs K hE, fun hl' => by obtain ⟨b', h9, _⟩ := h8 hl'; exact ⟨b', h9⟩⟩

/-! ### The number of values -/

theorem isOp_iff (ch : Char) : (ch = '+' ∨ ch = '-' ∨ ch = '*' ∨ ch = '/') ↔ ∃ o : Op, ch = o.char := by
  constructor
  · rintro (h | h | h | h)
    · exact ⟨.add, h⟩
    · exact ⟨.sub, h⟩
    · exact ⟨.mul, h⟩
    · exact ⟨.div, h⟩
  · rintro ⟨o, rfl⟩
    cases o <;> decide

/-- The positions of the operations. -/
def opPlaces (s : List Char) : List Nat := (List.range s.length).filter fun n => s.getD n ' ' = '+' ∨ s.getD n ' ' = '-' ∨ s.getD n ' ' = '*' ∨ s.getD n ' ' = '/'

theorem opPlaces_length (s : List Char) : (opPlaces s).length = opCount s := by
  have h : s = (List.range s.length).map fun n => s.getD n ' ' := by
    refine List.ext_getElem (by simp) fun n h1 h2 => ?_
    simp [h1]
  unfold opPlaces opCount
  conv_rhs => rw [h]
  rw [List.countP_map, List.countP_eq_length_filter]
  rfl

theorem mem_opPlaces {s : List Char} {n : Nat} : n ∈ opPlaces s ↔ ∃ A o B, s = A ++ Op.char o :: B ∧ n = A.length := by
  unfold opPlaces
  rw [List.mem_filter, List.mem_range, decide_eq_true_iff, isOp_iff]
  constructor
  · rintro ⟨h, o, ho⟩
    refine ⟨s.take n, o, s.drop (n + 1), ?_, by rw [List.length_take]; omega⟩
    rw [← ho, show s.getD n ' ' = s[n] by simp [h], List.cons_getElem_drop_succ, List.take_append_drop]
  · rintro ⟨A, o, B, rfl, rfl⟩
    exact ⟨by simp, o, by simp⟩

variable {int : Nat → Nat} {nul : Nat → Option Int}

theorem number_of {toks : List Nat} (ht : ∀ t ∈ toks, 3 ≤ t) {i k : Nat} {e : Expr} (he : e.Plain) (h : e.text.map tok <+: toks.drop i) {E : Evaluator α} {nul : Nat → α}
    {vs : List α} (hv : UVals grammar E nul (tokInput toks) 0 i (i + e.text.length) vs k) : vs.length = max 1 (opCount e.text) := by
  obtain ⟨l, h1, h2, h3⟩ := C58_number hv (by have := text_pos he; omega) (no_leaf ht (by decide))
  rw [← h2]
  by_cases h0 : opCount e.text = 0
  · have : l.Perm [(1, i)] := by
      rw [List.perm_ext_iff_of_nodup h1 (by simp)]
      rintro ⟨k, p⟩
      rw [h3, alts_iff ht he h, List.mem_singleton]
      constructor
      · rintro (⟨rfl, l, o, r, _, _, h4, _⟩ | ⟨rfl, rfl, _⟩)
        · rw [h4, Expr.opCount_bin] at h0
          omega
        · rfl
      · intro e
        cases e
        exact .inr ⟨rfl, rfl, h0⟩
    rw [this.length_eq, h0]
    rfl
  · have : l.Perm ((opPlaces e.text).map fun n => (0, i + n + 1)) := by
      have hnd : ((opPlaces e.text).map fun n => ((0 : Nat), i + n + 1)).Nodup :=
        (List.nodup_range.filter _).map fun a b h => by
          simp only [Prod.mk.injEq] at h
          omega
      rw [List.perm_ext_iff_of_nodup h1 hnd]
      rintro ⟨k, p⟩
      rw [h3, alts_iff ht he h, List.mem_map]
      constructor
      · rintro (⟨rfl, l, o, r, _, _, h4, rfl⟩ | ⟨rfl, rfl, h5⟩)
        · exact ⟨l.text.length, mem_opPlaces.2 ⟨l.text, o, r.text, h4, rfl⟩, rfl⟩
        · exact absurd h5 h0
      · rintro ⟨n, hn, e1⟩
        obtain ⟨A, o, B, h4, rfl⟩ := mem_opPlaces.1 hn
        cases e1
        obtain ⟨l, r, k1, k2, rfl, rfl, _⟩ := he.regroup h4
        exact .inl ⟨rfl, l, o, r, k1, k2, h4, rfl⟩
    rw [this.length_eq, List.length_map, opPlaces_length]
    omega

theorem number_whole {g : DefaultGrammar} {e : Expr} (he : e.Plain) {vs : List (Option Int)} {K : Nat} (h : Evaluates g (e.text.map tok) vs K) :
    vs.length = max 1 (opCount e.text) := by
  obtain ⟨int, _, h⟩ := h
  rw [show (e.text.map tok).length = 0 + e.text.length by simp] at h
  exact number_of (fun t ht => (text_tokens (text_chars he) t ht).1) he (by simp) h

/-- C59, simple bocage. Evaluation returns as many values as the text has operations (one if there is none), however many ways there
are to group it. -/
theorem _root_.Gearley.Props.C59_number_simple {E : Env Simple.Bocage Nat} {b : Simple.Bocage} (h : SimpleParser N w g0 c nulling X E b) {e : Expr} (he : e.Plain)
    (hlen : e.text.length + 1 < 2 ^ 64 - 1) : ValuesSimple E b e.text fun vs => vs.length = max 1 (opCount e.text) :=
  values_simple h he hlen fun _ _ => number_whole he

/-- C59, compact bocage. -/
theorem _root_.Gearley.Props.C59_number_compact {E : Env Compact.Bocage Nat} {b : Compact.Bocage} (h : CompactParser N w g0 c nulling X E b) {e : Expr} (he : e.Plain)
    (hlen : e.text.length + 1 < 2 ^ 64 - 1) : ValuesCompact E b e.text fun vs => vs.length = max 1 (opCount e.text) :=
  values_compact h he hlen fun _ _ => number_whole he

/-! ### Each alternative -/

theorem prefix_two {U : URules} {E : Evaluator α} {nul : Nat → α} {inp : Input} {x y i j k q : Nat} {vs : List α} (h : UPrefix U E nul inp [x, y] i j vs k)
    (hq : ∀ p ts t, UKids U inp ts [x] i p → UTreeOf U inp t y p j → p = q) :
    ∃ vx kx vy ky, UVals U E nul inp x i q vx kx ∧ UVals U E nul inp y q j vy ky ∧ vs = vx ++ vy := by
  generalize hs : [x, y] = ss at h
  cases h with
  | nil => simp at hs
  | snoc as hne hnd hall hleft hright =>
    obtain ⟨rfl, rfl⟩ := List.append_singleton_inj (as := [x]) |>.1 hs
    have hsp : ∀ a ∈ as, a.split = q := by
      intro a ha
      obtain ⟨ts, t, h1, h2⟩ := (hall a.split).1 (List.mem_map_of_mem ha)
      exact hq _ _ _ h1 h2
    match as, hne with
    | [a], _ =>
      have e := hsp a (by simp)
      obtain ⟨kx, h3⟩ := UPrefix.one (hleft a (by simp))
      have h4 := hright a (by simp)
      rw [e] at h3 h4
      exact ⟨_, _, _, _, h3, h4, by simp⟩
    | a :: b :: as, _ =>
      exfalso
      simp [hsp a (by simp), hsp b (by simp)] at hnd

/-- The value of the alternative that splits the text at an operation. -/
def SplitAt (int : Nat → Nat) (nul : Nat → Option Int) (toks : List Nat) (i j : Nat) (l : List Char) (o : Op) (v : Option Int) : Prop :=
  ∃ vl kl vr kr, UVals grammar (userEval int evaluator) nul (tokInput toks) 0 i (i + l.length) vl kl ∧
    UVals grammar (userEval int evaluator) nul (tokInput toks) 0 (i + l.length + 1) j vr kr ∧
    v = evaluator.product 0 (vl ++ readOp (tokenValue int) o :: vr)

/-- The values of a text are those of its splits, or the value of a number. -/
theorem values_of {toks : List Nat} (ht : ∀ t ∈ toks, 3 ≤ t) {i k : Nat} {e : Expr} (he : e.Plain) (h : e.text.map tok <+: toks.drop i)
    {vs : List (Option Int)} (hv : UVals grammar (userEval int evaluator) nul (tokInput toks) 0 i (i + e.text.length) vs k) :
    (∀ l o r, Expr.Plain l → Expr.Plain r → e.text = (Expr.bin o l r).text → ∃ v ∈ vs, SplitAt int nul toks i (i + e.text.length) l.text o v) ∧
    (∀ v ∈ vs, (∃ l o r, Expr.Plain l ∧ Expr.Plain r ∧ e.text = (Expr.bin o l r).text ∧ SplitAt int nul toks i (i + e.text.length) l.text o v) ∨
      ∃ ds, e = .num ds ∧ vs = [readNumber (tokenValue int) ds]) := by
  have hij : i < i + e.text.length := by have := text_pos he; omega
  have split : ∀ {l : Expr} {o : Op} {r : Expr}, l.Plain → r.Plain → e.text = (Expr.bin o l r).text → ∀ {left right : List (Option Int)} {kl kr : Nat},
      UPrefix grammar (userEval int evaluator) nul (tokInput toks) [0, 1] i (i + l.text.length + 1) left kl →
      UVals grammar (userEval int evaluator) nul (tokInput toks) 0 (i + l.text.length + 1) (i + e.text.length) right kr →
      SplitAt int nul toks i (i + e.text.length) l.text o (evaluator.product 0 (left ++ right)) := by
    intro l o r h1 h2 h3 left right kl kr hl hr
    have h' := h
    rw [h3] at h'
    simp only [Expr.text, List.map_append, List.map_cons] at h'
    rw [prefix_append, prefix_cons, List.length_map] at h'
    obtain ⟨vx, kx, vy, ky, h4, h5, h6⟩ := prefix_two hl (q := i + l.text.length) (by
      intro p ts t _ hu
      obtain ⟨o', _, h7, _⟩ := (is_of_tree t ht hu).2.1 rfl
      omega)
    have h7 := UVals.unique h5 (opTree o (i + l.text.length)) (op_tree ht h'.2.1)
    refine ⟨vx, kx, right, kr, h4, hr, ?_⟩
    rw [h6, h7, uval_op, List.append_assoc]
    rfl
  generalize hj : i + e.text.length = j at hv hij
  cases hv with
  | leaf hm => exact absurd hm (no_leaf ht (by decide) _)
  | empty hn => exact absurd hn (not_nullable _)
  | node as _ hne hnd hall hleft hright =>
    subst hj
    constructor
    · intro l o r h1 h2 h3
      obtain ⟨a, ha, e1⟩ := List.mem_map.1 ((hall 0 (i + l.text.length + 1)).2 ((alts_iff ht he h _ _).2 (.inl ⟨rfl, l, o, r, h1, h2, h3, rfl⟩)))
      simp only [Prod.mk.injEq] at e1
      have hk : grammar[a.rule]? = some (0, [0, 1] ++ [0]) := by rw [e1.1]; exact grammar_zero
      have h4 := hleft a ha _ _ hk
      have h5 := hright a ha _ _ hk
      rw [e1.2] at h4 h5
      refine ⟨_, List.mem_map_of_mem ha, ?_⟩
      show SplitAt int nul toks i (i + e.text.length) l.text o (evaluator.product a.rule (a.left ++ a.right))
      rw [e1.1]
      exact split h1 h2 h3 h4 h5
    · intro v hv
      obtain ⟨a, ha, rfl⟩ := List.mem_map.1 hv
      rcases (alts_iff ht he h _ _).1 ((hall a.rule a.split).1 (List.mem_map_of_mem (f := fun a : UAlt (Option Int) => (a.rule, a.split)) ha)) with
        ⟨e1, l, o, r, h1, h2, h3, e2⟩ | ⟨_, _, h0⟩
      · have hk : grammar[a.rule]? = some (0, [0, 1] ++ [0]) := by rw [e1]; exact grammar_zero
        have h4 := hleft a ha _ _ hk
        have h5 := hright a ha _ _ hk
        rw [e2] at h4 h5
        refine .inl ⟨l, o, r, h1, h2, h3, ?_⟩
        show SplitAt int nul toks i (i + e.text.length) l.text o (evaluator.product a.rule (a.left ++ a.right))
        rw [e1]
        exact split h1 h2 h3 h4 h5
      · cases e with
        | num ds =>
          refine .inr ⟨ds, rfl, ?_⟩
          have := UVals.unique (.node as hij hne hnd hall hleft hright) (tree (.num ds) i) (fun u => by
            rw [trees_iff ht (text_chars he) h]
            constructor
            · rintro ⟨e', k1, k2, rfl⟩
              rw [Expr.Plain.unique k1 he k2 (by rw [k2, h0]; omega)]
            · rintro rfl
              exact ⟨_, he, rfl, rfl⟩)
          rw [this, uval_leaf int nul ds i he]
        | bin o l r => rw [Expr.opCount_bin] at h0; omega
        | paren => cases he

theorem split_prefix {toks : List Nat} {i : Nat} {e l r : Expr} {o : Op} (h : e.text.map tok <+: toks.drop i) (htext : e.text = (Expr.bin o l r).text) :
    l.text.map tok <+: toks.drop i ∧ toks[i + l.text.length]? = some (tok o.char) ∧ r.text.map tok <+: toks.drop (i + l.text.length + 1) ∧
      i + e.text.length = i + l.text.length + 1 + r.text.length := by
  rw [htext] at h
  simp only [Expr.text, List.map_append, List.map_cons] at h
  rw [prefix_append, prefix_cons, List.length_map] at h
  refine ⟨h.1, h.2.1, h.2.2, ?_⟩
  rw [htext]
  simp only [Expr.text, List.length_append, List.length_cons]
  omega

theorem product_wrong {vl vr : List (Option Int)} {o : Op} (h2 : 2 ≤ vl.length) {a0 a1 a2 : Int} (g0 : vl[0]? = some (some a0)) (g1 : vl[1]? = some (some a1))
    (g2 : (vl ++ [some (opCode o)])[2]? = some (some a2)) (g3 : none ∉ vl) (g4 : none ∉ vr) :
    evaluator.product 0 (vl ++ some (opCode o) :: vr) = action 0 a0 a1 a2 := by
  have hargs : args3 (vl ++ some (opCode o) :: vr) = some (a0, a1, a2) := by
    unfold args3
    rw [if_neg (by simp [g3, g4])]
    have e0 : (vl ++ some (opCode o) :: vr).getD 0 (some (-1)) = some a0 := by
      rw [List.getD_eq_getElem?_getD, List.getElem?_append_left (by omega), g0]
      rfl
    have e1 : (vl ++ some (opCode o) :: vr).getD 1 (some (-1)) = some a1 := by
      rw [List.getD_eq_getElem?_getD, List.getElem?_append_left (by omega), g1]
      rfl
    have e2 : (vl ++ some (opCode o) :: vr).getD 2 (some (-1)) = some a2 := by
      rw [show vl ++ some (opCode o) :: vr = (vl ++ [some (opCode o)]) ++ vr by simp, List.getD_eq_getElem?_getD,
        List.getElem?_append_left (by rw [List.length_append, List.length_singleton]; omega), g2]
      rfl
    rw [e0, e1, e2]
    rfl
  show (args3 _ >>= fun p => action 0 p.1 p.2.1 p.2.2) = _
  rw [hargs]
  rfl

/-- C59. Suppose that the left operand of an operation has two operations or more. If nothing panics, its second value is taken for the
operation, and its third value (or the operation, if there is none) for the right operand. The values of the right operand do not
matter. -/
theorem _root_.Gearley.Props.C59_wrong_operands {toks : List Nat} (ht : ∀ t ∈ toks, 3 ≤ t) {e l r : Expr} {o : Op} {i : Nat} (he : e.Plain) (hl : l.Plain) (hr : r.Plain)
    (htoks : e.text.map tok <+: toks.drop i) (htext : e.text = (Expr.bin o l r).text) (h2 : 2 ≤ opCount l.text) {vs : List (Option Int)} {K : Nat}
    (h : UVals grammar (userEval int evaluator) nul (tokInput toks) 0 i (i + e.text.length) vs K) :
    ∃ vl kl vr kr, UVals grammar (userEval int evaluator) nul (tokInput toks) 0 i (i + l.text.length) vl kl ∧
      UVals grammar (userEval int evaluator) nul (tokInput toks) 0 (i + l.text.length + 1) (i + e.text.length) vr kr ∧
      (int (tok o.char) < 17 → none ∉ vl → none ∉ vr → ∃ a0 a1 a2, vl[0]? = some (some a0) ∧ vl[1]? = some (some a1) ∧
        (vl ++ [some (opCode o)])[2]? = some (some a2) ∧ action 0 a0 a1 a2 ∈ vs) := by
  obtain ⟨v, h3, vl, kl, vr, kr, h4, h5, h6⟩ := (values_of ht he htoks h).1 l o r hl hr htext
  refine ⟨vl, kl, vr, kr, h4, h5, fun g1 g2 g3 => ?_⟩
  have n1 := number_of ht hl (split_prefix htoks htext).1 h4
  have hl2 : 2 ≤ vl.length := by omega
  have ho : readOp (tokenValue int) o = some (opCode o) := by
    have hl : leafTable.length = 17 := rfl
    unfold readOp tokenValue
    rw [List.getElem?_eq_getElem (by omega)]
    rfl
  rw [ho] at h6
  have get : ∀ n, n < (vl ++ [some (opCode o)]).length → ∃ a, (vl ++ [some (opCode o)])[n]? = some (some a) := by
    intro n hn
    rw [List.getElem?_eq_getElem hn]
    cases hx : (vl ++ [some (opCode o)])[n] with
    | none =>
      have := List.getElem_mem hn
      rw [hx] at this
      simp [g2] at this
    | some a => exact ⟨a, rfl⟩
  have hlen : (vl ++ [some (opCode o)]).length = vl.length + 1 := by simp
  obtain ⟨a0, e0⟩ := get 0 (by omega)
  obtain ⟨a1, e1⟩ := get 1 (by omega)
  obtain ⟨a2, e2⟩ := get 2 (by omega)
  rw [List.getElem?_append_left (by omega)] at e0 e1
  refine ⟨a0, a1, a2, e0, e1, e2, ?_⟩
  rw [← product_wrong hl2 e0 e1 e2 g2 g3, ← h6]
  exact h3

/-! ### At most two operations -/

theorem groupings_of {toks : List Nat} (ht : ∀ t ∈ toks, 3 ≤ t) {i k : Nat} {e : Expr} (he : e.Plain) (h2 : opCount e.text ≤ 2) (h : e.text.map tok <+: toks.drop i)
    {vs : List (Option Int)} (hv : UVals grammar (userEval int evaluator) nul (tokInput toks) 0 i (i + e.text.length) vs k) :
    ∃ es : List Expr, es.Nodup ∧ (∀ e', e' ∈ es ↔ e'.Plain ∧ e'.text = e.text) ∧ vs = es.map (calculated (tokenValue int)) := by
  have hij : i < i + e.text.length := by have := text_pos he; omega
  obtain ⟨us, h3, h4, h5⟩ := C58_trees hv hij (no_leaf ht (by decide)) (by
    intro k ss y p ts ts' t t' hk g1 g2 g3 g4
    obtain ⟨e1, k1, k2, k3⟩ := (trees_iff ht (text_chars he) h _).1 (.node hk (g1.append (.cons g3 .nil)) hij)
    obtain ⟨e2, l1, l2, l3⟩ := (trees_iff ht (text_chars he) h _).1 (.node hk (g2.append (.cons g4 .nil)) hij)
    suffices e1 = e2 by
      rw [this, ← l3] at k3
      simp only [UTree.node.injEq, true_and, List.append_singleton_inj] at k3
      exact k3
    cases e1 with
    | num ds =>
      refine Expr.Plain.unique k1 l1 (k2.trans l2.symm) ?_
      rw [show (Expr.num ds).text = ds.map Expr.digitChar from rfl, opCount_digits]
      omega
    | paren => cases k1
    | bin o l r =>
      cases e2 with
      | num ds =>
        refine Expr.Plain.unique k1 l1 (k2.trans l2.symm) ?_
        rw [k2, ← l2, show (Expr.num ds).text = ds.map Expr.digitChar from rfl, opCount_digits]
        omega
      | paren => cases l1
      | bin o' l' r' =>
        have sp : ∀ {l : Expr} {o : Op} {r : Expr} {ts : List UTree} {t : UTree}, (Expr.bin o l r).Plain → (Expr.bin o l r).text = e.text →
            UTree.node k (ts ++ [t]) = tree (.bin o l r) i → UKids grammar (tokInput toks) ts ss i p → p = i + l.text.length + 1 := by
          intro l o r ts t j1 j2 j3 j4
          rw [show tree (.bin o l r) i = .node 0 ([tree l i, opTree o (i + l.text.length)] ++ [tree r (i + l.text.length + 1)]) from rfl] at j3
          simp only [UTree.node.injEq, List.append_singleton_inj] at j3
          obtain ⟨_, rfl, _⟩ := j3
          obtain ⟨q1, q2, _⟩ := split_prefix h j2.symm
          exact UKids.span j4 (.cons (tree_of_expr j1.1 q1) (.cons (tree_op q2) .nil))
        have e1 := sp k1 k2 k3 g1
        have e2 := sp l1 l2 l3 g2
        have htext : l.text ++ o.char :: r.text = l'.text ++ o'.char :: r'.text := k2.trans l2.symm
        obtain ⟨q1, q2⟩ := List.append_inj htext (by omega)
        simp only [List.cons.injEq] at q2
        have cl := Expr.opCount_bin o l r
        rw [k2] at cl
        rw [Expr.opChar_inj q2.1, Expr.Plain.unique k1.1 l1.1 q1 (by omega), Expr.Plain.unique k1.2 l1.2 q2.2 (by omega)])
  have hex : ∀ u, ∃ e' : Expr, u ∈ us → e'.Plain ∧ e'.text = e.text ∧ u = tree e' i := by
    intro u
    by_cases hu : u ∈ us
    · obtain ⟨e', h6⟩ := (trees_iff ht (text_chars he) h _).1 ((h4 u).1 hu)
      exact ⟨e', fun _ => h6⟩
    · exact ⟨e, fun h => absurd h hu⟩
  obtain ⟨F, hF⟩ := Classical.axiomOfChoice hex
  refine ⟨us.map F, ?_, fun e' => ?_, ?_⟩
  · refine List.Nodup.map_on ?_ h3
    intro a ha b hb e1
    rw [(hF a ha).2.2, (hF b hb).2.2, e1]
  · rw [List.mem_map]
    constructor
    · rintro ⟨u, hu, rfl⟩
      exact ⟨(hF u hu).1, (hF u hu).2.1⟩
    · rintro ⟨h6, h7⟩
      have hm := (h4 _).2 ((trees_iff ht (text_chars he) h _).2 ⟨e', h6, h7, rfl⟩)
      exact ⟨_, hm, tree_inj (hF _ hm).1 h6 (hF _ hm).2.2.symm⟩
  · rw [h5, List.map_map]
    refine List.map_congr_left fun u hu => ?_
    show _ = calculated _ (F u)
    rw [← uval_tree int nul (hF u hu).1 i, ← (hF u hu).2.2]

/-- The tokens of the text have numbers in the parser that the evaluator knows, and digits have kept their numbers. -/
def TokensKept (g : DefaultGrammar) (s : List Char) : Prop :=
  ∀ toks, tokenize s = pure toks → ∀ t ∈ toks, ∃ x, g.toInternal t = pure (some x) ∧ x < 17 ∧ (7 ≤ t → x = t)

theorem digit_table (d : Fin 10) : leafTable[7 + d.val]? = some (d.val : Int) := by
  have : ∀ d : Fin 10, leafTable[7 + d.val]? = some (d.val : Int) := by decide
  exact this d

/-- The values of the tokens are as wanted. -/
def Reads (lf : Nat → Option Int) (s : List Char) : Prop :=
  ∀ ch ∈ s, (∃ v, lf (tok ch) = some v) ∧ ∀ d : Fin 10, tok ch = 7 + d → lf (7 + d) = some (d.val : Int)

theorem Reads.sub {lf : Nat → Option Int} {s t : List Char} (h : Reads lf s) (hst : ∀ ch ∈ t, ch ∈ s) : Reads lf t := fun ch hch => h ch (hst ch hch)

theorem TokensKept.reads {g : DefaultGrammar} {s : List Char} (hs : ∀ ch ∈ s, ch ∈ chars) (h : TokensKept g s)
    (hi : ∀ t, 3 ≤ t → t < 17 → g.toInternal t = pure (some (int t))) : Reads (tokenValue int) s := by
  intro ch hch
  obtain ⟨x, h1, h2, h3⟩ := h _ (tokenize_ok hs) (tok ch) (List.mem_map_of_mem hch)
  obtain ⟨r1, r2⟩ := tok_range (hs ch hch)
  have e := hi _ r1 r2
  rw [h1] at e
  have e := Option.some.inj (pure_inj_M e)
  have he : tokenValue int (tok ch) = leafTable[x]? := by
    unfold tokenValue
    rw [e]
  have hl : leafTable.length = 17 := rfl
  refine ⟨⟨leafTable[x], ?_⟩, fun d hd => ?_⟩
  · rw [he]
    exact List.getElem?_eq_getElem (by omega)
  · rw [← hd, he, h3 (by omega), hd]
    exact digit_table d

theorem calculated_kept {lf : Nat → Option Int} {e : Expr} (he : e.Plain) (h : Reads lf e.text) (h2 : e.Numbers fun ds => ds.length ≤ 2) : calculated lf e = e.value := by
  induction e with
  | num ds =>
    have hd : ∀ d ∈ ds, lf (7 + d.val) = some (d.val : Int) := fun d hd =>
      (h (Expr.digitChar d) (List.mem_map_of_mem hd)).2 d (tok_digit d)
    match ds, he, h2, hd with
    | [d], _, _, hd =>
      show lf (7 + d.val) = Expr.fits _
      rw [hd d (by simp)]
      have : Expr.decimal [d] = d.val := by simp [Expr.decimal]
      rw [this, fits_small (by omega) (by omega)]
    | [d, d'], _, _, hd =>
      show (lf (7 + d.val) >>= fun a => lf (7 + d'.val) >>= fun b => shiftI32 a b) = Expr.fits _
      rw [hd d (by simp), hd d' (by simp)]
      simp only [Option.bind_eq_bind, Option.bind_some]
      have : Expr.decimal [d, d'] = d.val * 10 + d'.val := by simp [Expr.decimal]; omega
      rw [shift_small (by omega), this, fits_small (by omega) (by omega)]
    | _ :: _ :: _ :: _, _, h2, _ =>
      simp only [Expr.Numbers, List.length_cons] at h2
      omega
  | bin o l r ihl ihr =>
    obtain ⟨g1, g2⟩ := he
    obtain ⟨n1, n2⟩ := h2
    obtain ⟨v, hv⟩ := (h o.char (by simp [Expr.text])).1
    simp only [calculated, Expr.value]
    rw [ihl g1 (fun ch hch => h ch (by simp [Expr.text, hch])) n1, ihr g2 (fun ch hch => h ch (by simp [Expr.text, hch])) n2, hv]
    rfl
  | paren e ih => cases he

/-- `vs` are the values of all ways to group the text, each once. -/
def AllGroupings (s : List Char) (vs : List (Option Int)) : Prop :=
  ∃ es : List Expr, es.Nodup ∧ (∀ e, e ∈ es ↔ e.Plain ∧ e.text = s) ∧ vs = es.map Expr.value

theorem kept_of {toks : List Nat} (ht : ∀ t ∈ toks, 3 ≤ t) {i k : Nat} {e : Expr} (he : e.Plain) (h2 : opCount e.text ≤ 2) (hd : e.Numbers fun ds => ds.length ≤ 2)
    (h : e.text.map tok <+: toks.drop i) (hk : Reads (tokenValue int) e.text) {vs : List (Option Int)}
    (hv : UVals grammar (userEval int evaluator) nul (tokInput toks) 0 i (i + e.text.length) vs k) : AllGroupings e.text vs := by
  obtain ⟨es, h3, h4, h5⟩ := groupings_of ht he h2 h hv
  refine ⟨es, h3, h4, ?_⟩
  rw [h5]
  refine List.map_congr_left fun e' h' => ?_
  obtain ⟨h6, h7⟩ := (h4 e').1 h'
  exact calculated_kept h6 (h7 ▸ hk) (he.numbers h6 h7.symm hd)

theorem kept_whole {g : DefaultGrammar} {e : Expr} (he : e.Plain) (h2 : opCount e.text ≤ 2) (hd : e.Numbers fun ds => ds.length ≤ 2) (hk : TokensKept g e.text)
    {vs : List (Option Int)} {K : Nat} (h : Evaluates g (e.text.map tok) vs K) : AllGroupings e.text vs := by
  obtain ⟨int, hi, h⟩ := h
  rw [show (e.text.map tok).length = 0 + e.text.length by simp] at h
  exact kept_of (fun t ht => (text_tokens (text_chars he) t ht).1) he h2 hd (by simp) (hk.reads (text_chars he) hi) h

/-- C59, simple bocage. If the tokens of a text have kept their numbers, it has at most two operations, and its numbers have at most
two digits, evaluation returns the values of all ways to group it. Partial: with more operations there are fewer values than ways
to group (`C59_number_simple`), and they are wrong (`C59_wrong_value`, `C59_unreachable`); longer numbers are read wrong; no parser
keeps the numbers of all tokens (`C59_no_order`). -/
theorem _root_.Gearley.Props.C59_partial_simple {E : Env Simple.Bocage Nat} {b : Simple.Bocage} (h : SimpleParser N w g0 c nulling X E b) {e : Expr} (he : e.Plain)
    (hlen : e.text.length + 1 < 2 ^ 64 - 1) (h2 : opCount e.text ≤ 2) (hd : e.Numbers fun ds => ds.length ≤ 2) (hk : TokensKept E.g e.text) :
    ValuesSimple E b e.text (AllGroupings e.text) :=
  values_simple h he hlen fun _ _ => kept_whole he h2 hd hk

/-- C59, compact bocage. Partial: see `C59_partial_simple`. -/
theorem _root_.Gearley.Props.C59_partial_compact {E : Env Compact.Bocage Nat} {b : Compact.Bocage} (h : CompactParser N w g0 c nulling X E b) {e : Expr} (he : e.Plain)
    (hlen : e.text.length + 1 < 2 ^ 64 - 1) (h2 : opCount e.text ≤ 2) (hd : e.Numbers fun ds => ds.length ≤ 2) (hk : TokensKept E.g e.text) :
    ValuesCompact E b e.text (AllGroupings e.text) :=
  values_compact h he hlen fun _ _ => kept_whole he h2 hd hk

/-! ### Three operations -/

/-- The digit of a character. -/
def digitOf (ch : Char) : Option (Fin 10) := (List.finRange 10).find? fun d => Expr.digitChar d = ch

/-- The operation of a character. -/
def opOf (ch : Char) : Option Op := [Op.add, .sub, .mul, .div].find? fun o => o.char = ch

/-- All ways to group a text of at most `n` characters, and perhaps more expressions. -/
def groupings : Nat → List Char → List Expr
  | 0, _ => []
  | n + 1, s => (match s.mapM digitOf with
    | some ds => [.num ds]
    | none => []) ++ (List.range s.length).flatMap fun p => match opOf (s.getD p ' ') with
      | some o => (groupings n (s.take p)).flatMap fun l => (groupings n (s.drop (p + 1))).map fun r => .bin o l r
      | none => []

theorem digitOf_char (d : Fin 10) : digitOf (Expr.digitChar d) = some d := by
  revert d
  decide +kernel

theorem opOf_char (o : Op) : opOf o.char = some o := by
  cases o <;> decide +kernel

theorem mapM_digits (ds : List (Fin 10)) : (ds.map Expr.digitChar).mapM digitOf = some ds := by
  induction ds with
  | nil => rfl
  | cons d ds ih => rw [List.map_cons, List.mapM_cons, digitOf_char, ih]; rfl

theorem mem_groupings {e : Expr} (he : e.Plain) {n : Nat} (hn : e.text.length ≤ n) : e ∈ groupings n e.text := by
  induction e generalizing n with
  | num ds =>
    cases n with
    | zero => exact absurd (List.length_eq_zero_iff.1 (Nat.le_zero.1 hn)) he.ne_nil
    | succ n =>
      show _ ∈ groupings (n + 1) (ds.map Expr.digitChar)
      unfold groupings
      rw [mapM_digits]
      simp
  | bin o l r ihl ihr =>
    have hl : (Expr.bin o l r).text.length = l.text.length + r.text.length + 1 := by
      simp only [Expr.text, List.length_append, List.length_cons]
      omega
    cases n with
    | zero => omega
    | succ n =>
      unfold groupings
      refine List.mem_append_right _ (List.mem_flatMap.2 ⟨l.text.length, List.mem_range.2 (by omega), ?_⟩)
      have e1 : (Expr.bin o l r).text.getD l.text.length ' ' = o.char := by simp [Expr.text]
      have e2 : (Expr.bin o l r).text.take l.text.length = l.text := by simp [Expr.text]
      have e3 : (Expr.bin o l r).text.drop (l.text.length + 1) = r.text := by simp [Expr.text, List.drop_append]
      rw [e1, opOf_char, e2, e3]
      exact List.mem_flatMap.2 ⟨l, ihl he.1 (by omega), List.mem_map_of_mem (ihr he.2 (by omega))⟩
  | paren => cases he

/-- The three operands and two operations of the examples. -/
def three (o : Op) (a b c : Fin 10) : Expr := .bin o (.bin o (.num [a]) (.num [b])) (.num [c])

theorem three_values {a d : Fin 10} {V : List Int} (hV : ∀ e ∈ groupings 5 (three .sub a d d).text, ∃ v ∈ V, e.value = some v)
    {g : DefaultGrammar} (hk : TokensKept g (Expr.bin .sub (three .sub a d d) (.num [d])).text) {vs : List (Option Int)} {K : Nat}
    (h : Evaluates g ((Expr.bin .sub (three .sub a d d) (.num [d])).text.map tok) vs K) :
    ∃ a0 ∈ V, ∃ a1 ∈ V, action 0 a0 a1 1 ∈ vs := by
  have he : (Expr.bin .sub (three .sub a d d) (.num [d])).Plain := by simp [Expr.Plain, three]
  have hl : (three .sub a d d).Plain := he.1
  obtain ⟨int, hi, h⟩ := h
  have ht : ∀ t ∈ (Expr.bin .sub (three .sub a d d) (.num [d])).text.map tok, 3 ≤ t := fun t ht => (text_tokens (text_chars he) t ht).1
  have hR := hk.reads (text_chars he) hi
  have hpre : (Expr.bin .sub (three .sub a d d) (.num [d])).text.map tok <+: ((Expr.bin .sub (three .sub a d d) (.num [d])).text.map tok).drop 0 := by simp
  rw [show ((Expr.bin .sub (three .sub a d d) (.num [d])).text.map tok).length = 0 + (Expr.bin .sub (three .sub a d d) (.num [d])).text.length by simp] at h
  obtain ⟨v, h3, vl, kl, vr, kr, h4, h5, h6⟩ := (values_of ht he hpre h).1 _ _ _ he.1 he.2 rfl
  obtain ⟨q1, q2, q3, q4⟩ := split_prefix hpre rfl
  have n1 := number_of ht hl q1 h4
  have hc : opCount (three .sub a d d).text = 2 := by
    unfold three
    rw [Expr.opCount_bin, Expr.opCount_bin]
    rw [show (Expr.num [a]).text = [a].map Expr.digitChar from rfl, show (Expr.num [d]).text = [d].map Expr.digitChar from rfl, opCount_digits, opCount_digits]
  obtain ⟨es, m1, m2, m3⟩ := kept_of ht hl (by omega) (by simp [three, Expr.Numbers]) q1 (hR.sub fun ch hch => by
    rw [show (Expr.bin .sub (three .sub a d d) (.num [d])).text = (three .sub a d d).text ++ _ from rfl]
    exact List.mem_append_left _ hch) h4
  rw [q4] at h5
  obtain ⟨es', _, p2, p3⟩ := kept_of ht he.2 (by rw [show (Expr.num [d]).text = [d].map Expr.digitChar from rfl, opCount_digits]; omega) (by simp [Expr.Numbers]) q3
    (hR.sub fun ch hch => by
      rw [show (Expr.bin .sub (three .sub a d d) (.num [d])).text = (three .sub a d d).text ++ _ from rfl]
      exact List.mem_append_right _ (List.mem_cons_of_mem _ hch)) h5
  have hv : ∀ x ∈ vl, ∃ v ∈ V, x = some v := by
    intro x hx
    rw [m3] at hx
    obtain ⟨e, h7, rfl⟩ := List.mem_map.1 hx
    obtain ⟨h8, h9⟩ := (m2 e).1 h7
    refine hV e ?_
    rw [← h9]
    refine mem_groupings h8 ?_
    rw [h9]
    exact Nat.le_of_eq rfl
  have hr : none ∉ vr := by
    intro hx
    rw [p3] at hx
    obtain ⟨e, h7, h8⟩ := List.mem_map.1 hx
    obtain ⟨h9, h10⟩ := (p2 e).1 h7
    rw [Expr.Plain.unique h9 he.2 h10 (by rw [h10, show (Expr.num [d]).text = [d].map Expr.digitChar from rfl, opCount_digits]; omega)] at h8
    have : Expr.decimal [d] = d.val := by simp [Expr.decimal]
    rw [show (Expr.num [d]).value = Expr.fits (Expr.decimal [d]) from rfl, this, fits_small (by omega) (by omega)] at h8
    cases h8
  rw [hc] at n1
  match vl, n1, hv, h6 with
  | [x, y], _, hv, h6 =>
    obtain ⟨a0, ha0, rfl⟩ := hv x (by simp)
    obtain ⟨a1, ha1, rfl⟩ := hv y (by simp)
    refine ⟨a0, ha0, a1, ha1, ?_⟩
    have ho : readOp (tokenValue int) .sub = some (opCode .sub) := by
      obtain ⟨v, hv⟩ := (hR '-' (by simp [Expr.text, Op.char])).1
      unfold readOp
      rw [show Op.sub.char = '-' from rfl, hv]
      rfl
    rw [ho, product_wrong (vl := [some a0, some a1]) (by simp) rfl rfl rfl (by simp) hr] at h6
    exact h6 ▸ h3

/-- `1-0-0-0`, grouped from the left. -/
def minusZero : Expr := .bin .sub (three .sub 1 0 0) (.num [0])
/-- `9-9-9-9`, grouped from the left. -/
def minusNine : Expr := .bin .sub (three .sub 9 9 9) (.num [9])

theorem minusZero_value {g : DefaultGrammar} (hk : TokensKept g minusZero.text) {vs : List (Option Int)} {K : Nat} (h : Evaluates g (minusZero.text.map tok) vs K) : some 0 ∈ vs := by
  obtain ⟨a0, h0, a1, h1, h2⟩ := three_values (a := 1) (d := 0) (V := [1]) (by decide +kernel) hk h
  simp only [List.mem_singleton] at h0 h1
  subst h0 h1
  exact h2

theorem minusNine_value {g : DefaultGrammar} (hk : TokensKept g minusNine.text) {vs : List (Option Int)} {K : Nat} (h : Evaluates g (minusNine.text.map tok) vs K) : none ∈ vs := by
  obtain ⟨a0, h0, a1, h1, h2⟩ := three_values (a := 9) (d := 9) (V := [9, -9]) (by decide +kernel) hk h
  have : action 0 a0 a1 1 = none := by
    simp only [List.mem_cons, List.not_mem_nil, or_false] at h0 h1
    rcases h1 with rfl | rfl <;> simp [action]
  rwa [this] at h2

/-- C59 fails with three operations. All ways to group `1-0-0-0` have the value 1, but evaluation also returns the value 0, even if the
tokens have kept their numbers. -/
theorem _root_.Gearley.Props.C59_wrong_value :
    (∀ e : Expr, e.Plain → e.text = "1-0-0-0".toList → e.value = some 1) ∧
    (∀ {E : Env Simple.Bocage Nat} {b : Simple.Bocage}, SimpleParser N w g0 c nulling X E b → TokensKept E.g "1-0-0-0".toList →
      ValuesSimple E b "1-0-0-0".toList fun vs => some 0 ∈ vs) ∧
    (∀ {E : Env Compact.Bocage Nat} {b : Compact.Bocage}, CompactParser N w g0 c nulling X E b → TokensKept E.g "1-0-0-0".toList →
      ValuesCompact E b "1-0-0-0".toList fun vs => some 0 ∈ vs) := by
  refine ⟨fun e he ht => ?_, fun h hk => ?_, fun h hk => ?_⟩
  · have := mem_groupings he (n := 7) (by rw [ht]; decide)
    rw [ht] at this
    have hall : ∀ e ∈ groupings 7 "1-0-0-0".toList, e.value = some 1 := by decide +kernel
    exact hall e this
  · exact values_simple h (e := minusZero) (by simp [minusZero, three, Expr.Plain]) (by decide) fun _ _ => minusZero_value hk
  · exact values_compact h (e := minusZero) (by simp [minusZero, three, Expr.Plain]) (by decide) fun _ _ => minusZero_value hk

/-- C59 fails with three operations. All ways to group `9-9-9-9` have a value, but evaluation panics, even if the tokens have kept their
numbers: it takes a value for an operation and reaches `unreachable!()`. -/
theorem _root_.Gearley.Props.C59_unreachable :
    (∀ e : Expr, e.Plain → e.text = "9-9-9-9".toList → e.value ≠ none) ∧
    (∀ {E : Env Simple.Bocage Nat} {b : Simple.Bocage}, SimpleParser N w g0 c nulling X E b → TokensKept E.g "9-9-9-9".toList →
      ValuesSimple E b "9-9-9-9".toList fun vs => none ∈ vs) ∧
    (∀ {E : Env Compact.Bocage Nat} {b : Compact.Bocage}, CompactParser N w g0 c nulling X E b → TokensKept E.g "9-9-9-9".toList →
      ValuesCompact E b "9-9-9-9".toList fun vs => none ∈ vs) := by
  refine ⟨fun e he ht => ?_, fun h hk => ?_, fun h hk => ?_⟩
  · have := mem_groupings he (n := 7) (by rw [ht]; decide)
    rw [ht] at this
    have hall : ∀ e ∈ groupings 7 "9-9-9-9".toList, e.value ≠ none := by decide +kernel
    exact hall e this
  · exact values_simple h (e := minusNine) (by simp [minusNine, three, Expr.Plain]) (by decide) fun _ _ => minusNine_value hk
  · exact values_compact h (e := minusNine) (by simp [minusNine, three, Expr.Plain]) (by decide) fun _ _ => minusNine_value hk

/-! ### Numbers of tokens -/

/-- The tokens have got the next number in the parser, as with a stable sort, which puts the end of the input first. -/
def Shifted (g : DefaultGrammar) : Prop := ∀ t, 3 ≤ t → t < 17 → g.toInternal t = pure (some (t + 1))

theorem shifted_digit {g : DefaultGrammar} (h : Shifted g) (hi : ∀ t, 3 ≤ t → t < 17 → g.toInternal t = pure (some (int t))) (d : Fin 10) :
    tokenValue int (7 + d.val) = if d.val = 9 then none else some (d.val + 1 : Int) := by
  have e := hi (7 + d.val) (by omega) (by omega)
  rw [h _ (by omega) (by omega)] at e
  have e := Option.some.inj (pure_inj_M e)
  unfold tokenValue
  rw [← e]
  have : ∀ d : Fin 10, leafTable[7 + d.val + 1]? = if d.val = 9 then none else some (d.val + 1 : Int) := by decide
  exact this d

theorem readNumber_none {lf : Nat → Option Int} : ∀ (ds : List (Fin 10)), (∃ d ∈ ds, lf (7 + d.val) = none) → readNumber lf ds = none
  | [], _ => rfl
  | [d], ⟨d', h1, h2⟩ => by
    simp only [List.mem_singleton] at h1
    subst h1
    exact h2
  | d :: d' :: ds, ⟨x, h1, h2⟩ => by
    have hr : readNumber lf (d :: d' :: ds) = (lf (7 + d.val) >>= fun a => readNumber lf (d' :: ds) >>= fun b => shiftI32 a b) := rfl
    rw [hr]
    rcases List.mem_cons.1 h1 with rfl | h1
    · rw [h2]
      rfl
    · rw [readNumber_none (d' :: ds) ⟨x, h1, h2⟩]
      cases lf (7 + d.val) <;> rfl

theorem product_none {k : Nat} {args : List (Option Int)} (h : none ∈ args) : evaluator.product k args = none := by
  show (args3 args >>= fun p => action k p.1 p.2.1 p.2.2) = none
  unfold args3
  rw [if_pos h]
  rfl

/-- If the lookup of a digit panics, all values of texts with this digit do. -/
theorem values_none {toks : List Nat} (ht : ∀ t ∈ toks, 3 ≤ t) {d : Fin 10} (hd : tokenValue int (7 + d.val) = none) {n : Nat} : ∀ {i k : Nat} {e : Expr}, e.text.length ≤ n → e.Plain →
    e.text.map tok <+: toks.drop i → Expr.digitChar d ∈ e.text → ∀ {vs : List (Option Int)},
    UVals grammar (userEval int evaluator) nul (tokInput toks) 0 i (i + e.text.length) vs k → ∀ v ∈ vs, v = none := by
  induction n with
  | zero =>
    intro i k e hn he
    exact absurd (List.length_eq_zero_iff.1 (Nat.le_zero.1 hn)) he.ne_nil
  | succ n ih =>
    intro i k e hn he h hm vs hv v hmem
    rcases (values_of ht he h hv).2 v hmem with ⟨l, o, r, h1, h2, h3, vl, kl, vr, kr, h4, h5, rfl⟩ | ⟨ds, rfl, rfl⟩
    · obtain ⟨q1, q2, q3, q4⟩ := split_prefix h h3
      have hlr : Expr.digitChar d ∈ l.text ∨ Expr.digitChar d ∈ r.text := by
        rw [h3] at hm
        simp only [Expr.text, List.mem_append, List.mem_cons] at hm
        rcases hm with hm | hm | hm
        · exact .inl hm
        · have : ∀ d : Fin 10, Expr.digitChar d ≠ '+' ∧ Expr.digitChar d ≠ '-' ∧ Expr.digitChar d ≠ '*' ∧ Expr.digitChar d ≠ '/' := by decide +kernel
          obtain ⟨d1, d2, d3, d4⟩ := this d
          cases o
          · exact absurd hm d1
          · exact absurd hm d2
          · exact absurd hm d3
          · exact absurd hm d4
        · exact .inr hm
      rw [q4] at h5
      have some_of : ∀ {e : Expr} {i k : Nat} {vs : List (Option Int)}, e.Plain → e.text.map tok <+: toks.drop i →
          UVals grammar (userEval int evaluator) nul (tokInput toks) 0 i (i + e.text.length) vs k → (∀ v ∈ vs, v = none) → none ∈ vs := by
        intro e i k vs he h hv hall
        have := number_of ht he h hv
        match vs with
        | [] => simp at this; omega
        | v :: vs => rw [hall v (by simp)]; simp
      refine product_none ?_
      rcases hlr with hm | hm
      · exact List.mem_append_left _ (some_of h1 q1 h4 (ih (by omega) h1 q1 hm h4))
      · exact List.mem_append_right _ (List.mem_cons_of_mem _ (some_of h2 q3 h5 (ih (by omega) h2 q3 hm h5)))
    · rw [List.mem_singleton.1 hmem]
      refine readNumber_none ds ?_
      obtain ⟨d', h1, h2⟩ := List.mem_map.1 hm
      rw [← Expr.digitChar_inj h2] at hd
      exact ⟨d', h1, hd⟩

theorem nine_whole {g : DefaultGrammar} (hs : Shifted g) {e : Expr} (he : e.Plain) (h9 : '9' ∈ e.text) {vs : List (Option Int)} {K : Nat}
    (h : Evaluates g (e.text.map tok) vs K) : vs ≠ [] ∧ ∀ v ∈ vs, v = none := by
  have hn := number_whole he h
  obtain ⟨int, hi, h⟩ := h
  rw [show (e.text.map tok).length = 0 + e.text.length by simp] at h
  refine ⟨?_, values_none (fun t ht => (text_tokens (text_chars he) t ht).1) (d := 9) (shifted_digit hs hi 9) (Nat.le_refl _) he (by simp) h9 h⟩
  rintro rfl
  simp at hn
  omega

theorem digit_whole {g : DefaultGrammar} (hs : Shifted g) {d : Fin 10} (hd : d.val < 9) {vs : List (Option Int)} {K : Nat}
    (h : Evaluates g ((Expr.num [d]).text.map tok) vs K) : vs = [some (d.val + 1 : Int)] := by
  have hn := number_whole (e := .num [d]) (by simp [Expr.Plain]) h
  obtain ⟨int, hi, h⟩ := h
  rw [show ((Expr.num [d]).text.map tok).length = 0 + (Expr.num [d]).text.length by simp] at h
  rw [show (Expr.num [d]).text = [d].map Expr.digitChar from rfl, opCount_digits] at hn
  have he : (Expr.num [d]).Plain := by simp [Expr.Plain]
  match vs, hn with
  | [v], _ =>
    rcases (values_of (fun t ht => (text_tokens (text_chars he) t ht).1) he (by simp) h).2 v (by simp) with ⟨l, o, r, _, _, h3, _⟩ | ⟨ds, e1, e2⟩
    · have := Expr.opCount_bin o l r
      rw [← h3, show (Expr.num [d]).text = [d].map Expr.digitChar from rfl, opCount_digits] at this
      omega
    · cases e1
      rw [e2, show readNumber (tokenValue int) [d] = tokenValue int (7 + d.val) from rfl, shifted_digit hs hi, if_neg (by omega)]

/-- C59 fails if the symbols keep their order, simple bocage: every digit is taken for the next one, and texts with a 9 panic. -/
theorem _root_.Gearley.Props.C59_shifted_simple {E : Env Simple.Bocage Nat} {b : Simple.Bocage} (h : SimpleParser N w g0 c nulling X E b) (hs : Shifted E.g) :
    (∀ d : Fin 10, d.val < 9 → ValuesSimple E b [Expr.digitChar d] fun vs => vs = [some (d.val + 1 : Int)]) ∧
    ∀ e : Expr, e.Plain → e.text.length + 1 < 2 ^ 64 - 1 → '9' ∈ e.text → ValuesSimple E b e.text fun vs => vs ≠ [] ∧ ∀ v ∈ vs, v = none :=
  ⟨fun d hd => values_simple h (e := .num [d]) (by simp [Expr.Plain]) (by simp [Expr.text]) fun _ _ => digit_whole hs hd,
    fun _ he hlen h9 => values_simple h he hlen fun _ _ => nine_whole hs he h9⟩

/-- C59 fails if the symbols keep their order, compact bocage. -/
theorem _root_.Gearley.Props.C59_shifted_compact {E : Env Compact.Bocage Nat} {b : Compact.Bocage} (h : CompactParser N w g0 c nulling X E b) (hs : Shifted E.g) :
    (∀ d : Fin 10, d.val < 9 → ValuesCompact E b [Expr.digitChar d] fun vs => vs = [some (d.val + 1 : Int)]) ∧
    ∀ e : Expr, e.Plain → e.text.length + 1 < 2 ^ 64 - 1 → '9' ∈ e.text → ValuesCompact E b e.text fun vs => vs ≠ [] ∧ ∀ v ∈ vs, v = none :=
  ⟨fun d hd => values_compact h (e := .num [d]) (by simp [Expr.Plain]) (by simp [Expr.text]) fun _ _ => digit_whole hs hd,
    fun _ he hlen h9 => values_compact h he hlen fun _ _ => nine_whole hs he h9⟩

/-- C59 fails for every order of symbols in which numbers go up in rules with one symbol, which is the order `remap_symbols` asks for
and C58 needs: some character has a number in the parser that the evaluator does not know, so its lookup panics. The table has
17 entries, but there are 18 symbols that have to come first: the end of the input, `expr`, `op`, `num` and the 14 characters. -/
theorem _root_.Gearley.Props.C59_no_order {g : DefaultGrammar} (h : UserParser X grammar N w g0 c nulling g) (hd : UnaryDown c g) :
    ∃ ch x, Known ch ∧ tokenize [ch] = pure [tok ch] ∧ g.toInternal (tok ch) = pure (some x) ∧ ∀ v, evaluator.leaf x v = none := by
  by_contra hcon
  obtain ⟨ext, e1, hr⟩ := remapSymbols_ok h.crate h.ok
  obtain ⟨c', hm⟩ := fromBinarized_maps h.made
  rw [e1] at hm
  have hm : mappingOf ext c.numSyms = g.symMaps := congrArg Prod.snd (pure_inj_M hm)
  have h0 : 0 < c.numSyms := Nat.lt_of_le_of_lt (Nat.zero_le _) h.ok.eof_lt
  have get : ∀ s, Occurs c s → s ∈ ext ∧ g.toInternal s = pure (some (newNumber ext s)) := by
    rintro s ⟨r, hr1, hr2⟩
    have hs : s ∈ ext := by
      rcases hr2 with rfl | hr2
      · exact (hr.covers r hr1).1
      · exact (hr.covers r hr1).2 s hr2
    refine ⟨hs, ?_⟩
    show Build.toInternal g.symMaps s = _
    rw [← hm]
    unfold Build.toInternal
    rw [if_neg (by
      intro h
      have := congrArg List.length h
      simp only [mappingOf, List.length_map, List.length_range, List.length_nil] at this
      omega)]
    refine indexM_eq ?_
    simp only [mappingOf, List.getElem?_map]
    rw [List.getElem?_range (hr.lt s hs), Option.map_some, if_pos hs]
  -- every symbol of the grammar is used
  have occ : ∀ s, s < 17 → Occurs c s := by
    intro s hs
    by_cases h3 : 3 ≤ s
    · exact all_tokens h s h3 hs
    · have use : ∀ k A rhs, grammar[k]? = some (A, rhs) → s ∈ rhs → Occurs c s := fun k A rhs hk hm => binarizes_occurs h.bin hk (fun s _ => live_sym s) hm
      have : s = 0 ∨ s = 1 ∨ s = 2 := by omega
      rcases this with rfl | rfl | rfl
      · exact use 0 _ _ grammar_zero (by simp)
      · exact use 0 _ _ grammar_zero (by simp)
      · exact use 1 _ _ grammar_one (by simp)
  have big : ∀ t, 3 ≤ t → t < 17 → newNumber ext t < 17 := by
    intro t h1 h2
    by_contra hge
    have hch : ∀ t : Fin 14, ∃ ch, ch ∈ chars ∧ tok ch = 3 + t.val := by
      intro t
      have := t.isLt
      refine ⟨chars[t.val]'(by simp [chars]), List.getElem_mem _, ?_⟩
      revert t
      decide +kernel
    obtain ⟨ch, k1, k2⟩ := hch ⟨t - 3, by omega⟩
    have k2 : tok ch = t := by rw [k2]; show 3 + (t - 3) = t; omega
    refine hcon ⟨ch, newNumber ext t, (known_iff ch).2 k1, ?_, ?_, fun v => ?_⟩
    · exact tokenize_ok (s := [ch]) (by simpa using k1)
    · rw [k2]
      exact (get t (occ t h2)).2
    · exact List.getElem?_eq_none (by have : leafTable.length = 17 := rfl; omega)
  -- the others come before
  have down : ∀ {k A s : Nat}, grammar[k]? = some (A, [s]) → Occurs c A → Occurs c s → newNumber ext A < newNumber ext s := by
    intro k A s hk hA hs
    obtain ⟨q, hq, e⟩ := h.bin.complete _ (Expected.single (N := N) (dots := []) hk) (by
      intro x hx
      simp only [List.mem_cons, List.not_mem_nil, or_false] at hx
      subst hx
      rw [(N.user _ (List.mem_of_getElem? hk)).2 x (by simp)]
      exact live_sym x)
    have e2 : q.rhs = [s] := by
      have := congrArg CfgRule.rhs e
      exact this
    have e3 : q.lhs = A := by
      have := congrArg CfgRule.lhs e
      exact this
    exact hd q hq s e2 _ _ (by rw [e3]; exact (get A hA).2) (get s hs).2
  have small : ∀ s ∈ w.eof :: List.range 17, s ∈ ext ∧ newNumber ext s < 17 := by
    intro s hs
    rcases List.mem_cons.1 hs with rfl | hs
    · have := hr.head
      cases hx : ext with
      | nil => simp [hx] at this
      | cons x l =>
        rw [hx] at this
        cases this
        simp [newNumber]
    · have hs := List.mem_range.1 hs
      refine ⟨(get s (occ s hs)).1, ?_⟩
      by_cases h3 : 3 ≤ s
      · exact big s h3 hs
      · have d2 := down (k := 7) (A := 2) (s := 7) (by decide +kernel) (occ 2 (by omega)) (occ 7 (by omega))
        have d1 := down (k := 2) (A := 1) (s := 3) (by decide +kernel) (occ 1 (by omega)) (occ 3 (by omega))
        have d0 := down (k := 1) (A := 0) (s := 2) grammar_one (occ 0 (by omega)) (occ 2 (by omega))
        have b7 := big 7 (by omega) (by omega)
        have b3 := big 3 (by omega) (by omega)
        have : s = 0 ∨ s = 1 ∨ s = 2 := by omega
        rcases this with rfl | rfl | rfl <;> omega
  have hnd : (w.eof :: List.range 17).Nodup := by
    refine List.nodup_cons.2 ⟨fun hm => ?_, List.nodup_range⟩
    have hlt := List.mem_range.1 hm
    have := (h.bin.fresh w.eof (.inr (.inr (.inr rfl)))).2
    have hall : ∀ s, s < 17 → ∃ r ∈ grammar, r.1 = s ∨ s ∈ r.2 := by decide +kernel
    obtain ⟨r, hr, hs⟩ := hall _ hlt
    obtain ⟨b1, b2⟩ := this r hr
    rcases hs with hs | hs
    · exact b1 hs
    · exact b2 hs
  have hmap : ((w.eof :: List.range 17).map (newNumber ext)).Nodup := by
    refine List.Nodup.map_on ?_ hnd
    intro a ha b hb e
    exact (List.idxOf_inj (small a ha).1).1 e
  have := (List.subperm_of_subset hmap (l₂ := List.range 17) (by
    intro x hx
    obtain ⟨s, hs, rfl⟩ := List.mem_map.1 hx
    exact List.mem_range.2 (small s hs).2)).length_le
  simp at this

/-! ### Examples -/

/-- The recognizer with the simple bocage. -/
def ambSimple (g : DefaultGrammar) : Env Simple.Bocage Nat := { g := g, F := Simple.forest, leo := false, sorter := Example.sorter }
/-- The recognizer with the compact bocage. -/
def ambCompact (g : DefaultGrammar) : Env Compact.Bocage Nat := { g := g, F := Compact.forest, leo := false, sorter := Example.sorter }

/-- Crates that satisfy the contract and let numbers go up in rules with one symbol make parsers. -/
theorem parsers_exist {X : CfgCrate} (hX : CrateOK X) (hd : ∀ {g}, fromBinarized X ambCfg Example.noRules = pure g → UnaryDown ambCfg g) :
    ∃ g b b', fromBinarized X ambCfg Example.noRules = pure g ∧
    SimpleParser ambNames (standardRoot 17 0) 20 ambCfg Example.noRules X (ambSimple g) b ∧
    CompactParser ambNames (standardRoot 17 0) 20 ambCfg Example.noRules X (ambCompact g) b' := by
  obtain ⟨g, h1, h2⟩ := amb_parser hX
  obtain ⟨⟨b, hb⟩, b', hb'⟩ := C36_made hX amb_ok h1.made (by decide) (by decide)
  exact ⟨g, b, b', h1.made, ⟨h1, h2, hd h1.made, rfl, rfl, rfl, hb, by decide +kernel, by decide +kernel⟩,
    h1, h2, hd h1.made, rfl, rfl, rfl, hb', by decide +kernel, by decide +kernel⟩

theorem shifted_plain {g : DefaultGrammar} (hg : fromBinarized plainCrate ambCfg Example.noRules = pure g) : Shifted g := by
  intro t h1 h2
  refine toInternal_of hg amb_plain (by decide) ?_
  rw [List.getElem?_map, List.getElem?_range (by omega), Option.map_some, if_pos (by omega)]

theorem kept_late {g : DefaultGrammar} (hg : fromBinarized (orderCrate lateDiv) ambCfg Example.noRules = pure g) {e : Expr} (he : e.Plain) (hp : '/' ∉ e.text) : TokensKept g e.text := by
  intro toks htoks t ht
  rw [tokenize_ok (text_chars he)] at htoks
  cases pure_inj_M htoks
  obtain ⟨h1, h2⟩ := text_tokens (text_chars he) t ht
  have h6 : t ≠ 6 := by
    rintro rfl
    obtain ⟨ch, hch, e1⟩ := List.mem_map.1 ht
    have : ch = '/' := tok_inj (text_chars he ch hch) (e1.trans (show 6 = tok '/' by decide))
    exact hp (this ▸ hch)
  have hi := toInternal_of hg amb_late (t := t) (by decide) (by
    rw [List.getElem?_map, List.getElem?_range (by omega), Option.map_some])
  refine ⟨_, hi, ?_, fun h7 => ?_⟩
  · rw [if_neg h6, if_pos h2]
    split
    · omega
    · exact h2
  · rw [if_neg (by omega), if_neg h6, if_pos h2]

-- an order of the symbols with which texts without `/` are computed, up to two operations
example : ∃ (E : Env Simple.Bocage Nat) (b : Simple.Bocage) (E' : Env Compact.Bocage Nat) (b' : Compact.Bocage),
    ValuesSimple E b "12-3*4".toList (AllGroupings "12-3*4".toList) ∧ ValuesCompact E' b' "12-3*4".toList (AllGroupings "12-3*4".toList) ∧
    ValuesSimple E b "1-0-0-0".toList (fun vs => some 0 ∈ vs) ∧ ValuesCompact E' b' "9-9-9-9".toList (fun vs => none ∈ vs) ∧
    ValuesSimple E b "1+2+3+4+5".toList (fun vs => vs.length = 4) := by
  obtain ⟨g, b, b', hg, h1, h2⟩ := parsers_exist (orderCrate_ok lateDiv) late_down
  let e1 : Expr := .bin .sub (.num [1, 2]) (.bin .mul (.num [3]) (.num [4]))
  let e2 : Expr := .bin .add (.bin .add (.bin .add (.bin .add (.num [1]) (.num [2])) (.num [3])) (.num [4])) (.num [5])
  have p1 : e1.Plain := by simp [e1, Expr.Plain]
  have p2 : e2.Plain := by simp [e2, Expr.Plain]
  have n1 : e1.Numbers fun ds => ds.length ≤ 2 := by simp [e1, Expr.Numbers]
  have k1 : TokensKept g e1.text := kept_late hg p1 (by decide)
  exact ⟨_, b, _, b', C59_partial_simple h1 p1 (by decide) (by decide) n1 k1, C59_partial_compact h2 p1 (by decide) (by decide) n1 k1,
    C59_wrong_value.2.1 h1 (kept_late hg (e := minusZero) (by simp [minusZero, three, Expr.Plain]) (by decide)),
    C59_unreachable.2.2 h2 (kept_late hg (e := minusNine) (by simp [minusNine, three, Expr.Plain]) (by decide)),
    C59_number_simple h1 p2 (by decide)⟩

-- the values of the two ways to group
example {vs : List (Option Int)} (h : AllGroupings "12-3*4".toList vs) : some 0 ∈ vs ∧ some 36 ∈ vs := by
  obtain ⟨es, _, h2, rfl⟩ := h
  exact ⟨List.mem_map.2 ⟨.bin .sub (.num [1, 2]) (.bin .mul (.num [3]) (.num [4])), (h2 _).2 ⟨by simp [Expr.Plain], by decide⟩, by decide⟩,
    List.mem_map.2 ⟨.bin .mul (.bin .sub (.num [1, 2]) (.num [3])) (.num [4]), (h2 _).2 ⟨by simp [Expr.Plain], by decide⟩, by decide⟩⟩

-- the assumptions of `C59_no_order` are met by both orders
example : (∃ g, UserParser plainCrate grammar ambNames (standardRoot 17 0) 20 ambCfg Example.noRules g ∧ UnaryDown ambCfg g) ∧
    ∃ g, UserParser (orderCrate lateDiv) grammar ambNames (standardRoot 17 0) 20 ambCfg Example.noRules g ∧ UnaryDown ambCfg g := by
  obtain ⟨g, h1, _⟩ := amb_parser plainCrate_ok
  obtain ⟨g', h1', _⟩ := amb_parser (orderCrate_ok lateDiv)
  exact ⟨⟨g, h1, plain_down h1.made⟩, g', h1', late_down h1'.made⟩

-- `C59_accepts`
example : (Expr.bin .sub (.num [1, 2]) (.num [3])).Plain ∧ (Expr.bin .sub (.num [1, 2]) (.num [3])).text = "12-3".toList ∧ ¬ Known '(' := by
  refine ⟨by simp [Expr.Plain], by decide, by unfold Known; decide⟩

-- with a stable sort, 1 is taken for 2, and 9 panics
example : ∃ (E : Env Simple.Bocage Nat) (b : Simple.Bocage), ValuesSimple E b "1".toList (fun vs => vs = [some 2]) ∧
    ValuesSimple E b "1+2-9".toList fun vs => vs ≠ [] ∧ ∀ v ∈ vs, v = none := by
  obtain ⟨g, b, b', hg, h1, h2⟩ := parsers_exist plainCrate_ok plain_down
  obtain ⟨h3, h4⟩ := C59_shifted_simple h1 (shifted_plain hg)
  exact ⟨_, b, h3 1 (by decide), h4 (.bin .sub (.bin .add (.num [1]) (.num [2])) (.num [9])) (by simp [Expr.Plain]) (by decide) (by decide)⟩

end Gearley.Calculator.Ambiguous
