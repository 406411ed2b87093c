import Verif.Proofs.CGrammar
import Verif.Props.User

/-!
# C61: the C grammar of the web page

The grammar is gearley-example-grammars/src/c/grammar.panini; the words come from the table in gearley-wasm/src/lib.rs. Every word
of the table is a terminal of the grammar, a parser exists, and it accepts exactly the programs of the grammar (`C61_lexer`,
`C61_parser`, `C61_accepts`). Programs end with a semicolon or a brace, and parentheses and braces are nested (`C61_end`,
`C61_nested`). Square brackets are not: the rule for designators `[ 1 ] = …` has a closing bracket in place of the opening one
(grammar.panini:291). So no program has an array designator (`C61_no_designator`), and `int x = { ] 1 ] = 1 } ;` is a program
(`C61_wrong_designator`); what remains true is `C61_square_partial`. Each declaration `int x;` has two trees (`C61_trees`).
-/

namespace Gearley.Props
open Gearley.Spec Gearley.CGrammar Build
variable {N : Names cRules} {w : WrappedRoot} {g0 : Nat} {c nulling : Cfg} {X : CfgCrate} {σ ν : Type}

/-! ### The words -/

/-- The symbol is a terminal of the grammar. -/
def CTerminal (s : CSym) : Prop := ∀ r ∈ cGrammar, r.1 ≠ s

instance (s : CSym) : Decidable (CTerminal s) := by unfold CTerminal; infer_instance

theorem mem_all (s : CSym) : s ∈ CSym.all := by
  have : CSym.all[s.num]? = some s := by cases s <;> rfl
  exact List.mem_of_getElem? this

theorem name_injective {s t : CSym} (h : s.name = t.name) : s = t := by
  have hn : (CSym.all.map CSym.name).Nodup := by decide +kernel
  exact List.inj_on_of_nodup_map hn (mem_all s) (mem_all t) h

theorem terminal_iff (s : CSym) : UTerminal cRules s.num ↔ CTerminal s := by
  unfold UTerminal CTerminal cRules
  constructor
  · intro h r hr he
    exact h (r.1.num, r.2.map CSym.num) (List.mem_map.2 ⟨r, hr, rfl⟩) (by rw [he])
  · intro h r hr he
    obtain ⟨q, hq, rfl⟩ := List.mem_map.1 hr
    exact h q hq (num_injective he)

/-- Every symbol but the start symbol is used in a rule. -/
theorem used (s : CSym) (h : s ≠ .start) : ∃ r ∈ cRules, s.num ∈ r.2 := by
  have : (CSym.all.all fun s => decide (s = .start) || cRules.any fun r => r.2.contains s.num) = true := by decide +kernel
  have := List.all_eq_true.1 this s (mem_all s)
  simp only [h, decide_false, Bool.false_or, List.any_eq_true] at this
  obtain ⟨r, hr, hs⟩ := this
  exact ⟨r, hr, by simpa using hs⟩

/-- The symbol for a token. -/
def tokenSym : CToken → Option CSym
  | .LBrace => some .lbrace
  | .RBrace => some .rbrace
  | .LParen => some .lparen
  | .RParen => some .rparen
  | .LBracket => some .lbracket
  | .RBracket => some .rbracket
  | .Semicolon => some .semicolon
  | .Assign => some .equal
  | .Lt => some .langle
  | .Gt => some .rangle
  | .Minus => some .minus
  | .Tilde => some .tilde
  | .Exclamation => some .exclamation
  | .Plus => some .plus
  | .Multi => some .star
  | .Slash => some .slash
  | .Colon => some .colon
  | .QuestionMark => some .question
  | .Comma => some .comma
  | .Dot => some .dot
  | .SingleAnd => some .ampersand
  | .InclusiveOr => some .pipe
  | .ExclusiveOr => some .xor
  | .Mod => some .percent
  | .Identifier => some .identifier
  | .NumericLiteral => some .constant
  | .StringLiteral => some .string_literal
  | .FuncName => none
  | .SIZEOF => some .sizeof_
  | .PtrOp => some .ptr_op
  | .IncOp => some .inc_op
  | .DecOp => some .dec_op
  | .LeftOp => some .left_op
  | .RightOp => some .right_op
  | .LeOp => some .le_op
  | .GeOp => some .ge_op
  | .EqOp => some .eq_op
  | .NeOp => some .ne_op
  | .AndOp => some .and_op
  | .OrOp => some .or_op
  | .MulAssign => some .mul_assign
  | .DivAssign => some .div_assign
  | .ModAssign => some .mod_assign
  | .AddAssign => some .add_assign
  | .SubAssign => some .sub_assign
  | .LeftAssign => some .left_assign
  | .RightAssign => some .right_assign
  | .AndAssign => some .and_assign
  | .XorAssign => some .xor_assign
  | .OrAssign => some .or_assign
  | .TypedefName => some .identifier
  | .ELLIPSIS => some .elipsis
  | .EnumerationConstant => none
  | .LineTerminator => none
  | .EOF => none
  | .TYPEDEF => some .typedef
  | .EXTERN => some .extern_
  | .STATIC => some .static_
  | .REGISTER => some .register
  | .INLINE => some .inline
  | .CONST => some .const_
  | .RESTRICT => some .restrict
  | .VOLATILE => some .volatile
  | .BOOL => some .bool_
  | .CHAR => some .char_
  | .SHORT => some .short
  | .INT => some .int
  | .LONG => some .long
  | .SIGNED => some .signed
  | .UNSIGNED => some .unsigned
  | .FLOAT => some .float
  | .DOUBLE => some .double
  | .VOID => some .void
  | .COMPLEX => some .complex
  | .IMAGINARY => some .imaginary
  | .STRUCT => some .struct_
  | .UNION => some .union
  | .ENUM => some .enum_
  | .CASE => some .case
  | .DEFAULT => some .default
  | .IF => some .if_
  | .ELSE => some .else_
  | .SWITCH => some .switch
  | .WHILE => some .while_
  | .DO => some .do_
  | .FOR => some .for_
  | .GOTO => some .goto
  | .CONTINUE => some .continue_
  | .BREAK => some .break_
  | .RETURN => some .return_
  | .other => none

theorem tokenName_eq (t : CToken) : cTokenName t = (tokenSym t).map CSym.name := by cases t <;> rfl

def allTokens : List CToken :=
  [.LBrace, .RBrace, .LParen, .RParen, .LBracket, .RBracket, .Semicolon, .Assign, .Lt, .Gt, .Minus, .Tilde, .Exclamation, .Plus,
    .Multi, .Slash, .Colon, .QuestionMark, .Comma, .Dot, .SingleAnd, .InclusiveOr, .ExclusiveOr, .Mod, .Identifier,
    .NumericLiteral, .StringLiteral, .FuncName, .SIZEOF, .PtrOp, .IncOp, .DecOp, .LeftOp, .RightOp, .LeOp, .GeOp, .EqOp, .NeOp,
    .AndOp, .OrOp, .MulAssign, .DivAssign, .ModAssign, .AddAssign, .SubAssign, .LeftAssign, .RightAssign, .AndAssign, .XorAssign,
    .OrAssign, .TypedefName, .ELLIPSIS, .EnumerationConstant, .LineTerminator, .EOF, .TYPEDEF, .EXTERN, .STATIC, .REGISTER,
    .INLINE, .CONST, .RESTRICT, .VOLATILE, .BOOL, .CHAR, .SHORT, .INT, .LONG, .SIGNED, .UNSIGNED, .FLOAT, .DOUBLE, .VOID,
    .COMPLEX, .IMAGINARY, .STRUCT, .UNION, .ENUM, .CASE, .DEFAULT, .IF, .ELSE, .SWITCH, .WHILE, .DO, .FOR, .GOTO, .CONTINUE,
    .BREAK, .RETURN, .other]

theorem mem_allTokens (t : CToken) : t ∈ allTokens := by
  have : allTokens[t.ctorIdx]? = some t := by cases t <;> rfl
  exact List.mem_of_getElem? this

theorem tokenSym_terminal {t : CToken} {s : CSym} (h : tokenSym t = some s) : CTerminal s ∧ s ≠ .auto ∧ s ≠ .error := by
  have : (allTokens.all fun t => match tokenSym t with
    | some s => decide (CTerminal s) && s != .auto && s != .error
    | none => true) = true := by decide +kernel
  have := List.all_eq_true.1 this t (mem_allTokens t)
  simp only [h, Bool.and_eq_true, decide_eq_true_eq, bne_iff_ne] at this
  exact ⟨this.1.1, this.1.2, this.2⟩

/-- C61. Every word that the lexer makes is the name of exactly one symbol of the grammar, which is a terminal. All terminals but
`auto` and `error` are names of tokens; these two are never made. -/
theorem C61_lexer : (∀ t n, cTokenName t = some n → ∃ s, s.name = n ∧ CTerminal s ∧ ∀ s', s'.name = n → s' = s) ∧
    ∀ s, CTerminal s → ((∃ t, cTokenName t = some s.name) ↔ s ≠ .auto ∧ s ≠ .error) := by
  constructor
  · intro t n h
    rw [tokenName_eq, Option.map_eq_some_iff] at h
    obtain ⟨s, h1, h2⟩ := h
    exact ⟨s, h2, (tokenSym_terminal h1).1, fun s' h' => name_injective (h'.trans h2.symm)⟩
  · intro s hs
    constructor
    · rintro ⟨t, ht⟩
      rw [tokenName_eq, Option.map_eq_some_iff] at ht
      obtain ⟨s', h1, h2⟩ := ht
      obtain rfl := name_injective h2
      exact (tokenSym_terminal h1).2
    · rintro ⟨h1, h2⟩
      have : (CSym.all.all fun s => !decide (CTerminal s) || s == .auto || s == .error || allTokens.any fun t => tokenSym t == some s) = true := by
        decide +kernel
      have := List.all_eq_true.1 this s (mem_all s)
      simp only [hs, decide_true, Bool.not_true, Bool.false_or, Bool.or_eq_true, beq_iff_eq, h1, h2, false_or, List.any_eq_true] at this
      obtain ⟨t, _, h3⟩ := this
      exact ⟨t, by rw [tokenName_eq, h3]; rfl⟩

/-! ### The parser -/

theorem start_rule : ∃ r ∈ cRules, r.1 = CSym.start.num := by decide +kernel

/-- C61. There is a parser for the grammar. It knows all terminals. -/
theorem C61_parser : ∃ (N : Names cRules) (w : WrappedRoot) (g0 : Nat) (c nulling : Cfg) (g : DefaultGrammar), w.innerRoot = CSym.start.num ∧
    UserParser plainCrate cRules N w g0 c nulling g ∧ EmptyKept cRules N c nulling g ∧
      ∀ words : List CSym, (∀ s ∈ words, CTerminal s) → Tokens cRules c (words.map CSym.num) := by
  obtain ⟨N, w, g0, c, nulling, g, h1, h2, h3, h4, _⟩ := C55_every_grammar start_rule c_acyclic
  refine ⟨N, w, g0, c, nulling, g, h1, h2, h3, fun words hw => (h4 _).2 ?_⟩
  intro t ht
  obtain ⟨s, hs, rfl⟩ := List.mem_map.1 ht
  refine ⟨(terminal_iff s).2 (hw s hs), used s ?_⟩
  rintro rfl
  exact absurd (hw _ hs) (by decide +kernel)

/-- C61. A parser for the grammar accepts exactly the programs of the grammar, and never panics on terminals. -/
theorem C61_accepts {E : Env σ ν} {f : σ} (h : UserParser X cRules N w g0 c nulling E.g) (hw : w.innerRoot = CSym.start.num) (hleo : E.leo = false)
    (hF : ∀ dots syms, SafeStart E.F f dots syms) {words : List CSym} (ht : Tokens cRules c (words.map CSym.num))
    (hlen : words.length + 1 < 2 ^ 64 - 1) :
    ∃ s0 s res, Rec.new E f = pure s0 ∧ Rec.parse E s0 (words.map CSym.num) = pure (s, res) ∧ (res = .ok true ↔ CProgram words) := by
  obtain ⟨s0, s, res, h1, h2, h3⟩ := C55_accepts h hleo hF ht (by simpa using hlen)
  rw [hw] at h3
  exact ⟨s0, s, res, h1, h2, h3⟩

/-! ### All programs -/

/-- C61. Parentheses and braces of a program are nested. -/
theorem C61_nested {words : List CSym} (h : CProgram words) : Nested words := nested h

/-- C61. A program ends with a semicolon or a closing brace (or with `error`, which the lexer does not make). In particular it is not
empty. -/
theorem C61_end {words : List CSym} (h : CProgram words) : ∃ v a, words = v ++ [a] ∧ (a = .semicolon ∨ a = .rbrace ∨ a = .error) := by
  obtain ⟨v, a, h1, h2⟩ := ends_well h
  rcases List.eq_nil_or_concat words with rfl | ⟨v', a', rfl⟩
  · simp at h1
  · rw [List.concat_eq_append] at h1 ⊢
    rw [List.map_append, List.map_singleton] at h1
    obtain ⟨_, h3⟩ := List.append_inj' h1 rfl
    obtain rfl := (List.cons.inj h3).1
    refine ⟨v', a', rfl, ?_⟩
    simp only [isEnd, Bool.or_eq_true, beq_iff_eq] at h2
    rcases h2 with (h2 | h2) | h2
    · exact .inl (num_injective h2)
    · exact .inr (.inl (num_injective h2))
    · exact .inr (.inr (num_injective h2))

/-- C61. A program has at least as many closing square brackets as opening ones, and the difference is even. -/
theorem C61_square_partial {words : List CSym} (h : CProgram words) : ∃ k, words.count .rbracket = words.count .lbracket + 2 * k := by
  obtain ⟨k, hk⟩ := excess_yields excess_agrees h
  have h0 : excess CSym.start.num = 0 := by decide
  rw [excessAll_count, h0] at hk
  exact ⟨k, by omega⟩

/-- C61, negative. No program has an array designator: no opening square bracket follows a brace or a comma, as in
`int a[2] = { [0] = 1, [1] = 2 };`. -/
theorem C61_no_designator {words : List CSym} (h : CProgram words) :
    ¬ [.lbrace, .lbracket] <:+: words ∧ ¬ [.comma, .lbracket] <:+: words := by
  constructor
  · rintro ⟨u, v, rfl⟩
    refine no_bracket h (x := CSym.lbrace.num) (by decide) ⟨u.map CSym.num, v.map CSym.num, by simp⟩
  · rintro ⟨u, v, rfl⟩
    refine no_bracket h (x := CSym.comma.num) (by decide) ⟨u.map CSym.num, v.map CSym.num, by simp⟩

/-! ### Some programs -/

theorem program_of_tree {words : List CSym} (t : UTree) (hw : ∀ s ∈ words, CTerminal s)
    (h : spanOf cRules (words.map CSym.num) t 0 = some (CSym.start.num, words.length)) : CProgram words := by
  obtain ⟨N, w, g0, c, nulling, g, _, h2, _, h4⟩ := C61_parser
  exact yields_of_tree ((h4 words hw).user N) (by simpa using spanOf_sound h)

/-- `int x = { ] 1 ] = 1 } ;` -/
def wrongDesignator : List CSym :=
  [.int, .identifier, .equal, .lbrace, .rbracket, .constant, .rbracket, .equal, .constant, .rbrace, .semicolon]

/-- C61, negative. `int x = { ] 1 ] = 1 } ;` is a program. -/
theorem C61_wrong_designator : CProgram wrongDesignator :=
  program_of_tree (
    .node 0 [.node 229 [.node 232 [.node 79 [.node 84 [.node 101 [.leaf 96 0], .empty 81], .node 82 [.node 89 [.node 92 [.node
      143 [.empty 127, .node 146 [.leaf 3 1]], .leaf 62 2, .node 187 [.leaf 18 3, .node 189 [.node 192 [.node 193 [.node 194
      [.node 196 [.leaf 11 4, .node 78 [.node 60 [.node 58 [.node 56 [.node 54 [.node 52 [.node 50 [.node 47 [.node 42 [.node 39
      [.node 36 [.node 32 [.node 30 [.node 18 [.node 5 [.node 2 [.leaf 4 5]]]]]]]]]]]]]]]], .leaf 11 6]], .leaf 62 7]], .node 186
      [.node 62 [.node 60 [.node 58 [.node 56 [.node 54 [.node 52 [.node 50 [.node 47 [.node 42 [.node 39 [.node 36 [.node 32
      [.node 30 [.node 18 [.node 5 [.node 2 [.leaf 4 8]]]]]]]]]]]]]]]]]], .leaf 20 9]]]], .leaf 78 10]]]])
    (by decide +kernel) (by decide +kernel)

-- square brackets of a program need not be balanced
example : wrongDesignator.count .rbracket = 2 ∧ wrongDesignator.count .lbracket = 0 := by decide

/-- `int main ( void ) { return 0 ; }` -/
def mainProgram : List CSym :=
  [.int, .identifier, .lparen, .void, .rparen, .lbrace, .return_, .constant, .semicolon, .rbrace]

theorem mainProgram_ok : CProgram mainProgram :=
  program_of_tree (
    .node 0 [.node 229 [.node 231 [.node 233 [.node 84 [.node 101 [.leaf 96 0], .empty 81], .node 143 [.empty 127, .node 152
      [.node 146 [.leaf 3 1], .leaf 6 2, .node 162 [.node 164 [.node 167 [.node 84 [.node 98 [.leaf 93 3], .empty 81], .empty
      139]]], .leaf 8 4]], .empty 173, .node 208 [.leaf 18 5, .node 210 [.node 211 [.node 214 [.node 203 [.node 228 [.leaf 170 6,
      .node 217 [.node 75 [.node 62 [.node 60 [.node 58 [.node 56 [.node 54 [.node 52 [.node 50 [.node 47 [.node 42 [.node 39
      [.node 36 [.node 32 [.node 30 [.node 18 [.node 5 [.node 2 [.leaf 4 7]]]]]]]]]]]]]]]]]], .leaf 78 8]]]]], .leaf 20 9]]]]])
    (by decide +kernel) (by decide +kernel)

-- the words come from tokens
example : cWords [.INT, .Identifier, .LParen, .VOID, .RParen, .LBrace, .RETURN, .NumericLiteral, .Semicolon, .RBrace, .EOF] =
    mainProgram.map CSym.name := rfl

-- `auto` and `__func__` are dropped: `f ( __func__ ) ;` is read as `f ( ) ;`
example : cWords [.Identifier, .LParen, .FuncName, .RParen, .Semicolon] = cWords [.Identifier, .LParen, .RParen, .Semicolon] ∧
    cWords [.other, .INT, .Identifier, .Semicolon] = cWords [.INT, .Identifier, .Semicolon] := ⟨rfl, rfl⟩

-- the lexer's words of `int x = { [ 1 ] = 1 } ;` are not a program
example : ¬ CProgram [.int, .identifier, .equal, .lbrace, .lbracket, .constant, .rbracket, .equal, .constant, .rbrace, .semicolon] :=
  fun h => (C61_no_designator h).1 ⟨[.int, .identifier, .equal], [.constant, .rbracket, .equal, .constant, .rbrace, .semicolon], rfl⟩

/-! ### Ambiguity -/

/-- `n` times `int x ;` -/
def declarations : Nat → List CSym
  | 0 => []
  | n + 1 => declarations n ++ [.int, .identifier, .semicolon]

/-- The two trees of `int x ;` as an external declaration at position `i`: `x` is the variable, or a type. -/
def declarationTree (variable_ : Bool) (i : Nat) : UTree :=
  if variable_ then
    .node 232 [.node 79 [.node 84 [.node 101 [.leaf 96 (i % 2 ^ 32)], .empty 81],
      .node 82 [.node 89 [.node 91 [.node 143 [.empty 127, .node 146 [.leaf 3 ((i + 1) % 2 ^ 32)]]]]], .leaf 78 ((i + 2) % 2 ^ 32)]]
  else
    .node 232 [.node 79 [.node 84 [.node 101 [.leaf 96 (i % 2 ^ 32)],
      .node 88 [.node 84 [.node 112 [.node 185 [.leaf 3 ((i + 1) % 2 ^ 32)]], .empty 81]]], .empty 77, .leaf 78 ((i + 2) % 2 ^ 32)]]

/-- The tree for a choice of one of the two trees for each declaration, last one first. -/
def unitTree : List Bool → UTree
  | [] => .empty 0
  | [b] => .node 229 [declarationTree b 0]
  | b :: b' :: l => .node 230 [unitTree (b' :: l), declarationTree b (3 * (l.length + 1))]

def choiceTree (l : List Bool) : UTree := .node 0 [unitTree l]

theorem declarationTree_injective {a b : Bool} {i : Nat} (h : declarationTree a i = declarationTree b i) : a = b := by
  cases a <;> cases b <;> simp [declarationTree] at h ⊢

theorem unitTree_injective : ∀ {l m : List Bool}, l.length = m.length → unitTree l = unitTree m → l = m
  | [], [], _, _ => rfl
  | [a], [b], _, h => by
    simp only [unitTree, UTree.node.injEq, List.cons.injEq, and_true, true_and] at h
    rw [declarationTree_injective h]
  | a :: a' :: l, b :: b' :: m, hl, h => by
    simp only [unitTree, UTree.node.injEq, List.cons.injEq, and_true, true_and] at h
    have hlen : l.length = m.length := by simpa using hl
    rw [hlen] at h
    rw [unitTree_injective (by simpa using hlen) h.1, declarationTree_injective h.2]
  | [], _ :: _, h, _ => by simp at h
  | _ :: _, [], h, _ => by simp at h
  | [_], _ :: _ :: _, h, _ => by simp at h
  | _ :: _ :: _, [_], h, _ => by simp at h

theorem declarations_length : ∀ n, (declarations n).length = 3 * n
  | 0 => rfl
  | n + 1 => by
    rw [declarations, List.length_append, declarations_length n]
    simp
    omega

theorem declarations_get : ∀ {n i : Nat}, i < n → (declarations n)[3 * i]? = some .int ∧ (declarations n)[3 * i + 1]? = some .identifier ∧
    (declarations n)[3 * i + 2]? = some .semicolon
  | 0, _, h => by omega
  | n + 1, i, h => by
    rw [declarations]
    have hl := declarations_length n
    by_cases hi : i = n
    · subst hi
      refine ⟨?_, ?_, ?_⟩ <;> rw [List.getElem?_append_right (by omega)] <;> simp [hl]
    · obtain ⟨h1, h2, h3⟩ := declarations_get (n := n) (i := i) (by omega)
      refine ⟨?_, ?_, ?_⟩ <;> rw [List.getElem?_append_left (by omega)] <;> assumption

theorem tok_leaf {toks : List Nat} {a i : Nat} (h : toks[i]? = some a) : UTreeOf cRules (tokInput toks) (.leaf a (i % 2 ^ 32)) a i (i + 1) :=
  .leaf (by simp [tokInput, h])

theorem declarationTree_of {toks : List Nat} {i : Nat} (h1 : toks[i]? = some CSym.int.num) (h2 : toks[i + 1]? = some CSym.identifier.num)
    (h3 : toks[i + 2]? = some CSym.semicolon.num) (b : Bool) :
    UTreeOf cRules (tokInput toks) (declarationTree b i) CSym.external_declaration.num i (i + 3) := by
  have e : ∀ s i, (s, []) ∈ cRules → UTreeOf cRules (tokInput toks) (.empty s) s i i := by
    intro s i hs
    obtain ⟨k, hk⟩ := List.mem_iff_getElem?.1 hs
    exact .empty (.rule hk (by simp))
  have l1 := tok_leaf h1
  have l2 := tok_leaf h2
  have l3 := tok_leaf h3
  cases b
  · refine .node (k := 232) rfl (.cons (.node (k := 79) rfl (.cons (.node (k := 84) rfl (.cons (.node (k := 101) rfl (.cons l1 .nil) (by omega))
      (.cons (.node (k := 88) rfl (.cons (.node (k := 84) rfl (.cons (.node (k := 112) rfl (.cons (.node (k := 185) rfl (.cons l2 .nil) (by omega)) .nil) (by omega))
        (.cons (e _ _ (by decide +kernel)) .nil)) (by omega)) .nil) (by omega)) .nil)) (by omega))
      (.cons (e _ _ (by decide +kernel)) (.cons l3 .nil))) (by omega)) .nil) (by omega)
  · refine .node (k := 232) rfl (.cons (.node (k := 79) rfl (.cons (.node (k := 84) rfl (.cons (.node (k := 101) rfl (.cons l1 .nil) (by omega))
      (.cons (e _ _ (by decide +kernel)) .nil)) (by omega))
      (.cons (.node (k := 82) rfl (.cons (.node (k := 89) rfl (.cons (.node (k := 91) rfl (.cons (.node (k := 143) rfl (.cons (e _ _ (by decide +kernel))
        (.cons (.node (k := 146) rfl (.cons l2 .nil) (by omega)) .nil)) (by omega)) .nil) (by omega)) .nil) (by omega)) .nil) (by omega))
      (.cons l3 .nil))) (by omega)) .nil) (by omega)

theorem unitTree_of {n : Nat} : ∀ {l : List Bool}, l ≠ [] → l.length ≤ n →
    UTreeOf cRules (tokInput ((declarations n).map CSym.num)) (unitTree l) CSym.translation_unit.num 0 (3 * l.length)
  | [], h, _ => absurd rfl h
  | [b], _, hn => by
    obtain ⟨h1, h2, h3⟩ := declarations_get (n := n) (i := 0) (by simp at hn; omega)
    exact .node (k := 229) rfl (.cons (declarationTree_of (i := 0) (by rw [List.getElem?_map, h1]; rfl)
      (by rw [List.getElem?_map, h2]; rfl) (by rw [List.getElem?_map, h3]; rfl) b) .nil) (by simp)
  | b :: b' :: l, _, hn => by
    have hlen : l.length + 1 < n := by simp at hn; omega
    have ih := unitTree_of (n := n) (l := b' :: l) (by simp) (by simp; omega)
    obtain ⟨h1, h2, h3⟩ := declarations_get (n := n) (i := l.length + 1) hlen
    have hd := declarationTree_of (toks := (declarations n).map CSym.num) (i := 3 * (l.length + 1)) (by rw [List.getElem?_map, h1]; rfl)
      (by rw [List.getElem?_map, h2]; rfl) (by rw [List.getElem?_map, h3]; rfl) b
    have e : 3 * (b :: b' :: l).length = 3 * (l.length + 1) + 3 := by simp; omega
    rw [e]
    exact .node (k := 230) rfl (.cons ih (.cons hd .nil)) (by omega)

/-- All choices of length `n`. -/
def choices : Nat → List (List Bool)
  | 0 => [[]]
  | n + 1 => (choices n).map (true :: ·) ++ (choices n).map (false :: ·)

theorem choices_length : ∀ n, (choices n).length = 2 ^ n
  | 0 => rfl
  | n + 1 => by simp [choices, choices_length n]; omega

theorem mem_choices : ∀ {n : Nat} {l : List Bool}, l ∈ choices n → l.length = n
  | 0, l, h => by simp [choices] at h; simp [h]
  | n + 1, l, h => by
    simp only [choices, List.mem_append, List.mem_map] at h
    rcases h with ⟨m, hm, rfl⟩ | ⟨m, hm, rfl⟩ <;> simp [mem_choices hm]

theorem choices_nodup : ∀ n, (choices n).Nodup
  | 0 => by simp [choices]
  | n + 1 => by
    rw [choices, List.nodup_append]
    refine ⟨(choices_nodup n).map (fun _ _ h => (List.cons.inj h).2), (choices_nodup n).map (fun _ _ h => (List.cons.inj h).2), ?_⟩
    intro a ha b hb
    obtain ⟨x, _, rfl⟩ := List.mem_map.1 ha
    obtain ⟨y, _, rfl⟩ := List.mem_map.1 hb
    simp

/-- C61. The program of `n` declarations `int x ;` has at least `2 ^ n` trees, since `x` may be the variable that is declared or the
name of a type. -/
theorem C61_trees {n : Nat} (hn : n ≠ 0) : CProgram (declarations n) ∧ ∃ ts : List UTree, ts.Nodup ∧ ts.length = 2 ^ n ∧
    ∀ t ∈ ts, UTreeOf cRules (tokInput ((declarations n).map CSym.num)) t CSym.start.num 0 (3 * n) := by
  have key : ∀ l ∈ choices n, UTreeOf cRules (tokInput ((declarations n).map CSym.num)) (choiceTree l) CSym.start.num 0 (3 * n) := by
    intro l hl
    have hlen := mem_choices hl
    have hne : l ≠ [] := by rintro rfl; exact hn hlen.symm
    have := unitTree_of (n := n) hne (by omega)
    rw [hlen] at this
    exact .node (k := 0) rfl (.cons this .nil) (by omega)
  refine ⟨?_, (choices n).map choiceTree, ?_, by rw [List.length_map, choices_length], ?_⟩
  · obtain ⟨l, hl⟩ : ∃ l, l ∈ choices n := by
      have := choices_length n
      have hp : 0 < (choices n).length := by rw [this]; exact Nat.two_pow_pos n
      exact ⟨_, List.getElem_mem hp⟩
    have ht : ∀ s ∈ declarations n, CTerminal s := by
      have : ∀ n, ∀ s ∈ declarations n, s = .int ∨ s = .identifier ∨ s = .semicolon := by
        intro n
        induction n with
        | zero => simp [declarations]
        | succ n ih =>
          intro s hs
          rw [declarations, List.mem_append] at hs
          rcases hs with hs | hs
          · exact ih s hs
          · simpa using hs
      intro s hs
      rcases this n s hs with rfl | rfl | rfl <;> decide +kernel
    obtain ⟨N, w, g0, c, nulling, g, _, h2, _, h4⟩ := C61_parser
    refine yields_of_tree ((h4 _ ht).user N) (t := choiceTree l) ?_
    rw [List.length_map, declarations_length]
    exact key l hl
  · refine List.Nodup.map_on (fun a ha b hb h => ?_) (choices_nodup n)
    simp only [choiceTree, UTree.node.injEq, List.cons.injEq, and_true, true_and] at h
    exact unitTree_injective (by rw [mem_choices ha, mem_choices hb]) h
  · intro t ht
    obtain ⟨l, hl, rfl⟩ := List.mem_map.1 ht
    exact key l hl

-- nested and ending well, as an example of the theorems above
example : Nested (declarations 3) ∧ ∃ v a, declarations 3 = v ++ [a] ∧ (a = .semicolon ∨ a = .rbrace ∨ a = .error) :=
  ⟨C61_nested (C61_trees (by decide)).1, C61_end (C61_trees (by decide)).1⟩

end Gearley.Props
