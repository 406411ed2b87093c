import Verif.Model.Session

/-!
# Model of the convenience parsers (gearley-utils/src/parse.rs)

Characters and external symbols are numbers, words are lists of characters. As in `Model/Session.lean` the completion pass `ca` is a parameter
only so that concrete runs can be computed; `parse`, `parseTerminalList`, `parseTokenizing` use the real one.
-/

namespace Gearley

/-- `ParseError` (parse.rs:24-37) without the messages. -/
inductive ParseError where
  | parse (tokens : List Nat) (i : Nat)
  | tokenize (word : List Char)
  | finish
  deriving DecidableEq, Repr

namespace Rec
variable {σ ν : Type} (E : Env σ ν)

/-- `self.grammar().to_internal(token).unwrap()`. -/
def internal (token : Nat) : M Nat := do
  let o ← E.g.toInternal token
  unwrapM o

/-- The loop of `parse` (parse.rs:77-97) and its result (parse.rs:104). `i as u32` keeps the low 32 bits. -/
def parseLoop (ca : Rec σ ν → M (Rec σ ν)) : Nat → List Nat → Rec σ ν → M (Rec σ ν × Except ParseError Bool)
  | _, [], s => do
    let b ← isFinished E s
    pure (s, .ok b)
  | i, token :: rest, s => do
    let s := s.beginEarleme
    let s ← (match rest with
      | t :: _ => do
        let h ← internal E t
        pure (s.setHint h)
      | [] => pure s.clearHint)
    let x ← internal E token
    let s ← scan E s x (i % 2 ^ 32)
    let (s, ok) ← endEarlemeWith E ca s
    if ok then parseLoop ca (i + 1) rest s else pure (s, .error (.parse [token] i))

/-- Reading the start marker, common to `parse` (parse.rs:68-76) and `parse_tokenizing` (parse.rs:147-155). -/
def readSof (ca : Rec σ ν → M (Rec σ ν)) (s : Rec σ ν) : M (Rec σ ν × Bool) := do
  let s ← scan E s.beginEarleme E.g.sofSym 0
  endEarlemeWith E ca s

/-- `parse` (parse.rs:67-105). -/
def parseWith (ca : Rec σ ν → M (Rec σ ν)) (s : Rec σ ν) (tokens : List Nat) : M (Rec σ ν × Except ParseError Bool) := do
  let (s, ok) ← readSof E ca s
  if ok then parseLoop E ca 0 tokens s else pure (s, .error (.parse [E.g.sofSym] 0))

/-- `parse` (parse.rs:67-105). -/
def parse (s : Rec σ ν) (tokens : List Nat) : M (Rec σ ν × Except ParseError Bool) := parseWith E (completeAll E) s tokens

/-- The word loop of `parse_terminal_list` (parse.rs:117-126). -/
def tokenizeWords (nameMap : List Char → Option Nat) : List (List Char) → Except ParseError (List Nat)
  | [] => .ok []
  | word :: rest => match nameMap word with
    | some token => match tokenizeWords nameMap rest with
      | .ok l => .ok (token :: l)
      | .error e => .error e
    | none => .error (.tokenize word)

/-- `parse_terminal_list` (parse.rs:109-137); `f` is the new forest. -/
def parseTerminalListWith (ca : Rec σ ν → M (Rec σ ν)) (f : σ) (nameMap : List Char → Option Nat) (words : List (List Char)) :
    M (Except ParseError Bool) := do
  let s ← new E f
  match tokenizeWords nameMap words with
  | .error e => pure (.error e)
  | .ok tokens => do
    let (s, result) ← parseWith E ca s tokens
    match ← finishedNode E s with
    | some _ => pure result
    | none => pure (.error .finish)

/-- `parse_terminal_list` (parse.rs:109-137). -/
def parseTerminalList (f : σ) (nameMap : List Char → Option Nat) (words : List (List Char)) : M (Except ParseError Bool) :=
  parseTerminalListWith E (completeAll E) f nameMap words

/-- The inner loop of `parse_tokenizing` (parse.rs:158-163). -/
def scanChar (terminals : List Nat) (ch : Nat) (s : Rec σ ν) : M (Rec σ ν) :=
  terminals.foldlM (fun s t => do
    let x ← internal E t
    scan E s x ch) s

/-- The loop of `parse_tokenizing` (parse.rs:156-171); `none` means that all characters were read. -/
def charLoop (ca : Rec σ ν → M (Rec σ ν)) (lexer : Nat → List Nat) :
    Nat → List Nat → Rec σ ν → M (Rec σ ν × Option ParseError)
  | _, [], s => pure (s, none)
  | i, ch :: rest, s => do
    let s ← scanChar E (lexer ch) ch s.beginEarleme
    let (s, ok) ← endEarlemeWith E ca s
    if ok then charLoop ca lexer (i + 1) rest s else pure (s, some (.parse (lexer ch) i))

/-- `parse_tokenizing` (parse.rs:139-185); `lexer` is `lexer_map.get`. -/
def parseTokenizingWith (ca : Rec σ ν → M (Rec σ ν)) (f : σ) (lexer : Nat → List Nat) (input : List Nat) :
    M (Except ParseError Bool) := do
  let s ← new E f
  let (s, ok) ← readSof E ca s
  if ok then do
    let (s, err) ← charLoop E ca lexer 0 input s
    match err with
    | some e => pure (.error e)
    | none => do
      let result ← isFinished E s
      match ← finishedNode E s with
      | some _ => pure (.ok result)
      | none => pure (.error .finish)
  else pure (.error (.parse [E.g.sofSym] 0))

/-- `parse_tokenizing` (parse.rs:139-185). -/
def parseTokenizing (f : σ) (lexer : Nat → List Nat) (input : List Nat) : M (Except ParseError Bool) :=
  parseTokenizingWith E (completeAll E) f lexer input

end Rec
end Gearley
