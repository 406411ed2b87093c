import Verif.Model.Logging
import Verif.Model.CGrammar
import Verif.Model.SimpleBocage

/-!
# The page in the browser (gearley-wasm/src/lib.rs, error_logger.rs)

`parse` loads a grammar, parses an input, and returns a text for the page. Outside of the model are: loading a grammar (crate `cfg`),
the lexer of crate `c_lexer_logos`, what the libraries write to the log, and how `Debug` prints a list of symbols. They are parameters.
The allocator (lib.rs:22-29) is not modelled, nor is its arena of 200 MB. On this target `usize` has 32 bits; the model of the
libraries has 64. `C51_usize_tokenizing` (`Props/Width.lean`) is about the difference.
-/

namespace Gearley
namespace Page

/-- `log::Level`. -/
inductive Level where
  | error | warn | info | debug | trace
  deriving DecidableEq, Repr

/-- `Display` of `log::Level`. -/
def Level.name : Level → List Char
  | .error => "ERROR".toList
  | .warn => "WARN".toList
  | .info => "INFO".toList
  | .debug => "DEBUG".toList
  | .trace => "TRACE".toList

/-- A message: its level and text. -/
abbrev Message := Level × List Char

/-- One line of the log (lib.rs:57). -/
def line (m : Message) : List Char := '[' :: m.1.name ++ "] - ".toList ++ m.2 ++ ['\n']

/-- What stays between two calls: whether the logger was installed, and `LOG_BUFFER` (lib.rs:45). -/
structure State where
  installed : Bool := false
  buffer : List Char := []
  deriving DecidableEq, Repr

/-- `log` (lib.rs:54-60). All levels are enabled (lib.rs:50-52, 69). Before the logger is installed messages are dropped. -/
def State.log (s : State) (m : Message) : State :=
  if s.installed then { s with buffer := s.buffer ++ line m } else s

def State.logAll (s : State) (ms : List Message) : State := ms.foldl State.log s

/-- `trace!` -/
def State.trace (s : State) (text : List Char) : State := s.log (.trace, text)

/-- `let _ = init_logger()` (lib.rs:67-70, 77, 84): a second time it fails, which is ignored. -/
def State.install (s : State) : State := { s with installed := true }

/-- `get_logs` (lib.rs:72-74). -/
def State.getLogs (s : State) : State × List Char := ({ s with buffer := [] }, s.buffer)

/-- What `Cfg::load` returns: the names, and the grammar as `from_grammar` has it after binarization (lib.rs:94-109 of
gearley-default-grammar). -/
structure Loaded where
  nameMap : List Char → Option Nat
  c : Cfg
  nulling : Cfg

/-- What `Cfg::load_advanced` returns, with `lexer_map` after `compute`. -/
structure LoadedAdvanced where
  lexer : Nat → List Nat
  c : Cfg
  nulling : Cfg

/-- Everything outside of the model. -/
structure Host where
  crate : CfgCrate
  sorter : Sorter
  /-- `Cfg::load`; the error as text -/
  load : List Char → Except (List Char) Loaded
  /-- `Cfg::load_advanced`; the error as text -/
  loadAdvanced : List Char → Except (List Char) LoadedAdvanced
  /-- `c_lexer_logos::Lexer::lex`; `none` for an error -/
  lexC : List Char → Option (List CToken)
  /-- the text of `ParseError::Parse` (parse.rs:42-47) -/
  showParse : List Nat → Nat → List Char

/-- What the libraries write to the log in one call: during `load` or `loadAdvanced`, and during `parse_terminal_list` or
`parse_tokenizing`, until it returns or panics. -/
structure Messages where
  load : List Message := []
  parse : List Message := []

/-- `Display` of `ParseError` (gearley-utils/src/parse.rs:39-57). -/
def Host.showError (H : Host) : ParseError → List Char
  | .parse tokens i => H.showParse tokens i
  | .tokenize word => "failed to tokenize: ".toList ++ word
  | .finish => "failed to get finished node".toList

/-- The result of `parse` for the page: the text returned, or, if it panicked, the log that the panic hook adds to its message
(error_logger.rs:51). -/
inductive Reply where
  | text (t : List Char)
  | panicked (p : Panic) (log : List Char)
  deriving DecidableEq, Repr

/-- Go on with the result of library code, unless it panicked. The panic hook takes the log. `none`: no end. -/
def andThen {α : Type} (s : State) (m : M α) (k : α → Option (State × Reply)) : Option (State × Reply) :=
  match m.run with
  | none => none
  | some (.error p) => some (s.getLogs.1, .panicked p s.getLogs.2)
  | some (.ok a) => k a

/-- The arms of the inner `match` (lib.rs:231-242, 258-269, 284-295). -/
def answer (H : Host) (s : State) : Except ParseError Bool → State × Reply
  | .ok true => (s.getLogs.1, .text s.getLogs.2)
  | .ok false => (s, .text "failed to finish the parse".toList)
  | .error e => (s.getLogs.1, .text ("Failed to parse:\n".toList ++ H.showError e ++ s.getLogs.2))

/-- The arm for a grammar that could not be loaded (lib.rs:247-250, 273-276, 299-302). -/
def loadFailed (s : State) (e : List Char) : State × Reply :=
  (s.getLogs.1, .text ("Failed to load:\n".toList ++ e ++ s.getLogs.2))

/-- `str::split(" ")`. -/
def splitSpaces : List Char → List (List Char)
  | [] => [[]]
  | ch :: rest =>
    if ch = ' ' then [] :: splitSpaces rest
    else match splitSpaces rest with
      | [] => [[ch]]
      | w :: ws => (ch :: w) :: ws

/-- `Recognizer::with_forest(&grammar, Bocage::new(&grammar))` (parse.rs:114, 145). -/
def envOf (H : Host) (g : DefaultGrammar) : Env Simple.Bocage Nat := { g := g, F := Simple.forest, sorter := H.sorter }

/-- `parse_terminal_list` with the simple bocage (parse.rs:109-137). -/
def terminalList (H : Host) (g : DefaultGrammar) (nameMap : List Char → Option Nat) (words : List (List Char)) :
    M (Except ParseError Bool) := do
  let b ← Simple.Bocage.new g.forestInfo
  Rec.parseTerminalListLogged (envOf H g) b nameMap words

/-- `parse_tokenizing` with the simple bocage (parse.rs:139-185). -/
def tokenizing (H : Host) (g : DefaultGrammar) (lexer : Nat → List Nat) (input : List Nat) : M (Except ParseError Bool) := do
  let b ← Simple.Bocage.new g.forestInfo
  Rec.parseTokenizingLogged (envOf H g) b lexer input

/-- Mode `"c-lexer"` (lib.rs:225-253). -/
def parseC (H : Host) (ms : Messages) (input grammar : List Char) (s : State) : Option (State × Reply) :=
  let s := s.trace "c-lexer load".toList
  let s := s.install.logAll ms.load
  match H.load grammar with
  | .error e => some (loadFailed (s.trace "failed to load".toList) e)
  | .ok L => andThen s (Build.fromBinarizedLogged H.crate L.c L.nulling) fun g =>
    let s := s.trace "loaded".toList
    match H.lexC input with
    | none => some (s.getLogs.1, .panicked .unwrap s.getLogs.2)
    | some tokens =>
      let s := s.logAll ms.parse
      andThen s (terminalList H g L.nameMap ((cWords tokens).map String.toList)) fun r => some (answer H s r)

/-- Mode `"basic"` (lib.rs:254-279). -/
def parseBasic (H : Host) (ms : Messages) (input grammar : List Char) (s : State) : Option (State × Reply) :=
  let s := s.install.logAll ms.load
  match H.load grammar with
  | .error e => some (loadFailed s e)
  | .ok L => andThen s (Build.fromBinarizedLogged H.crate L.c L.nulling) fun g =>
    let s := s.logAll ms.parse
    andThen s (terminalList H g L.nameMap (splitSpaces input)) fun r => some (answer H s r)

/-- Mode `"advanced"` (lib.rs:280-305). -/
def parseAdvanced (H : Host) (ms : Messages) (input grammar : List Char) (s : State) : Option (State × Reply) :=
  let s := s.install.logAll ms.load
  match H.loadAdvanced grammar with
  | .error e => some (loadFailed s e)
  | .ok L => andThen s (Build.fromBinarizedLogged H.crate L.c L.nulling) fun g =>
    let s := s.logAll ms.parse
    andThen s (tokenizing H g L.lexer (input.map Char.toNat)) fun r => some (answer H s r)

/-- `parse` (lib.rs:220-308). -/
def parse (H : Host) (ms : Messages) (input grammar : List Char) (mode : String) (s : State) : Option (State × Reply) :=
  let s := s.trace "begin".toList
  if mode = "c-lexer" then parseC H ms input grammar s
  else if mode = "basic" then parseBasic H ms input grammar s
  else if mode = "advanced" then parseAdvanced H ms input grammar s
  else some (s, .text "Unknown mode".toList)

/-- A call of `parse`. -/
structure Request where
  messages : Messages
  input : List Char
  grammar : List Char
  mode : String

/-- Calls one after the other. -/
def serve (H : Host) : List Request → State → Option (State × List Reply)
  | [], s => some (s, [])
  | r :: rs, s => do
    let (s, a) ← parse H r.messages r.input r.grammar r.mode s
    let (s, as) ← serve H rs s
    pure (s, a :: as)

end Page
end Gearley
