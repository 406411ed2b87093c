import Verif.Model.Load
import Verif.Props.Recognition
import Verif.Props.Observers

/-!
# C41: `load_with_scanner`

The property is false for the code: any input whose first character other than blanks is one of the grammar notation panics,
because `begin_earleme` is never called (`C41_panics`). What remains is described exactly by `C41_partial`: on all other inputs
the line reported is right, and the column is always 1 (`C41_wrong_column`).
-/

namespace Gearley.Props
open Gearley.Spec
variable {σ ν : Type} {E : Env σ ν} {f : σ}

/-- Blanks: what `load_with_scanner` skips. -/
def Blank (ch : Char) : Prop := ch = ' ' ∨ ch = '\n'

/-- The characters of the notation for grammars. -/
def Notation (ch : Char) : Prop :=
  ch ∈ [':', ';', '=', '|', '*', '+'] ∨ ('0' ≤ ch ∧ ch ≤ '9') ∨ ('a' ≤ ch ∧ ch ≤ 'z') ∨ ('A' ≤ ch ∧ ch ≤ 'Z')

instance (ch : Char) : Decidable (Notation ch) := by unfold Notation; infer_instance

/-- The line in which the character after `pre` is, counted from 1. -/
def lineAfter (pre : List Char) : Nat := 1 + pre.count '\n'

/-- The column of the character after `pre`, counted from 1. -/
def columnAfter (pre : List Char) : Nat := 1 + (pre.reverse.takeWhile (· ≠ '\n')).length

/-- All names of terminals used by the loop. -/
def terminalNames : List String := ["colon", "semicolon", "eq_op", "digit", "pipe", "op_mul", "op_plus", "alpha"]

theorem charKind_blank {ch : Char} (h : Blank ch) : charKind ch = if ch = '\n' then .newline else .space := by
  rcases h with rfl | rfl <;> decide

theorem charKind_notation {ch : Char} (h : Notation ch) : ∃ name ∈ terminalNames, charKind ch = .term name := by
  unfold charKind
  simp only [terminalNames, List.mem_cons, List.not_mem_nil, or_false]
  by_cases h1 : ch = ':'; · simp [h1]
  by_cases h2 : ch = ';'; · simp [h2]
  by_cases h3 : ch = '='; · simp [h3]
  by_cases h4 : '0' ≤ ch ∧ ch ≤ '9'; · simp [h1, h2, h3, h4]
  by_cases h5 : ch = '|'; · simp [h5]
  by_cases h6 : ch = '*'; · simp [h6]
  by_cases h7 : ch = '+'; · simp [h7]
  have h8 : ('a' ≤ ch ∧ ch ≤ 'z') ∨ ('A' ≤ ch ∧ ch ≤ 'Z') := by
    rcases h with h | h | h
    · simp [h1, h2, h3, h5, h6, h7] at h
    · exact absurd h h4
    · exact h
  simp only [h1, h2, h3, h4, h5, h6, h7, h8, if_true, if_false]
  exact ⟨"alpha", by simp, rfl⟩

theorem charKind_other {ch : Char} (h : ¬ Notation ch) (hb : ¬ Blank ch) : charKind ch = .other := by
  unfold Notation at h
  unfold Blank at hb
  simp only [List.mem_cons, List.not_mem_nil, or_false, not_or] at h hb
  obtain ⟨⟨h1, h2, h3, h4, h5, h6⟩, h7, h8, h9⟩ := h
  unfold charKind
  simp [h1, h2, h3, h4, h5, h6, h7, h8, h9, hb.1, hb.2]

/-- Skipping blanks in column 1. -/
theorem loadLoop_blanks {ca : Rec σ ν → M (Rec σ ν)} {names : String → Option Nat} {s : Rec σ ν} (rest : List Char) :
    ∀ (pre : List Char) (line : Nat), (∀ ch ∈ pre, Blank ch) →
      Rec.loadLoop E ca names line 1 (pre ++ rest) s = Rec.loadLoop E ca names (line + pre.count '\n') 1 rest s := by
  intro pre
  induction pre with
  | nil => intro line _; simp
  | cons ch pre ih =>
    intro line h
    have hch := h ch (by simp)
    have := fun line => ih line fun c hc => h c (by simp [hc])
    rw [List.cons_append, Rec.loadLoop, charKind_blank hch]
    rcases hch with rfl | rfl
    · simp only [show (' ' = '\n') = False by decide, if_false]
      rw [this, List.count_cons_of_ne (by decide)]
    · simp only [if_true]
      rw [this, List.count_cons_self, Nat.add_assoc, Nat.add_comm 1]

theorem new_shape {s0 : Rec σ ν} (h : Rec.new E f = pure s0) : s0.medial = Vec2d.new ∧ s0.forest = f := by
  unfold Rec.new at h
  obtain ⟨p, _, h⟩ := bind_eq_pure h
  cases pure_inj_M h
  exact ⟨rfl, rfl⟩

/-- Which terminal each character stands for. -/
inductive StandsFor : Char → String → Prop
  | colon : StandsFor ':' "colon"
  | semicolon : StandsFor ';' "semicolon"
  | eq : StandsFor '=' "eq_op"
  | pipe : StandsFor '|' "pipe"
  | mul : StandsFor '*' "op_mul"
  | plus : StandsFor '+' "op_plus"
  | digit {ch : Char} : ch.isDigit → StandsFor ch "digit"
  | alpha {ch : Char} : ch.isAlpha → StandsFor ch "alpha"

/-- C41. What the loop does with each character: a character of the notation is scanned as the terminal it stands for, with its
code as value, and the column grows; blanks are skipped, and a line break starts the next line. -/
theorem C41_characters (ca : Rec σ ν → M (Rec σ ν)) (names : String → Option Nat) (line col : Nat) (rest : List Char) (s : Rec σ ν) :
    (∀ ch name, StandsFor ch name → Rec.loadLoop E ca names line col (ch :: rest) s = (do
      let terminal ← unwrapM (names name)
      let s1 ← Rec.scan E s terminal ch.toNat
      let r ← Rec.endEarlemeWith E ca s1
      if r.2 then Rec.loadLoop E ca names line (col + 1) rest r.1 else pure (.failed line col))) ∧
    Rec.loadLoop E ca names line col (' ' :: rest) s = Rec.loadLoop E ca names line col rest s ∧
    Rec.loadLoop E ca names line col ('\n' :: rest) s = Rec.loadLoop E ca names (line + 1) 1 rest s ∧
    (∀ ch, (¬ ∃ name, StandsFor ch name) → ch ≠ ' ' → ch ≠ '\n' → Rec.loadLoop E ca names line col (ch :: rest) s = pure (.invalid line col)) := by
  have digit : ∀ {ch : Char}, ch.isDigit = true ↔ '0' ≤ ch ∧ ch ≤ '9' := by
    intro ch
    simp [Char.isDigit, Char.le_def]
  have alpha : ∀ {ch : Char}, ch.isAlpha = true ↔ ('a' ≤ ch ∧ ch ≤ 'z') ∨ ('A' ≤ ch ∧ ch ≤ 'Z') := by
    intro ch
    simp [Char.isAlpha, Char.isLower, Char.isUpper, Char.le_def, or_comm]
  have ne : ∀ {ch c : Char}, ch.isAlpha = true ∨ ch.isDigit = true → c.isAlpha = false → c.isDigit = false → ch ≠ c := by
    rintro ch c h h1 h2 rfl
    simp [h1, h2] at h
  refine ⟨?_, ?_, ?_, ?_⟩
  · intro ch name h
    have hk : charKind ch = .term name := by
      cases h with
      | digit h =>
        have n1 := ne (c := ':') (.inr h) (by decide) (by decide)
        have n2 := ne (c := ';') (.inr h) (by decide) (by decide)
        have n3 := ne (c := '=') (.inr h) (by decide) (by decide)
        simp [charKind, n1, n2, n3, digit.1 h]
      | alpha h =>
        have n1 := ne (c := ':') (.inl h) (by decide) (by decide)
        have n2 := ne (c := ';') (.inl h) (by decide) (by decide)
        have n3 := ne (c := '=') (.inl h) (by decide) (by decide)
        have n4 := ne (c := '|') (.inl h) (by decide) (by decide)
        have n5 := ne (c := '*') (.inl h) (by decide) (by decide)
        have n6 := ne (c := '+') (.inl h) (by decide) (by decide)
        have n7 : ¬ ('0' ≤ ch ∧ ch ≤ '9') := by
          intro hd
          have := alpha.1 h
          simp only [Char.le_def] at hd this
          have e1 : '9'.val = 57 := rfl
          have e2 : 'a'.val = 97 := rfl
          have e3 : 'A'.val = 65 := rfl
          rw [e1] at hd
          rw [e2, e3] at this
          have h1 := UInt32.le_iff_toNat_le.1 hd.2
          rcases this with ⟨h2, _⟩ | ⟨h2, _⟩
          · have h2 := UInt32.le_iff_toNat_le.1 h2
            simp at h1 h2
            omega
          · have h2 := UInt32.le_iff_toNat_le.1 h2
            simp at h1 h2
            omega
        unfold charKind
        rw [if_neg n1, if_neg n2, if_neg n3, if_neg n7, if_neg n4, if_neg n5, if_neg n6, if_pos (alpha.1 h)]
      | colon | semicolon | eq | pipe | mul | plus => decide
    rw [Rec.loadLoop, hk]
  · rw [Rec.loadLoop]; rfl
  · rw [Rec.loadLoop]; rfl
  · intro ch h h1 h2
    have hn : ¬ Notation ch := by
      unfold Notation
      simp only [List.mem_cons, List.not_mem_nil, or_false]
      rintro ((rfl | rfl | rfl | rfl | rfl | rfl) | hd | ha)
      · exact h ⟨_, .colon⟩
      · exact h ⟨_, .semicolon⟩
      · exact h ⟨_, .eq⟩
      · exact h ⟨_, .pipe⟩
      · exact h ⟨_, .mul⟩
      · exact h ⟨_, .plus⟩
      · exact h ⟨_, .digit (digit.2 hd)⟩
      · exact h ⟨_, .alpha (alpha.2 ha)⟩
    rw [Rec.loadLoop, charKind_other hn (by unfold Blank; simp [h1, h2])]

-- characters and what they stand for
example : StandsFor '7' "digit" ∧ StandsFor 'q' "alpha" ∧ StandsFor '|' "pipe" ∧ ¬ ∃ name, StandsFor '-' name :=
  ⟨.digit (by decide), .alpha (by decide), .pipe, by
    rintro ⟨name, h⟩
    cases h with
    | digit h => exact absurd h (by decide)
    | alpha h => exact absurd h (by decide)⟩

/-- The loop never gets past a character of the notation: `scan` fails its assertion that a position was begun. -/
theorem C41_panics {names : String → Option Nat} (hn : ∀ name ∈ terminalNames, ∃ t, names name = some t)
    {s0 : Rec σ ν} (h0 : Rec.new E f = pure s0) {pre : List Char} (hpre : ∀ ch ∈ pre, Blank ch) {ch : Char}
    (hch : Notation ch) (rest : List Char) : Rec.load E names f (pre ++ ch :: rest) = panicM .assert := by
  obtain ⟨name, hm, hk⟩ := charKind_notation hch
  obtain ⟨t, ht⟩ := hn name hm
  unfold Rec.load
  rw [h0, pure_bind, loadLoop_blanks _ _ _ hpre]
  unfold Rec.loadLoop
  simp only [hk, ht]
  have : s0.earleme = maxUsize := by rw [Rec.earleme, (new_shape h0).1]; rfl
  have : Rec.scan E s0 t ch.toNat = panicM .assert := by
    unfold Rec.scan
    rw [this]
    rfl
  show (pure t >>= _) = _
  rw [pure_bind, this]
  rfl

/-- C41, for the inputs on which nothing panics. An invalid character after blanks is reported with its line, in column 1.
Blank input is reported as a failed parse, unless there is any rule for the empty string: then the node for an empty start
symbol is evaluated. -/
theorem C41_partial {names : String → Option Nat} {s0 : Rec σ ν} (h0 : Rec.new E f = pure s0) {pre : List Char}
    (hpre : ∀ ch ∈ pre, Blank ch) :
    (∀ ch rest, ¬ Notation ch → ¬ Blank ch → Rec.load E names f (pre ++ ch :: rest) = pure (.invalid (lineAfter pre) 1)) ∧
    (E.g.hasTrivialDerivation = false → Rec.load E names f pre = pure (.failed (lineAfter pre) 1)) ∧
    (E.g.hasTrivialDerivation = true → Rec.load E names f pre = do
      let sym ← E.g.externalizedStartSym
      let n ← E.F.nulling f sym
      pure (.node n)) := by
  refine ⟨?_, ?_, ?_⟩
  · intro ch rest h1 h2
    unfold Rec.load
    rw [h0, pure_bind, loadLoop_blanks _ _ _ hpre]
    unfold Rec.loadLoop
    rw [charKind_other h1 h2]
    rfl
  all_goals
    intro ht
    unfold Rec.load
    rw [h0, pure_bind, ← List.append_nil pre, loadLoop_blanks _ _ _ hpre]
    unfold Rec.loadLoop
    obtain ⟨hm, hf⟩ := new_shape h0
    have he : s0.earleme = maxUsize := by rw [Rec.earleme, hm]; rfl
    unfold Rec.finishedNode
    rw [ht, he, hm]
  · rw [List.append_nil]; rfl
  · rw [hf]
    simp only [beq_self_eq_true, Bool.and_self, if_true]
    rw [bind_assoc]
    congr 1
    funext sym
    rw [bind_assoc]
    congr 1

/-! ### Examples -/

section
open Gearley.Example

def someNames (_ : String) : Option Nat := some 5

theorem names_known : ∀ name ∈ terminalNames, ∃ t, someNames name = some t := fun _ _ => ⟨5, rfl⟩

/-- A grammar definition: panic at its first letter. -/
example : Rec.load env someNames () ['\n', ' ', 's', ':', ':', '=', 'a', ';'] = panicM .assert := by
  obtain ⟨s0, _, _, h, _⟩ := parse_cases built rfl safe (toks := []) (u := []) .nil (fun t h => by simp at h) (by simp)
  exact C41_panics names_known h (pre := ['\n', ' ']) (by simp [Blank]) (by decide) _

/-- The column reported is wrong after a space: `?` is in column 3, column 1 is reported. -/
theorem C41_wrong_column : Rec.load env someNames () ['\n', ' ', ' ', '?'] = pure (.invalid 2 1) ∧
    columnAfter ['\n', ' ', ' '] = 3 := by
  obtain ⟨s0, _, _, h, _⟩ := parse_cases built rfl safe (toks := []) (u := []) .nil (fun t h => by simp at h) (by simp)
  exact ⟨(C41_partial h (pre := ['\n', ' ', ' ']) (by simp [Blank])).1 '?' [] (by decide) (by simp [Blank]), by decide⟩

end

end Gearley.Props
