import Verif.Model.Wasm
import Verif.Props.UserDrivers
import Verif.Props.Logging

/-!
# Lemmas for the page
-/

namespace Gearley.Page
open Gearley.Spec Gearley.Props Build

/-- The text of some messages in the log. -/
def textOf (ms : List Message) : List Char := (ms.map line).flatten

theorem log_installed (s : State) (m : Message) : (s.log m).installed = s.installed := by
  unfold State.log; split <;> rfl

theorem log_on (b : List Char) (m : Message) : State.log ⟨true, b⟩ m = ⟨true, b ++ line m⟩ := rfl

theorem log_off (b : List Char) (m : Message) : State.log ⟨false, b⟩ m = ⟨false, b⟩ := rfl

theorem logAll_on (b : List Char) (ms : List Message) : State.logAll ⟨true, b⟩ ms = ⟨true, b ++ textOf ms⟩ := by
  induction ms generalizing b with
  | nil => simp [State.logAll, textOf]
  | cons m ms ih =>
    show State.logAll (State.log ⟨true, b⟩ m) ms = _
    rw [log_on, ih]
    simp [textOf]

theorem trace_on (b t : List Char) : State.trace ⟨true, b⟩ t = ⟨true, b ++ line (.trace, t)⟩ := rfl

/-- What `trace!` adds. -/
def traced (s : State) (t : List Char) : List Char := if s.installed then line (.trace, t) else []

theorem trace_eq (s : State) (t : List Char) : s.trace t = ⟨s.installed, s.buffer ++ traced s t⟩ := by
  obtain ⟨i, b⟩ := s
  cases i
  · simp [State.trace, log_off, traced]
  · simp [State.trace, log_on, traced]

theorem andThen_pure {α : Type} (s : State) (a : α) (k : α → Option (State × Reply)) : andThen s (pure a) k = k a := rfl

theorem andThen_cases {α : Type} {s : State} {m : M α} {k : α → Option (State × Reply)} {r : State × Reply} (h : andThen s m k = some r) :
    (∃ p, r = (s.getLogs.1, .panicked p s.getLogs.2)) ∨ ∃ a, m = pure a ∧ k a = some r := by
  unfold andThen at h
  cases hm : m.run with
  | none => rw [hm] at h; cases h
  | some e =>
    rw [hm] at h
    cases e with
    | error p => exact .inl ⟨p, (Option.some.inj h).symm⟩
    | ok a => exact .inr ⟨a, hm, h⟩

/-! ### Words -/

theorem splitSpaces_ne_nil (input : List Char) : splitSpaces input ≠ [] := by
  cases input with
  | nil => simp [splitSpaces]
  | cons ch rest =>
    unfold splitSpaces
    split
    · simp
    · split <;> simp

theorem splitSpaces_append {u v : List Char} (h : ' ' ∉ u) : splitSpaces (u ++ ' ' :: v) = u :: splitSpaces v := by
  induction u with
  | nil => simp [splitSpaces]
  | cons ch u ih =>
    simp only [List.mem_cons, not_or] at h
    rw [List.cons_append, splitSpaces, if_neg (fun e => h.1 e.symm), ih h.2]

theorem splitSpaces_single {u : List Char} (h : ' ' ∉ u) : splitSpaces u = [u] := by
  induction u with
  | nil => rfl
  | cons ch u ih =>
    simp only [List.mem_cons, not_or] at h
    rw [splitSpaces, if_neg (fun e => h.1 e.symm), ih h.2]

theorem splitSpaces_join : ∀ {words : List (List Char)}, words ≠ [] → (∀ w ∈ words, ' ' ∉ w) → splitSpaces ([' '].intercalate words) = words
  | [], h, _ => absurd rfl h
  | [w], _, h => by
    rw [List.intercalate_singleton]
    exact splitSpaces_single (h w (by simp))
  | w :: w' :: ws, _, h => by
    rw [List.intercalate_cons_cons, List.append_assoc, List.singleton_append, splitSpaces_append (h w (by simp)),
      splitSpaces_join (by simp) fun x hx => h x (by simp [hx])]

theorem join_splitSpaces : ∀ input, [' '].intercalate (splitSpaces input) = input ∧ ∀ w ∈ splitSpaces input, ' ' ∉ w
  | [] => by simp [splitSpaces]
  | ch :: rest => by
    obtain ⟨h1, h2⟩ := join_splitSpaces rest
    unfold splitSpaces
    split
    · rename_i he
      subst he
      obtain ⟨w, ws, hw⟩ := List.exists_cons_of_ne_nil (splitSpaces_ne_nil rest)
      rw [hw] at h1 h2 ⊢
      refine ⟨by rw [List.intercalate_cons_cons, h1]; rfl, ?_⟩
      intro x hx
      rcases List.mem_cons.1 hx with rfl | hx
      · simp
      · exact h2 x hx
    · rename_i he
      split
      · rename_i hw
        exact absurd hw (splitSpaces_ne_nil rest)
      · rename_i w ws hw
        rw [hw] at h1 h2
        constructor
        · rw [← h1]
          cases ws with
          | nil => simp
          | cons w' ws => rw [List.intercalate_cons_cons, List.intercalate_cons_cons]; rfl
        · intro x hx
          rcases List.mem_cons.1 hx with rfl | hx
          · have := h2 w (by simp)
            simp only [List.mem_cons, not_or]
            exact ⟨fun e => he e.symm, this⟩
          · exact h2 x (by simp [hx])

/-! ### `Ok(false)` -/

theorem terminalList_finished {σ ν : Type} {E : Env σ ν} {f : σ} {nameMap : List Char → Option Nat} {words : List (List Char)} :
    Rec.parseTerminalList E f nameMap words ≠ pure (.ok false) := by
  intro h
  unfold Rec.parseTerminalList Rec.parseTerminalListWith at h
  obtain ⟨s0, _, h⟩ := bind_eq_pure h
  cases ht : Rec.tokenizeWords nameMap words with
  | error e => rw [ht] at h; cases pure_inj_M h
  | ok toks =>
    rw [ht] at h
    obtain ⟨⟨s1, res⟩, h1, h⟩ := bind_eq_pure h
    obtain ⟨o, h2, h⟩ := bind_eq_pure h
    cases o with
    | none => cases pure_inj_M h
    | some x =>
      cases pure_inj_M h
      obtain ⟨o, h3, h4⟩ := finishedNode_of_isFinished (parse_finished (E := E) h1)
      cases pure_inj_M (h2.symm.trans h3)
      exact absurd (h4.2 ⟨x, rfl⟩) (by simp)

theorem tokenizing_finished {σ ν : Type} {E : Env σ ν} {f : σ} {lexer : Nat → List Nat} {input : List Nat} :
    Rec.parseTokenizing E f lexer input ≠ pure (.ok false) := by
  intro h
  unfold Rec.parseTokenizing Rec.parseTokenizingWith at h
  obtain ⟨s0, _, h⟩ := bind_eq_pure h
  obtain ⟨⟨s1, ok⟩, _, h⟩ := bind_eq_pure h
  cases ok with
  | false => cases pure_inj_M h
  | true =>
    obtain ⟨⟨s2, err⟩, _, h⟩ := bind_eq_pure h
    cases err with
    | some e => cases pure_inj_M h
    | none =>
      obtain ⟨b, h1, h⟩ := bind_eq_pure h
      obtain ⟨o, h2, h⟩ := bind_eq_pure h
      cases o with
      | none => cases pure_inj_M h
      | some x =>
        cases pure_inj_M h
        obtain ⟨o, h3, h4⟩ := finishedNode_of_isFinished h1
        cases pure_inj_M (h2.symm.trans h3)
        exact absurd (h4.2 ⟨x, rfl⟩) (by simp)

theorem terminalList_ne {H : Host} {g : DefaultGrammar} {nameMap : List Char → Option Nat} {words : List (List Char)} :
    terminalList H g nameMap words ≠ pure (.ok false) := by
  intro h
  unfold terminalList at h
  obtain ⟨b, _, h⟩ := bind_eq_pure h
  rw [C60_terminal_list] at h
  exact terminalList_finished h

theorem tokenizing_ne {H : Host} {g : DefaultGrammar} {lexer : Nat → List Nat} {input : List Nat} :
    tokenizing H g lexer input ≠ pure (.ok false) := by
  intro h
  unfold tokenizing at h
  obtain ⟨b, _, h⟩ := bind_eq_pure h
  rw [C60_tokenizing] at h
  exact tokenizing_finished h

/-! ### Cases -/

/-- The modes of `parse`. -/
def Mode (mode : String) : Prop := mode = "c-lexer" ∨ mode = "basic" ∨ mode = "advanced"

instance (mode : String) : Decidable (Mode mode) := by unfold Mode; infer_instance

/-- Only lines are added to the log. -/
def Logged (b b' : List Char) : Prop := ∃ ms, b' = b ++ textOf ms

theorem Logged.refl (b : List Char) : Logged b b := ⟨[], by simp [textOf]⟩

theorem Logged.trans {a b d : List Char} (h : Logged a b) (h' : Logged b d) : Logged a d := by
  obtain ⟨m, rfl⟩ := h
  obtain ⟨m', rfl⟩ := h'
  exact ⟨m ++ m', by simp [textOf]⟩

theorem logged_trace (s : State) (t : List Char) : Logged s.buffer (s.trace t).buffer := by
  rw [trace_eq]
  unfold traced
  split
  · exact ⟨[(.trace, t)], by simp [textOf]⟩
  · exact ⟨[], by simp [textOf]⟩

theorem logged_all {b : List Char} (ms : List Message) : Logged b (b ++ textOf ms) := ⟨ms, rfl⟩

theorem logged_line {b : List Char} (m : Message) : Logged b (b ++ line m) := ⟨[m], by simp [textOf]⟩

/-- The replies: the log, an error before the log, or a panic with the log. -/
inductive Replies (H : Host) (log : List Char) : Reply → Prop
  | ok : Replies H log (.text log)
  | parse (e : ParseError) : Replies H log (.text ("Failed to parse:\n".toList ++ H.showError e ++ log))
  | load (e : List Char) : Replies H log (.text ("Failed to load:\n".toList ++ e ++ log))
  | panic (p : Panic) : Replies H log (.panicked p log)

theorem answer_cases {H : Host} {b : List Char} {r : Except ParseError Bool} (h : r ≠ .ok false) :
    ∃ a, answer H ⟨true, b⟩ r = (⟨true, []⟩, a) ∧ Replies H b a := by
  cases r with
  | error e => exact ⟨_, rfl, .parse e⟩
  | ok v =>
    cases v with
    | true => exact ⟨_, rfl, .ok⟩
    | false => exact absurd rfl h

theorem parseC_cases {H : Host} {ms : Messages} {input grammar : List Char} {s s' : State} {a : Reply}
    (h : parseC H ms input grammar s = some (s', a)) : s' = ⟨true, []⟩ ∧ ∃ log, Logged s.buffer log ∧ Replies H log a := by
  unfold parseC at h
  have h0 := logged_trace s "c-lexer load".toList
  revert h h0
  generalize s.trace "c-lexer load".toList = s1
  intro h h0
  obtain ⟨i, b⟩ := s1
  simp only [State.install, logAll_on] at h
  have h1 := h0.trans (logged_all ms.load)
  cases hl : H.load grammar with
  | error e =>
    simp only [hl] at h
    cases h
    exact ⟨rfl, _, h1.trans (logged_trace _ _), .load e⟩
  | ok L =>
    simp only [hl] at h
    rcases andThen_cases h with ⟨p, hr⟩ | ⟨g, _, h⟩
    · cases hr
      exact ⟨rfl, _, h1, .panic p⟩
    · simp only [trace_on] at h
      have h2 := h1.trans (logged_line (.trace, "loaded".toList))
      cases hx : H.lexC input with
      | none =>
        simp only [hx] at h
        cases h
        exact ⟨rfl, _, h2, .panic _⟩
      | some tokens =>
        simp only [hx, logAll_on] at h
        have h3 := h2.trans (logged_all ms.parse)
        rcases andThen_cases h with ⟨p, hr⟩ | ⟨r, hr, h⟩
        · cases hr
          exact ⟨rfl, _, h3, .panic p⟩
        · obtain ⟨a', e1, e2⟩ := answer_cases (H := H) (b := (b ++ textOf ms.load) ++ line (.trace, "loaded".toList) ++ textOf ms.parse)
            (r := r) (by rintro rfl; exact terminalList_ne hr)
          rw [e1] at h
          cases h
          exact ⟨rfl, _, h3, e2⟩

theorem parseBasic_cases {H : Host} {ms : Messages} {input grammar : List Char} {s s' : State} {a : Reply}
    (h : parseBasic H ms input grammar s = some (s', a)) : s' = ⟨true, []⟩ ∧ ∃ log, Logged s.buffer log ∧ Replies H log a := by
  unfold parseBasic at h
  obtain ⟨i, b⟩ := s
  simp only [State.install, logAll_on] at h
  have h1 := logged_all (b := b) ms.load
  cases hl : H.load grammar with
  | error e =>
    simp only [hl] at h
    cases h
    exact ⟨rfl, _, h1, .load e⟩
  | ok L =>
    simp only [hl] at h
    rcases andThen_cases h with ⟨p, hr⟩ | ⟨g, _, h⟩
    · cases hr
      exact ⟨rfl, _, h1, .panic p⟩
    · have h3 := h1.trans (logged_all ms.parse)
      rcases andThen_cases h with ⟨p, hr⟩ | ⟨r, hr, h⟩
      · cases hr
        exact ⟨rfl, _, h3, .panic p⟩
      · obtain ⟨a', e1, e2⟩ := answer_cases (H := H) (b := b ++ textOf ms.load ++ textOf ms.parse)
          (r := r) (by rintro rfl; exact terminalList_ne hr)
        rw [e1] at h
        cases h
        exact ⟨rfl, _, h3, e2⟩

theorem parseAdvanced_cases {H : Host} {ms : Messages} {input grammar : List Char} {s s' : State} {a : Reply}
    (h : parseAdvanced H ms input grammar s = some (s', a)) : s' = ⟨true, []⟩ ∧ ∃ log, Logged s.buffer log ∧ Replies H log a := by
  unfold parseAdvanced at h
  obtain ⟨i, b⟩ := s
  simp only [State.install, logAll_on] at h
  have h1 := logged_all (b := b) ms.load
  cases hl : H.loadAdvanced grammar with
  | error e =>
    simp only [hl] at h
    cases h
    exact ⟨rfl, _, h1, .load e⟩
  | ok L =>
    simp only [hl] at h
    rcases andThen_cases h with ⟨p, hr⟩ | ⟨g, _, h⟩
    · cases hr
      exact ⟨rfl, _, h1, .panic p⟩
    · have h3 := h1.trans (logged_all ms.parse)
      rcases andThen_cases h with ⟨p, hr⟩ | ⟨r, hr, h⟩
      · cases hr
        exact ⟨rfl, _, h3, .panic p⟩
      · obtain ⟨a', e1, e2⟩ := answer_cases (H := H) (b := b ++ textOf ms.load ++ textOf ms.parse)
          (r := r) (by rintro rfl; exact tokenizing_ne hr)
        rw [e1] at h
        cases h
        exact ⟨rfl, _, h3, e2⟩

theorem parse_known {H : Host} {ms : Messages} {input grammar : List Char} {mode : String} {s s' : State} {a : Reply} (hm : Mode mode)
    (h : parse H ms input grammar mode s = some (s', a)) : s' = ⟨true, []⟩ ∧ ∃ log, Logged s.buffer log ∧ Replies H log a := by
  unfold parse at h
  have h0 := logged_trace s "begin".toList
  revert h h0
  generalize s.trace "begin".toList = s1
  intro h h0
  have fin : (s' = ⟨true, []⟩ ∧ ∃ log, Logged s1.buffer log ∧ Replies H log a) → s' = ⟨true, []⟩ ∧ ∃ log, Logged s.buffer log ∧ Replies H log a := by
    rintro ⟨h1, log, h2, h3⟩
    exact ⟨h1, log, h0.trans h2, h3⟩
  rcases hm with rfl | rfl | rfl
  · exact fin (parseC_cases h)
  · exact fin (parseBasic_cases h)
  · exact fin (parseAdvanced_cases h)

theorem parse_unknown {H : Host} {ms : Messages} {input grammar : List Char} {mode : String} {s : State} (hm : ¬ Mode mode) :
    parse H ms input grammar mode s = some (s.trace "begin".toList, .text "Unknown mode".toList) := by
  unfold Mode at hm
  simp only [not_or] at hm
  unfold parse
  simp only [if_neg hm.1, if_neg hm.2.1, if_neg hm.2.2]

end Gearley.Page
