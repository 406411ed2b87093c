import Verif.Proofs.Wasm
import Verif.Props.ForestStarts

/-!
# C62: the page in the browser
-/

namespace Gearley.Props
open Gearley.Spec Gearley.Page Build
variable {U : URules} {N : Names U} {w : WrappedRoot} {g0 : Nat} {g : DefaultGrammar} {b : Simple.Bocage} {H : Host} {ms : Messages}

/-- What a call in mode `basic` or `advanced` finds or writes in the log: what calls before left, `begin` if the logger is
installed already, and what the libraries write. -/
def callLog (s : State) (ms : Messages) : List Char := s.buffer ++ traced s "begin".toList ++ textOf ms.load ++ textOf ms.parse

/-- The same for mode `c-lexer`. -/
def callLogC (s : State) (ms : Messages) : List Char :=
  s.buffer ++ traced s "begin".toList ++ traced s "c-lexer load".toList ++ textOf ms.load ++ line (.trace, "loaded".toList) ++ textOf ms.parse

theorem parseBasic_eq {input grammar : List Char} {s : State} {L : Loaded} {r : Except ParseError Bool}
    (hl : H.load grammar = .ok L) (hg : fromBinarized H.crate L.c L.nulling = pure g)
    (hr : terminalList H g L.nameMap (splitSpaces input) = pure r) :
    parse H ms input grammar "basic" s = some (answer H ⟨true, callLog s ms⟩ r) := by
  show parseBasic H ms input grammar (s.trace _) = _
  unfold parseBasic
  simp only [trace_eq, State.install, logAll_on, hl, C60_from_grammar, hg, andThen_pure, hr, callLog]

theorem parseAdvanced_eq {input grammar : List Char} {s : State} {L : LoadedAdvanced} {r : Except ParseError Bool}
    (hl : H.loadAdvanced grammar = .ok L) (hg : fromBinarized H.crate L.c L.nulling = pure g)
    (hr : tokenizing H g L.lexer (input.map Char.toNat) = pure r) :
    parse H ms input grammar "advanced" s = some (answer H ⟨true, callLog s ms⟩ r) := by
  show parseAdvanced H ms input grammar (s.trace _) = _
  unfold parseAdvanced
  simp only [trace_eq, State.install, logAll_on, hl, C60_from_grammar, hg, andThen_pure, hr, callLog]

theorem parseC_eq {input grammar : List Char} {s : State} {L : Loaded} {r : Except ParseError Bool} {tokens : List CToken}
    (hl : H.load grammar = .ok L) (hg : fromBinarized H.crate L.c L.nulling = pure g) (hx : H.lexC input = some tokens)
    (hr : terminalList H g L.nameMap ((cWords tokens).map String.toList) = pure r) :
    parse H ms input grammar "c-lexer" s = some (answer H ⟨true, callLogC s ms⟩ r) := by
  show parseC H ms input grammar (s.trace _) = _
  unfold parseC
  simp only [trace_eq, State.install, logAll_on, hl, C60_from_grammar, hg, andThen_pure, hx, hr, callLogC, traced, List.append_assoc, if_true]

theorem terminalList_eq (hb : Simple.Bocage.new g.forestInfo = pure b) {nameMap : List Char → Option Nat} {words : List (List Char)} :
    terminalList H g nameMap words = Rec.parseTerminalList (envOf H g) b nameMap words := by
  unfold terminalList
  rw [hb, pure_bind, C60_terminal_list]

theorem tokenizing_eq (hb : Simple.Bocage.new g.forestInfo = pure b) {lexer : Nat → List Nat} {input : List Nat} :
    tokenizing H g lexer input = Rec.parseTokenizing (envOf H g) b lexer input := by
  unfold tokenizing
  rw [hb, pure_bind, C60_tokenizing]

theorem page_safe (hb : Simple.Bocage.new g.forestInfo = pure b) : ∀ dots syms, SafeStart (envOf H g).F b dots syms :=
  fun dots syms => simple_safeStart (Simple.new_summandCount hb) dots syms

theorem finish_text : "Failed to parse:\nfailed to get finished node".toList =
    "Failed to parse:\n".toList ++ "failed to get finished node".toList := by decide +kernel

theorem tokenize_text : "Failed to parse:\nfailed to tokenize: ".toList = "Failed to parse:\n".toList ++ "failed to tokenize: ".toList := by
  decide +kernel

theorem answer_tokenize (s : State) (bad : List Char) : answer H s (.error (.tokenize bad)) =
    (s.getLogs.1, .text ("Failed to parse:\nfailed to tokenize: ".toList ++ bad ++ s.getLogs.2)) := by
  rw [tokenize_text, List.append_assoc "Failed to parse:\n".toList]; rfl

theorem answer_finish (s : State) : answer H s (.error .finish) =
    (s.getLogs.1, .text ("Failed to parse:\nfailed to get finished node".toList ++ s.getLogs.2)) := by
  rw [finish_text]; rfl

/-- C62, mode `basic`, for words separated by single spaces that are names of tokens. The page shows the log exactly if the words are
a sentence of the grammar. In every other case it shows the message that there is no finished node, before the log. The log of this call
is not left for the next call. -/
theorem C62_basic {input grammar : List Char} {s : State} {L : Loaded} (hl : H.load grammar = .ok L)
    (h : UserParser H.crate U N w g0 L.c L.nulling g) (hb : Simple.Bocage.new g.forestInfo = pure b) {words : List (List Char)} {toks : List Nat}
    (hi : input = [' '].intercalate words) (hne : words ≠ []) (hs : ∀ x ∈ words, ' ' ∉ x) (hw : words.map L.nameMap = toks.map some)
    (ht : Tokens U L.c toks) (hlen : toks.length + 1 < 2 ^ 64 - 1) :
    ∃ t, parse H ms input grammar "basic" s = some (⟨true, []⟩, .text t) ∧ (Yields U w.innerRoot toks → t = callLog s ms) ∧
      (¬ Yields U w.innerRoot toks → t = "Failed to parse:\nfailed to get finished node".toList ++ callLog s ms) := by
  obtain ⟨res, h1, h2, h3⟩ := C32_terminal_list_user (E := envOf H g) (f := b) h rfl (page_safe hb) hw ht hlen
  have hp := parseBasic_eq (ms := ms) (s := s) (input := input) hl h.made (r := res) (by rw [hi, splitSpaces_join hne hs, terminalList_eq hb]; exact h1)
  by_cases hy : Yields U w.innerRoot toks
  · obtain rfl := h2.2 hy
    exact ⟨_, hp, fun _ => rfl, fun hn => absurd hy hn⟩
  · obtain rfl := h3 (mt h2.1 hy)
    rw [answer_finish] at hp
    exact ⟨_, hp, fun hn => absurd hn hy, fun _ => rfl⟩

/-- C62, mode `basic`. If a word is unknown, the page shows the first such word. -/
theorem C62_unknown_word {input grammar : List Char} {s : State} {L : Loaded} (hl : H.load grammar = .ok L)
    (h : UserParser H.crate U N w g0 L.c L.nulling g) (hb : Simple.Bocage.new g.forestInfo = pure b) {pre post : List (List Char)} {bad : List Char}
    (hi : input = [' '].intercalate (pre ++ bad :: post)) (hs : ∀ x ∈ pre ++ bad :: post, ' ' ∉ x) (hw : ∀ x ∈ pre, ∃ t, L.nameMap x = some t)
    (hbad : L.nameMap bad = none) :
    parse H ms input grammar "basic" s =
      some (⟨true, []⟩, .text ("Failed to parse:\nfailed to tokenize: ".toList ++ bad ++ callLog s ms)) := by
  obtain ⟨toks, ht⟩ : ∃ toks : List Nat, pre.map L.nameMap = toks.map some := by
    clear hi hs
    induction pre with
    | nil => exact ⟨[], rfl⟩
    | cons x pre ih =>
      obtain ⟨t, ht⟩ := hw x (by simp)
      obtain ⟨toks, h'⟩ := ih fun y hy => hw y (by simp [hy])
      exact ⟨t :: toks, by rw [List.map_cons, ht, h']; rfl⟩
  have h1 := C32_unknown_word_user (E := envOf H g) (f := b) (post := post) h rfl (page_safe hb) ht hbad
  have hp := parseBasic_eq (ms := ms) (s := s) (input := input) hl h.made (r := .error (.tokenize bad))
    (by rw [hi, splitSpaces_join (by simp) hs, terminalList_eq hb]; exact h1)
  rw [hp, answer_tokenize]
  rfl

/-- C62, negative. In mode `basic` the empty input is the list of one empty word, and not the empty list of words. It is rejected (if no
symbol has the empty name), even if the grammar derives the empty string. -/
theorem C62_empty_input {grammar : List Char} {s : State} {L : Loaded} (hl : H.load grammar = .ok L)
    (h : UserParser H.crate U N w g0 L.c L.nulling g) (hb : Simple.Bocage.new g.forestInfo = pure b) (hn : L.nameMap [] = none) :
    parse H ms [] grammar "basic" s = some (⟨true, []⟩, .text ("Failed to parse:\nfailed to tokenize: ".toList ++ callLog s ms)) := by
  have := C62_unknown_word (ms := ms) (s := s) (input := []) (pre := []) (post := []) (bad := []) hl h hb (by simp) (by simp) (by simp) hn
  simpa using this

/-- C62, negative. The same for an input with a space at the end, after words that are known. -/
theorem C62_trailing_space {input grammar : List Char} {s : State} {L : Loaded} (hl : H.load grammar = .ok L)
    (h : UserParser H.crate U N w g0 L.c L.nulling g) (hb : Simple.Bocage.new g.forestInfo = pure b) {words : List (List Char)}
    (hne : words ≠ []) (hs : ∀ x ∈ words, ' ' ∉ x) (hw : ∀ x ∈ words, ∃ t, L.nameMap x = some t) (hn : L.nameMap [] = none)
    (hi : input = [' '].intercalate words ++ [' ']) :
    parse H ms input grammar "basic" s = some (⟨true, []⟩, .text ("Failed to parse:\nfailed to tokenize: ".toList ++ callLog s ms)) := by
  have key : ∀ {words : List (List Char)}, words ≠ [] → [' '].intercalate words ++ [' '] = [' '].intercalate (words ++ [[]]) := by
    intro words
    induction words with
    | nil => intro h; exact absurd rfl h
    | cons x words ih =>
      intro _
      cases words with
      | nil => simp
      | cons y words =>
        have := ih (by simp)
        simp only [List.cons_append] at this ⊢
        rw [List.intercalate_cons_cons, List.intercalate_cons_cons, ← this]
        simp
  have := C62_unknown_word (ms := ms) (s := s) (input := input) (pre := words) (post := []) (bad := []) hl h hb (by rw [hi, key hne])
    (by
      intro x hx
      rcases List.mem_append.1 hx with hx | hx
      · exact hs x hx
      · rw [List.mem_singleton.1 hx]; simp) hw hn
  simpa using this

/-- C62, mode `advanced`. The page shows the log exactly if every character can be read as one of its terminals such that the result is a
sentence of the grammar, and in every other case an error before the log. -/
theorem C62_advanced {input grammar : List Char} {s : State} {L : LoadedAdvanced} (hl : H.loadAdvanced grammar = .ok L)
    (h : UserParser H.crate U N w g0 L.c L.nulling g) (hb : Simple.Bocage.new g.forestInfo = pure b)
    (ht : ∀ ch ∈ input, Tokens U L.c (L.lexer ch.toNat)) (hlen : input.length + 1 < 2 ^ 64 - 1) :
    ∃ t, parse H ms input grammar "advanced" s = some (⟨true, []⟩, .text t) ∧
      ((∃ toks, Reading L.lexer (input.map Char.toNat) toks ∧ Yields U w.innerRoot toks) → t = callLog s ms) ∧
      (¬ (∃ toks, Reading L.lexer (input.map Char.toNat) toks ∧ Yields U w.innerRoot toks) →
        ∃ e, t = "Failed to parse:\n".toList ++ H.showError e ++ callLog s ms) := by
  obtain ⟨res, h1, h2, h3⟩ := C32_tokenizing_user (E := envOf H g) (f := b) (lexer := L.lexer) (input := input.map Char.toNat) h rfl (page_safe hb)
    (by
      intro ch hc
      obtain ⟨x, hx, rfl⟩ := List.mem_map.1 hc
      exact ht x hx)
    (by
      intro ch hc
      obtain ⟨x, hx, rfl⟩ := List.mem_map.1 hc
      have := x.val.toNat_lt
      exact this) (by simpa using hlen)
  have hp := parseAdvanced_eq (ms := ms) (s := s) (input := input) hl h.made (r := res) (by rw [tokenizing_eq hb]; exact h1)
  cases res with
  | ok v =>
    cases v with
    | false => exact absurd rfl h3
    | true => exact ⟨_, hp, fun _ => rfl, fun hn => absurd (h2.1 rfl) hn⟩
  | error e => exact ⟨_, hp, fun hy => absurd (h2.2 hy) (by simp), fun _ => ⟨e, rfl⟩⟩

/-- C62, mode `c-lexer`, with the C grammar. If the lexer returns tokens, their names are terminals of the grammar, and the page shows
the log exactly if they are a program. -/
theorem C62_c {input grammar : List Char} {s : State} {L : Loaded} {tokens : List CToken} {N : Names cRules} (hl : H.load grammar = .ok L)
    (h : UserParser H.crate cRules N w g0 L.c L.nulling g) (hroot : w.innerRoot = CSym.start.num) (hb : Simple.Bocage.new g.forestInfo = pure b)
    (hname : ∀ x : CSym, L.nameMap x.name.toList = some x.num)
    (hterm : ∀ words : List CSym, (∀ s ∈ words, CTerminal s) → Tokens cRules L.c (words.map CSym.num))
    (hx : H.lexC input = some tokens) (hlen : tokens.length + 1 < 2 ^ 64 - 1) :
    ∃ words : List CSym, cWords tokens = words.map CSym.name ∧ ∃ t, parse H ms input grammar "c-lexer" s = some (⟨true, []⟩, .text t) ∧
      (CProgram words → t = callLogC s ms) ∧
      (¬ CProgram words → t = "Failed to parse:\nfailed to get finished node".toList ++ callLogC s ms) := by
  have hcw : cWords tokens = (tokens.filterMap tokenSym).map CSym.name := by
    unfold cWords
    rw [List.map_filterMap]
    exact congrArg (fun f => tokens.filterMap f) (funext tokenName_eq)
  have hl2 := List.length_filterMap_le tokenSym tokens
  refine ⟨tokens.filterMap tokenSym, hcw, ?_⟩
  obtain ⟨res, h1, h2, h3⟩ := C32_terminal_list_user (E := envOf H g) (f := b) (nameMap := L.nameMap) (words := (cWords tokens).map String.toList)
    (toks := (tokens.filterMap tokenSym).map CSym.num) h rfl (page_safe hb)
    (by
      rw [hcw, List.map_map, List.map_map, List.map_map]
      exact List.map_congr_left fun x _ => hname x)
    (hterm _ fun x hx => by
      obtain ⟨t, _, ht⟩ := List.mem_filterMap.1 hx
      exact (tokenSym_terminal ht).1) (by rw [List.length_map]; omega)
  have hp := parseC_eq (ms := ms) (s := s) hl h.made hx (r := res) (by rw [terminalList_eq hb]; exact h1)
  rw [hroot] at h2
  by_cases hy : CProgram (tokens.filterMap tokenSym)
  · obtain rfl := h2.2 hy
    exact ⟨_, hp, fun _ => rfl, fun hn => absurd hy hn⟩
  · obtain rfl := h3 (mt h2.1 hy)
    rw [answer_finish] at hp
    exact ⟨_, hp, fun hn => absurd hn hy, fun _ => rfl⟩

/-! ### Many calls -/

/-- How many `begin` are left in the log after some calls: one for each call with an unknown mode since the last call with a known
mode. -/
def leftOver (rs : List Request) : List Char := (rs.reverse.takeWhile fun r => ¬ Mode r.mode).flatMap fun _ => line (.trace, "begin".toList)

theorem serve_append {rs rs' : List Request} {s : State} {p : State × List Reply} (h : serve H (rs ++ rs') s = some p) :
    ∃ s1 as as', serve H rs s = some (s1, as) ∧ serve H rs' s1 = some (p.1, as') ∧ p.2 = as ++ as' := by
  induction rs generalizing s p with
  | nil => exact ⟨s, [], p.2, rfl, h, rfl⟩
  | cons r rs ih =>
    rw [List.cons_append, serve] at h
    obtain ⟨⟨s1, a⟩, h1, h⟩ := Option.bind_eq_some_iff.1 h
    obtain ⟨⟨s2, as⟩, h2, h⟩ := Option.bind_eq_some_iff.1 h
    cases h
    obtain ⟨s3, as1, as2, h3, h4, h5⟩ := ih h2
    simp only at h5
    refine ⟨s3, a :: as1, as2, ?_, h4, by simp [h5]⟩
    rw [serve]
    simp only [h1, Option.bind_eq_bind, Option.bind_some, h3]
    rfl

/-- C62. What stays between calls. Nothing but the word `begin` is left for the next call, and only by calls with an unknown mode; before the
first call with a known mode nothing is written at all. In particular every call with a known mode leaves an empty log, whatever happened
before. -/
theorem C62_history {rs : List Request} {s : State} {as : List Reply} (h : serve H rs {} = some (s, as)) :
    s = if ∃ r ∈ rs, Mode r.mode then ⟨true, leftOver rs⟩ else ⟨false, []⟩ := by
  induction rs using List.reverseRecOn generalizing s as with
  | nil => cases h; simp
  | append_singleton rs r ih =>
    obtain ⟨s1, as1, as2, h1, h2, _⟩ := serve_append h
    have h1 := ih h1
    rw [serve] at h2
    obtain ⟨⟨s2, a⟩, h3, h4⟩ := Option.bind_eq_some_iff.1 h2
    obtain rfl : s2 = s := congrArg Prod.fst (Option.some.inj h4)
    by_cases hm : Mode r.mode
    · rw [if_pos ⟨r, by simp, hm⟩, (parse_known hm h3).1]
      simp [leftOver, hm]
    · rw [parse_unknown hm] at h3
      have h5 := congrArg Prod.fst (Option.some.inj h3)
      simp only at h5
      rw [← h5, trace_eq, h1]
      by_cases hk : ∃ r ∈ rs, Mode r.mode
      · have hk' : ∃ x ∈ rs ++ [r], Mode x.mode := by
          obtain ⟨x, hx, hx'⟩ := hk
          exact ⟨x, by simp [hx], hx'⟩
        simp only [if_pos hk, if_pos hk', traced, if_true]
        have : leftOver (rs ++ [r]) = leftOver rs ++ line (.trace, "begin".toList) := by
          have hc : ∀ (n : Nat) (x : List Char), x ++ (List.replicate n x).flatten = (List.replicate n x).flatten ++ x := by
            intro n x
            induction n with
            | zero => simp
            | succ n ih => rw [List.replicate_succ, List.flatten_cons, List.append_assoc, ← ih]
          have hf : ∀ l : List Request, l.flatMap (fun _ => line (.trace, "begin".toList)) =
              (List.replicate l.length (line (.trace, "begin".toList))).flatten := by
            intro l
            induction l with
            | nil => rfl
            | cons a l ih => rw [List.flatMap_cons, ih, List.length_cons, List.replicate_succ, List.flatten_cons]
          unfold leftOver
          rw [List.reverse_append, List.reverse_singleton, List.singleton_append, List.takeWhile_cons_of_pos (by simpa using hm),
            List.flatMap_cons, hf, hc]
        rw [this]
      · have hk' : ¬ ∃ x ∈ rs ++ [r], Mode x.mode := by
          rintro ⟨x, hx, hx'⟩
          rcases List.mem_append.1 hx with hx | hx
          · exact hk ⟨x, hx, hx'⟩
          · rw [List.mem_singleton.1 hx] at hx'
            exact hm hx'
        simp only [if_neg hk, if_neg hk', traced, Bool.false_eq_true, if_false, List.append_nil]

/-- A text as the log has it: it is empty or starts with a bracket. -/
def LogText (t : List Char) : Prop := t = [] ∨ t.head? = some '['

theorem logText_textOf (ms : List Message) : LogText (textOf ms) := by
  cases ms with
  | nil => exact .inl rfl
  | cons m ms => exact .inr rfl

theorem LogText.append {t u : List Char} (h : LogText t) (h' : LogText u) : LogText (t ++ u) := by
  rcases h with rfl | h
  · simpa using h'
  · cases t with
    | nil => cases h
    | cons _ _ => exact .inr h

/-- The log between calls. -/
theorem serve_log {rs : List Request} {s : State} {as : List Reply} (h : serve H rs {} = some (s, as)) : LogText s.buffer := by
  rw [C62_history h]
  split
  · show LogText (leftOver rs)
    unfold leftOver
    cases (rs.reverse.takeWhile fun r => ¬ Mode r.mode) with
    | nil => exact .inl rfl
    | cons _ _ => exact .inr rfl
  · exact .inl rfl

/-- C62. What the page can show, for every grammar, input and mode, after any number of calls: the log, or one of three messages.
`failed to finish the parse` is never shown. -/
theorem C62_replies {rs : List Request} {s : State} {as : List Reply} (h : serve H rs {} = some (s, as)) :
    ∀ t, .text t ∈ as → LogText t ∨ (∃ u, t = "Failed to parse:\n".toList ++ u) ∨ (∃ u, t = "Failed to load:\n".toList ++ u) ∨
      t = "Unknown mode".toList := by
  induction rs using List.reverseRecOn generalizing s as with
  | nil => cases h; simp
  | append_singleton rs r ih =>
    obtain ⟨s1, as1, as2, h1, h2, h3⟩ := serve_append h
    simp only at h3
    subst h3
    intro t ht
    rcases List.mem_append.1 ht with ht | ht
    · exact ih h1 t ht
    · rw [serve] at h2
      obtain ⟨⟨s2, a⟩, h3, h4⟩ := Option.bind_eq_some_iff.1 h2
      have h4 := congrArg Prod.snd (Option.some.inj h4)
      simp only at h4
      rw [← h4, List.mem_singleton] at ht
      subst ht
      by_cases hm : Mode r.mode
      · obtain ⟨_, log, ⟨m, rfl⟩, h5⟩ := parse_known hm h3
        cases h5 with
        | ok => exact .inl ((serve_log h1).append (logText_textOf m))
        | parse e => exact .inr (.inl ⟨H.showError e ++ (s1.buffer ++ textOf m), by simp⟩)
        | load e => exact .inr (.inr (.inl ⟨e ++ (s1.buffer ++ textOf m), by simp⟩))
      · rw [parse_unknown hm] at h3
        have h5 := congrArg Prod.snd (Option.some.inj h3)
        simp only [Reply.text.injEq] at h5
        exact .inr (.inr (.inr h5.symm))

theorem C62_never_unfinished {rs : List Request} {s : State} {as : List Reply} (h : serve H rs {} = some (s, as)) :
    .text "failed to finish the parse".toList ∉ as := by
  intro hm
  rcases C62_replies h _ hm with h | ⟨u, h⟩ | ⟨u, h⟩ | h
  · rcases h with h | h
    · exact absurd h (by decide)
    · exact absurd h (by decide)
  · exact absurd (congrArg List.head? h) (by simp)
  · exact absurd (congrArg List.head? h) (by simp)
  · exact absurd h (by decide)

/-- C62. The first letter tells whether the input is a sentence: it is `F` exactly for the others. After any number of calls. -/
theorem C62_verdict {rs : List Request} {as : List Reply} {input grammar : List Char} {s : State} {L : Loaded} (hs0 : serve H rs {} = some (s, as))
    (hl : H.load grammar = .ok L)
    (h : UserParser H.crate U N w g0 L.c L.nulling g) (hb : Simple.Bocage.new g.forestInfo = pure b) {words : List (List Char)} {toks : List Nat}
    (hi : input = [' '].intercalate words) (hne : words ≠ []) (hs : ∀ x ∈ words, ' ' ∉ x) (hw : words.map L.nameMap = toks.map some)
    (ht : Tokens U L.c toks) (hlen : toks.length + 1 < 2 ^ 64 - 1) :
    ∃ t, serve H (rs ++ [⟨ms, input, grammar, "basic"⟩]) {} = some (⟨true, []⟩, as ++ [.text t]) ∧
      (t.head? = some 'F' ↔ ¬ Yields U w.innerRoot toks) := by
  obtain ⟨t, h1, h2, h3⟩ := C62_basic (ms := ms) (s := s) hl h hb hi hne hs hw ht hlen
  refine ⟨t, ?_, ?_⟩
  · have key : ∀ {rs : List Request} {as : List Reply} {s0 : State}, serve H rs s0 = some (s, as) →
        serve H (rs ++ [⟨ms, input, grammar, "basic"⟩]) s0 = some (⟨true, []⟩, as ++ [.text t]) := by
      intro rs
      induction rs with
      | nil =>
        intro as s0 h
        cases h
        rw [List.nil_append, serve]
        simp only [h1, Option.bind_eq_bind, Option.bind_some, serve]
        rfl
      | cons r rs ih =>
        intro as s0 h
        rw [serve] at h
        obtain ⟨⟨s2, a⟩, e1, h⟩ := Option.bind_eq_some_iff.1 h
        obtain ⟨⟨s3, as1⟩, e2, h⟩ := Option.bind_eq_some_iff.1 h
        cases h
        rw [List.cons_append, serve]
        simp only [e1, Option.bind_eq_bind, Option.bind_some, ih e2]
        rfl
    exact key hs0
  · by_cases hy : Yields U w.innerRoot toks
    · rw [h2 hy]
      have hlog : LogText (callLog s ms) := by
        unfold callLog
        refine (((serve_log hs0).append ?_).append (logText_textOf _)).append (logText_textOf _)
        unfold traced
        split
        · exact .inr rfl
        · exact .inl rfl
      rcases hlog with h | h
      · rw [h]; simpa using hy
      · rw [h]; simpa using hy
    · rw [h3 hy]
      exact ⟨fun _ => hy, fun _ => rfl⟩

/-! ### Examples -/

/-- A host that reads one grammar. -/
def oneGrammar (nameMap : List Char → Option Nat) (lexer : Nat → List Nat) (c nulling : Cfg) (lexC : List Char → Option (List CToken)) : Host where
  crate := plainCrate
  sorter := Example.sorter
  load _ := .ok ⟨nameMap, c, nulling⟩
  loadAdvanced _ := .ok ⟨lexer, c, nulling⟩
  lexC := lexC
  showParse _ _ := []

/-- `S ::= a S | ε`: `S` is 0, `a` is 1. -/
def manyA : URules := [(0, [1, 0]), (0, [])]

theorem manyA_acyclic : UAcyclic manyA := by
  refine ⟨fun s => s, fun k A rhs j y hk hy hn => ?_⟩
  have h1 : ¬ UNullable manyA 1 := by
    intro h
    obtain ⟨hk, _⟩ := h
    have := List.mem_of_getElem? hk
    simp [manyA] at this
  have hmem := List.mem_of_getElem? hk
  simp only [manyA, List.mem_cons, List.not_mem_nil, or_false, Prod.mk.injEq] at hmem
  rcases hmem with ⟨rfl, rfl⟩ | ⟨rfl, rfl⟩
  · by_cases h : j = 0
    · subst h; cases hy; decide
    · exact absurd (hn 0 1 (fun e => h e.symm) rfl) h1
  · cases hy

def nameA (x : List Char) : Option Nat := if x = ['a'] then some 1 else if x = ['S'] then some 0 else none

/-- C62, negative, with a grammar. The grammar `S ::= a S | ε` derives the empty string and `a`. In mode `basic` the page accepts `a`, and
rejects the empty input and `a` with a space behind it. In mode `advanced` it accepts the empty input. -/
theorem C62_empty_witness : Yields manyA 0 [] ∧ Yields manyA 0 [1] ∧ ∃ H : Host, ∀ (ms : Messages) (s : State),
    parse H ms ['a'] [] "basic" s = some (⟨true, []⟩, .text (callLog s ms)) ∧
    parse H ms [] [] "basic" s = some (⟨true, []⟩, .text ("Failed to parse:\nfailed to tokenize: ".toList ++ callLog s ms)) ∧
    parse H ms ['a', ' '] [] "basic" s = some (⟨true, []⟩, .text ("Failed to parse:\nfailed to tokenize: ".toList ++ callLog s ms)) ∧
    parse H ms [] [] "advanced" s = some (⟨true, []⟩, .text (callLog s ms)) := by
  have y0 : Yields manyA 0 [] := .rule (k := 1) rfl .nil
  have y1 : Yields manyA 0 [1] := .rule (k := 0) (u := [1]) rfl (.cons (u := [1]) (v := []) (.token (by unfold UTerminal; decide)) (.cons (u := []) y0 .nil))
  refine ⟨y0, y1, ?_⟩
  obtain ⟨N, w, g0, c, nulling, g, hr, h, _, ht, _, _, ⟨b, hb⟩, _⟩ := C36_every_grammar (U := manyA) (m := 2) (L := 3) (root := 0)
    (by decide) (by decide) (by decide) ⟨_, List.mem_cons_self, rfl⟩ manyA_acyclic
  refine ⟨oneGrammar nameA (fun _ => []) c nulling (fun _ => none), fun ms s => ⟨?_, ?_, ?_, ?_⟩⟩
  · obtain ⟨t, h1, h2, _⟩ := C62_basic (H := oneGrammar nameA (fun _ => []) c nulling (fun _ => none)) (ms := ms) (s := s) (input := ['a']) (grammar := [])
      (L := ⟨nameA, c, nulling⟩) (words := [['a']]) (toks := [1]) rfl h hb (by simp) (by simp) (by decide) rfl
      ((ht _).2 (by
        intro t htm
        rw [List.mem_singleton.1 htm]
        exact ⟨by unfold UTerminal; decide, _, List.mem_cons_self, by decide⟩)) (by decide)
    rw [h1, h2 (by rw [hr]; exact y1)]
  · exact C62_empty_input (H := oneGrammar nameA (fun _ => []) c nulling (fun _ => none)) (L := ⟨nameA, c, nulling⟩) rfl h hb rfl
  · exact C62_trailing_space (H := oneGrammar nameA (fun _ => []) c nulling (fun _ => none)) (L := ⟨nameA, c, nulling⟩) (words := [['a']]) rfl h hb
      (by simp) (by decide) (by intro x hx; rw [List.mem_singleton.1 hx]; exact ⟨1, rfl⟩) rfl (by simp)
  · obtain ⟨t, h1, h2, _⟩ := C62_advanced (H := oneGrammar nameA (fun _ => []) c nulling (fun _ => none)) (ms := ms) (s := s) (input := []) (grammar := [])
      (L := ⟨fun _ => [], c, nulling⟩) rfl h hb (by simp) (by decide)
    rw [h1, h2 ⟨[], .nil, by rw [hr]; exact y0⟩]

def nameC (x : List Char) : Option Nat := (CSym.all.find? fun s => s.name.toList = x).map CSym.num

theorem nameC_name (x : CSym) : nameC x.name.toList = some x.num := by
  unfold nameC
  have : CSym.all.find? (fun s => s.name.toList = x.name.toList) = some x := by
    cases hf : CSym.all.find? (fun s => s.name.toList = x.name.toList) with
    | none =>
      have := List.find?_eq_none.1 hf x (mem_all x)
      simp at this
    | some y =>
      have := List.find?_some hf
      simp only [decide_eq_true_eq] at this
      rw [name_injective (String.toList_inj.1 this)]
  rw [this]
  rfl

/-- C62 with the C grammar: the page accepts `int main(void) { return 0; }` and rejects `int x = { [1] = 1 };`. -/
theorem C62_c_witness : ∃ H : Host, ∀ (ms : Messages) (s : State),
    parse H ms [] [] "c-lexer" s = some (⟨true, []⟩, .text (callLogC s ms)) ∧
    parse H ms [' '] [] "c-lexer" s =
      some (⟨true, []⟩, .text ("Failed to parse:\nfailed to get finished node".toList ++ callLogC s ms)) := by
  obtain ⟨N, w, g0, c, nulling, g, hr, h, _, ht, _, _, ⟨b, hb⟩, _⟩ := C61_forests
  let lex : List Char → Option (List CToken) := fun i => some (if i = [] then
    [.INT, .Identifier, .LParen, .VOID, .RParen, .LBrace, .RETURN, .NumericLiteral, .Semicolon, .RBrace, .EOF] else
    [.INT, .Identifier, .Assign, .LBrace, .LBracket, .NumericLiteral, .RBracket, .Assign, .NumericLiteral, .RBrace, .Semicolon])
  have hmap : ∀ {u v : List CSym}, u.map CSym.name = v.map CSym.name → u = v := fun h => (List.map_injective_iff.2 fun _ _ => name_injective) h
  refine ⟨oneGrammar nameC (fun _ => []) c nulling lex, fun ms s => ⟨?_, ?_⟩⟩
  · obtain ⟨words, e, t, h1, h2, _⟩ := C62_c (H := oneGrammar nameC (fun _ => []) c nulling lex) (ms := ms) (s := s) (input := []) (grammar := [])
      (L := ⟨nameC, c, nulling⟩) rfl h hr hb nameC_name ht rfl (by decide)
    obtain rfl : mainProgram = words := hmap (Eq.trans rfl e)
    rw [h1, h2 mainProgram_ok]
  · obtain ⟨words, e, t, h1, _, h2⟩ := C62_c (H := oneGrammar nameC (fun _ => []) c nulling lex) (ms := ms) (s := s) (input := [' ']) (grammar := [])
      (L := ⟨nameC, c, nulling⟩) rfl h hr hb nameC_name ht rfl (by decide)
    obtain rfl : [.int, .identifier, .equal, .lbrace, .lbracket, .constant, .rbracket, .equal, .constant, .rbrace, .semicolon] = words := hmap (Eq.trans rfl e)
    rw [h1, h2 fun h => (C61_no_designator h).1 ⟨[.int, .identifier, .equal], [.constant, .rbracket, .equal, .constant, .rbrace, .semicolon], rfl⟩]

-- four calls: the first `begin` is dropped, and the message of the third call is shown by the fourth
example (H : Host) (e : List Char) (h : ∀ x, H.load x = .error e) :
    serve H [⟨{}, [], [], "basic"⟩, ⟨{}, [], [], "basic"⟩, ⟨{}, [], [], "other"⟩, ⟨{}, [], [], "basic"⟩] {} = some (⟨true, []⟩,
      [.text ("Failed to load:\n".toList ++ e), .text ("Failed to load:\n".toList ++ e ++ "[TRACE] - begin\n".toList), .text "Unknown mode".toList,
        .text ("Failed to load:\n".toList ++ e ++ ("[TRACE] - begin\n".toList ++ "[TRACE] - begin\n".toList))]) := by
  have hl : line (.trace, "begin".toList) = "[TRACE] - begin\n".toList := by decide +kernel
  have hb : ∀ s : State, parse H {} [] [] "basic" s = some (⟨true, []⟩, .text ("Failed to load:\n".toList ++ e ++ (s.buffer ++ traced s "begin".toList))) := by
    intro s
    show parseBasic H {} [] [] (s.trace _) = _
    unfold parseBasic
    simp only [trace_eq, State.install, logAll_on, h, loadFailed, State.getLogs, textOf, List.map_nil, List.flatten_nil, List.append_nil]
  have hu : ¬ Mode "other" := by decide
  simp only [serve, hb, parse_unknown hu, Option.bind_eq_bind, Option.bind_some, trace_on, traced, hl, Option.pure_def]
  simp

end Gearley.Props
