import Verif.Proofs.Abstract
import Verif.Proofs.UserParse
import Verif.Proofs.UserExists
import Verif.Spec.CGrammar

/-!
# Proofs: facts about all strings of a grammar, applied to the C grammar
-/

namespace Gearley.CGrammar
open Gearley Gearley.Spec Gearley.Props
variable {U : URules}

/-! ### Neighbours -/

/-- The empty string; or whether the string starts with `Y`, ends with `X`, and has `X` followed by `Y` inside. -/
abbrev Ends := Option (Bool × Bool × Bool)

def Ends.op : Ends → Ends → Ends
  | none, b => b
  | a, none => a
  | some (s, e, b), some (s', e', b') => some (s, e', b || b' || (e && s'))

def Ends.abs (X Y : Nat → Bool) : List Nat → Ends
  | [] => none
  | a :: u => Ends.op (some (Y a, X a, false)) (Ends.abs X Y u)

theorem Ends.op_assoc (a b c : Ends) : Ends.op (Ends.op a b) c = Ends.op a (Ends.op b c) := by
  rcases a with _ | ⟨_, _, _⟩ <;> rcases b with _ | ⟨_, _, _⟩ <;> rcases c with _ | ⟨_, _, _⟩ <;> simp [Ends.op]
  grind

theorem Ends.abs_append (X Y : Nat → Bool) (u v : List Nat) : Ends.abs X Y (u ++ v) = Ends.op (Ends.abs X Y u) (Ends.abs X Y v) := by
  induction u with
  | nil => rfl
  | cons a u ih => simp only [List.cons_append, Ends.abs, ih, Ends.op_assoc]

theorem Ends.abs_last (X Y : Nat → Bool) (u : List Nat) (a : Nat) : ∃ s b, Ends.abs X Y (u ++ [a]) = some (s, X a, b) := by
  rw [Ends.abs_append]
  rcases Ends.abs X Y u with _ | ⟨s, e, b⟩
  · exact ⟨_, _, rfl⟩
  · exact ⟨_, _, rfl⟩

theorem Ends.abs_pair {X Y : Nat → Bool} {x y : Nat} (hx : X x = true) (hy : Y y = true) (u v : List Nat) :
    ∃ s e, Ends.abs X Y (u ++ [x, y] ++ v) = some (s, e, true) := by
  have h : Ends.abs X Y [x, y] = some (Y x, X y, true) := by simp [Ends.abs, Ends.op, hx, hy]
  rw [Ends.abs_append, Ends.abs_append, h]
  rcases Ends.abs X Y u with _ | ⟨_, _, _⟩ <;> rcases Ends.abs X Y v with _ | ⟨_, _, _⟩ <;> simp [Ends.op]

/-- A table given by its exceptions. -/
def tableVal (abs : List Nat → Ends) (dflt : List Ends) (exc : List (CSym × List Ends)) (a : Nat) : List Ends :=
  if a < 175 then ((exc.find? fun p => p.1.num == a).map (·.2)).getD dflt else [abs [a]]

/-- The table has the values of the terminals. -/
def tokensOK (abs : List Nat → Ends) (val : Nat → List Ends) : Bool :=
  (List.range 175).all fun a => (cRules.any fun r => r.1 == a) || (val a).contains (abs [a])

theorem tableVal_terminal {abs : List Nat → Ends} {dflt : List Ends} {exc : List (CSym × List Ends)}
    (h : tokensOK abs (tableVal abs dflt exc) = true) {a : Nat} (ha : UTerminal cRules a) : abs [a] ∈ tableVal abs dflt exc a := by
  by_cases hlt : a < 175
  · have := List.all_eq_true.1 h a (List.mem_range.2 hlt)
    have hn : (cRules.any fun r => r.1 == a) = false := by
      rw [List.any_eq_false]
      intro r hr
      simpa using ha r hr
    rw [hn, Bool.false_or] at this
    simpa using this
  · simp [tableVal, hlt]

/-! #### No bracket after a brace or a comma -/

def beforeDesignator (a : Nat) : Bool := a == CSym.lbrace.num || a == CSym.comma.num
def isBracket (a : Nat) : Bool := a == CSym.lbracket.num

def plain : Ends := some (false, false, false)

/-- The strings that may be empty, start with a bracket, or end with a brace or a comma. -/
def designatorTable : List (CSym × List Ends) :=
  [(.lbracket, [some (true, false, false)]), (.lbrace, [some (false, true, false)]), (.comma, [some (false, true, false)]),
   (.abstract_declarator_opt, [some (true, false, false), plain, none]), (.abstract_declarator, [some (true, false, false), plain]),
   (.direct_abstract_declarator, [some (true, false, false), plain]),
   (.direct_abstract_declarator_opt, [some (true, false, false), plain, none]),
   (.argument_expression_list_opt, [plain, none]), (.init_declarator_list_opt, [plain, none]), (.declaration_specifiers_opt, [plain, none]),
   (.identifier_opt, [plain, none]), (.specifier_qualifier_list_opt, [plain, none]), (.declarator_opt, [plain, none]),
   (.pointer_opt, [plain, none]), (.type_qualifier_list_opt, [plain, none]), (.assignment_expression_opt, [plain, none]),
   (.identifier_list_opt, [plain, none]), (.parameter_type_list_opt, [plain, none]), (.designation_opt, [plain, none]),
   (.block_item_list_opt, [plain, none]), (.expression_opt, [plain, none]), (.declaration_list_opt, [plain, none])]

def designatorVal : Nat → List Ends := tableVal (Ends.abs beforeDesignator isBracket) [plain] designatorTable

theorem designator_agrees : agrees (Ends.abs beforeDesignator isBracket) Ends.op designatorVal cRules = true := by decide +kernel

theorem designator_tokens : tokensOK (Ends.abs beforeDesignator isBracket) designatorVal = true := by decide +kernel

theorem no_bracket {u : List Nat} (h : Yields cRules CSym.start.num u) {x : Nat} (hx : beforeDesignator x = true) :
    ¬ [x, CSym.lbracket.num] <:+: u := by
  rintro ⟨v, w, rfl⟩
  have h1 := h.mem_table (val := designatorVal) (Ends.abs_append beforeDesignator isBracket) (fun a ha => tableVal_terminal designator_tokens ha)
    designator_agrees
  obtain ⟨s, e, h2⟩ := Ends.abs_pair (X := beforeDesignator) (Y := isBracket) hx (y := CSym.lbracket.num) (by decide) v w
  rw [h2] at h1
  have h3 : designatorVal CSym.start.num = [plain] := by decide
  rw [h3] at h1
  simp [plain] at h1

/-! #### The end of a program -/

def isEnd (a : Nat) : Bool := a == CSym.semicolon.num || a == CSym.rbrace.num || a == CSym.error.num
def never (_ : Nat) : Bool := false

def ends : Ends := some (false, true, false)

def endTable : List (CSym × List Ends) :=
  [(.start, [ends]), (.translation_unit, [ends]), (.external_declaration, [ends]), (.declaration, [ends]), (.function_definition, [ends]),
   (.compound_statement, [ends]), (.semicolon, [ends]), (.rbrace, [ends]), (.error, [ends])]

def endVal : Nat → List Ends := tableVal (Ends.abs isEnd never) [none, plain, ends] endTable

theorem end_agrees : agrees (Ends.abs isEnd never) Ends.op endVal cRules = true := by decide +kernel

theorem end_tokens : tokensOK (Ends.abs isEnd never) endVal = true := by decide +kernel

theorem ends_well {u : List Nat} (h : Yields cRules CSym.start.num u) : ∃ v a, u = v ++ [a] ∧ isEnd a = true := by
  have h1 := h.mem_table (val := endVal) (Ends.abs_append isEnd never) (fun a ha => tableVal_terminal end_tokens ha) end_agrees
  have h3 : endVal CSym.start.num = [ends] := by decide
  rw [h3] at h1
  rcases List.eq_nil_or_concat u with rfl | ⟨v, a, rfl⟩
  · simp [Ends.abs, ends] at h1
  · rw [List.concat_eq_append] at h1 ⊢
    obtain ⟨s, b, h2⟩ := Ends.abs_last isEnd never v a
    rw [h2] at h1
    simp only [List.mem_singleton, ends, Option.some.injEq, Prod.mk.injEq] at h1
    exact ⟨v, a, rfl, h1.2.1⟩

/-! ### Nesting -/

/-- Reads a token with a stack of the brackets that have to be closed. -/
def step (st : List Nat) (a : Nat) : Option (List Nat) :=
  if a = CSym.lparen.num then some (CSym.rparen.num :: st)
  else if a = CSym.lbrace.num then some (CSym.rbrace.num :: st)
  else if a = CSym.rparen.num ∨ a = CSym.rbrace.num then
    match st with
    | x :: st => if x = a then some st else none
    | [] => none
  else some st

def run : List Nat → List Nat → Option (List Nat)
  | st, [] => some st
  | st, a :: u => (step st a).bind fun st => run st u

theorem run_append (st u v : List Nat) : run st (u ++ v) = (run st u).bind fun st => run st v := by
  induction u generalizing st with
  | nil => rfl
  | cons a u ih =>
    simp only [List.cons_append, run]
    cases step st a with
    | none => rfl
    | some st => exact ih st

theorem step_mono {s t : List Nat} {a : Nat} (st : List Nat) (h : step s a = some t) : step (s ++ st) a = some (t ++ st) := by
  unfold step at h ⊢
  split at h
  · rename_i hc; rw [if_pos hc]; cases h; rfl
  · rename_i hc; rw [if_neg hc]
    split at h
    · rename_i hc; rw [if_pos hc]; cases h; rfl
    · rename_i hc; rw [if_neg hc]
      split at h
      · rename_i hc; rw [if_pos hc]
        cases s with
        | nil => cases h
        | cons x s =>
          have h' : (if x = a then some s else none) = some t := h
          show (if x = a then some (s ++ st) else none) = _
          split at h'
          · rename_i hx; rw [if_pos hx]; cases h'; rfl
          · cases h'
      · rename_i hc; rw [if_neg hc]; cases h; rfl

theorem run_mono {s t u : List Nat} (st : List Nat) (h : run s u = some t) : run (s ++ st) u = some (t ++ st) := by
  induction u generalizing s with
  | nil => cases h; rfl
  | cons a u ih =>
    simp only [run] at h ⊢
    cases hs : step s a with
    | none => rw [hs] at h; cases h
    | some s' =>
      rw [hs] at h
      rw [step_mono st hs]
      exact ih h

/-- The right-hand sides are nested, and no left-hand side is a bracket. -/
def nestedRules (U : URules) : Bool := U.all fun r => run [] r.2 == some [] && step [] r.1 == some [] 

theorem nested_agrees : nestedRules cRules = true := by decide +kernel

theorem step_nil {a : Nat} (h : step [] a = some []) (st : List Nat) : step st a = some st := by
  have := step_mono st h
  simpa using this

theorem run_yields (hU : nestedRules U = true) {A : Nat} {u : List Nat} (h : Yields U A u) : ∀ st, run st u = step st A := by
  refine Yields.induct (P := fun A u => ∀ st, run st u = step st A) (Q := fun ss u => ∀ st, run st u = run st ss) ?_ ?_ ?_ ?_ h
  · intro a _ st
    show (step st a).bind _ = _
    cases step st a <;> rfl
  · intro A rhs u hr hu st
    have := List.all_eq_true.1 hU _ hr
    simp only [Bool.and_eq_true, beq_iff_eq] at this
    rw [hu st, step_nil this.2]
    simpa using run_mono st this.1
  · exact fun _ => rfl
  · intro s ss u v hu hv st
    rw [run_append, hu st]
    show _ = (step st s).bind _
    cases step st s with
    | none => rfl
    | some st => exact hv st

theorem num_injective : Function.Injective CSym.num := by
  intro a b h
  have h1 : ∀ a : CSym, CSym.all[a.num]? = some a := by intro a; cases a <;> rfl
  have := h1 a
  rw [h, h1 b] at this
  exact (Option.some.inj this).symm

/-- The string consists of nested strings with the closing brackets between them. -/
inductive Closes : List Nat → List CSym → Prop
  | nil {u : List CSym} : Nested u → Closes [] u
  | cons {c : CSym} {st : List Nat} {u v : List CSym} : Nested u → Closes st v → Closes (c.num :: st) (u ++ c :: v)

theorem Closes.other {a : CSym} (ha : ∀ b, ¬ Pair a b ∧ ¬ Pair b a) {st : List Nat} {u : List CSym} (h : Closes st u) : Closes st (a :: u) := by
  cases h with
  | nil h => exact .nil (.other ha h)
  | cons h h' => exact .cons (.other ha h) h'

theorem Closes.pair {o c : CSym} (hp : Pair o c) {st : List Nat} {u : List CSym} (h : Closes (c.num :: st) u) : Closes st (o :: u) := by
  generalize hs : c.num :: st = st' at h
  cases h with
  | nil => cases hs
  | @cons c' st' u v h h' =>
    obtain ⟨h1, rfl⟩ := List.cons.inj hs
    obtain rfl := num_injective h1
    cases h' with
    | nil h2 => exact .nil (.pair hp h h2)
    | @cons d st'' w x h2 h3 =>
      have := Closes.cons (c := d) (Nested.pair hp h h2) h3
      simpa using this

theorem closes_run {u : List CSym} : ∀ {st : List Nat}, run st (u.map CSym.num) = some [] → Closes st u := by
  induction u with
  | nil =>
    intro st h
    cases h
    exact .nil .nil
  | cons a u ih =>
    intro st h
    simp only [List.map_cons, run] at h
    cases hs : step st a.num with
    | none => rw [hs] at h; cases h
    | some st' =>
      rw [hs] at h
      have h1 := ih h
      unfold step at hs
      split at hs
      · rename_i hc; obtain rfl := num_injective hc; cases hs
        exact h1.pair .parens
      · rename_i hl
        split at hs
        · rename_i hc; obtain rfl := num_injective hc; cases hs
          exact h1.pair .braces
        · rename_i hb
          split at hs
          · cases st with
            | nil => cases hs
            | cons x st =>
              simp only at hs
              split at hs
              · rename_i hx; cases hs; subst hx
                have := Closes.cons (c := a) Nested.nil h1
                simpa using this
              · cases hs
          · rename_i hr; cases hs
            refine h1.other fun b => ⟨?_, ?_⟩
            · intro hp; cases hp
              · exact hl rfl
              · exact hb rfl
            · intro hp; cases hp
              · exact hr (.inl rfl)
              · exact hr (.inr rfl)

theorem nested {words : List CSym} (h : CProgram words) : Nested words := by
  have h1 := run_yields nested_agrees h []
  have h2 : step [] CSym.start.num = some [] := by decide
  rw [h2] at h1
  have := closes_run h1
  cases this with
  | nil h => exact h

/-! ### Square brackets -/

/-- What a symbol adds to the closing brackets without opening ones. -/
def excess (a : Nat) : Int := if a = CSym.rbracket.num then 1 else if a = CSym.lbracket.num then -1 else 0

def excessAll : List Nat → Int
  | [] => 0
  | a :: u => excess a + excessAll u

theorem excessAll_append (u v : List Nat) : excessAll (u ++ v) = excessAll u + excessAll v := by
  induction u with
  | nil => simp [excessAll]
  | cons a u ih => simp only [List.cons_append, excessAll, ih]; omega

def excessRules (U : URules) : Bool := U.all fun r => (excessAll r.2 == 0 || excessAll r.2 == 2) && excess r.1 == 0

theorem excess_agrees : excessRules cRules = true := by decide +kernel

theorem excess_yields (hU : excessRules U = true) {A : Nat} {u : List Nat} (h : Yields U A u) : ∃ k : Nat, excessAll u = excess A + 2 * k := by
  refine Yields.induct (P := fun A u => ∃ k : Nat, excessAll u = excess A + 2 * k)
    (Q := fun ss u => ∃ k : Nat, excessAll u = excessAll ss + 2 * k) ?_ ?_ ?_ ?_ h
  · exact fun a _ => ⟨0, by simp [excessAll]⟩
  · rintro A rhs u hr ⟨k, hk⟩
    have := List.all_eq_true.1 hU _ hr
    simp only [Bool.and_eq_true, Bool.or_eq_true, beq_iff_eq] at this
    rcases this.1 with h0 | h0
    · exact ⟨k, by omega⟩
    · exact ⟨k + 1, by omega⟩
  · exact ⟨0, rfl⟩
  · rintro s ss u v ⟨k, hk⟩ ⟨l, hl⟩
    exact ⟨k + l, by rw [excessAll_append]; simp only [excessAll]; omega⟩

theorem excessAll_count (u : List CSym) : excessAll (u.map CSym.num) = (u.count .rbracket : Int) - u.count .lbracket := by
  induction u with
  | nil => rfl
  | cons a u ih =>
    simp only [List.map_cons, excessAll, ih, excess, List.count_cons, beq_iff_eq]
    by_cases h1 : a = .rbracket
    · subst h1; simp; omega
    · have h1' : ¬ a.num = CSym.rbracket.num := fun h => h1 (num_injective h)
      by_cases h2 : a = .lbracket
      · subst h2; simp [h1']; omega
      · have h2' : ¬ a.num = CSym.lbracket.num := fun h => h2 (num_injective h)
        simp [h1, h2, h1', h2']

/-! ### No symbol derives itself -/

/-- The symbols that derive the empty string. -/
def cNullable : List CSym :=
  [.argument_expression_list_opt, .init_declarator_list_opt, .declaration_specifiers_opt, .identifier_opt, .specifier_qualifier_list_opt,
   .declarator_opt, .pointer_opt, .type_qualifier_list_opt, .assignment_expression_opt, .identifier_list_opt,
   .abstract_declarator_opt, .direct_abstract_declarator_opt, .parameter_type_list_opt, .designation_opt, .block_item_list_opt,
   .expression_opt, .declaration_list_opt]

def nullableNum (a : Nat) : Bool := cNullable.any fun s => s.num == a

def nullableRules (U : URules) (nul : Nat → Bool) : Bool := U.all fun r => !(r.2.all nul) || nul r.1

theorem nullable_agrees : nullableRules cRules nullableNum = true := by decide +kernel

theorem nullable_sound {nul : Nat → Bool} (hU : nullableRules U nul = true) {a : Nat} (h : UNullable U a) : nul a = true := by
  induction h with
  | rule hk _ ih =>
    have := List.all_eq_true.1 hU _ (List.mem_of_getElem? hk)
    simp only [Bool.or_eq_true, Bool.not_eq_true', List.all_eq_false] at this
    rcases this with ⟨s, hs, h⟩ | h
    · exact absurd (ih s hs) h
    · exact h

def cRank : List Nat := [
  0, 1, 17, 18, 18, 18, 0, 1, 0, 16, 0, 0, 0, 0, 0, 0, 0, 0, 0, 0, 0, 0, 1, 2, 15, 0, 14, 0, 1, 3, 1, 1, 1, 1, 13, 0, 0, 12, 11, 0,
  0, 10, 0, 0, 0, 0, 9, 0, 0, 8, 7, 0, 6, 0, 5, 0, 4, 0, 3, 0, 0, 0, 1, 1, 1, 1, 1, 1, 1, 1, 1, 1, 1, 4, 0, 3, 4, 0, 5, 1,
  5, 0, 5, 5, 5, 2, 3, 1, 6, 6, 6, 6, 6, 6, 6, 6, 6, 6, 6, 6, 6, 6, 6, 6, 6, 6, 6, 6, 0, 0, 0, 1, 1, 1, 1, 0, 0, 1, 0, 0,
  0, 1, 2, 6, 6, 6, 6, 0, 4, 2, 0, 0, 1, 1, 0, 1, 2, 0, 3, 0, 1, 2, 0, 0, 0, 1, 0, 1, 3, 4, 4, 4, 4, 4, 4, 0, 0, 0, 1, 2,
  0, 0, 0, 0, 0, 0, 0, 0, 0, 0, 0, 2, 3, 0, 1]

/-- A symbol of a rule has a higher rank than its left-hand side if the other symbols derive the empty string. -/
def rankRules (U : URules) (nul : Nat → Bool) (rank : Nat → Nat) : Bool := U.all fun r =>
  (List.range r.2.length).all fun j => !((List.range r.2.length).all fun i => i == j || nul (r.2.getD i 0)) || rank r.1 < rank (r.2.getD j 0)

theorem rank_agrees : rankRules cRules nullableNum (fun a => cRank.getD a 0) = true := by decide +kernel

theorem acyclic_of {nul : Nat → Bool} {rank : Nat → Nat} (hn : nullableRules U nul = true) (hU : rankRules U nul rank = true) : UAcyclic U := by
  refine ⟨rank, fun k A rhs j y hk hy hall => ?_⟩
  have hj : j < rhs.length := (List.getElem?_eq_some_iff.1 hy).1
  have h1 := List.all_eq_true.1 (List.all_eq_true.1 hU _ (List.mem_of_getElem? hk)) j (List.mem_range.2 hj)
  simp only [Bool.or_eq_true, Bool.not_eq_true', List.all_eq_false, decide_eq_true_eq] at h1
  have hy' : rhs.getD j 0 = y := by simp [List.getD, hy]
  rw [hy'] at h1
  rcases h1 with ⟨i, hi, h⟩ | h
  · exfalso
    apply h
    by_cases hij : i = j
    · simp [hij]
    · have hi' := List.mem_range.1 hi
      have := nullable_sound hn (hall i (rhs[i]) hij (List.getElem?_eq_getElem hi'))
      have he : rhs.getD i 0 = rhs[i] := by simp [List.getD, hi']
      exact .inr (by rw [he]; exact this)
  · exact h

theorem c_acyclic : UAcyclic cRules := acyclic_of nullable_agrees rank_agrees

/-! ### Checking trees -/

mutual
/-- The symbol and the end of a tree that starts at position `i`. -/
def spanOf (U : URules) (toks : List Nat) : UTree → Nat → Option (Nat × Nat)
  | .leaf a v, i => if toks[i]? = some a ∧ v = i % 2 ^ 32 then some (a, i + 1) else none
  | .empty s, i => if (s, []) ∈ U then some (s, i) else none
  | .node k kids, i => match U[k]? with
    | some (A, rhs) => match spanAll U toks kids rhs i with
      | some j => if i < j then some (A, j) else none
      | none => none
    | none => none
def spanAll (U : URules) (toks : List Nat) : List UTree → List Nat → Nat → Option Nat
  | [], [], i => some i
  | t :: ts, s :: ss, i => match spanOf U toks t i with
    | some (s', k) => if s' = s then spanAll U toks ts ss k else none
    | none => none
  | _, _, _ => none
end

mutual
theorem spanOf_sound {toks : List Nat} : ∀ {t : UTree} {i A j : Nat}, spanOf U toks t i = some (A, j) → UTreeOf U (tokInput toks) t A i j
  | .leaf a v, i, A, j, h => by
    simp only [spanOf] at h
    split at h
    · rename_i hc
      obtain ⟨h1, rfl⟩ := hc
      cases h
      exact .leaf (by simp [tokInput, h1])
    · cases h
  | .empty s, i, A, j, h => by
    simp only [spanOf] at h
    split at h
    · rename_i hc
      cases h
      obtain ⟨k, hk⟩ := List.mem_iff_getElem?.1 hc
      exact .empty (.rule hk (by simp))
    · cases h
  | .node k kids, i, A, j, h => by
    simp only [spanOf] at h
    split at h
    · rename_i A' rhs hk
      split at h
      · rename_i j' hj
        split at h
        · rename_i hlt
          cases h
          exact .node hk (spanAll_sound hj) hlt
        · cases h
      · cases h
    · cases h
theorem spanAll_sound {toks : List Nat} : ∀ {ts : List UTree} {ss : List Nat} {i j : Nat}, spanAll U toks ts ss i = some j →
    UKids U (tokInput toks) ts ss i j
  | [], [], i, j, h => by
    simp only [spanAll] at h
    cases h
    exact .nil
  | t :: ts, s :: ss, i, j, h => by
    simp only [spanAll] at h
    split at h
    · rename_i s' k hk
      split at h
      · rename_i he
        subst he
        exact .cons (spanOf_sound hk) (spanAll_sound h)
      · cases h
    · cases h
  | [], s :: ss, i, j, h => by simp [spanAll] at h
  | t :: ts, [], i, j, h => by simp [spanAll] at h
end

theorem yields_of_tree {N : Names U} {toks : List Nat} {t : UTree} {A : Nat} (ht : ∀ a ∈ toks, UTerminal U a ∧ N.parts a = none)
    (h : UTreeOf U (tokInput toks) t A 0 toks.length) : Yields U A toks := by
  have hin : InputOK U N (tokInput toks) := by
    intro i p hp
    unfold tokInput at hp
    split at hp
    · rename_i a ha
      simp only [List.mem_singleton] at hp
      subst hp
      exact ht a (List.mem_of_getElem? ha)
    · simp at hp
  obtain ⟨u, h1, h2⟩ := UTreeOf.yields hin h
  have h3 := reads_tokInput h2
  have h4 := h2.length
  rw [List.drop_zero] at h3
  have : u = toks := h3.eq_of_length (by omega)
  rw [← this]
  exact h1

end Gearley.CGrammar
