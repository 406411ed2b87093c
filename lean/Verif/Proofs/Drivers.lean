import Verif.Model.Drivers
import Verif.Proofs.Transfer

/-! # The convenience parsers run sessions -/

namespace Gearley
open Gearley.Spec
variable {σ ν : Type}

/-- A session that reports the number of positions that succeeded. -/
def sessionCount (E : Env σ ν) : List Step → Rec σ ν → M (Rec σ ν × Nat)
  | [], s => pure (s, 0)
  | (h, toks) :: rest, s => do
    let (s, ok) ← Rec.position E (Rec.applyHint s h) toks
    if ok then do
      let (s, n) ← sessionCount E rest s
      pure (s, n + 1)
    else pure (s, 0)

theorem session_cons {E : Env σ ν} {h : Rec.HintOp} {toks : List (Nat × Nat)} {rest : List Step} {s : Rec σ ν} :
    Rec.session E ((h, toks) :: rest) s = (do
      let (s, ok) ← Rec.position E (Rec.applyHint s h) toks
      if ok then Rec.session E rest s else pure (s, false)) := rfl

/-- A session that returns stops at a definite position. -/
theorem sessionCount_of_session {E : Env σ ν} (steps : List Step) (s : Rec σ ν) {r : Rec σ ν × Bool}
    (h : Rec.session E steps s = pure r) : ∃ n, sessionCount E steps s = pure (r.1, n) ∧ n ≤ steps.length ∧
      (r.2 = true ↔ n = steps.length) ∧
      (∀ k, k ≤ n → ∃ s', Rec.session E (steps.take k) s = pure (s', true)) ∧
      (n < steps.length → Rec.session E (steps.take (n + 1)) s = pure (r.1, false)) := by
  induction steps generalizing s with
  | nil =>
    have := pure_inj_M h
    subst this
    exact ⟨0, rfl, Nat.le_refl _, by simp, fun k hk => ⟨s, by rw [List.take_nil]; rfl⟩, by simp⟩
  | cons st rest ih =>
    obtain ⟨op, toks⟩ := st
    rw [session_cons] at h
    obtain ⟨⟨s1, ok⟩, h1, h2⟩ := bind_eq_pure h
    cases ok with
    | true =>
      simp only [if_true] at h2
      obtain ⟨n, e1, e2, e3, e4, e5⟩ := ih s1 h2
      refine ⟨n + 1, ?_, by simp [e2], by simp [e3], ?_, ?_⟩
      · show (Rec.position E (Rec.applyHint s op) toks >>= _) = _
        rw [h1, pure_bind]
        simp only [if_true]
        rw [e1, pure_bind]
      · intro k hk
        cases k with
        | zero => exact ⟨s, rfl⟩
        | succ k =>
          obtain ⟨s', hs'⟩ := e4 k (by omega)
          refine ⟨s', ?_⟩
          rw [List.take_succ_cons, session_cons, h1, pure_bind]
          simpa using hs'
      · intro hn
        rw [List.take_succ_cons, session_cons, h1, pure_bind]
        simpa using e5 (by simpa using hn)
    | false =>
      simp only [Bool.false_eq_true, if_false] at h2
      have := pure_inj_M h2
      subst this
      refine ⟨0, ?_, by simp, by simp, ?_, ?_⟩
      · show (Rec.position E (Rec.applyHint s op) toks >>= _) = _
        rw [h1, pure_bind]
        rfl
      · intro k hk
        obtain rfl : k = 0 := by omega
        exact ⟨s, rfl⟩
      · intro _
        rw [List.take_succ_cons, session_cons, h1, pure_bind]
        rfl

/-- The steps of the token loop of `parse`. -/
def tokSteps : Nat → List Nat → List Step
  | _, [] => []
  | i, t :: rest => ((match rest with
    | t' :: _ => .set t'
    | [] => .clear), [(t, i % 2 ^ 32)]) :: tokSteps (i + 1) rest

/-- The steps of `parse`. -/
def parseSteps (sof : Nat) (u : List Nat) : List Step := (.keep, [(sof, 0)]) :: tokSteps 0 u

theorem tokSteps_length (i : Nat) (u : List Nat) : (tokSteps i u).length = u.length := by
  induction u generalizing i with
  | nil => rfl
  | cons t u ih => simp [tokSteps, ih]

theorem tokSteps_getElem? (i : Nat) (u : List Nat) (k : Nat) {st : Step} (h : (tokSteps i u)[k]? = some st) :
    ∃ t, u[k]? = some t ∧ st.2 = [(t, (i + k) % 2 ^ 32)] ∧
      st.1 = (match u[k + 1]? with
        | some t' => .set t'
        | none => .clear) := by
  induction u generalizing i k with
  | nil => simp [tokSteps] at h
  | cons t u ih =>
    cases k with
    | zero =>
      simp only [tokSteps, List.getElem?_cons_zero, Option.some.injEq] at h
      subst h
      refine ⟨t, rfl, rfl, ?_⟩
      cases u <;> simp
    | succ k =>
      simp only [tokSteps, List.getElem?_cons_succ] at h
      obtain ⟨t', h1, h2, h3⟩ := ih (i + 1) k h
      exact ⟨t', by simpa using h1, by rw [h2]; congr 3; omega, by simpa using h3⟩

/-- The translation of external tokens. -/
def Internals (g : DefaultGrammar) (toks u : List Nat) : Prop :=
  List.Forall₂ (fun t x => g.toInternal t = pure (some x)) toks u

theorem internal_eq {E : Env σ ν} {t x : Nat} (h : E.g.toInternal t = pure (some x)) : Rec.internal E t = pure x := by
  unfold Rec.internal
  rw [h, pure_bind]; rfl

theorem position_one {E : Env σ ν} {s : Rec σ ν} {x v : Nat} :
    Rec.position E s [(x, v)] = (do
      let s ← Rec.scan E s.beginEarleme x v
      Rec.endEarlemeWith E (Rec.completeAll E) s) := by
  unfold Rec.position Rec.positionWith Rec.scanAll
  simp only [List.foldlM_cons, List.foldlM_nil]
  simp

theorem parseLoop_cons {E : Env σ ν} {t x i : Nat} {toks u : List Nat} {s : Rec σ ν} (htx : E.g.toInternal t = pure (some x))
    (hu : Internals E.g toks u) : Rec.parseLoop E (Rec.completeAll E) i (t :: toks) s = (do
        let (s, ok) ← Rec.position E (Rec.applyHint s (match (generalizing := false) u with
          | t' :: _ => .set t'
          | [] => .clear)) [(x, i % 2 ^ 32)]
        if ok then Rec.parseLoop E (Rec.completeAll E) (i + 1) toks s else pure (s, .error (.parse [t] i))) := by
  rw [position_one, bind_assoc]
  cases hu with
  | nil =>
    simp only [Rec.parseLoop, internal_eq htx, pure_bind]
    rfl
  | cons h2 _ =>
    simp only [Rec.parseLoop, internal_eq htx, internal_eq h2, pure_bind]
    rfl

theorem parseLoop_spec {E : Env σ ν} (toks u : List Nat) (i : Nat) (s : Rec σ ν) (hu : Internals E.g toks u)
    {s' : Rec σ ν} {n : Nat} (h : sessionCount E (tokSteps i u) s = pure (s', n)) :
    (n = u.length → Rec.parseLoop E (Rec.completeAll E) i toks s = (do
      let b ← Rec.isFinished E s'
      pure (s', .ok b))) ∧
    (n ≠ u.length → ∃ t, toks[n]? = some t ∧
      Rec.parseLoop E (Rec.completeAll E) i toks s = pure (s', .error (.parse [t] (i + n)))) := by
  induction hu generalizing i s n with
  | nil =>
    have := pure_inj_M h
    simp only [Prod.mk.injEq] at this
    obtain ⟨rfl, rfl⟩ := this
    exact ⟨fun _ => rfl, fun h => by simp at h⟩
  | @cons t x toks u htx hu ih =>
    have key := parseLoop_cons (E := E) (i := i) (s := s) htx hu
    unfold tokSteps sessionCount at h
    obtain ⟨⟨s1, ok⟩, h1, h2⟩ := bind_eq_pure h
    rw [key, h1, pure_bind]
    cases ok with
    | true =>
      simp only [if_true] at h2 ⊢
      obtain ⟨⟨s2, m⟩, h3, h4⟩ := bind_eq_pure h2
      have := pure_inj_M h4
      simp only [Prod.mk.injEq] at this
      obtain ⟨rfl, rfl⟩ := this
      obtain ⟨a, b⟩ := ih (i + 1) s1 h3
      refine ⟨fun hm => a (by simpa using hm), fun hm => ?_⟩
      obtain ⟨t', ht', hr⟩ := b (by simpa using hm)
      exact ⟨t', by simpa using ht', by rw [hr, show i + 1 + m = i + (m + 1) by omega]⟩
    | false =>
      simp only [Bool.false_eq_true, if_false] at h2 ⊢
      have := pure_inj_M h2
      simp only [Prod.mk.injEq] at this
      obtain ⟨rfl, rfl⟩ := this
      exact ⟨fun hm => by simp at hm, fun _ => ⟨t, rfl, rfl⟩⟩

/-- `parse` is the session of its steps. -/
theorem parse_spec {E : Env σ ν} {toks u : List Nat} {s : Rec σ ν} (hu : Internals E.g toks u)
    {s' : Rec σ ν} {n : Nat} (h : sessionCount E (parseSteps E.g.sofSym u) s = pure (s', n)) :
    (n = u.length + 1 → Rec.parse E s toks = (do
      let b ← Rec.isFinished E s'
      pure (s', .ok b))) ∧
    (n = 0 → Rec.parse E s toks = pure (s', .error (.parse [E.g.sofSym] 0))) ∧
    (∀ k, n = k + 1 → k ≠ u.length → ∃ t, toks[k]? = some t ∧
      Rec.parse E s toks = pure (s', .error (.parse [t] k))) := by
  unfold parseSteps sessionCount at h
  obtain ⟨⟨s1, ok⟩, h1, h2⟩ := bind_eq_pure h
  have h1' : Rec.readSof E (Rec.completeAll E) s = pure (s1, ok) := by
    rw [← h1, position_one]; rfl
  unfold Rec.parse Rec.parseWith
  rw [h1', pure_bind]
  cases ok with
  | true =>
    simp only [if_true] at h2 ⊢
    obtain ⟨⟨s2, m⟩, h3, h4⟩ := bind_eq_pure h2
    have := pure_inj_M h4
    simp only [Prod.mk.injEq] at this
    obtain ⟨rfl, rfl⟩ := this
    obtain ⟨a, b⟩ := parseLoop_spec toks u 0 s1 hu h3
    refine ⟨fun hm => a (by omega), fun hm => by omega, fun k hk hne => ?_⟩
    obtain rfl : m = k := by omega
    obtain ⟨t, ht, hr⟩ := b hne
    exact ⟨t, ht, by rw [hr, Nat.zero_add]⟩
  | false =>
    simp only [Bool.false_eq_true, if_false] at h2 ⊢
    have := pure_inj_M h2
    simp only [Prod.mk.injEq] at this
    obtain ⟨rfl, rfl⟩ := this
    exact ⟨fun hm => by omega, fun _ => rfl, fun k hk => by omega⟩

theorem parseLoop_diverges {E : Env σ ν} (toks u : List Nat) (i : Nat) (s : Rec σ ν) (hu : Internals E.g toks u)
    (h : Rec.session E (tokSteps i u) s = diverge) : Rec.parseLoop E (Rec.completeAll E) i toks s = diverge := by
  induction hu generalizing i s with
  | nil => exact absurd h.symm diverge_ne_pure
  | @cons t x toks u htx hu ih =>
    rw [parseLoop_cons htx hu]
    unfold tokSteps at h
    rw [session_cons] at h
    rcases hp : Rec.position E (Rec.applyHint s (match (generalizing := false) u with
          | t' :: _ => .set t'
          | [] => .clear)) [(x, i % 2 ^ 32)] with _ | (p | ⟨s1, ok⟩)
    · rfl
    · rw [hp] at h
      exact absurd (show (some (.error _) : Option (Except Panic _)) = none from h) (by simp)
    · rw [hp] at h
      cases ok with
      | true => exact ih (i + 1) s1 h
      | false => exact absurd h.symm diverge_ne_pure

/-- `parse` does not return if the session of its steps does not. -/
theorem parse_diverges {E : Env σ ν} {toks u : List Nat} {s : Rec σ ν} (hu : Internals E.g toks u)
    (h : Rec.session E (parseSteps E.g.sofSym u) s = diverge) : Rec.parse E s toks = diverge := by
  rw [parseSteps, session_cons] at h
  unfold Rec.parse Rec.parseWith
  have h1 : Rec.readSof E (Rec.completeAll E) s = Rec.position E (Rec.applyHint s .keep) [(E.g.sofSym, 0)] := by
    rw [position_one]; rfl
  rw [h1]
  rcases hp : Rec.position E (Rec.applyHint s .keep) [(E.g.sofSym, 0)] with _ | (p | ⟨s1, ok⟩)
  · rfl
  · rw [hp] at h
    exact absurd (show (some (.error _) : Option (Except Panic _)) = none from h) (by simp)
  · rw [hp] at h
    cases ok with
    | true => exact parseLoop_diverges toks u 0 s1 hu h
    | false => exact absurd h.symm diverge_ne_pure

/-- The steps of `parse_tokenizing`. -/
def charSteps (lex : Nat → List Nat) (input : List Nat) : List Step :=
  input.map fun ch => (.keep, (lex ch).map fun x => (x, ch))

theorem scanChar_eq {E : Env σ ν} {ts us : List Nat} (h : Internals E.g ts us) (ch : Nat) (s : Rec σ ν) :
    Rec.scanChar E ts ch s = Rec.scanAll E s (us.map fun x => (x, ch)) := by
  unfold Rec.scanChar Rec.scanAll
  induction h generalizing s with
  | nil => rfl
  | cons h1 _ ih =>
    simp only [List.foldlM_cons, List.map_cons, internal_eq h1, pure_bind]
    congr 1
    funext s'
    exact ih s'

theorem charLoop_spec {E : Env σ ν} {lexer lex : Nat → List Nat} (input : List Nat)
    (hlex : ∀ ch ∈ input, Internals E.g (lexer ch) (lex ch)) (i : Nat) (s : Rec σ ν) {s' : Rec σ ν} {n : Nat}
    (h : sessionCount E (charSteps lex input) s = pure (s', n)) :
    (n = input.length → Rec.charLoop E (Rec.completeAll E) lexer i input s = pure (s', none)) ∧
    (n ≠ input.length → ∃ ch, input[n]? = some ch ∧
      Rec.charLoop E (Rec.completeAll E) lexer i input s = pure (s', some (.parse (lexer ch) (i + n)))) := by
  induction input generalizing i s n with
  | nil =>
    have := pure_inj_M h
    simp only [Prod.mk.injEq] at this
    obtain ⟨rfl, rfl⟩ := this
    exact ⟨fun _ => rfl, fun h => by simp at h⟩
  | cons ch rest ih =>
    have key : Rec.charLoop E (Rec.completeAll E) lexer i (ch :: rest) s = (do
        let (s, ok) ← Rec.position E s ((lex ch).map fun x => (x, ch))
        if ok then Rec.charLoop E (Rec.completeAll E) lexer (i + 1) rest s
        else pure (s, some (.parse (lexer ch) i))) := by
      conv => lhs; unfold Rec.charLoop
      unfold Rec.position Rec.positionWith
      rw [scanChar_eq (hlex ch (by simp)), bind_assoc]
    rw [charSteps, List.map_cons] at h
    unfold sessionCount at h
    obtain ⟨⟨s1, ok⟩, h1, h2⟩ := bind_eq_pure h
    have h1 : Rec.position E s ((lex ch).map fun x => (x, ch)) = pure (s1, ok) := h1
    rw [key, h1, pure_bind]
    cases ok with
    | true =>
      simp only [if_true] at h2 ⊢
      obtain ⟨⟨s2, m⟩, h3, h4⟩ := bind_eq_pure h2
      have := pure_inj_M h4
      simp only [Prod.mk.injEq] at this
      obtain ⟨rfl, rfl⟩ := this
      obtain ⟨a, b⟩ := ih (fun c hc => hlex c (by simp [hc])) (i + 1) s1 h3
      refine ⟨fun hm => a (by simpa using hm), fun hm => ?_⟩
      obtain ⟨t', ht', hr⟩ := b (by simpa using hm)
      exact ⟨t', by simpa using ht', by rw [hr, show i + 1 + m = i + (m + 1) by omega]⟩
    | false =>
      simp only [Bool.false_eq_true, if_false] at h2 ⊢
      have := pure_inj_M h2
      simp only [Prod.mk.injEq] at this
      obtain ⟨rfl, rfl⟩ := this
      exact ⟨fun hm => by simp at hm, fun _ => ⟨ch, rfl, rfl⟩⟩

end Gearley
