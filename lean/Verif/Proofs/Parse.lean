import Verif.Proofs.Setup

/-! # Outcomes of `parse` and of sessions for any safe forest -/

namespace Gearley
open Gearley.Spec
variable {σ ν : Type} {c : Cfg} {n : Nat} {w : WrappedRoot} {root rank : Nat → Nat} {g0 : Nat}

/-- Tokens are known symbols and values fit 32 bits. -/
def TokensOK (syms : Nat) (steps : List Step) : Prop := ∀ st ∈ steps, ∀ t ∈ st.2, t.1 < syms ∧ t.2 < 2 ^ 32

/-- Hints are ordinary symbols. -/
def HintsIn (syms : Nat) (steps : List Step) : Prop := ∀ st ∈ steps, ∀ x, st.1 = .set x → x < syms

theorem stepsOK_of0 {g : DefaultGrammar} (h : Ready0 c n w g root g0) {steps : List Step}
    (h1 : TokensOK c.numSyms steps) (h2 : HintsIn n steps) : StepsOK g steps := by
  intro st hst
  exact ⟨fun x hx => by rw [h.syms]; exact h2 st hst x hx, fun t ht => by rw [h.all]; exact (h1 st hst t ht).1⟩

theorem stepsOK_of {g : DefaultGrammar} (h : Ready c n w g root rank g0) {steps : List Step}
    (h1 : TokensOK c.numSyms steps) (h2 : HintsIn n steps) : StepsOK g steps := stepsOK_of0 h.toReady0 h1 h2

/-- The recognizer gets through the input. With every forest that does not panic the outcome is the same (`safe_rel`). -/
def Terminates (g : DefaultGrammar) (la : Bool) (so : Sorter) (steps : List Step) : Prop :=
  ∃ r, (Rec.new (treeEnv g la so) [] >>= Rec.session (treeEnv g la so) steps) = pure r

theorem Ready.terminates {g : DefaultGrammar} (h : Ready c n w g root rank g0) {steps : List Step} (h1 : TokensOK c.numSyms steps)
    (h2 : HintsIn n steps) (hlen : steps.length < 2 ^ 64) {la : Bool} {so : Sorter} : Terminates g la so steps := by
  obtain ⟨r, h3, _⟩ := session_sound (la := la) (so := so) h.ok h.ranked hlen (stepsOK_of h h1 h2) []
  exact ⟨r, h3⟩

theorem env_eta {E : Env σ ν} (hleo : E.leo = false) : FSim.env E.g E.lookahead false E.sorter E.F = E := by
  cases E; simp only at hleo; subst hleo; rfl

/-- Running with a safe forest: the outcome is that of the specification forest. -/
theorem safe_rel {E : Env σ ν} (hleo : E.leo = false) (h : Ready0 c n w E.g root g0) {f : σ}
    (hF : SafeStart E.F f c.rules.length c.numSyms) {steps : List Step} (htok : TokensOK c.numSyms steps) (f0 : List PTree) :
    RelM False (Rec.new E f >>= Rec.session E steps) (Rec.new (treeEnv E.g E.lookahead E.sorter) f0 >>=
      Rec.session (treeEnv E.g E.lookahead E.sorter) steps) fun a b => a.2 = b.2 := by
  obtain ⟨okDot, okLeaf, S, w0, hI, hd, hl⟩ := hF
  have := sim_rel (la := E.lookahead) (so := E.sorter) S.sim (h.dots hd) (f0 := f0) (w := w0) hI (steps := steps)
    (fun st hst p hp => hl p.1 p.2 (htok st hst p hp).1 (htok st hst p hp).2)
  rw [env_eta hleo] at this
  exact this.mono fun a b ⟨_, _, _, h⟩ => h

/-- Running with a safe forest. -/
theorem safe_run' {lax : Prop} {E : Env σ ν} (hleo : E.leo = false) (h : Ready0 c n w E.g root g0) {f : σ}
    (hF : SafeStart E.F f c.rules.length c.numSyms) {steps : List Step} (htok : TokensOK c.numSyms steps)
    {Q : Rec (List PTree) (List PTree) × Bool → Prop}
    (hq : ∀ f0, Ends lax (Rec.new (treeEnv E.g E.lookahead E.sorter) f0 >>=
      Rec.session (treeEnv E.g E.lookahead E.sorter) steps) Q) :
    Ends lax (Rec.new E f >>= Rec.session E steps) fun r => ∃ r0, Q r0 ∧ r.2 = r0.2 ∧
      r.1.predicted = r0.1.predicted ∧ r.1.medial.len = r0.1.medial.len ∧
      (VRel (fun (a : Item ν) (b : Item (List PTree)) => a.dot = b.dot ∧ a.origin = b.origin) r.1.medial r0.1.medial) ∧
      r.1.lookahead = r0.1.lookahead := by
  obtain ⟨okDot, okLeaf, S, w0, hI, hd, hl⟩ := hF
  have := sim_run' (lax := lax) (la := E.lookahead) (so := E.sorter) S.sim (h.dots hd) (f0 := []) (w := w0) hI
    (fun st hst p hp => hl p.1 p.2 (htok st hst p hp).1 (htok st hst p hp).2) (hq [])
  rw [env_eta hleo] at this
  refine this.mono ?_
  rintro r ⟨r0, w', h1, h2, h3⟩
  exact ⟨r0, h1, h3, h2.predicted, h2.medial.len, h2.medial.mono fun a b hab => ⟨hab.1, hab.2.1⟩, h2.lookahead⟩

theorem safe_run {E : Env σ ν} (hleo : E.leo = false) (h : Ready c n w E.g root rank g0) {f : σ}
    (hF : SafeStart E.F f c.rules.length c.numSyms) {steps : List Step} (htok : TokensOK c.numSyms steps)
    {Q : Rec (List PTree) (List PTree) × Bool → Prop}
    (hq : ∀ f0, Returns (Rec.new (treeEnv E.g E.lookahead E.sorter) f0 >>=
      Rec.session (treeEnv E.g E.lookahead E.sorter) steps) Q) :
    Returns (Rec.new E f >>= Rec.session E steps) fun r => ∃ r0, Q r0 ∧ r.2 = r0.2 ∧
      r.1.predicted = r0.1.predicted ∧ r.1.medial.len = r0.1.medial.len ∧
      (VRel (fun (a : Item ν) (b : Item (List PTree)) => a.dot = b.dot ∧ a.origin = b.origin) r.1.medial r0.1.medial) ∧
      r.1.lookahead = r0.1.lookahead :=
  (safe_run' (lax := False) hleo h.toReady0 hF htok fun f0 => (hq f0).ends).returns

/-- Acceptance with a safe forest. With `lax` the session may diverge. -/
theorem safe_accept' {lax : Prop} {E : Env σ ν} (hleo : E.leo = false) (h : Ready0 c n w E.g root g0) {f : σ}
    (hF : SafeStart E.F f c.rules.length c.numSyms) {steps : List Step} (htok : TokensOK c.numSyms steps)
    (hin : HintsIn n steps) (hne : steps ≠ []) (hlen : steps.length < 2 ^ 64 - 1)
    (hh : E.lookahead = true → Honest (fun t => t < n ∧ Terminal (rulesOf c) t) w.eof steps)
    (hterm : lax ∨ ∀ k, k < steps.length → SettlesAt (rulesOf c) (extendBy steps [w.eof]) (Pred (rulesOf c) w.root (extendBy steps [w.eof])) k) :
    Ends lax (Rec.new E f >>= Rec.session E steps) fun r =>
      (r.2 = true → Returns (Rec.isFinished E r.1) fun b => b = true ↔ Accepts (rulesOf c) g0 steps) ∧
      (r.2 = false → ¬ Accepts (rulesOf c) g0 steps) := by
  obtain ⟨okDot, okLeaf, S, w0, hI, hd, hl⟩ := hF
  have := sim_accept' (lax := lax) (la := E.lookahead) (so := E.sorter) S.sim (h.dots hd) (f0 := []) (w := w0) hI h.ok h.look
    h.rule hne hlen (stepsOK_of0 h htok hin) (fun st hst p hp => hl p.1 p.2 (htok st hst p hp).1 (htok st hst p hp).2)
    (by rw [h.eof]; exact hh)
    (by rw [h.eof, h.start]; exact hterm)
  rw [env_eta hleo] at this
  refine this.mono ?_
  rintro r ⟨_, h1, _, h2⟩
  refine ⟨fun ht => ?_, h2⟩
  unfold Rec.isFinished
  refine returns_bind ((h1 ht).mono ?_)
  rintro N ⟨hN, _⟩
  exact returns_pure hN

/-- Acceptance with a safe forest. -/
theorem safe_accept {E : Env σ ν} (hleo : E.leo = false) (h : Ready c n w E.g root rank g0) {f : σ}
    (hF : SafeStart E.F f c.rules.length c.numSyms) {steps : List Step} (htok : TokensOK c.numSyms steps)
    (hin : HintsIn n steps) (hne : steps ≠ []) (hlen : steps.length < 2 ^ 64 - 1)
    (hh : E.lookahead = true → Honest (fun t => t < n ∧ Terminal (rulesOf c) t) w.eof steps) :
    Returns (Rec.new E f >>= Rec.session E steps) fun r =>
      (r.2 = true → Returns (Rec.isFinished E r.1) fun b => b = true ↔ Accepts (rulesOf c) g0 steps) ∧
      (r.2 = false → ¬ Accepts (rulesOf c) g0 steps) :=
  (safe_accept' hleo h.toReady0 hF htok hin hne hlen hh (.inr fun _ _ => h.ranked.settlesAt _ _ _)).returns

/-! ### The steps of `parse` -/

variable {u : List Nat} {sof : Nat}

theorem parseSteps_length : (parseSteps sof u).length = u.length + 1 := by simp [parseSteps, tokSteps_length]

theorem parseSteps_get {k : Nat} {st : Step} (h : (parseSteps sof u)[k]? = some st) :
    (∃ v, (sof :: u)[k]? = some v ∧ ∃ x, x < 2 ^ 32 ∧ st.2 = [(v, x)]) ∧
    ∀ x, st.1 = .set x → (sof :: u)[k + 1]? = some x ∧ 0 < k := by
  cases k with
  | zero =>
    simp only [parseSteps, List.getElem?_cons_zero, Option.some.injEq] at h
    subst h
    exact ⟨⟨sof, rfl, 0, by decide, rfl⟩, by simp⟩
  | succ k =>
    simp only [parseSteps, List.getElem?_cons_succ] at h
    obtain ⟨t, h1, h2, h3⟩ := tokSteps_getElem? 0 u k h
    refine ⟨⟨t, by simpa using h1, _, Nat.mod_lt _ (by decide), h2⟩, ?_⟩
    intro x hx
    rw [h3] at hx
    cases hk : u[k + 1]? with
    | none => rw [hk] at hx; simp at hx
    | some t' => rw [hk] at hx; simp only [Rec.HintOp.set.injEq] at hx; subst hx; exact ⟨by simpa using hk, by omega⟩

theorem parseSteps_tokens {m : Nat} (hs : sof < m) (hu : ∀ t ∈ u, t < m) : TokensOK m (parseSteps sof u) := by
  intro st hst t ht
  obtain ⟨k, hk⟩ := List.getElem?_of_mem hst
  obtain ⟨⟨v, h1, x, hx, h2⟩, _⟩ := parseSteps_get hk
  rw [h2] at ht
  simp only [List.mem_singleton] at ht
  subst ht
  have := List.mem_of_getElem? h1
  simp only [List.mem_cons] at this
  exact ⟨this.elim (fun h => h ▸ hs) (hu v), hx⟩

theorem parseSteps_hints {m : Nat} (hu : ∀ t ∈ u, t < m) : HintsIn m (parseSteps sof u) := by
  intro st hst x hx
  obtain ⟨k, hk⟩ := List.getElem?_of_mem hst
  have := ((parseSteps_get hk).2 x hx).1
  exact hu x (List.mem_of_getElem? (by simpa using this))

theorem parseSteps_honest {T : Nat → Prop} {eof : Nat} (hu : ∀ t ∈ u, T t) : Honest T eof (parseSteps sof u) := by
  intro i st x hst hx
  have h1 := ((parseSteps_get hst).2 x hx).1
  refine ⟨hu x (List.mem_of_getElem? (by simpa using h1)), ?_, ?_⟩
  · intro st' hst' t ht
    obtain ⟨⟨v, h2, y, _, h3⟩, _⟩ := parseSteps_get hst'
    rw [h3] at ht
    simp only [List.mem_singleton] at ht
    subst ht
    rw [h1] at h2
    exact (Option.some.inj h2).symm
  · intro he
    rw [parseSteps_length] at he
    have := (List.getElem?_eq_some_iff.1 h1).1
    simp at this
    omega

theorem picks_of_get {inp : Input} {i : Nat} {v : List Nat} (h : ∀ k a, v[k]? = some a → ∃ x, (a, x) ∈ inp (i + k)) :
    Picks inp i v := by
  induction v generalizing i with
  | nil => trivial
  | cons a v ih =>
    refine ⟨h 0 a rfl, ih fun k b hb => ?_⟩
    rw [Nat.add_assoc, Nat.add_comm 1 k]
    exact h (k + 1) b (by simpa using hb)

theorem picks_get {inp : Input} {i : Nat} {v : List Nat} (h : Picks inp i v) {k a : Nat} (hk : v[k]? = some a) :
    ∃ x, (a, x) ∈ inp (i + k) := by
  induction v generalizing i k with
  | nil => simp at hk
  | cons b v ih =>
    cases k with
    | zero => simp only [List.getElem?_cons_zero, Option.some.injEq] at hk; subst hk; exact h.1
    | succ k =>
      have := ih h.2 (by simpa using hk)
      rwa [Nat.add_assoc, Nat.add_comm 1 k] at this

theorem parseSteps_input (m : Nat) {v : List Nat} (hv : v.length = ((parseSteps sof u).take m).length) :
    Picks (inputOf ((parseSteps sof u).take m)) 0 v ↔ v = (sof :: u).take m := by
  have hlen : ((parseSteps sof u).take m).length = ((sof :: u).take m).length := by
    simp [parseSteps_length]
  constructor
  · intro h
    apply List.ext_getElem?
    intro k
    rcases Nat.lt_or_ge k v.length with hk | hk
    · obtain ⟨x, hx⟩ := picks_get h (List.getElem?_eq_getElem hk)
      rw [Nat.zero_add] at hx
      have hk' : k < ((parseSteps sof u).take m).length := by omega
      rw [inputOf_eq (List.getElem?_eq_getElem hk')] at hx
      have hget : (parseSteps sof u)[k]? = some ((parseSteps sof u).take m)[k] := by
        rw [← List.getElem?_eq_getElem hk', List.getElem?_take_of_lt]
        rw [List.length_take] at hk'
        omega
      obtain ⟨⟨t, h1, y, _, h2⟩, _⟩ := parseSteps_get hget
      rw [h2] at hx
      simp only [List.mem_singleton, Prod.mk.injEq] at hx
      rw [List.getElem?_eq_getElem hk, hx.1, List.getElem?_take_of_lt, h1]
      rw [List.length_take] at hk'
      omega
    · rw [List.getElem?_eq_none hk, List.getElem?_eq_none]
      omega
  · rintro rfl
    refine picks_of_get fun k a hk => ?_
    have hk1 := (List.getElem?_eq_some_iff.1 hk).1
    have hk' : k < ((parseSteps sof u).take m).length := by omega
    have hm : k < m := by rw [List.length_take] at hk'; omega
    rw [Nat.zero_add, inputOf_eq (List.getElem?_eq_getElem hk')]
    have hget : (parseSteps sof u)[k]? = some ((parseSteps sof u).take m)[k] := by
      rw [← List.getElem?_eq_getElem hk', List.getElem?_take_of_lt hm]
    obtain ⟨⟨t, h1, y, _, h2⟩, _⟩ := parseSteps_get hget
    rw [List.getElem?_take_of_lt hm, h1] at hk
    obtain rfl := Option.some.inj hk
    exact ⟨y, by rw [h2]; simp⟩

theorem parseSteps_accepts (h : Ready0 c n w g root g0) :
    Accepts (rulesOf c) g0 (parseSteps sof u) ↔ Derives (rulesOf c) w.root (sof :: u ++ [w.eof]) := by
  rw [h.accepts]
  have h0 := fun v hv => parseSteps_input (sof := sof) (u := u) (u.length + 1) (v := v) hv
  rw [List.take_of_length_le (by rw [parseSteps_length]), List.take_of_length_le (by simp)] at h0
  constructor
  · rintro ⟨v, h1, h2, h3⟩
    rw [(h0 v h1).1 h2] at h3
    exact h3
  · intro h1
    refine ⟨sof :: u, by simp [parseSteps_length], (h0 _ (by simp [parseSteps_length])).2 rfl, h1⟩

theorem parseSteps_viable {start m : Nat} :
    Viable (rulesOf c) start ((parseSteps sof u).take m) ↔ ViablePrefix (rulesOf c) start ((sof :: u).take m) := by
  have hlen : ((sof :: u).take m).length = ((parseSteps sof u).take m).length := by simp [parseSteps_length]
  constructor
  · rintro ⟨v, x, h1, h2, h3⟩
    rw [(parseSteps_input m h1).1 h2] at h3
    exact ⟨x, h3⟩
  · rintro ⟨x, h⟩
    exact ⟨_, x, hlen, (parseSteps_input m hlen).2 rfl, h⟩

/-- Honest and consistent hints for a continuation. -/
theorem parseSteps_hintsOK {T : Nat → Prop} {m : Nat} {v : List Nat} (hu : ∀ t ∈ u, T t)
    (hv : 1 < m → m < u.length + 1 → v.head? = (sof :: u)[m]?) :
    HintsOK (extendBy ((parseSteps sof u).take m) v) (((parseSteps sof u).take m).length + v.length) T 0 none
      ((parseSteps sof u).take m) := by
  refine hintsOK_of _ 0 none (fun _ _ _ _ _ => rfl) ?_
  intro i st x hst hx
  have hi := (List.getElem?_eq_some_iff.1 hst).1
  have him : i < m := by rw [List.length_take] at hi; omega
  rw [List.getElem?_take_of_lt him] at hst
  obtain ⟨hx', hi0⟩ := (parseSteps_get hst).2 x hx
  have hxl := (List.getElem?_eq_some_iff.1 hx').1
  have hT := hu x (List.mem_of_getElem? (by simpa using hx'))
  simp only [List.length_cons] at hxl
  rw [Nat.zero_add]
  rcases Nat.lt_or_ge (i + 1) ((parseSteps sof u).take m).length with hlt | hge
  · refine ⟨by omega, hT, ?_⟩
    intro t y ht
    have him' : i + 1 < m := by rw [List.length_take] at hlt; omega
    have hget : ((parseSteps sof u).take m)[i + 1]? = (parseSteps sof u)[i + 1]? := List.getElem?_take_of_lt him'
    rw [extendBy_lt hlt, inputOf_eq (List.getElem?_eq_getElem hlt)] at ht
    rw [List.getElem?_eq_getElem hlt] at hget
    obtain ⟨⟨t', h1, z, _, h2⟩, _⟩ := parseSteps_get hget.symm
    rw [h2] at ht
    simp only [List.mem_singleton, Prod.mk.injEq] at ht
    rw [hx'] at h1
    rw [ht.1]
    exact (Option.some.inj h1).symm
  · have hm : i + 1 = m := by
      rw [List.length_take, parseSteps_length] at hge
      omega
    subst hm
    have hlen : ((parseSteps sof u).take (i + 1)).length = i + 1 := by
      rw [List.length_take, parseSteps_length]; omega
    have hh := hv (by omega) (by omega)
    rw [hx'] at hh
    cases v with
    | nil => simp at hh
    | cons a v =>
      simp only [List.head?_cons, Option.some.injEq] at hh
      subst hh
      refine ⟨by rw [hlen]; simp, hT, ?_⟩
      intro t y ht
      simp only [extendBy, hlen, Nat.lt_irrefl, if_false, Nat.sub_self] at ht
      simp at ht
      exact ht.1

end Gearley
