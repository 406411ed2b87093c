import Verif.Proofs.Accept
import Verif.Spec.Session

/-! # What sessions on the specification forest decide -/

namespace Gearley
open Gearley.Spec

/-- The input read by a session, continued by one token per position. -/
def extendBy (steps : List Step) (tail : List Nat) : Input := fun i =>
  if i < steps.length then inputOf steps i else
    match tail[i - steps.length]? with
    | some a => [(a, 0)]
    | none => []

theorem inputOf_eq {steps : List Step} {i : Nat} {st : Step} (h : steps[i]? = some st) : inputOf steps i = st.2 := by
  simp only [inputOf, h]

theorem extendBy_lt {steps : List Step} {tail : List Nat} {i : Nat} (h : i < steps.length) :
    extendBy steps tail i = inputOf steps i := by
  simp only [extendBy, h, if_true]

theorem extendBy_in (steps : List Step) (tail : List Nat) : StepsIn (extendBy steps tail) 0 steps := by
  intro i st h
  rw [Nat.zero_add, extendBy_lt (List.getElem?_eq_some_iff.1 h).1, inputOf_eq h]

theorem extendBy_picks {steps : List Step} {tail w : List Nat} (hw : w.length ≤ steps.length) :
    Picks (extendBy steps tail) 0 w ↔ Picks (inputOf steps) 0 w :=
  ⟨fun h => h.congr fun p _ h2 => extendBy_lt (by omega), fun h => h.congr fun p _ h2 => (extendBy_lt (by omega)).symm⟩

theorem extendBy_tail (steps : List Step) (tail : List Nat) : Picks (extendBy steps tail) steps.length tail := by
  have : ∀ (k : Nat), Picks (extendBy steps tail) (steps.length + k) (tail.drop k) := by
    intro k
    induction hk : tail.length - k generalizing k with
    | zero => rw [List.drop_eq_nil_of_le (by omega)]; trivial
    | succ n ih =>
      rw [List.drop_eq_getElem_cons (by omega)]
      refine ⟨⟨0, ?_⟩, ?_⟩
      · simp only [extendBy]
        rw [if_neg (by omega), Nat.add_sub_cancel_left, List.getElem?_eq_getElem (by omega)]
        simp
      · exact ih (k + 1) (by omega)
  exact this 0

theorem extendBy_tree {R : Rules} {steps : List Step} {tail : List Nat} {t A i j} (hj : j ≤ steps.length) :
    TreeOf R (extendBy steps tail) t A i j ↔ TreeOf R (inputOf steps) t A i j :=
  ⟨fun h => h.congr fun p _ h2 => extendBy_lt (by omega), fun h => h.congr fun p _ h2 => (extendBy_lt (by omega)).symm⟩

theorem extendBy_distinct {steps : List Step} {tail : List Nat} (h : Distinct (inputOf steps)) :
    Distinct (extendBy steps tail) := by
  intro i
  simp only [extendBy]
  split
  · exact h i
  · split <;> simp

theorem extendBy_term {R : Rules} {steps : List Step} {tail : List Nat} (h : TermToks R (inputOf steps))
    (ht : ∀ a ∈ tail, Terminal R a) : TermToks R (extendBy steps tail) := by
  intro i
  simp only [extendBy]
  split
  · exact h i
  · split
    · next a ha => simpa using ht a (List.mem_of_getElem? ha)
    · simp

/-- A form derivable with the picked tokens puts every symbol of it in context. -/
theorem Derives.ctx {R : Rules} {start n : Nat} {inp : Input} {A u} (h : Derives R A u) :
    ∀ α X γ i, u = α ++ X :: γ → Picks inp i u → Ctx R start inp n A i (i + u.length) →
      Ctx R start inp n X (i + α.length) (i + α.length + 1) := by
  induction h with
  | refl A =>
    intro α X γ i he hp hc
    cases α with
    | nil => simp only [List.nil_append, List.cons.injEq] at he; obtain ⟨rfl, rfl⟩ := he; simpa using hc
    | cons a α => simp at he
  | @unary r u hr h1 h2 ih =>
    intro α X γ i he hp hc
    obtain ⟨d, hd⟩ := List.getElem?_of_mem hr
    obtain ⟨l, b, o⟩ := r
    simp only at h1; subst h1
    exact ih α X γ i he hp (.unary hd hc)
  | @binary r C u v hr h1 h2 h3 ih1 ih2 =>
    intro α X γ i he hp hc
    obtain ⟨d, hd⟩ := List.getElem?_of_mem hr
    obtain ⟨l, b, o⟩ := r
    simp only at h1; subst h1
    obtain ⟨hp1, hp2⟩ := picks_append.1 hp
    obtain ⟨t1, ht1⟩ := h2.tree i hp1
    obtain ⟨t2, ht2⟩ := h3.tree (i + u.length) hp2
    have hlen : i + (u ++ v).length = i + u.length + v.length := by simp; omega
    rw [hlen] at hc
    rcases Nat.lt_or_ge α.length u.length with hlt | hge
    · obtain ⟨γ', hu⟩ : ∃ γ', u = α ++ X :: γ' := by
        have h1 := congrArg (List.take u.length) he
        rw [List.take_left, List.take_append, List.take_of_length_le (by omega)] at h1
        obtain ⟨k, hk⟩ : ∃ k, u.length - α.length = k + 1 := ⟨u.length - α.length - 1, by omega⟩
        rw [hk, List.take_succ_cons] at h1
        exact ⟨_, h1⟩
      exact ih1 α X γ' i hu hp1 (.left hd hc ht2)
    · obtain ⟨α', hv⟩ : ∃ α', v = α' ++ X :: γ ∧ α = u ++ α' := by
        have h1 := congrArg (List.drop u.length) he
        rw [List.drop_left, List.drop_append_of_le_length (by omega)] at h1
        refine ⟨_, h1, ?_⟩
        have h2 := congrArg (List.take u.length) he
        rw [List.take_left, List.take_append_of_le_length (by omega)] at h2
        conv_lhs => rw [← List.take_append_drop u.length α]
        rw [← h2]
      have := ih2 α' X γ (i + u.length) hv.1 hp2 (.right hd hc ht1)
      rw [hv.2, List.length_append, ← Nat.add_assoc]
      exact this

theorem hintsOK_of {W : Input} {n : Nat} {T : Nat → Prop} (steps : List Step) (e : Nat) (l : Option Nat)
    (hl : ∀ op toks rest, steps = (op, toks) :: rest → op = .keep → l = none)
    (h : ∀ (i : Nat) (st : Step) (x : Nat), steps[i]? = some st → st.1 = .set x →
      e + i + 1 < n ∧ T x ∧ ∀ t v, (t, v) ∈ W (e + i + 1) → t = x) : HintsOK W n T e l steps := by
  induction steps generalizing e l with
  | nil => trivial
  | cons st rest ih =>
    obtain ⟨op, toks⟩ := st
    refine ⟨?_, ih (e + 1) none (fun _ _ _ _ _ => rfl) ?_⟩
    · intro x hx
      cases op with
      | keep => rw [effHint, hl .keep toks rest rfl rfl] at hx; simp at hx
      | set y =>
        simp only [effHint, Option.some.injEq] at hx
        subst hx
        simpa using h 0 (.set y, toks) y (by simp) rfl
      | clear => simp [effHint] at hx
    · intro i st x hst hx
      have := h (i + 1) st x (by simpa using hst) hx
      rw [show e + 1 + i + 1 = e + (i + 1) + 1 by omega]
      exact this

theorem Honest.hintsOK {T : Nat → Prop} {eof : Nat} {steps : List Step} (h : Honest T eof steps) :
    HintsOK (extendBy steps [eof]) (steps.length + 1) T 0 none steps := by
  refine hintsOK_of steps 0 none (fun _ _ _ _ _ => rfl) ?_
  intro i st x hst hx
  obtain ⟨h1, h2, h3⟩ := h i st x hst hx
  have hi := (List.getElem?_eq_some_iff.1 hst).1
  refine ⟨by omega, h1, ?_⟩
  rw [Nat.zero_add]
  rcases Nat.lt_or_ge (i + 1) steps.length with hlt | hge
  · intro t v ht
    have hs : steps[i + 1]? = some steps[i + 1] := List.getElem?_eq_getElem hlt
    rw [extendBy_lt hlt, inputOf_eq hs] at ht
    exact h2 _ hs _ ht
  · intro t v ht
    have he : i + 1 = steps.length := by omega
    rw [h3 he]
    simp only [extendBy, he, Nat.lt_irrefl, if_false, Nat.sub_self] at ht
    simp at ht
    exact ht.1

theorem NoHints.hintsOK {W : Input} {n : Nat} {T : Nat → Prop} {steps : List Step} (h : NoHints steps) :
    HintsOK W n T 0 none steps := by
  refine hintsOK_of steps 0 none (fun _ _ _ _ _ => rfl) ?_
  intro i st x hst hx
  exact absurd hx (h st (List.mem_of_getElem? hst) x)

section
variable {g : DefaultGrammar} {R : Rules} {root : Nat → Nat} {T : Nat → Prop} {rank : Nat → Nat} {g0 : Nat}
  {la : Bool} {sorter : Sorter}

theorem accepts_iff_tree {steps : List Step} :
    Accepts R g0 steps ↔ ∃ t, TreeOf R (inputOf steps) t g0 0 steps.length := by
  constructor
  · rintro ⟨w, h1, h2, h3⟩
    obtain ⟨t, ht⟩ := h3.tree 0 h2
    exact ⟨t, by simpa [h1] using ht⟩
  · rintro ⟨t, ht⟩
    obtain ⟨u, h1, h2, h3⟩ := ht.derives
    exact ⟨u, by omega, h2, h1⟩

/-- Acceptance by a session, for any prediction relation and any initial state. With `lax` the session may diverge. -/
theorem session_accept' {lax : Prop} (hg : GrammarOK g R root) (hT : LookaheadOK g R T)
    (hg0 : R[g.dotBeforeEof]? = some ⟨g.startSym, g0, some g.eofSym⟩) {steps : List Step} (hne : steps ≠ [])
    (hlen : steps.length < 2 ^ 64 - 1) (hok : StepsOK g steps) {P : Nat → Nat → Prop} {St : Nat → Prop}
    (hP : PredOK R g.startSym (extendBy steps [g.eofSym]) P St) (hP0 : ∀ p, P p g.startSym → p = 0) {s : TRec} {S loc}
    (hs : InvAt g R (extendBy steps [g.eofSym]) (steps.length + 1) True P St s 0 S loc)
    (hh : la = true → HintsOK (extendBy steps [g.eofSym]) (steps.length + 1) T 0 s.lookahead steps)
    (hterm : lax ∨ ∀ k, k < steps.length → SettlesAt R (extendBy steps [g.eofSym]) P k) :
    Ends lax (Rec.session (treeEnv g la sorter) steps s) fun r =>
      (r.2 = true → Returns (Rec.finishedNode (treeEnv g la sorter) r.1) fun N =>
        (N.isSome = true ↔ Accepts R g0 steps) ∧
        ∀ N', N = some N' → (∀ t ∈ N', TreeOf R (inputOf steps) t g0 0 steps.length) ∧
          (Distinct (inputOf steps) → N'.Nodup) ∧
          (TermToks R (inputOf steps) → EC.Late R g0 → ∀ t, TreeOf R (inputOf steps) t g0 0 steps.length → t ∈ N')) ∧
      (r.2 = true → 2 ≤ r.1.medial.len ∧ r.1.medial.len < 2 ^ 64) ∧
      (r.2 = false → ¬ Accepts R g0 steps) := by
  refine (session_inv' hg hT hP steps s 0 S loc hs (by omega) hok (extendBy_in _ _) (fun _ => hh)
    (by simpa only [Nat.zero_add] using hterm)).mono ?_
  rintro ⟨s', ok⟩ ⟨hr, _⟩
  have heof : ∃ v, (g.eofSym, v) ∈ extendBy steps [g.eofSym] steps.length := by
    have := extendBy_tail steps [g.eofSym]
    exact this.1
  rcases hr with ⟨h1, h2⟩ | ⟨h1, i, hi, h2⟩
  · simp only at h1 h2
    subst h1
    rcases h2 with ⟨h2, _⟩ | ⟨_, S', loc', h3, h4, _⟩
    · exact absurd h2 hne
    rw [Nat.zero_add] at h3
    have hSl := h3.sound.length_le h3.rest.pos
    refine ⟨fun _ => ?_, fun _ => ?_, fun h => by simp at h⟩
    · refine (h3.finished hg hP0 h4 (by omega) hg0 (la := la) (sorter := sorter)).mono ?_
      rintro N ⟨n1, n2⟩
      refine ⟨⟨?_, ?_⟩, ?_⟩
      · intro hN
        obtain ⟨N', rfl⟩ := Option.isSome_iff_exists.1 hN
        obtain ⟨a1, a2, _⟩ := n1 N' rfl
        obtain ⟨t, ts, ht⟩ := List.exists_cons_of_ne_nil a1
        exact accepts_iff_tree.2 ⟨t, (extendBy_tree (Nat.le_refl _)).1 (a2 t (by rw [ht]; simp))⟩
      · intro ha
        obtain ⟨t, ht⟩ := accepts_iff_tree.1 ha
        obtain ⟨N', hN, _⟩ := n2 trivial rfl heof t ((extendBy_tree (Nat.le_refl _)).2 ht)
        rw [hN]; rfl
      · intro N' hN
        obtain ⟨a1, a2, a3⟩ := n1 N' hN
        refine ⟨fun t ht => (extendBy_tree (Nat.le_refl _)).1 (a2 t ht), fun hd => a3 (extendBy_distinct hd), ?_⟩
        intro htt hl t ht
        obtain ⟨N'', hN'', hmem⟩ := n2 trivial rfl heof t ((extendBy_tree (Nat.le_refl _)).2 ht)
        rw [hN] at hN''
        simp only [Option.some.injEq] at hN''
        rw [hN'']
        exact hmem (extendBy_term htt (by simpa using hg.eofTerm)) hl
    · simp only [h3.rest.medial, Vec2d.len_eq]
      omega
  · simp only at h1 h2
    subst h1
    refine ⟨fun h => by simp at h, fun h => by simp at h, fun _ ha => ?_⟩
    obtain ⟨t, ht⟩ := accepts_iff_tree.1 ha
    obtain ⟨v, hv⟩ := heof
    obtain ⟨a, b, hab⟩ := h2.tree trivial (by omega) _
      (.binary hg0 ((extendBy_tree (Nat.le_refl _)).2 ht) (.leaf hv))
    simp at hab

/-- Acceptance by a session, for any prediction relation and any initial state. -/
theorem session_accept (hg : GrammarOK g R root) (hT : LookaheadOK g R T) (hrank : EC.Ranked R rank)
    (hg0 : R[g.dotBeforeEof]? = some ⟨g.startSym, g0, some g.eofSym⟩) {steps : List Step} (hne : steps ≠ [])
    (hlen : steps.length < 2 ^ 64 - 1) (hok : StepsOK g steps) {P : Nat → Nat → Prop} {St : Nat → Prop}
    (hP : PredOK R g.startSym (extendBy steps [g.eofSym]) P St) (hP0 : ∀ p, P p g.startSym → p = 0) {s : TRec} {S loc}
    (hs : InvAt g R (extendBy steps [g.eofSym]) (steps.length + 1) True P St s 0 S loc)
    (hh : la = true → HintsOK (extendBy steps [g.eofSym]) (steps.length + 1) T 0 s.lookahead steps) :
    Returns (Rec.session (treeEnv g la sorter) steps s) fun r =>
      (r.2 = true → Returns (Rec.finishedNode (treeEnv g la sorter) r.1) fun N =>
        (N.isSome = true ↔ Accepts R g0 steps) ∧
        ∀ N', N = some N' → (∀ t ∈ N', TreeOf R (inputOf steps) t g0 0 steps.length) ∧
          (Distinct (inputOf steps) → N'.Nodup) ∧
          (TermToks R (inputOf steps) → EC.Late R g0 → ∀ t, TreeOf R (inputOf steps) t g0 0 steps.length → t ∈ N')) ∧
      (r.2 = true → 2 ≤ r.1.medial.len ∧ r.1.medial.len < 2 ^ 64) ∧
      (r.2 = false → ¬ Accepts R g0 steps) :=
  (session_accept' hg hT hg0 hne hlen hok hP hP0 hs hh (.inr fun _ _ => hrank.settlesAt _ _ _)).returns

/-- Acceptance by a session on a fresh recognizer. With `lax` the session may diverge. -/
theorem new_accept' {lax : Prop} (hg : GrammarOK g R root) (hT : LookaheadOK g R T)
    (hg0 : R[g.dotBeforeEof]? = some ⟨g.startSym, g0, some g.eofSym⟩) {steps : List Step} (hne : steps ≠ [])
    (hlen : steps.length < 2 ^ 64 - 1) (hok : StepsOK g steps) (hh : la = true → Honest T g.eofSym steps)
    (hterm : lax ∨ ∀ k, k < steps.length → SettlesAt R (extendBy steps [g.eofSym]) (Pred R g.startSym (extendBy steps [g.eofSym])) k)
    (f : List PTree) : Ends lax (Rec.new (treeEnv g la sorter) f >>= Rec.session (treeEnv g la sorter) steps) fun r =>
      (r.2 = true → Returns (Rec.finishedNode (treeEnv g la sorter) r.1) fun N =>
        (N.isSome = true ↔ Accepts R g0 steps) ∧
        ∀ N', N = some N' → (∀ t ∈ N', TreeOf R (inputOf steps) t g0 0 steps.length) ∧
          (Distinct (inputOf steps) → N'.Nodup) ∧
          (TermToks R (inputOf steps) → EC.Late R g0 → ∀ t, TreeOf R (inputOf steps) t g0 0 steps.length → t ∈ N')) ∧
      (r.2 = true → 2 ≤ r.1.medial.len ∧ r.1.medial.len < 2 ^ 64) ∧
      (r.2 = false → ¬ Accepts R g0 steps) := by
  have hP := pred_predOK (R := R) g.startSym (extendBy steps [g.eofSym])
  refine ends_bind ((new_spec (n := steps.length + 1) (H := True) hg hP f).ends.mono ?_)
  rintro s ⟨hs, hl⟩
  refine session_accept' hg hT hg0 hne hlen hok hP (fun p hp => Pred.anyPred hg hp rfl) hs ?_ hterm
  intro hla
  rw [hl]
  exact (hh hla).hintsOK

/-- Acceptance by a session on a fresh recognizer. -/
theorem new_accept (hg : GrammarOK g R root) (hT : LookaheadOK g R T) (hrank : EC.Ranked R rank)
    (hg0 : R[g.dotBeforeEof]? = some ⟨g.startSym, g0, some g.eofSym⟩) {steps : List Step} (hne : steps ≠ [])
    (hlen : steps.length < 2 ^ 64 - 1) (hok : StepsOK g steps) (hh : la = true → Honest T g.eofSym steps) (f : List PTree) :
    Returns (Rec.new (treeEnv g la sorter) f >>= Rec.session (treeEnv g la sorter) steps) fun r =>
      (r.2 = true → Returns (Rec.finishedNode (treeEnv g la sorter) r.1) fun N =>
        (N.isSome = true ↔ Accepts R g0 steps) ∧
        ∀ N', N = some N' → (∀ t ∈ N', TreeOf R (inputOf steps) t g0 0 steps.length) ∧
          (Distinct (inputOf steps) → N'.Nodup) ∧
          (TermToks R (inputOf steps) → EC.Late R g0 → ∀ t, TreeOf R (inputOf steps) t g0 0 steps.length → t ∈ N')) ∧
      (r.2 = true → 2 ≤ r.1.medial.len ∧ r.1.medial.len < 2 ^ 64) ∧
      (r.2 = false → ¬ Accepts R g0 steps) :=
  (new_accept' hg hT hg0 hne hlen hok hh (.inr fun _ _ => hrank.settlesAt _ _ _) f).returns

/-- Without hints, a session gets through exactly when its input is a viable prefix. -/
theorem new_viable (hg : GrammarOK g R root) (hrank : EC.Ranked R rank) {steps : List Step}
    (hlen : steps.length < 2 ^ 64) (hok : StepsOK g steps) (hn : la = true → NoHints steps)
    (hstart : ∀ st ∈ steps, ∀ t ∈ st.2, t.1 ≠ g.startSym) (f : List PTree) :
    Returns (Rec.new (treeEnv g la sorter) f >>= Rec.session (treeEnv g la sorter) steps) fun r =>
      (r.2 = true ↔ Viable R g.startSym steps) ∧
      (r.2 = true → ∃ S loc, InvAt g R (extendBy steps []) steps.length True
        (Pred R g.startSym (extendBy steps [])) (fun _ => False) r.1 steps.length S loc ∧
        ∀ X, X < g.syms → (r.1.predicted.bit (S.length - 1) X = true ↔
          ∃ w v, w.length = steps.length ∧ Picks (inputOf steps) 0 w ∧ Derives R g.startSym (w ++ X :: v))) := by
  have hT : LookaheadOK g R (fun _ => False) := ⟨fun _ _ _ _ h => h.elim, fun _ _ _ _ _ h => h.elim⟩
  -- the run does not depend on the continuation considered
  have run : ∀ v : List Nat, Returns (Rec.new (treeEnv g la sorter) f >>= Rec.session (treeEnv g la sorter) steps)
      fun r => (r.2 = true ∧ ∃ S loc, InvAt g R (extendBy steps v) (steps.length + v.length) True
        (Pred R g.startSym (extendBy steps v)) (fun _ => False) r.1 steps.length S loc ∧
        (steps = [] ∨ ∃ X a t, Pred R g.startSym (extendBy steps v) a X ∧
          TreeOf R (extendBy steps v) t X a steps.length)) ∨
        (r.2 = false ∧ ∃ i, i < steps.length ∧ Failed g R (extendBy steps v) (steps.length + v.length) True
          (Pred R g.startSym (extendBy steps v)) (fun _ => False) r.1 i) := by
    intro v
    have hP := pred_predOK (R := R) g.startSym (extendBy steps v)
    refine returns_bind ((new_spec (n := steps.length + v.length) (H := True) hg hP f).mono ?_)
    rintro s ⟨hs, hl⟩
    refine (session_inv hg hT hrank hP steps s 0 _ _ hs (by omega) hok (extendBy_in _ _) fun _ hla => by
      rw [hl]; exact (hn hla).hintsOK).mono ?_
    rintro ⟨s', ok⟩ hr
    simp only [Nat.zero_add] at hr
    rcases hr with ⟨h1, h2⟩ | ⟨h1, h2⟩
    · refine .inl ⟨h1, ?_⟩
      rcases h2 with ⟨rfl, rfl⟩ | ⟨_, S', loc', h3, _, _, h6⟩
      · exact ⟨_, _, hs, .inl rfl⟩
      · exact ⟨S', loc', h3, .inr h6⟩
    · exact .inr ⟨h1, h2⟩
  obtain ⟨⟨s, ok⟩, hret, h0⟩ := run []
  refine ⟨_, hret, ?_⟩
  have run' := fun v => (run v).of_eq hret
  simp only at run' h0 ⊢
  -- a derivation with the picked tokens excludes failure
  have excl : ∀ w v, w.length = steps.length → Picks (inputOf steps) 0 w → Derives R g.startSym (w ++ v) → steps ≠ [] →
      ¬ (ok = false ∧ ∃ i, i < steps.length ∧ Failed g R (extendBy steps v) (steps.length + v.length) True
          (Pred R g.startSym (extendBy steps v)) (fun _ => False) s i) := by
    rintro w v hw hp hd hne ⟨_, i, hi, hf⟩
    have hpick : Picks (extendBy steps v) 0 (w ++ v) := by
      refine picks_append.2 ⟨(extendBy_picks (by omega)).2 hp, ?_⟩
      rw [Nat.zero_add, hw]; exact extendBy_tail _ _
    obtain ⟨t, ht⟩ := hd.tree 0 hpick
    rw [Nat.zero_add, List.length_append, hw] at ht
    obtain ⟨a, x, rfl⟩ := hf.tree trivial (by omega) t ht
    have hl0 : 0 < steps.length := List.length_pos_iff.2 hne
    generalize hnn : steps.length + v.length = nn at ht
    cases ht with
    | leaf hm =>
      rw [extendBy_lt hl0, inputOf_eq (List.getElem?_eq_getElem hl0)] at hm
      exact hstart _ (List.getElem_mem hl0) _ hm rfl
  refine ⟨⟨?_, ?_⟩, ?_⟩
  · intro hok1
    rcases h0 with ⟨_, S, loc, hinv, h3⟩ | ⟨h1, _⟩
    · rcases h3 with rfl | ⟨X, a, t, h4, h5⟩
      · exact ⟨[], [g.startSym], rfl, trivial, .refl _⟩
      · obtain ⟨w, v, e1, e2, e3⟩ := h4.prefix h5
        exact ⟨w, v, e2, (extendBy_picks (by omega)).1 e1, e3⟩
    · rw [hok1] at h1; simp at h1
  · rintro ⟨w, v, h1, h2, h3⟩
    by_cases hne : steps = []
    · rcases h0 with ⟨h, _⟩ | ⟨_, i, hi, _⟩
      · exact h
      · rw [hne] at hi; simp at hi
    · rcases run' v with ⟨h, _⟩ | h
      · exact h
      · exact absurd h (excl w v h1 h2 h3 hne)
  · intro hok1
    rcases h0 with ⟨_, S, loc, hinv, _⟩ | ⟨h1, _⟩
    · refine ⟨S, loc, hinv, ?_⟩
      intro X hX
      constructor
      · intro hb
        obtain ⟨w, v, e1, e2, e3⟩ := (hinv.sound.row _ X _ hinv.sound.last hb).viable
        exact ⟨w, v, e2, (extendBy_picks (by omega)).1 e1, e3⟩
      · rintro ⟨w, v, e1, e2, e3⟩
        rcases run' (X :: v) with ⟨_, S2, loc2, hinv2, _⟩ | ⟨h1, _⟩
        · have hS : S2 = S := Vec2d.ofSets_injective (hinv2.rest.medial.symm.trans hinv.rest.medial)
          subst hS
          obtain ⟨hfull, _⟩ := hinv2.full trivial
          have hpick : Picks (extendBy steps (X :: v)) 0 (w ++ X :: v) := by
            refine picks_append.2 ⟨(extendBy_picks (by omega)).2 e2, ?_⟩
            rw [Nat.zero_add, e1]; exact extendBy_tail _ _
          have hlen' : (w ++ X :: v).length = steps.length + (X :: v).length := by simp [e1]
          have hctx := Derives.ctx e3 (start := g.startSym) (n := steps.length + (X :: v).length) w X v 0 rfl hpick (by
            rw [hlen', Nat.zero_add]; exact .root)
          rw [Nat.zero_add, e1] at hctx
          have htail := extendBy_tail steps (X :: v)
          obtain ⟨⟨x, hx⟩, _⟩ := htail
          exact hfull.bits hinv2.rest.closed hinv2.sound.last hctx (.leaf hx) hX
        · rw [hok1] at h1; simp at h1
    · rw [hok1] at h1; simp at h1

end
end Gearley
