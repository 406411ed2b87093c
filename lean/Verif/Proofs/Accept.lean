import Verif.Proofs.Run
import Verif.Proofs.Viable

/-! # Acceptance, viable prefixes and predictions of whole sessions -/

namespace Gearley
open Gearley.Spec

section
variable {g : DefaultGrammar} {R : Rules} {root : Nat → Nat}

theorem pred_predOK (start : Nat) (W : Input) : PredOK R start W (Pred R start W) fun _ => False :=
  ⟨.start, fun _ _ _ h hc => .corner h hc, fun _ _ _ _ _ _ _ hr h ht => .medial hr h ht, fun _ _ _ h => h.elim⟩

/-- The weakest usable prediction relation: the start symbol is predicted at the start only. -/
def AnyPred (start : Nat) (p X : Nat) : Prop := X = start → p = 0

theorem any_predOK (hg : GrammarOK g R root) (W : Input) :
    PredOK R g.startSym W (AnyPred g.startSym) fun X => X ≠ g.startSym where
  start := fun _ => rfl
  corner := by
    rintro p A B _ ⟨r, hr, _, h0⟩ hB
    exact absurd (h0.trans hB) (hg.startNot0 r hr)
  medial := by
    rintro d A B C q p t hr _ _ hC
    exact absurd (by rw [← hC]) (hg.startNot1 _ (List.mem_of_getElem? hr))
  stale := fun p X _ h hX => absurd hX h

theorem Pred.anyPred (hg : GrammarOK g R root) {W : Input} {p X} (h : Pred R g.startSym W p X) : AnyPred g.startSym p X := by
  cases h with
  | start => exact fun _ => rfl
  | corner _ hc =>
    obtain ⟨r, hr, _, h0⟩ := hc
    intro hX; exact absurd (h0.trans hX) (hg.startNot0 r hr)
  | medial hr _ _ =>
    intro hX; exact absurd (by rw [← hX]) (hg.startNot1 _ (List.mem_of_getElem? hr))

/-- `finished_node` after `e ≥ 1` positions. -/
theorem InvAt.finished (hg : GrammarOK g R root) {W : Input} {n : Nat} {H : Prop} {P : Nat → Nat → Prop} {St : Nat → Prop}
    (hP0 : ∀ p, P p g.startSym → p = 0) {s : TRec} {e : Nat} {S loc} (h : InvAt g R W n H P St s e S loc)
    (hS2 : 2 ≤ S.length) (hlen : S.length < 2 ^ 64) {la sorter} {g0 : Nat}
    (hg0 : R[g.dotBeforeEof]? = some ⟨g.startSym, g0, some g.eofSym⟩) :
    Returns (Rec.finishedNode (treeEnv g la sorter) s) fun N =>
      (∀ N', N = some N' → N' ≠ [] ∧ (∀ t ∈ N', TreeOf R W t g0 0 e) ∧ (Distinct W → N'.Nodup)) ∧
      (H → n = e + 1 → (∃ v, (g.eofSym, v) ∈ W e) → ∀ t, TreeOf R W t g0 0 e →
        ∃ N', N = some N' ∧ (TermToks R W → EC.Late R g0 → t ∈ N')) := by
  obtain ⟨S', last, hSe⟩ : ∃ S' last, S = S' ++ [last] :=
    ⟨S.dropLast, S.getLast (by intro h; simp [h] at hS2), (List.dropLast_concat_getLast _).symm⟩
  have hmed := h.rest.medial
  have hearl : s.earleme = S.length - 2 := by
    rw [Rec.earleme, hmed, Vec2d.len_eq, wrappingSub2, if_pos hS2]
  have hne : (s.earleme == maxUsize) = false := by
    rw [hearl]; simp only [maxUsize, beq_eq_false_iff_ne]; omega
  have hlastS : S[S.length - 1]? = some last := by rw [hSe]; simp
  have hmem : last ∈ S := List.mem_of_getElem? hlastS
  have hlastEq : s.medial.last = pure last := by rw [hmed, hSe, Vec2d.last_eq]
  simp only [Rec.finishedNode, hne, Bool.and_false, Bool.false_eq_true, if_false, hlastEq, pure_bind]
  -- an item before the end marker starts at the first position
  have hacc : ∀ it ∈ last, it.dot = g.dotBeforeEof → loc[it.origin]? = some 0 ∧ ∀ t ∈ it.node, TreeOf R W t g0 0 e := by
    intro it hit hd
    have hfact : ∀ t ∈ it.node, loc[it.origin]? = some 0 ∧ TreeOf R W t g0 0 e := by
      intro t ht
      obtain ⟨A, B, C, a, b, e1, e2, e3, e4, e5⟩ := h.sound.fact _ last hlastS (it.dot, it.origin, t)
        (mem_facts.2 ⟨it, hit, rfl, rfl, ht⟩)
      simp only at e1 e2
      rw [hd, hg0] at e1
      simp only [Option.some.injEq, Rule.mk.injEq] at e1
      obtain ⟨rfl, rfl, _⟩ := e1
      have ha := hP0 a e5
      subst ha
      rw [h.sound.last] at e3
      simp only [Option.some.injEq] at e3
      subst e3
      exact ⟨e2, e4⟩
    obtain ⟨t, ts, hte⟩ := List.exists_cons_of_ne_nil (h.rest.node last hmem it hit)
    exact ⟨(hfact t (by rw [hte]; simp)).1, fun t ht => (hfact t ht).2⟩
  cases hl : last with
  | nil =>
    refine returns_pure ⟨by simp, ?_⟩
    rintro hH hn ⟨v, hv⟩ t ht
    obtain ⟨hfull, _⟩ := h.full hH
    obtain ⟨o, _, hx⟩ := hfull.item _ last e hlastS h.sound.last g.dotBeforeEof 0 t
      ⟨_, _, _, e + 1, _, hg0, hn ▸ .root, ht, .leaf hv⟩
    rw [hl] at hx; simp at hx
  | cons hd tl =>
    simp only [List.head?_cons]
    refine returns_pure ⟨?_, ?_⟩
    · intro N' hN
      split at hN
      · next hdot =>
        simp only [Option.some.injEq] at hN
        subst hN
        have hhd : hd ∈ last := by rw [hl]; simp
        refine ⟨h.rest.node last hmem hd hhd, (hacc hd hhd hdot).2, ?_⟩
        intro hdist
        have := h.once hdist last hmem
        rw [hl, facts_cons, Multiset.nodup_add] at this
        have h2 := this.1
        simp only [itemFacts, Multiset.map_coe, Multiset.coe_nodup] at h2
        exact List.Nodup.of_map _ h2
      · simp at hN
    · rintro hH hn ⟨v, hv⟩ t ht
      obtain ⟨hfull, _⟩ := h.full hH
      obtain ⟨o, ho, hx⟩ := hfull.item _ last e hlastS h.sound.last g.dotBeforeEof 0 t
        ⟨_, _, _, e + 1, _, hg0, hn ▸ .root, ht, .leaf hv⟩
      obtain ⟨it, hit, e1, e2, e3⟩ := mem_facts.1 hx
      simp only at e1 e2 e3
      -- the first item has the smallest next symbol
      have hhd : hd ∈ last := by rw [hl]; simp
      have hdot : hd.dot = g.dotBeforeEof := by
        obtain ⟨A, B, C, hR⟩ := h.rest.binary last hmem hd hhd
        rw [hl] at hit
        rcases List.mem_cons.1 hit with rfl | hit'
        · exact e1.symm
        · have hs := h.rest.sorted last hmem
          rw [hl, List.pairwise_cons] at hs
          have hle := hs.1 it hit'
          have hmin := hg.eofMin _ (List.mem_of_getElem? hR) C rfl
          have hC : C ≤ g.eofSym := by
            simp only [itemKey, hR, rhs1Of, Option.bind_some, ← e1, hg0, Option.getD_some, Key.le] at hle
            simp only [Bool.or_eq_true, Bool.and_eq_true, decide_eq_true_eq] at hle
            omega
          have : C = g.eofSym := by omega
          subst this
          exact hg.eofOnce _ _ hR rfl
      have hdot' : hd.dot = (treeEnv g la sorter).g.dotBeforeEof := hdot
      rw [if_pos hdot']
      refine ⟨_, rfl, ?_⟩
      intro htt hlate
      have ho' := (hacc hd hhd hdot).1
      have hoo : hd.origin = o := loc_inj h.sound.mono ho' ho
      have hcount := h.late htt last hmem g.dotBeforeEof o g0 (by simp [rhs0Of, hg0]) hlate
      rw [hl] at hit hcount
      rcases List.mem_cons.1 hit with rfl | hit'
      · exact e3
      · exfalso
        rw [List.map_cons, List.count_cons] at hcount
        have h1 : dotOrigin hd = (g.dotBeforeEof, o) := by simp [dotOrigin, hdot, hoo]
        have h2 : (g.dotBeforeEof, o) ∈ tl.map dotOrigin := List.mem_map.2 ⟨it, hit', by simp [dotOrigin, ← e1, e2]⟩
        have h3 := List.count_pos_iff.2 h2
        rw [h1] at hcount
        simp at hcount
        omega

/-! ### Sessions -/

/-- The hint in force after a client's hint operation. -/
def effHint (l : Option Nat) : Rec.HintOp → Option Nat
  | .keep => l
  | .set x => some x
  | .clear => none

/-- All hints describe the next token. -/
def HintsOK (W : Input) (n : Nat) (T : Nat → Prop) : Nat → Option Nat → List (Rec.HintOp × List (Nat × Nat)) → Prop
  | _, _, [] => True
  | e, l, (h, _) :: rest => HintOK W n T e (effHint l h) ∧ HintsOK W n T (e + 1) none rest

/-- Hints and tokens are known symbols. -/
def StepsOK (g : DefaultGrammar) (steps : List (Rec.HintOp × List (Nat × Nat))) : Prop :=
  ∀ st ∈ steps, (∀ x, st.1 = .set x → x < g.syms) ∧ ∀ t ∈ st.2, t.1 < g.syms + g.gensyms

/-- The input given by a session agrees with `W`. -/
def StepsIn (W : Input) (e : Nat) (steps : List (Rec.HintOp × List (Nat × Nat))) : Prop :=
  ∀ (i : Nat) (st : Rec.HintOp × List (Nat × Nat)), steps[i]? = some st → W (e + i) = st.2

theorem InvAt.hint {W : Input} {n : Nat} {H : Prop} {P : Nat → Nat → Prop} {St : Nat → Prop} {s : TRec} {e : Nat} {S loc}
    (h : InvAt g R W n H P St s e S loc) (op : Rec.HintOp) (hop : ∀ x, op = .set x → x < g.syms) :
    InvAt g R W n H P St (Rec.applyHint s op) e S loc := by
  cases op with
  | keep => exact h
  | set x =>
    exact ⟨⟨h.rest.medial, h.rest.pos, h.rest.empty, h.rest.rows, h.rest.width, h.rest.rowLen, h.rest.closed, by
      intro y hy; simp only [Rec.applyHint, Rec.setHint, Option.some.injEq] at hy; rw [← hy]; exact hop x rfl,
      h.rest.binary, h.rest.sorted, h.rest.node, h.rest.origin⟩, h.sound, h.full, h.once, h.late, h.ordered⟩
  | clear =>
    exact ⟨⟨h.rest.medial, h.rest.pos, h.rest.empty, h.rest.rows, h.rest.width, h.rest.rowLen, h.rest.closed, by
      intro y hy; simp [Rec.applyHint, Rec.clearHint] at hy,
      h.rest.binary, h.rest.sorted, h.rest.node, h.rest.origin⟩, h.sound, h.full, h.once, h.late, h.ordered⟩

theorem applyHint_lookahead (s : TRec) (op : Rec.HintOp) : (Rec.applyHint s op).lookahead = effHint s.lookahead op := by
  cases op <;> rfl

theorem applyHint_predicted (s : TRec) (op : Rec.HintOp) : (Rec.applyHint s op).predicted = s.predicted := by
  cases op <;> rfl

/-- What is known after a failed position. -/
structure Failed (g : DefaultGrammar) (R : Rules) (W : Input) (n : Nat) (H : Prop) (P : Nat → Nat → Prop) (St : Nat → Prop)
    (s : TRec) (e : Nat) : Prop where
  tree : H → e + 1 ≤ n → ∀ t, TreeOf R W t g.startSym 0 n → ∃ a v, t = .leaf a v
  empty : s.complete = []
  medial : ∃ S, S ≠ [] ∧ s.medial = Vec2d.ofSets (S ++ [[]])
  pm : PredMatrix g R s.predicted
  bits : ∀ k X, 1 ≤ k → s.predicted.bit k X = true → ∃ b, 0 < b ∧ P b X ∨ St X
  hint : ∀ h, s.lookahead = some h → h < g.syms

theorem InvAt.bits {W : Input} {n : Nat} {H : Prop} {P : Nat → Nat → Prop} {St : Nat → Prop} {s : TRec} {e : Nat} {S loc}
    (h : InvAt g R W n H P St s e S loc) (k X : Nat) (hk : 1 ≤ k) (hb : s.predicted.bit k X = true) :
    ∃ b, 0 < b ∧ P b X ∨ St X := by
  by_cases hkS : k < S.length
  · have hkl : k < loc.length := by rw [h.sound.locLen]; exact hkS
    have hg : loc[k]? = some loc[k] := by simp [hkl]
    have := pairwise_lt_index h.sound.mono _ _ hg
    exact ⟨loc[k], Or.inl ⟨by omega, h.sound.row k X _ hg hb⟩⟩
  · exact ⟨0, Or.inr (h.sound.stale k X (by omega) hb)⟩

/-- What a session does. Symbols that have infinitely many trees at some position are not completed by a session that
gets through. -/
theorem session_inv' (hg : GrammarOK g R root) {T : Nat → Prop} (hT : LookaheadOK g R T)
    {W : Input} {n : Nat} {H : Prop} {P : Nat → Nat → Prop} {St : Nat → Prop}
    (hP : PredOK R g.startSym W P St) {la sorter} {lax : Prop} :
    ∀ (steps : List (Rec.HintOp × List (Nat × Nat))) (s : TRec) (e : Nat) (S loc), InvAt g R W n H P St s e S loc →
    e + steps.length < 2 ^ 64 → StepsOK g steps → StepsIn W e steps →
    (H → la = true → HintsOK W n T e s.lookahead steps) →
    (lax ∨ ∀ k, k < steps.length → SettlesAt R W P (e + k)) →
    Ends lax (Rec.session (treeEnv g la sorter) steps s) fun r =>
      ((r.2 = true ∧ ((steps = [] ∧ r.1 = s) ∨
        (steps ≠ [] ∧ ∃ S' loc', InvAt g R W n H P St r.1 (e + steps.length) S' loc' ∧ 2 ≤ S'.length ∧
          r.1.lookahead = none ∧ ∃ X a t, P a X ∧ TreeOf R W t X a (e + steps.length)))) ∨
      (r.2 = false ∧ ∃ i, i < steps.length ∧ Failed g R W n H P St r.1 (e + i))) ∧
      (r.2 = true → H → ∀ k, k < steps.length → ∃ Fd : Multiset Done, ∀ A a t, TreeOf R W t A a (e + k + 1) →
        Ctx R g.startSym W n A a (e + k + 1) → ∃ o, (A, o, t) ∈ Fd) := by
  intro steps
  induction steps with
  | nil =>
    intro s e S loc h _ _ _ _ _
    exact ends_pure ⟨Or.inl ⟨rfl, Or.inl ⟨rfl, rfl⟩⟩, fun _ _ k hk => by simp at hk⟩
  | cons st rest ih =>
    intro s e S loc h hlen hok hin hh hterm
    obtain ⟨op, toks⟩ := st
    have htoks : W e = toks := by simpa using hin 0 (op, toks) (by simp)
    have hok0 := hok (op, toks) (by simp)
    have h' := h.hint op hok0.1
    simp only [List.length_cons] at hlen
    rw [Rec.session, Rec.sessionWith]
    have hpos := h'.position' hg hT hP (by omega) (by rw [htoks]; exact hok0.2) (la := la) (sorter := sorter) (by
      intro hH hla
      rw [applyHint_lookahead]
      exact (hh hH hla).1) (hterm.imp id fun h => h 0 (by simp))
    rw [htoks] at hpos
    refine ends_bind (hpos.mono ?_)
    rintro ⟨s1, ok⟩ ⟨hr, hfin⟩
    rcases hr with ⟨hok1, hl1, ⟨keep, cur', hk1, hkl, hinv⟩, X, a, t, hPa, ht⟩ | ⟨hok1, hl1, hp1, hc1, hm1, hfail⟩
    · simp only at hok1 hl1 hinv
      subst hok1
      simp only [if_true]
      have hS2 : 2 ≤ (S.take keep ++ [cur']).length := by simp; omega
      refine (ih s1 (e + 1) _ _ hinv (by omega) (fun x hx => hok x (by simp [hx])) ?_ ?_
        (hterm.imp id fun h k hk => by
          have := h (k + 1) (by simp; omega)
          rwa [show e + (k + 1) = e + 1 + k by omega] at this)).mono ?_
      · intro i st hst
        have := hin (i + 1) st (by simpa using hst)
        rw [← this]; congr 1; omega
      · intro hH hla; rw [hl1]; exact (hh hH hla).2
      · rintro r ⟨hr, hfin'⟩
        refine ⟨?_, ?_⟩
        rotate_left
        · intro h1 hH k hk
          cases k with
          | zero => exact hfin hH
          | succ k =>
            have := hfin' h1 hH k (by simpa using hk)
            rwa [show e + 1 + k = e + (k + 1) by omega] at this
        have hadd : e + 1 + rest.length = e + ((op, toks) :: rest).length := by simp; omega
        rcases hr with ⟨a1, a2⟩ | ⟨a1, i, a2, a3⟩
        · refine Or.inl ⟨a1, Or.inr ⟨by simp, ?_⟩⟩
          rcases a2 with ⟨rfl, a2⟩ | ⟨_, S', loc', b1, b2, b3, b4⟩
          · rw [a2, ← hadd]
            exact ⟨_, _, hinv, hS2, hl1, X, a, t, hPa, ht⟩
          · rw [hadd] at b1 b4
            exact ⟨S', loc', b1, b2, b3, b4⟩
        · exact Or.inr ⟨a1, i + 1, by simp; omega, by rw [show e + (i + 1) = e + 1 + i by omega]; exact a3⟩
    · simp only at hok1 hl1 hp1 hc1 hm1
      subst hok1
      simp only [Bool.false_eq_true, if_false]
      refine ends_pure ⟨Or.inr ⟨rfl, 0, by simp, hfail, hc1, ⟨S, ?_, hm1⟩, ?_, ?_, ?_⟩, by simp⟩
      · intro hS; have := h.rest.pos; rw [hS] at this; simp at this
      · rw [hp1]; exact h'.rest.predMatrix
      · rw [hp1]; exact h'.bits
      · rw [hl1]; exact h'.rest.hint

theorem session_inv (hg : GrammarOK g R root) {T : Nat → Prop} (hT : LookaheadOK g R T) {rank : Nat → Nat}
    (hrank : EC.Ranked R rank) {W : Input} {n : Nat} {H : Prop} {P : Nat → Nat → Prop} {St : Nat → Prop}
    (hP : PredOK R g.startSym W P St) {la sorter} :
    ∀ (steps : List (Rec.HintOp × List (Nat × Nat))) (s : TRec) (e : Nat) (S loc), InvAt g R W n H P St s e S loc →
    e + steps.length < 2 ^ 64 → StepsOK g steps → StepsIn W e steps →
    (H → la = true → HintsOK W n T e s.lookahead steps) →
    Returns (Rec.session (treeEnv g la sorter) steps s) fun r =>
      (r.2 = true ∧ ((steps = [] ∧ r.1 = s) ∨
        (steps ≠ [] ∧ ∃ S' loc', InvAt g R W n H P St r.1 (e + steps.length) S' loc' ∧ 2 ≤ S'.length ∧
          r.1.lookahead = none ∧ ∃ X a t, P a X ∧ TreeOf R W t X a (e + steps.length)))) ∨
      (r.2 = false ∧ ∃ i, i < steps.length ∧ Failed g R W n H P St r.1 (e + i)) :=
  fun steps s e S loc h hlen hok hin hh =>
    (session_inv' hg hT hP steps s e S loc h hlen hok hin hh (.inr fun _ _ => hrank.settlesAt _ _ _)).returns.mono
      fun _ h => h.1

end
end Gearley
