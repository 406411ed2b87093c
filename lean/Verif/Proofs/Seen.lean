import Verif.Proofs.Retained
import Verif.Proofs.Single
import Verif.Proofs.Many

/-! # Work at one position with look-ahead -/

namespace Gearley
open Gearley.Spec
variable {g : DefaultGrammar} {R : Rules} {root : Nat → Nat}

/-- The look-ahead sets in the grammar's table. -/
def _root_.Gearley.DefaultGrammar.firstHas (g : DefaultGrammar) (C h : Nat) : Prop :=
  g.lrSets.rows[C * 2]?.bind (·[h]?) = some true

def _root_.Gearley.DefaultGrammar.followHas (g : DefaultGrammar) (A h : Nat) : Prop :=
  g.lrSets.rows[A * 2 + 1]?.bind (·[h]?) = some true

/-- `Seen` with the tables of `g`. -/
abbrev SeenIn (g : DefaultGrammar) (R : Rules) (W : Input) (hint : Nat → Option Nat) : Nat → Nat → Nat → Prop :=
  Seen g.firstHas g.followHas g.syms R W hint

theorem okM_follow {la : Bool} {look h' : Option Nat} {d : Nat} {r : Rule} (hr : R[d]? = some r)
    (hh : h' = if la then look else none) (h : okM g R la look d = true) :
    g.syms ≤ r.lhs ∨ ∀ h, h' = some h → g.followHas r.lhs h := by
  subst hh
  cases la with
  | false => right; intro h hh; cases hh
  | true =>
    cases look with
    | none => right; intro h hh; cases hh
    | some x =>
      simp only [okM, useM, hr, Bool.not_true, Bool.false_or, Bool.or_eq_true, decide_eq_true_eq, beq_iff_eq] at h
      refine h.imp id fun h y hy => ?_
      simp only [if_true, Option.some.injEq] at hy
      subst hy
      exact h

theorem okP_unary {la : Bool} {look h' : Option Nat} {d A B : Nat} (hr : R[d]? = some ⟨A, B, none⟩)
    (hh : h' = if la then look else none) (h : okP g R la look d = true) :
    g.syms ≤ A ∨ ∀ h, h' = some h → g.followHas A h := by
  subst hh
  cases la with
  | false => right; intro h hh; cases hh
  | true =>
    cases look with
    | none => right; intro h hh; cases hh
    | some x =>
      simp only [okP, useP, hr, Bool.not_true, Bool.false_or, Bool.or_eq_true, decide_eq_true_eq, beq_iff_eq] at h
      refine h.imp id fun h y hy => ?_
      simp only [if_true, Option.some.injEq] at hy
      subst hy
      exact h

theorem okP_binary {la : Bool} {look h' : Option Nat} {d A B C : Nat} (hr : R[d]? = some ⟨A, B, some C⟩)
    (hh : h' = if la then look else none) (h : okP g R la look d = true) : ∀ h, h' = some h → g.firstHas C h := by
  subst hh
  intro y hy
  cases la with
  | false => cases hy
  | true =>
    cases look with
    | none => cases hy
    | some x =>
      simp only [okP, useP, hr, Bool.not_true, Bool.false_or, beq_iff_eq] at h
      simp only [if_true, Option.some.injEq] at hy
      subst hy
      exact h

/-- What is queued was found. -/
def HeapSeen (g : DefaultGrammar) (R : Rules) (W : Input) (hint : Nat → Option Nat) (loc : List Nat) (e : Nat)
    (heap : List TItem) : Prop :=
  ∀ it ∈ heap, ∃ a, loc[it.origin]? = some a ∧ Pred R g.startSym W a (lhsOf R it.dot) ∧
    SeenIn g R W hint (e + 1) (lhsOf R it.dot) a

/-- The items of a set were entered with what was found. -/
def ItemsSeen (g : DefaultGrammar) (R : Rules) (W : Input) (hint : Nat → Option Nat) (loc : List Nat) (b : Nat)
    (l : List TItem) : Prop :=
  ∀ it ∈ l, ∃ A B C a, R[it.dot]? = some ⟨A, B, some C⟩ ∧ loc[it.origin]? = some a ∧ Pred R g.startSym W a A ∧
    SeenIn g R W hint b B a ∧ (g.syms ≤ B ∨ ∀ h, hint b = some h → g.firstHas C h)

/-- The state after some positions, with what was found. No item is more than `P` times in a set. -/
structure SeenAt (g : DefaultGrammar) (R : Rules) (P : Nat) (W : Input) (hint : Nat → Option Nat) (s : TRec) (e : Nat)
    (S : List (List TItem)) (loc : List Nat) : Prop where
  rest : Rest g R s S
  sound : Sound R W (Pred R g.startSym W) (fun _ => False) s.predicted S loc e
  facts : ∀ l ∈ S, (facts l).Nodup
  single : ∀ l ∈ S, ∀ d o, (∃ A, rhs0Of R d = some A) → (l.map dotOrigin).count (d, o) ≤ P
  seen : ∀ (k : Nat) l b, S[k]? = some l → loc[k]? = some b → ItemsSeen g R W hint loc b l

/-- Reasons for an item to be at most `P` times in a set: the symbols are numbered so that one-symbol rules go down, or no symbol has
two trees, or there are no more chains of one-symbol rules. -/
def Bounded (R : Rules) (start : Nat) (W : Input) (P : Nat) : Prop :=
  (P = 1 ∧ (EC.Ordered R ∨ SingleTrees R start W)) ∨ ∃ p, ChainBound R p ∧ ∀ A, p A ≤ P

variable {P : Nat} {W : Input} {hint : Nat → Option Nat} {s : TRec} {e : Nat} {S : List (List TItem)} {loc : List Nat}

theorem SeenAt.heapNew (hg : GrammarOK g R root) (h : SeenAt g R P W hint s e S loc) {la sorter}
    (hh : hint (e + 1) = if la then s.lookahead else none) {o A a : Nat} (ho : loc[o]? = some a)
    (ht : SeenIn g R W hint (e + 1) A a) {N : List PTree} :
    let c := ctxOf g R root la sorter s S
    HeapSeen g R W hint loc e (heapNew c.g c.R c.root c.la c.hint c.pm c.S o A N) := by
  intro c it hit
  have hP := pred_predOK (R := R) g.startSym W
  simp only [c, ctxOf, Gearley.heapNew] at hit
  split at hit
  · rcases List.mem_append.1 hit with h' | h'
    · simp only [medPart, List.mem_map, List.mem_filter, Bool.and_eq_true, decide_eq_true_eq] at h'
      obtain ⟨x, ⟨hx, hr1, hok⟩, rfl⟩ := h'
      cases hS : S[o]? with
      | none => rw [hS] at hx; simp at hx
      | some l =>
        rw [hS, Option.getD_some] at hx
        obtain ⟨A', B', C', a', hR, h1, h2, h3, h4⟩ := h.seen o l a hS ho x hx
        simp only [rhs1Of, hR, Option.bind_some, Option.some.injEq] at hr1
        subst hr1
        refine ⟨a', h1, by rw [lhsOf_eq hR]; exact h2, ?_⟩
        rw [lhsOf_eq hR]
        exact .binary (List.mem_of_getElem? hR) h3 h4 ht (okM_follow hR hh hok)
    · simp only [unPart, List.mem_map, List.mem_filter, Bool.and_eq_true, Bool.or_eq_true, decide_eq_true_eq] at h'
      obtain ⟨p, ⟨hp, hbit, hok⟩, rfl⟩ := h'
      obtain ⟨r, h1, h2, h3, h4, _⟩ := mem_unTrans.1 hp
      obtain ⟨A', B', C'⟩ := r
      simp only at h2 h3 h4
      subst h2; subst h3
      rw [h4] at hbit
      refine ⟨a, ho, ?_, ?_⟩
      · rw [lhsOf_eq h1]
        exact hP.corners (h.sound.row o _ a ho hbit) (hg.root_corner _ (List.mem_of_getElem? h1))
      · rw [lhsOf_eq h1]
        exact .unary (List.mem_of_getElem? h1) ht (hok.imp id fun hok => okP_unary h1 hh hok)
  · simp at hit

theorem SeenAt.medNew (hg : GrammarOK g R root) (h : SeenAt g R P W hint s e S loc) {la sorter}
    (hh : hint (e + 1) = if la then s.lookahead else none) {o A a : Nat} (ho : loc[o]? = some a)
    (ht : SeenIn g R W hint (e + 1) A a) {N : List PTree} :
    let c := ctxOf g R root la sorter s S
    ItemsSeen g R W hint loc (e + 1) (medNew c.g c.R c.root c.la c.hint c.pm o A N) := by
  intro c it hit
  have hP := pred_predOK (R := R) g.startSym W
  simp only [c, ctxOf, Gearley.medNew] at hit
  split at hit
  · simp only [binPart, List.mem_map, List.mem_filter, Bool.and_eq_true, Bool.or_eq_true, decide_eq_true_eq] at hit
    obtain ⟨p, ⟨hp, hbit, hok⟩, rfl⟩ := hit
    obtain ⟨r, h1, h2, h3, h4, _⟩ := mem_binTrans.1 hp
    obtain ⟨A', B', C'⟩ := r
    obtain ⟨C, rfl⟩ := Option.isSome_iff_exists.1 h3
    simp only at h2 h4
    subst h2
    rw [h4] at hbit
    refine ⟨A', B', C, a, h1, ho, ?_, ht, hok.imp id fun hok => okP_binary h1 hh hok⟩
    exact hP.corners (h.sound.row o _ a ho hbit) (hg.root_corner _ (List.mem_of_getElem? h1))
  · simp at hit

/-- Completion only finds what is `Seen`. -/
theorem SeenAt.keeps (hg : GrammarOK g R root) (h : SeenAt g R P W hint s e S loc) {la sorter}
    (hh : hint (e + 1) = if la then s.lookahead else none) :
    (ctxOf g R root la sorter s S).Keeps (W e) fun _ heap cur =>
      HeapSeen g R W hint loc e heap ∧ ItemsSeen g R W hint loc (e + 1) cur := by
  refine ⟨⟨by simp [HeapSeen], by simp [ItemsSeen]⟩, ?_, ?_⟩
  · intro pre post a v heap heap' cur e1 e2 e3 e4
    have ht : SeenIn g R W hint (e + 1) a e := .token (v := v) (by rw [e1]; simp)
    constructor
    · intro it hit
      rcases List.mem_append.1 (e4.mem_iff.1 hit) with h' | h'
      · exact e2.1 it h'
      · exact h.heapNew hg hh h.sound.last ht it h'
    · intro it hit
      rcases List.mem_append.1 hit with h' | h'
      · exact e2.2 it h'
      · exact h.medNew hg hh h.sound.last ht it h'
  · intro heap heap' cur G rest o A e2 a1 a2 a3 a4 a5 a6
    obtain ⟨it0, G', rfl⟩ := List.exists_cons_of_ne_nil a1
    obtain ⟨a, b1, _, b3⟩ := e2.1 it0 (a2.mem_iff.2 (by simp))
    have hk := a4 it0 (by simp)
    simp only [keyOf, Prod.mk.injEq, ctxOf] at hk
    rw [hk.1] at b1
    rw [hk.2] at b3
    constructor
    · intro it hit
      rcases List.mem_append.1 (a6.mem_iff.1 hit) with h' | h'
      · exact e2.1 it (a2.mem_iff.2 (List.mem_append_right _ h'))
      · exact h.heapNew hg hh b1 b3 it h'
    · intro it hit
      rcases List.mem_append.1 hit with h' | h'
      · exact e2.2 it h'
      · exact h.medNew hg hh b1 b3 it h'

theorem nextLoc_get {loc : List Nat} {keep e k : Nat} (hk : k < keep) (hl : keep ≤ loc.length) :
    (nextLoc loc keep e)[k]? = loc[k]? := by
  unfold nextLoc
  rw [List.getElem?_append_left (by simp; omega), List.getElem?_take_of_lt hk]

/-- One position. -/
theorem SeenAt.position (hg : GrammarOK g R root) {rank : Nat → Nat} (hrank : EC.Ranked R rank) (ho : Bounded R g.startSym W P)
    (htt : TermToks R W) (h : SeenAt g R P W hint s e S loc) {la sorter}
    (hh : hint (e + 1) = if la then s.lookahead else none) (hlen : e + 1 < 2 ^ 64)
    (ht : ∀ t ∈ W e, t.1 < g.syms + g.gensyms) :
    Returns (Rec.position (treeEnv g la sorter) s (W e)) fun r => r.2 = true → r.1.lookahead = none ∧
      ∃ S' loc', SeenAt g R P W hint r.1 (e + 1) S' loc' := by
  have hSl := h.sound.length_le h.rest.pos
  have hc := h.rest.ok hg (la := la) (sorter := sorter)
  have hP := pred_predOK (R := R) g.startSym W
  have k1 := h.keeps hg hh (sorter := sorter)
  have k2 := fun ho => EC.keeps_once hc (EC.deadOK_ordered ho) (htt e).1 (fun t ht _ => (htt e).2 t ht)
  obtain ⟨M, hM⟩ := chain_rank_bound R rank
  have k3 := fun p (hp : ChainBound R p) => EC.keeps_many hc hrank hM hp (htt e).1 (htt e).2
  have hJ : (ctxOf g R root la sorter s S).Keeps (W e) fun pre heap cur =>
      (HeapSeen g R W hint loc e heap ∧ ItemsSeen g R W hint loc (e + 1) cur) ∧ (EC.Ordered R →
      (ctxOf g R root la sorter s S).JOnce (fun _ => True) (fun heap o A => ∀ it ∈ heap, KeyLt (keyOf R it) (o, A)) (W e)
        pre heap cur) ∧ ∀ p, ChainBound R p → (ctxOf g R root la sorter s S).JMany p M (W e) pre heap cur :=
    ⟨⟨k1.init, fun ho => (k2 ho).init, fun p hp => (k3 p hp).init⟩,
      fun pre post a v heap heap' cur e1 e2 e3 e4 =>
        ⟨k1.scan pre post a v heap heap' cur e1 e2.1 e3 e4, fun ho => (k2 ho).scan pre post a v heap heap' cur e1 (e2.2.1 ho) e3 e4,
          fun p hp => (k3 p hp).scan pre post a v heap heap' cur e1 (e2.2.2 p hp) e3 e4⟩,
      fun heap heap' cur G rest o A e2 a1 a2 a3 a4 a5 a6 =>
        ⟨k1.step heap heap' cur G rest o A e2.1 a1 a2 a3 a4 a5 a6, fun ho => (k2 ho).step heap heap' cur G rest o A (e2.2.1 ho) a1 a2 a3 a4 a5 a6,
          fun p hp => (k3 p hp).step heap heap' cur G rest o A (e2.2.2 p hp) a1 a2 a3 a4 a5 a6⟩⟩
  have := position_spec hg h.rest (by omega) (W e) ht hJ (lax := False) (.inr (hrank.settles _))
  refine this.returns.mono ?_
  rintro r ⟨Fd, cur, hfix, hj, hr⟩ htrue
  rcases hr with ⟨h1, -⟩ | ⟨-, -, hlook, cur', keep, ha⟩
  · rw [htrue] at h1; cases h1
  have hs' := h.sound.next hg hP hfix ha
  have hkl : keep ≤ loc.length := by rw [h.sound.locLen]; exact ha.keep_le
  have hcur := hfix.once_cur h.sound h.facts (htt e).1.of_map
  refine ⟨hlook, _, _, h.rest.next hfix ha hlook, hs', ?_, ?_, ?_⟩
  · intro l hl
    rcases List.mem_append.1 hl with h' | h'
    · exact h.facts l (List.mem_of_mem_take h')
    · simp at h'; subst h'
      rwa [facts_perm ha.perm]
  · intro l hl d o hA
    rcases List.mem_append.1 hl with h' | h'
    · exact h.single l (List.mem_of_mem_take h') d o hA
    · simp at h'; subst h'
      rw [(ha.perm.map dotOrigin).count_eq]
      rcases ho with ⟨rfl, ho | hun⟩ | ⟨p, hp, hP⟩
      · obtain ⟨A, hA⟩ := hA
        exact (hj.2.1 ho d o A hA trivial).1
      rotate_left
      · obtain ⟨A, hA⟩ := hA
        obtain ⟨k1, k2⟩ := hj.2.2 p hp d o A hA
        refine le_trans ?_ (hP A)
        have h1 : 1 ≤ p A := le_trans (Nat.le_add_right _ _) (hp A)
        by_cases hT : Terminal R A
        · exact (k1 hT).1.trans h1
        · rcases k2 hT with h3 | ⟨_, h3⟩ <;> omega
      · refine List.nodup_iff_count_le_one.1 (dotOrigin_nodup hcur (fun it hit => (hfix.citems it hit).1) ?_) (d, o)
        rintro ⟨d, o, t⟩ hx ⟨d', o', t'⟩ hy e1 e2
        simp only at e1 e2
        subst e1 e2
        obtain ⟨A, B, C, a, i1, i2, i3, i4⟩ := hfix.sound_cur hg h.sound hP hx
        obtain ⟨A', B', C', a', j1, j2, j3, j4⟩ := hfix.sound_cur hg h.sound hP hy
        simp only at i1 i2 i3 j1 j2 j3
        rw [i1] at j1
        rw [i2] at j2
        cases j1
        cases j2
        rw [hun B a _ t t' (.corner i4 ⟨_, List.mem_of_getElem? i1, rfl, rfl⟩) i3 j3]
  · -- the sets that are kept, and the new one
    have horig : ∀ it ∈ cur, it.origin < keep := by
      intro it hit
      rcases ha.keep_max with h1 | ⟨_, _, h2⟩
      · rw [h1]; exact (hfix.citems it hit).2.1
      · exact h2 it hit
    intro k l b hl hb it hit
    have hkk : k < keep + 1 := by
      have := (List.getElem?_eq_some_iff.1 hl).1
      simp at this; omega
    by_cases hk : k < keep
    · rw [nextLoc_get hk hkl] at hb
      rw [List.getElem?_append_left (by simp; have := ha.keep_le; omega), List.getElem?_take_of_lt hk] at hl
      obtain ⟨A, B, C, a, e1, e2, e3⟩ := h.seen k l b hl hb it hit
      refine ⟨A, B, C, a, e1, ?_, e3⟩
      rw [nextLoc_get ?_ hkl]
      · exact e2
      · have := h.rest.origin k l hl it hit
        omega
    · have hke : k = keep := by omega
      subst hke
      have hl' : l = cur' := by
        have hlen : (S.take k).length = k := by have := ha.keep_le; simp; omega
        rw [List.getElem?_append_right (by omega), hlen] at hl
        simpa using hl.symm
      subst hl'
      have hb' : b = e + 1 := by
        have := hs'.last
        have hlen : (S.take k ++ [l]).length - 1 = k := by have := ha.keep_le; simp; omega
        rw [hlen, hb] at this
        simpa using this
      subst hb'
      have hit' := ha.perm.mem_iff.1 hit
      obtain ⟨A, B, C, a, e1, e2, e3⟩ := hj.1.2 it hit'
      refine ⟨A, B, C, a, e1, ?_, e3⟩
      rw [nextLoc_get (horig it hit') hkl]
      exact e2

/-- The hint that a step leaves in force, if none was before. -/
def hintOf : Rec.HintOp → Option Nat
  | .set x => some x
  | _ => none

theorem applyHint_none {s : TRec} (hs : s.lookahead = none) (op : Rec.HintOp) :
    (Rec.applyHint s op).lookahead = hintOf op := by
  cases op <;> simp [Rec.applyHint, Rec.setHint, Rec.clearHint, hintOf, hs]

theorem SeenAt.hintOp (h : SeenAt g R P W hint s e S loc) (op : Rec.HintOp) (hop : ∀ x, op = .set x → x < g.syms) :
    SeenAt g R P W hint (Rec.applyHint s op) e S loc :=
  ⟨h.rest.hintOp op hop, by rw [applyHint_predicted]; exact h.sound, h.facts, h.single, h.seen⟩

/-- The hints that the steps from position `e` on leave in force. -/
def HintsAre (hint : Nat → Option Nat) (la : Bool) (e : Nat) (steps : List Step) : Prop :=
  ∀ (i : Nat) st, steps[i]? = some st → hint (e + i + 1) = if la then hintOf st.1 else none

theorem seen_session (hg : GrammarOK g R root) {rank : Nat → Nat} (hrank : EC.Ranked R rank) (ho : Bounded R g.startSym W P)
    (htt : TermToks R W) {la sorter} : ∀ (steps : List Step) (s : TRec) (e : Nat) (S loc), SeenAt g R P W hint s e S loc →
    s.lookahead = none → e + steps.length < 2 ^ 64 → StepsOK g steps → StepsIn W e steps → HintsAre hint la e steps →
    Returns (Rec.session (treeEnv g la sorter) steps s) fun r => r.2 = true → r.1.lookahead = none ∧
      ∃ S' loc', SeenAt g R P W hint r.1 (e + steps.length) S' loc' := by
  intro steps
  induction steps with
  | nil => intro s e S loc h hl _ _ _ _; exact returns_pure fun _ => ⟨hl, _, _, h⟩
  | cons st rest ih =>
    intro s e S loc h hl hlen hok hin hhi
    obtain ⟨op, toks⟩ := st
    have htoks : W e = toks := by simpa using hin 0 (op, toks) (by simp)
    simp only [List.length_cons] at hlen ⊢
    have h' := h.hintOp op (hok (op, toks) (by simp)).1
    rw [Rec.session, Rec.sessionWith]
    have hpos := h'.position hg hrank ho htt (la := la) (sorter := sorter)
      (by rw [applyHint_none hl]; exact hhi 0 (op, toks) (by simp)) (by omega)
      (by rw [htoks]; exact (hok (op, toks) (by simp)).2)
    rw [htoks] at hpos
    refine returns_bind (hpos.mono ?_)
    rintro ⟨s1, ok⟩ h1
    cases ok with
    | false => simp only [Bool.false_eq_true, if_false]; exact returns_pure fun h => by cases h
    | true =>
      simp only [if_true]
      obtain ⟨h2, S', loc', h3⟩ := h1 rfl
      rw [show e + (rest.length + 1) = e + 1 + rest.length by omega]
      refine ih s1 (e + 1) S' loc' h3 h2 (by omega) (fun x hx => hok x (by simp [hx])) ?_ ?_
      · intro i st hst
        have := hin (i + 1) st (by simpa using hst)
        rw [← this]; congr 1; omega
      · intro i st hst
        have := hhi (i + 1) st (by simpa using hst)
        rw [← this]; congr 1; omega

theorem new_seen_at (hg : GrammarOK g R root) {rank : Nat → Nat} (hrank : EC.Ranked R rank) (ho : Bounded R g.startSym W P)
    (htt : TermToks R W) {la sorter} {steps : List Step} (hlen : steps.length < 2 ^ 64) (hok : StepsOK g steps)
    (hW : StepsIn W 0 steps) (hhi : HintsAre hint la 0 steps) (f : List PTree) :
    Returns (Rec.new (treeEnv g la sorter) f >>= Rec.session (treeEnv g la sorter) steps) fun r =>
      r.2 = true → r.1.lookahead = none ∧ ∃ S loc, SeenAt g R P W hint r.1 steps.length S loc := by
  have hP := pred_predOK (R := R) g.startSym W
  refine returns_bind ((new_spec (n := 0) (H := False) hg hP f).mono ?_)
  rintro s ⟨hs, hl⟩
  have h0 : SeenAt g R P W hint s 0 [[]] [0] := ⟨hs.rest, hs.sound, by simp, by simp, by
    intro k l b hl _ it hit
    have := List.mem_of_getElem? hl
    simp at this
    subst this
    cases hit⟩
  have := seen_session hg hrank ho htt (la := la) (sorter := sorter) steps s 0 _ _ h0 hl (by omega) hok hW hhi
  rwa [Nat.zero_add] at this

/-- After the tokens of a position have been scanned. -/
theorem SeenAt.mid (hg : GrammarOK g R root) (h : SeenAt g R P W hint s e S loc) {la sorter}
    (hh : hint (e + 1) = if la then s.lookahead else none) (hlen : S.length < 2 ^ 64)
    (ht : ∀ t ∈ W e, t.1 < g.syms + g.gensyms) :
    Returns (Rec.scanAll (treeEnv g la sorter) s.beginEarleme (W e)) fun s' => ∃ scans cur,
      (ctxOf g R root la sorter s S).Mid scans s' scans 0 cur ∧ HeapSeen g R W hint loc e s'.complete ∧
        scans = scansOf (S.length - 1) (W e) := by
  have hc := h.rest.ok hg (la := la) (sorter := sorter)
  refine (scanAll_spec hc h.rest.pos hlen (h.keeps hg hh) [] (W e) rfl ht h.rest.mid_begin
    ⟨by simp [HeapSeen, Rec.beginEarleme, h.rest.empty], by simp [ItemsSeen]⟩).mono ?_
  rintro s1 ⟨cur1, hm1, hj⟩
  exact ⟨_, _, hm1, hj.1, by rw [zero_add]; rfl⟩

/-- The groups that are completed were found. -/
theorem SeenAt.groups (hg : GrammarOK g R root) {la sorter} {s0 : TRec} (h : SeenAt g R P W hint s0 e S loc)
    (hh : hint (e + 1) = if la then s0.lookahead else none)
    {s s' : TRec} {l : List (Nat × Nat)} (hgr : Rec.Groups (ctxOf g R root la sorter s0 S).E s l s') :
    ∀ {scans Fd popped cur}, (ctxOf g R root la sorter s0 S).Mid scans s Fd popped cur → HeapSeen g R W hint loc e s.complete →
    ∀ p ∈ l, ∃ a, loc[p.1]? = some a ∧ SeenIn g R W hint (e + 1) p.2 a ∧ Pred R g.startSym W a p.2 := by
  have hc := h.rest.ok hg (la := la) (sorter := sorter)
  induction hgr with
  | done h1 => intro scans Fd popped cur _ _ p hp; cases hp
  | @next s s1 s2 o A l h1 h2 _ ih =>
    intro scans Fd popped cur hm hj
    have hst : Rec.completeStep (ctxOf g R root la sorter s0 S).E s = pure (.inl s1) := by
      unfold Rec.completeStep
      rw [h1, pure_bind]
      simp only [h2, pure_bind]
    obtain ⟨G, rest, o', A', Fd', popped', cur', hm', hol, hG, hperm, hkey, hrest, hperm', _, _⟩ := (EC.Mid.step hc hm).of_eq hst
    obtain ⟨it0, G', rfl⟩ := List.exists_cons_of_ne_nil hG
    obtain ⟨a, b1, _, b3⟩ := hj it0 (hperm.mem_iff.2 (by simp))
    have hk := hkey it0 (by simp)
    simp only [keyOf, Prod.mk.injEq, ctxOf] at hk
    rw [hk.1] at b1
    rw [hk.2] at b3
    have hj' : HeapSeen g R W hint loc e s1.complete := by
      intro it hit
      rcases List.mem_append.1 (hperm'.mem_iff.1 hit) with h' | h'
      · exact hj it (hperm.mem_iff.2 (List.mem_append_right _ h'))
      · exact h.heapNew hg hh b1 b3 it h'
    intro p hp
    rcases List.mem_cons.1 hp with rfl | hp
    · unfold Rec.nextSum at h1
      cases hp : Heap.peek s.complete with
      | none => rw [hp] at h1; exact absurd (pure_inj_M h1) (by simp)
      | some top =>
        rw [hp] at h1
        have hmem := List.mem_of_getElem? hp
        obtain ⟨_, _, r, hrr⟩ := hm.hitems top hmem
        have hlhs : (ctxOf g R root la sorter s0 S).E.g.getLhs top.dot = pure r.lhs := hc.gok.getLhs _ _ hrr
        simp only [hlhs, pure_bind, pure_inj_M_iff, Option.some.injEq, Prod.mk.injEq] at h1
        obtain ⟨a, b1, b2, b3⟩ := hj top hmem
        rw [lhsOf_eq (R := R) hrr] at b2 b3
        rw [h1.1] at b1
        rw [h1.2] at b2 b3
        exact ⟨a, b1, b3, b2⟩
    · exact ih hm' hj' p hp

/-- No group is completed more than `P` times. -/
theorem SeenAt.groups_count (hg : GrammarOK g R root) {rank : Nat → Nat} (hrank : EC.Ranked R rank) {la sorter} {s0 : TRec}
    (h : SeenAt g R P W hint s0 e S loc)
    (ho : Bounded R g.startSym W P) (htt : TermToks R W) (hh : hint (e + 1) = if la then s0.lookahead else none)
    {s s' : TRec} {l : List (Nat × Nat)} (hgr : Rec.Groups (ctxOf g R root la sorter s0 S).E s l s') {scans Fd popped cur}
    (hm : (ctxOf g R root la sorter s0 S).Mid scans s Fd popped cur) (hheap : HeapSeen g R W hint loc e s.complete)
    (hscans : scans = scansOf (S.length - 1) (W e)) : ∀ x, l.count x ≤ P := by
  have hc := h.rest.ok hg (la := la) (sorter := sorter)
  rcases ho with ⟨rfl, ho | hun⟩ | ⟨p, hp, hP⟩
  · rw [← List.nodup_iff_count_le_one]
    exact (EC.groups_decreasing hc ho hgr hm).1.imp fun {a b} hab heq => by subst heq; simp only [KeyLt] at hab; omega
  · rw [← List.nodup_iff_count_le_one]
    subst hscans
    exact groups_single hc h.sound h.facts (htt e).1.of_map (fun A a t t' => hun A a _ t t') hgr hm
      fun p hp => (h.groups hg hh hgr hm hheap p hp).imp fun a i => ⟨i.1, i.2.2⟩
  · obtain ⟨M, hM⟩ := chain_rank_bound R rank
    exact fun x => ((EC.groups_count hc hrank hM hgr hm x.1 x.2).trans (climb_le hp (comesUp_le _ _ _) _ _)).trans (hP _)

theorem SeenAt.counts (h : SeenAt g R P W hint s e S loc) : ∀ l ∈ S, ∀ x, (l.map dotOrigin).count x ≤ P := by
  rintro l hl ⟨d, o⟩
  by_cases hx : (d, o) ∈ l.map dotOrigin
  · obtain ⟨it, hit, he⟩ := List.mem_map.1 hx
    obtain ⟨A, B, C, hR⟩ := h.rest.binary l hl it hit
    simp only [dotOrigin, Prod.mk.injEq] at he
    exact h.single l hl d o ⟨B, by simp [rhs0Of, ← he.1, hR]⟩
  · rw [List.count_eq_zero.2 hx]; omega

/-- The size of a set. -/
theorem SeenAt.set_length (h : SeenAt g R P W hint s e S loc) {T : Nat → Finset (Nat × Nat)}
    (hT : ∀ b A a, Pred R g.startSym W a A → SeenIn g R W hint b A a → (A, a) ∈ T b)
    {k b : Nat} {l : List TItem} (hl : S[k]? = some l) (hb : loc[k]? = some b) :
    l.length ≤ P * (R.length * (T b).card) := by
  have hmem := List.mem_of_getElem? hl
  have key : ∀ p ∈ l.map dotOrigin, ∃ q : Nat × Nat × Nat, q.1 = p.1 ∧ loc[p.2]? = some q.2.2 ∧
      q ∈ Finset.range R.length ×ˢ T b := by
    intro p hp
    obtain ⟨it, hit, rfl⟩ := List.mem_map.1 hp
    obtain ⟨A, B, C, a, k1, k2, k3, k4, _⟩ := h.seen k l b hl hb it hit
    refine ⟨(it.dot, B, a), rfl, k2, ?_⟩
    rw [Finset.mem_product, Finset.mem_range]
    exact ⟨(List.getElem?_eq_some_iff.1 k1).1, hT b B a (.corner k3 ⟨_, List.mem_of_getElem? k1, rfl, rfl⟩) k4⟩
  choose! q hq1 hq2 hq3 using key
  have := Finset.card_le_card_of_injOn (s := (l.map dotOrigin).toFinset) (t := Finset.range R.length ×ˢ T b) q
    (fun p hp => hq3 p (by simpa using hp)) (by
      intro p hp p' hp' he
      have hp : p ∈ l.map dotOrigin := by simpa using hp
      have hp' : p' ∈ l.map dotOrigin := by simpa using hp'
      refine Prod.ext ?_ ?_
      · rw [← hq1 p hp, ← hq1 p' hp', he]
      · refine loc_inj h.sound.mono (hq2 p hp) ?_
        rw [hq2 p' hp', he])
  rw [List.card_toFinset, Finset.card_product, Finset.card_range] at this
  have h1 := length_le_dedup (h.counts l hmem)
  rw [List.length_map] at h1
  exact h1.trans (Nat.mul_le_mul_left _ this)

/-- The rules that wait for `C` at position `m`, with their origins. -/
def WaitsFor (g : DefaultGrammar) (R : Rules) (W : Input) (hint : Nat → Option Nat) (C m : Nat) (p : Nat × Nat) : Prop :=
  ∃ A B, R[p.1]? = some ⟨A, B, some C⟩ ∧ Pred R g.startSym W p.2 A ∧ SeenIn g R W hint m B p.2

/-- The number of rules that wait. -/
theorem SeenAt.wcount_le (h : SeenAt g R P W hint s e S loc) {k b C K : Nat} (hb : loc[k]? = some b)
    (hK : ∀ F : Finset (Nat × Nat), (∀ p ∈ F, WaitsFor g R W hint C b p) → F.card ≤ K) : wcount R S k C ≤ P * K := by
  unfold wcount
  cases hl : S[k]? with
  | none => simp
  | some l =>
    rw [Option.getD_some]
    have hmem := List.mem_of_getElem? hl
    rw [List.countP_eq_length_filter]
    generalize hl' : l.filter (fun x => decide (rhs1Of R x.dot = some C)) = l'
    have hsub : l'.Sublist l := hl' ▸ List.filter_sublist
    have key : ∀ p ∈ l'.map dotOrigin, ∃ q : Nat × Nat, q.1 = p.1 ∧ loc[p.2]? = some q.2 ∧ WaitsFor g R W hint C b q := by
      intro p hp
      obtain ⟨it, hit, rfl⟩ := List.mem_map.1 hp
      obtain ⟨A, B, C', a, k1, k2, k3, k4, _⟩ := h.seen k l b hl hb it (hsub.subset hit)
      rw [← hl'] at hit
      have := (List.mem_filter.1 hit).2
      simp only [rhs1Of, k1, Option.map_some, Option.getD_some, Option.bind_some, decide_eq_true_eq, Option.some.injEq] at this
      subst this
      exact ⟨(it.dot, a), rfl, k2, A, B, k1, k3, k4⟩
    choose! q hq1 hq2 hq3 using key
    have hnd := length_le_dedup fun x => ((hsub.map dotOrigin).count_le x).trans (h.counts l hmem x)
    rw [List.length_map] at hnd
    have := hK ((l'.map dotOrigin).toFinset.image q) (by
      intro p hp
      obtain ⟨x, hx, rfl⟩ := Finset.mem_image.1 hp
      exact hq3 x (by simpa using hx))
    rw [Finset.card_image_of_injOn, List.card_toFinset] at this
    · exact hnd.trans (Nat.mul_le_mul_left _ this)
    · intro p hp p' hp' he
      have hp : p ∈ l'.map dotOrigin := by simpa using hp
      have hp' : p' ∈ l'.map dotOrigin := by simpa using hp'
      refine Prod.ext ?_ ?_
      · rw [← hq1 p hp, ← hq1 p' hp', he]
      · refine loc_inj h.sound.mono (hq2 p hp) ?_
        rw [hq2 p' hp', he]

/-- The cost of the groups of a position. -/
theorem SeenAt.sum_groupCost (h : SeenAt g R P W hint s e S loc) {T : Nat → Finset (Nat × Nat)}
    (hT : ∀ b A a, Pred R g.startSym W a A → SeenIn g R W hint b A a → (A, a) ∈ T b) {K : Nat × Nat → Nat}
    (hK : ∀ b C m, Pred R g.startSym W m C → SeenIn g R W hint b C m → ∀ F : Finset (Nat × Nat),
      (∀ p ∈ F, WaitsFor g R W hint C m p) → F.card ≤ K (C, m))
    {l : List (Nat × Nat)} (hnd : ∀ x, l.count x ≤ P)
    (hgs : ∀ p ∈ l, ∃ a, loc[p.1]? = some a ∧ SeenIn g R W hint (e + 1) p.2 a ∧ Pred R g.startSym W a p.2) :
    (l.map (groupCost R S)).sum ≤ P * ∑ q ∈ T (e + 1), (2 + R.length + 2 * (P * K q)) := by
  refine (sum_le_dedup hnd _).trans (Nat.mul_le_mul_left _ ?_)
  rw [← List.sum_toFinset _ l.nodup_dedup, show l.dedup.toFinset = l.toFinset by ext a; simp]
  choose! a h1 h2 h3 using hgs
  have hle : ∀ p ∈ l, groupCost R S p ≤ 2 + R.length + 2 * (P * K (p.2, a p)) := by
    intro p hp
    have e1 : ucount R p.2 ≤ R.length := List.countP_le_length
    have e2 : wcount R S p.1 p.2 ≤ P * K (p.2, a p) := h.wcount_le (h1 p hp) (hK _ _ _ (h3 p hp) (h2 p hp))
    unfold groupCost
    omega
  calc ∑ p ∈ l.toFinset, groupCost R S p
      ≤ ∑ p ∈ l.toFinset, (fun q : Nat × Nat => 2 + R.length + 2 * (P * K q)) (p.2, a p) :=
        Finset.sum_le_sum fun p hp => hle p (by simpa using hp)
    _ = ∑ q ∈ l.toFinset.image (fun p => (p.2, a p)), (2 + R.length + 2 * (P * K q)) := by
        rw [Finset.sum_image]
        intro p hp p' hp' he
        have hp : p ∈ l := by simpa using hp
        have hp' : p' ∈ l := by simpa using hp'
        simp only [Prod.mk.injEq] at he
        refine Prod.ext ?_ he.1
        refine loc_inj h.sound.mono (h1 p hp) ?_
        rw [h1 p' hp', he.2]
    _ ≤ _ := by
        refine Finset.sum_le_sum_of_subset ?_
        intro q hq
        obtain ⟨p, hp, rfl⟩ := Finset.mem_image.1 hq
        have hp : p ∈ l := by simpa using hp
        exact hT _ _ _ (h3 p hp) (h2 p hp)

/-- No more rules wait than there are symbols found. -/
theorem waits_card {T : Nat → Finset (Nat × Nat)} (hT : ∀ b A a, Pred R g.startSym W a A → SeenIn g R W hint b A a → (A, a) ∈ T b)
    {C m : Nat} {F : Finset (Nat × Nat)} (hF : ∀ p ∈ F, WaitsFor g R W hint C m p) : F.card ≤ R.length * (T m).card := by
  choose! A B h1 h2 h3 using hF
  have := Finset.card_le_card_of_injOn (s := F) (t := Finset.range R.length ×ˢ T m) (fun p => (p.1, B p, p.2))
    (fun p hp => by
      have hp : p ∈ F := hp
      simp only [Finset.coe_product, Set.mem_prod, Finset.coe_range, Set.mem_Iio, Finset.mem_coe]
      exact ⟨(List.getElem?_eq_some_iff.1 (h1 p hp)).1, hT m _ _ (.corner (h2 p hp) ⟨_, List.mem_of_getElem? (h1 p hp), rfl, rfl⟩) (h3 p hp)⟩)
    (by
      intro p _ p' _ he
      simp only [Prod.mk.injEq] at he
      exact Prod.ext he.1 he.2.2)
  rwa [Finset.card_product, Finset.card_range] at this

theorem sum_lengths_le {v : Nat → Nat} : ∀ {S : List (List TItem)} {loc : List Nat}, loc.length = S.length →
    (∀ (k : Nat) l b, S[k]? = some l → loc[k]? = some b → l.length ≤ v b) → S.flatten.length ≤ (loc.map v).sum
  | [], _, _, _ => by simp
  | l :: S, [], h, _ => by simp at h
  | l :: S, b :: loc, h, hv => by
    have h1 := hv 0 l b rfl rfl
    have h2 := sum_lengths_le (v := v) (S := S) (loc := loc) (by simpa using h) fun k l b hl hb => hv (k + 1) l b hl hb
    simp only [List.flatten_cons, List.length_append, List.map_cons, List.sum_cons]
    omega

/-- The number of items in the chart, from what was found. -/
theorem SeenAt.items (h : SeenAt g R P W hint s e S loc) {T : Nat → Finset (Nat × Nat)}
    (hT : ∀ b A a, Pred R g.startSym W a A → SeenIn g R W hint b A a → (A, a) ∈ T b) :
    S.flatten.length ≤ P * (R.length * ∑ b ∈ Finset.range (e + 1), (T b).card) := by
  have h1 := sum_lengths_le h.sound.locLen fun k l b hl hb => h.set_length hT hl hb
  refine h1.trans ?_
  have hnd : loc.Nodup := h.sound.mono.imp fun h => Nat.ne_of_lt h
  rw [Finset.mul_sum, Finset.mul_sum, ← List.sum_toFinset _ hnd]
  refine Finset.sum_le_sum_of_subset fun b hb => ?_
  obtain ⟨k, hk⟩ := List.getElem?_of_mem (List.mem_toFinset.1 hb)
  have hlt := (List.getElem?_eq_some_iff.1 hk).1
  have hlast := h.sound.last
  rw [h.sound.locLen] at hlt
  rw [Finset.mem_range]
  rcases Nat.lt_or_ge k (S.length - 1) with hk' | hk'
  · obtain ⟨h2, rfl⟩ := List.getElem?_eq_some_iff.1 hk
    obtain ⟨h3, h4⟩ := List.getElem?_eq_some_iff.1 hlast
    have := List.pairwise_iff_getElem.1 h.sound.mono k (S.length - 1) h2 h3 hk'
    omega
  · have : k = S.length - 1 := by omega
    rw [this, hlast, Option.some.injEq] at hk
    omega

end Gearley
