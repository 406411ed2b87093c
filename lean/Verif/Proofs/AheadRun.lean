import Verif.Proofs.Ahead
import Verif.Proofs.Cycle

/-! # Sessions with any hints: what is in the chart, failure and divergence -/

namespace Gearley
open Gearley.Spec

namespace Spec.Guided
variable {G : Guided}

/-- Whatever is expected after the beginning is expected by an item. -/
theorem Pred.item {b X : Nat} (h : G.Pred b X) : 0 < b → ∃ d a t, G.Item b d a t := by
  induction h using Guided.Pred.rec (motive_2 := fun _ _ _ _ _ => True) with
  | start => intro h; omega
  | corner _ _ ih => exact ih
  | next hR hp hf he => exact fun _ => ⟨_, _, _, _, _, _, hR, hp, hf, he⟩
  | token => trivial
  | unary => trivial
  | binary => trivial

theorem Found.item {b X a : Nat} {t : PTree} (h : G.Found b X a t) : G.Pred a X → 2 ≤ b → ∃ d a t, G.Item (b - 1) d a t := by
  induction h using Guided.Found.rec (motive_1 := fun _ _ _ => True) with
  | start => trivial
  | corner => trivial
  | next => trivial
  | token h => intro hp hb; exact hp.item (by omega)
  | unary hR _ _ _ _ ih => exact fun hp hb => ih (hp.corner ⟨_, List.mem_of_getElem? hR, rfl, rfl⟩) hb
  | binary hR _ hl he _ _ _ _ ih2 => exact fun hp hb => ih2 (.next hR hp hl he) hb

theorem Found.pred {b A a d : Nat} {t : PTree} (h : G.Found b A a (.node d t)) : G.Pred a A := by
  cases h with
  | unary _ h => exact h
  | binary _ h => exact h

theorem Item.lives {b d a : Nat} {t : PTree} (h : G.Item b d a t) : G.Lives b := .inl ⟨_, _, _, h⟩

theorem Lives.item {b : Nat} (h : G.Lives b) (hb : 2 ≤ b) : ∃ d a t, G.Item (b - 1) d a t := by
  rcases h with ⟨d, a, t, A, B, C, hR, hp, hf, _⟩ | ⟨A, a, d, t, hf⟩
  · exact hf.item (hp.corner ⟨_, List.mem_of_getElem? hR, rfl, rfl⟩) hb
  · exact hf.item hf.pred hb

theorem Lives.before {b k : Nat} (h : G.Lives b) (hk : 1 ≤ k) (hkb : k ≤ b) : G.Lives k := by
  induction b with
  | zero => omega
  | succ b ih =>
    rcases Nat.lt_or_eq_of_le hkb with h1 | h1
    · obtain ⟨d, a, t, hi⟩ := h.item (by omega)
      exact ih hi.lives (by omega)
    · subst h1; exact h

/-- Following one-symbol rules upwards makes trees grow. -/
theorem Fires.found {b A B a : Nat} (h : Relation.TransGen (G.Fires b) A B) :
    ∀ t, G.Pred a A → G.Found b B a t → ∃ d t', G.Found b A a (.node d t') ∧ sizeOf t < sizeOf (PTree.node d t') := by
  induction h using Relation.TransGen.head_induction_on with
  | single h =>
    obtain ⟨d, hR, hok⟩ := h
    exact fun t hp hf => ⟨d, t, .unary hR hp hf hok, by simp⟩
  | head h _ ih =>
    obtain ⟨d, hR, hok⟩ := h
    intro t hp hf
    obtain ⟨d', t', h1, h2⟩ := ih t (hp.corner ⟨_, List.mem_of_getElem? hR, rfl, rfl⟩) hf
    exact ⟨d, _, .unary hR hp h1 hok, by simp at h2 ⊢; omega⟩

theorem Loops.lives {b : Nat} (h : G.Loops b) : G.Lives b := by
  obtain ⟨a, A, t, hp, hf, hc⟩ := h
  obtain ⟨d, t', h1, _⟩ := Fires.found hc t hp hf
  exact .inr ⟨_, _, _, _, h1⟩

theorem Loops.large {b : Nat} (h : G.Loops b) : ∃ a A, ∀ m : Nat, ∃ t, G.Found b A a t ∧ m ≤ sizeOf t := by
  obtain ⟨a, A, t, hp, hf, hc⟩ := h
  refine ⟨a, A, fun m => ?_⟩
  induction m with
  | zero => exact ⟨t, hf, by omega⟩
  | succ m ih =>
    obtain ⟨t1, h1, h2⟩ := ih
    obtain ⟨d, t', h3, h4⟩ := Fires.found hc t1 hp h1
    exact ⟨_, h3, by omega⟩

end Spec.Guided

open Classical in
/-- A relation on a list without cycles has a rank. -/
theorem rank_of_acyclic {L : List Nat} {F : Nat → Nat → Prop} (hL : ∀ A B, F A B → A ∈ L)
    (hac : ∀ A, ¬ Relation.TransGen F A A) : ∃ rank : Nat → Nat, ∀ A B, F A B → rank A < rank B := by
  refine ⟨fun X => (L.toFinset.filter fun Y => Relation.TransGen F Y X).card, ?_⟩
  intro A B h
  refine Finset.card_lt_card ⟨?_, ?_⟩
  · intro Y hY
    simp only [Finset.mem_filter] at hY ⊢
    exact ⟨hY.1, hY.2.tail h⟩
  · intro hsub
    have : A ∈ L.toFinset.filter fun Y => Relation.TransGen F Y B := by
      simp only [Finset.mem_filter, List.mem_toFinset]
      exact ⟨hL _ _ h, .single h⟩
    have := hsub this
    simp only [Finset.mem_filter] at this
    exact hac A this.2

variable {g : DefaultGrammar} {R : Rules} {root : Nat → Nat}
variable {W : Input} {hint : Nat → Option Nat} {s : TRec} {e : Nat} {S : List (List TItem)} {loc : List Nat}

/-- Only what is found is queued. -/
def HeapAhead (g : DefaultGrammar) (R : Rules) (W : Input) (hint : Nat → Option Nat) (loc : List Nat) (e : Nat)
    (heap : List TItem) : Prop :=
  ∀ it ∈ heap, ∃ a t, loc[it.origin]? = some a ∧ (g.guided R W hint).Found (e + 1) (lhsOf R it.dot) a (.node it.dot t)

theorem AheadAt.heapNew (hg : GrammarOK g R root) (h : AheadAt g R W hint s e S loc) {la sorter}
    (hh : hint (e + 1) = if la then s.lookahead else none) {o A a : Nat} {t : PTree} (ho : loc[o]? = some a)
    (ht : (g.guided R W hint).Found (e + 1) A a t) {N : List PTree} :
    let c := ctxOf g R root la sorter s S
    HeapAhead g R W hint loc e (heapNew c.g c.R c.root c.la c.hint c.pm c.S o A N) := by
  intro c it hit
  simp only [c, ctxOf, Gearley.heapNew] at hit
  split at hit
  · rcases List.mem_append.1 hit with h' | h'
    · simp only [medPart, List.mem_map, List.mem_filter, Bool.and_eq_true, decide_eq_true_eq] at h'
      obtain ⟨x, ⟨hx, hr1, hok⟩, rfl⟩ := h'
      cases hS : S[o]? with
      | none => rw [hS] at hx; simp at hx
      | some l =>
        rw [hS, Option.getD_some] at hx
        obtain ⟨f, fs, hf⟩ := List.exists_cons_of_ne_nil (h.rest.node l (List.mem_of_getElem? hS) x hx)
        have hfact : (x.dot, x.origin, f) ∈ facts l := mem_facts.2 ⟨x, hx, rfl, rfl, by rw [hf]; simp⟩
        obtain ⟨_, _, _, a', _, _, h1, _⟩ := h.sound.fact o l hS _ hfact
        simp only at h1
        obtain ⟨A', B', C', hR, hp, hl, he⟩ := (h.items o l a hS ho x.dot a' f).1 ⟨_, h1, hfact⟩
        simp only at hR
        simp only [rhs1Of, hR, Option.bind_some, Option.some.injEq] at hr1
        subst hr1
        refine ⟨a', .pair f t, h1, ?_⟩
        rw [lhsOf_eq hR]
        exact .binary hR hp hl he ht ((okM_iff hR hh).1 hok)
    · simp only [unPart, List.mem_map, List.mem_filter, Bool.and_eq_true, Bool.or_eq_true, decide_eq_true_eq] at h'
      obtain ⟨p, ⟨hp, hbit, hok⟩, rfl⟩ := h'
      obtain ⟨r, h1, h2, h3, h4, _⟩ := mem_unTrans.1 hp
      rw [h4] at hbit
      have hp := h.predOfBit hg (List.mem_of_getElem? h1) ho hbit
      obtain ⟨A', B', C'⟩ := r
      simp only at h2 h3 h4
      subst h2; subst h3
      refine ⟨a, t, ho, ?_⟩
      rw [lhsOf_eq h1]
      exact .unary h1 hp ht (hok.imp id fun hok => (okP_unary_iff h1 hh).1 hok)
  · simp at hit

theorem AheadAt.keeps (hg : GrammarOK g R root) (h : AheadAt g R W hint s e S loc) {la sorter}
    (hh : hint (e + 1) = if la then s.lookahead else none) :
    (ctxOf g R root la sorter s S).Keeps (W e) fun _ heap _ => HeapAhead g R W hint loc e heap := by
  refine ⟨by simp [HeapAhead], ?_, ?_⟩
  · intro pre post a v heap heap' cur e1 e2 e3 e4 it hit
    have ht : (g.guided R W hint).Found (e + 1) a e (.leaf a v) := .token (by show _ ∈ W e; rw [e1]; simp)
    rcases List.mem_append.1 (e4.mem_iff.1 hit) with h' | h'
    · exact e2 it h'
    · exact h.heapNew hg hh h.sound.last ht it h'
  · intro heap heap' cur G rest o A e2 a1 a2 a3 a4 a5 a6 it hit
    obtain ⟨it0, G', rfl⟩ := List.exists_cons_of_ne_nil a1
    obtain ⟨a, t, b1, b3⟩ := e2 it0 (a2.mem_iff.2 (by simp))
    have hk := a4 it0 (by simp)
    simp only [keyOf, Prod.mk.injEq, ctxOf] at hk
    rw [hk.1] at b1
    rw [hk.2] at b3
    rcases List.mem_append.1 (a6.mem_iff.1 hit) with h' | h'
    · exact e2 it (a2.mem_iff.2 (List.mem_append_right _ h'))
    · exact h.heapNew hg hh b1 b3 it h'

/-- Without a loop the completion of a position ends. -/
theorem AheadAt.settles (hno : ¬ (g.guided R W hint).Loops (e + 1)) :
    EC.Settles R fun heap _ => HeapAhead g R W hint loc e heap := by
  let D : Nat → Prop := fun d => ∃ a t, (g.guided R W hint).Found (e + 1) (lhsOf R d) a (.node d t)
  let F : Nat → Nat → Prop := fun A B => ∃ d : Nat, R[d]? = some ⟨A, B, none⟩ ∧ D d
  have hF : ∀ A B, F A B → (g.guided R W hint).Fires (e + 1) A B ∧
      ∃ a t, (g.guided R W hint).Pred a A ∧ (g.guided R W hint).Found (e + 1) A a t := by
    rintro A B ⟨d, hR, a, t, hf⟩
    rw [lhsOf_eq hR] at hf
    refine ⟨?_, a, _, hf.pred, hf⟩
    cases hf with
    | unary hR' hp _ hok =>
      simp only [hR, Option.some.injEq, Rule.mk.injEq, true_and, and_true] at hR'
      subst hR'
      exact ⟨d, hR, hok⟩
    | binary hR' =>
      simp only [hR, Option.some.injEq, Rule.mk.injEq, reduceCtorEq, and_false] at hR'
  obtain ⟨rank, hrank⟩ := rank_of_acyclic (L := R.map (·.lhs)) (F := F)
    (by rintro A B ⟨d, hR, _⟩; exact List.mem_map.2 ⟨_, List.mem_of_getElem? hR, rfl⟩)
    (by
      intro A hc
      obtain ⟨B, hAB, _⟩ := Relation.TransGen.head'_iff.1 hc
      obtain ⟨_, a, t, hp, hf⟩ := hF A B hAB
      exact hno ⟨a, A, t, hp, hf, Relation.TransGen.mono (fun _ _ h => (hF _ _ h).1) _ _ hc⟩)
  refine ⟨D, rank, ?_, ?_⟩
  · intro heap cur hj it hit
    obtain ⟨a, t, _, h⟩ := hj it hit
    exact ⟨a, t, h⟩
  · rintro d ⟨A, B, C⟩ hR h1 hd
    simp only at h1
    subst h1
    exact hrank A B ⟨d, hR, hd⟩

/-- One position: it does not return if there is a loop, it fails if no rule is entered or completed, and otherwise the
state holds exactly what is found. -/
theorem AheadAt.position (hg : GrammarOK g R root) (h : AheadAt g R W hint s e S loc) {la sorter}
    (hh : hint (e + 1) = if la then s.lookahead else none) (hlen : e + 1 < 2 ^ 64)
    (ht : ∀ t ∈ W e, t.1 < g.syms + g.gensyms) {lax : Prop} (hterm : lax ∨ ¬ (g.guided R W hint).Loops (e + 1)) :
    Gearley.Ends lax (Rec.position (treeEnv g la sorter) s (W e)) fun r =>
      ¬ (g.guided R W hint).Loops (e + 1) ∧ (r.2 = true ↔ (g.guided R W hint).Lives (e + 1)) ∧
      (r.2 = true → r.1.lookahead = none ∧ ∃ S' loc', AheadAt g R W hint r.1 (e + 1) S' loc') := by
  have hP := pred_predOK (R := R) g.startSym W
  have hSl := h.sound.length_le h.rest.pos
  refine (position_spec hg h.rest (by omega) (W e) ht (h.keeps hg hh (sorter := sorter))
    (hterm.imp id fun hno => AheadAt.settles hno)).mono ?_
  rintro r ⟨Fd, cur, hf, -, hr⟩
  refine ⟨?_, ?_, ?_⟩
  · intro hlo
    obtain ⟨a, A, hla⟩ := hlo.large
    have hfin : ∀ F : Multiset Done, ∃ m, ∀ z ∈ F, sizeOf z.2.2 < m := by
      intro F
      induction F using Multiset.induction_on with
      | empty => exact ⟨0, by simp⟩
      | cons z F ih =>
        obtain ⟨m, hm⟩ := ih
        refine ⟨max m (sizeOf z.2.2 + 1), fun y hy => ?_⟩
        rcases Multiset.mem_cons.1 hy with rfl | hy
        · omega
        · have := hm y hy; omega
    obtain ⟨m, hm⟩ := hfin Fd
    obtain ⟨t, h1, h2⟩ := hla m
    obtain ⟨o, _, hz⟩ := h.fd_complete hg hh hf h1 rfl
    have := hm _ hz
    simp only at this
    omega
  · constructor
    · intro htrue
      rcases hr with ⟨h1, -⟩ | ⟨-, hne, -⟩
      · rw [htrue] at h1; cases h1
      rcases hne with hne | hne
      · obtain ⟨it, l, rfl⟩ := List.exists_cons_of_ne_nil hne
        have hn := (hf.citems it (by simp)).1
        obtain ⟨f, fs, hfe⟩ := List.exists_cons_of_ne_nil hn
        have hx : (it.dot, it.origin, f) ∈ facts (it :: l) := mem_facts.2 ⟨it, by simp, rfl, rfl, by rw [hfe]; simp⟩
        obtain ⟨_, _, _, a, _, e2, _⟩ := hf.sound_cur hg h.sound hP hx
        exact .inl ⟨_, _, _, (h.cur_iff hg hh hf it.dot a f).1 ⟨_, e2, hx⟩⟩
      · obtain ⟨x, hx⟩ := Multiset.exists_mem_of_ne_zero hne
        have hmem : fire R x ∈ Fd := by
          rw [hf.fd]
          exact Multiset.mem_add.2 (Or.inr (Multiset.mem_map.2 ⟨x, hx, rfl⟩))
        obtain ⟨a, _, hta⟩ := h.fd_sound hg hh hf _ _ _ hmem
        exact .inr ⟨_, _, _, _, hta⟩
    · intro hl
      rcases hr with ⟨-, hcur, hFd, -⟩ | ⟨h1, -⟩
      · exfalso
        rcases hl with ⟨d, a, t, hi⟩ | ⟨A, a, d, t, hfo⟩
        · obtain ⟨o, _, hx⟩ := (h.cur_iff hg hh hf d a t).2 hi
          rw [hcur] at hx; simp at hx
        · obtain ⟨o, _, hz⟩ := h.fd_complete hg hh hf hfo rfl
          rw [hFd] at hz
          simp only [scansOf, Multiset.mem_map, Prod.mk.injEq] at hz
          obtain ⟨_, _, _, _, hl⟩ := hz
          cases hl
      · exact h1
  · intro htrue
    rcases hr with ⟨h1, -⟩ | ⟨-, -, hlook, cur', keep, ha⟩
    · rw [htrue] at h1; cases h1
    exact ⟨hlook, _, _, h.next hg hh hf ha hlook⟩

theorem AheadAt.hintOp (h : AheadAt g R W hint s e S loc) (op : Rec.HintOp) (hop : ∀ x, op = .set x → x < g.syms) :
    AheadAt g R W hint (Rec.applyHint s op) e S loc :=
  ⟨h.rest.hintOp op hop, by rw [applyHint_predicted]; exact h.sound, h.items, by rw [applyHint_predicted]; exact h.rows⟩

theorem ahead_session (hg : GrammarOK g R root) {la sorter} {lax : Prop} :
    ∀ (steps : List Step) (s : TRec) (e : Nat) (S loc), AheadAt g R W hint s e S loc →
    s.lookahead = none → e + steps.length < 2 ^ 64 → StepsOK g steps → StepsIn W e steps → HintsAre hint la e steps →
    (lax ∨ ∀ k, e < k → k ≤ e + steps.length → ¬ (g.guided R W hint).Loops k) →
    Gearley.Ends lax (Rec.session (treeEnv g la sorter) steps s) fun r =>
      (∀ k, e < k → k ≤ e + steps.length → ¬ (g.guided R W hint).Loops k) ∧
      (r.2 = true ↔ ∀ k, e < k → k ≤ e + steps.length → (g.guided R W hint).Lives k) ∧
      (r.2 = true → r.1.lookahead = none ∧ ∃ S' loc', AheadAt g R W hint r.1 (e + steps.length) S' loc') := by
  intro steps
  induction steps with
  | nil =>
    intro s e S loc h hl _ _ _ _ _
    refine ends_pure ⟨fun k h1 h2 => ?_, ⟨fun _ k h1 h2 => ?_, fun _ => rfl⟩, fun _ => ⟨hl, _, _, h⟩⟩
    · simp only [List.length_nil] at h2; omega
    · simp only [List.length_nil] at h2; omega
  | cons st rest ih =>
    intro s e S loc h hl hlen hok hin hhi hterm
    obtain ⟨op, toks⟩ := st
    have htoks : W e = toks := by simpa using hin 0 (op, toks) (by simp)
    simp only [List.length_cons] at hlen hterm ⊢
    have h' := h.hintOp op (hok (op, toks) (by simp)).1
    rw [Rec.session, Rec.sessionWith]
    have hpos := h'.position hg (la := la) (sorter := sorter) (lax := lax)
      (by rw [applyHint_none hl]; exact hhi 0 (op, toks) (by simp)) (by omega)
      (by rw [htoks]; exact (hok (op, toks) (by simp)).2) (hterm.imp id fun h => h (e + 1) (by omega) (by omega))
    rw [htoks] at hpos
    refine ends_bind (hpos.mono ?_)
    rintro ⟨s1, ok⟩ ⟨hlo, hli, h1⟩
    cases ok with
    | false =>
      simp only [Bool.false_eq_true, if_false, false_iff] at hli ⊢
      refine ends_pure ⟨fun k h1 h2 hk => ?_, ⟨fun h => by simp at h, fun h => ?_⟩, fun h => by simp at h⟩
      · exact hli (hk.lives.before (by omega) (by omega))
      · exact absurd (h (e + 1) (by omega) (by omega)) hli
    | true =>
      simp only [if_true, true_iff] at hli ⊢
      obtain ⟨h2, S', loc', h3⟩ := h1 rfl
      rw [show e + (rest.length + 1) = e + 1 + rest.length by omega] at hterm ⊢
      refine (ih s1 (e + 1) S' loc' h3 h2 (by omega) (fun x hx => hok x (by simp [hx])) ?_ ?_ ?_).mono ?_
      · intro i st hst
        have := hin (i + 1) st (by simpa using hst)
        rw [← this]; congr 1; omega
      · intro i st hst
        have := hhi (i + 1) st (by simpa using hst)
        rw [← this]; congr 1; omega
      · exact hterm.imp id fun h k h1 h2 => h k (by omega) h2
      · rintro r ⟨a1, a2, a3⟩
        refine ⟨fun k k1 k2 => ?_, a2.trans ⟨fun h k k1 k2 => ?_, fun h k k1 k2 => h k (by omega) k2⟩, a3⟩
        · rcases Nat.lt_or_eq_of_le (show e + 1 ≤ k from k1) with h | h
          · exact a1 k h k2
          · rw [← h]; exact hlo
        · rcases Nat.lt_or_eq_of_le (show e + 1 ≤ k from k1) with h' | h'
          · exact h k h' k2
          · rw [← h']; exact hli

/-- The new recognizer. -/
theorem ahead_new (hg : GrammarOK g R root) {la sorter} (f : List PTree) :
    Returns (Rec.new (treeEnv g la sorter) f) fun s => AheadAt g R W hint s 0 [[]] [0] ∧ s.lookahead = none := by
  have hP := pred_predOK (R := R) g.startSym W
  -- the empty prefix: only the start symbol and what it begins with are expected
  have hnone : ∀ {b A a t}, (g.guided R W hint).Found b A a t → 0 < b := fun h => by
    have := h.tree.lt; omega
  obtain ⟨s, hs, hinv, hl⟩ := new_spec (n := 0) (H := False) (la := la) (sorter := sorter) hg hP f
  refine ⟨s, hs, ⟨hinv.rest, hinv.sound, ?_, ?_⟩, hl⟩
  · intro k l b hk hb d a t
    have := List.mem_of_getElem? hk
    simp at this
    subst this
    have hb0 : b = 0 := by
      have := List.mem_of_getElem? hb
      simpa using this
    subst hb0
    constructor
    · rintro ⟨o, _, hx⟩; simp at hx
    · rintro ⟨_, _, _, _, _, hf, _⟩
      exact absurd (hnone hf) (by omega)
  · intro k b hb X
    have hk0 : k = 0 := by
      have := (List.getElem?_eq_some_iff.1 hb).1
      simpa using this
    subst hk0
    simp at hb; subst hb
    have hcor : ∀ b X, (g.guided R W hint).Pred b X → b = 0 → Relation.ReflTransGen (Corner R) g.startSym X := by
      intro b X hp
      induction hp using Guided.Pred.rec (motive_2 := fun _ _ _ _ _ => True) with
      | start => exact fun _ => .refl
      | corner _ hc ih => exact fun h => (ih h).tail hc
      | next _ _ hf => intro h; exact absurd (hnone hf) (by omega)
      | token => trivial
      | unary => trivial
      | binary => trivial
    have hplain : ∀ b X, Pred R g.startSym W b X → b = 0 → Relation.ReflTransGen (Corner R) g.startSym X := by
      intro b X hp
      induction hp with
      | start => exact fun _ => .refl
      | corner _ hc ih => exact fun h => (ih h).tail hc
      | medial _ _ ht => intro h; have := ht.lt; omega
    constructor
    · intro hbit
      exact ⟨(bit_lt hinv.rest.rowLen hbit).2, Guided.Pred.start.corners (hplain _ _ (hinv.sound.row 0 X 0 rfl hbit) rfl)⟩
    · rintro ⟨hX, hp⟩
      -- the start symbol itself is expected
      have hinv' := ((new_spec (n := 1) (H := True) (la := la) (sorter := sorter) hg
        (pred_predOK (R := R) g.startSym fun _ => [(g.startSym, 0)]) f).of_eq hs).1
      obtain ⟨Y, hY, hYs⟩ := (hinv'.full trivial).1.row 0 0 g.startSym 1 (.leaf g.startSym 0) rfl .root (.leaf (by simp))
      obtain ⟨row, h1, h2⟩ := BitMatrix.bit_iff.1 hY
      exact BitMatrix.bit_iff.2 ⟨row, h1, hinv.rest.closed row (List.mem_of_getElem? h1) Y X h2
        (hYs.trans (hcor _ _ hp rfl)) hX⟩

/-- A whole session with any hints. -/
theorem ahead_run (hg : GrammarOK g R root) {la sorter} {steps : List Step} (hlen : steps.length < 2 ^ 64)
    (hok : StepsOK g steps) (hW : StepsIn W 0 steps) (hhi : HintsAre hint la 0 steps) {lax : Prop}
    (hterm : lax ∨ ∀ k, 0 < k → k ≤ steps.length → ¬ (g.guided R W hint).Loops k) (f : List PTree) :
    Gearley.Ends lax (Rec.new (treeEnv g la sorter) f >>= Rec.session (treeEnv g la sorter) steps) fun r =>
      (∀ k, 0 < k → k ≤ steps.length → ¬ (g.guided R W hint).Loops k) ∧
      (r.2 = true ↔ ∀ k, 0 < k → k ≤ steps.length → (g.guided R W hint).Lives k) ∧
      (r.2 = true → r.1.lookahead = none ∧ ∃ S loc, AheadAt g R W hint r.1 steps.length S loc) := by
  refine ends_bind ((ahead_new (W := W) (hint := hint) hg f).ends.mono ?_)
  rintro s ⟨h0, hl⟩
  have := ahead_session hg (la := la) (sorter := sorter) (lax := lax) steps s 0 _ _ h0 hl (by omega) hok hW hhi
    (by rwa [Nat.zero_add])
  rwa [Nat.zero_add] at this

end Gearley
