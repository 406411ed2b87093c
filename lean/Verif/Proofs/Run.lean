import Verif.Proofs.Once

/-! # Invariants over whole runs -/

namespace Gearley
open Gearley.Spec

/-- Tokens at a position are distinct. -/
def Distinct (W : Input) : Prop := ∀ i, (W i).Nodup

/-- Tokens have no rules, and no symbol occurs twice at a position. -/
def TermToks (R : Rules) (W : Input) : Prop := ∀ i, ((W i).map (·.1)).Nodup ∧ ∀ t ∈ W i, Terminal R t.1

/-- The state after `e` positions of the input `W`. Under the condition `H` the state is complete for derivations of
`0 .. n`. -/
structure InvAt (g : DefaultGrammar) (R : Rules) (W : Input) (n : Nat) (H : Prop) (P : Nat → Nat → Prop) (St : Nat → Prop)
    (s : TRec) (e : Nat) (S : List (List TItem)) (loc : List Nat) : Prop where
  rest : Rest g R s S
  sound : Sound R W P St s.predicted S loc e
  full : H → Full g R W n s.predicted S loc ∧ Barrier R g.startSym W n loc e
  once : Distinct W → ∀ l ∈ S, (facts l).Nodup
  late : TermToks R W → ∀ l ∈ S, ∀ d o A, rhs0Of R d = some A → EC.Late R A → (l.map dotOrigin).count (d, o) ≤ 1
  ordered : EC.Ordered R → TermToks R W → ∀ l ∈ S, ∀ d o, (∃ A, rhs0Of R d = some A) → (l.map dotOrigin).count (d, o) ≤ 1

def Inv (g : DefaultGrammar) (R : Rules) (W : Input) (n : Nat) (H : Prop) (P : Nat → Nat → Prop) (St : Nat → Prop)
    (s : TRec) (e : Nat) : Prop := ∃ S loc, InvAt g R W n H P St s e S loc

section
variable {g : DefaultGrammar} {R : Rules} {root : Nat → Nat}

theorem pairwise_lt_index {loc : List Nat} (h : loc.Pairwise (· < ·)) : ∀ (i a : Nat), loc[i]? = some a → i ≤ a := by
  intro i
  induction i with
  | zero => intro a _; omega
  | succ i ih =>
    intro a ha
    have hi : i + 1 < loc.length := (List.getElem?_eq_some_iff.1 ha).1
    have := ih loc[i] (by simp)
    have h2 := (List.pairwise_iff_getElem.1 h) i (i + 1) (by omega) hi (by omega)
    have h3 : loc[i + 1] = a := (List.getElem?_eq_some_iff.1 ha).2
    omega

theorem Sound.length_le {inp P St pm S loc e} (h : Sound R inp P St pm S loc e) (hS : 0 < S.length) : S.length ≤ e + 1 := by
  have := pairwise_lt_index h.mono _ _ h.last
  omega

/-- Items that get completed are rules for symbols that are predicted and match the input. -/
theorem EC.heapNew_sound (hg : GrammarOK g R root) {s : TRec} {S inp P St loc e la sorter}
    (hP : PredOK R g.startSym inp P St) (hs : Sound R inp P St s.predicted S loc e) (hbin : ∀ l ∈ S, ∀ it ∈ l, it.node ≠ [])
    {o A a : Nat} {t : PTree} (ho : loc[o]? = some a) (ht : TreeOf R inp t A a (e + 1)) {N : List PTree} :
    let c := ctxOf g R root la sorter s S
    ∀ it ∈ heapNew c.g c.R c.root c.la c.hint c.pm c.S o A N,
      ∃ a t, loc[it.origin]? = some a ∧ P a (lhsOf R it.dot) ∧ TreeOf R inp t (lhsOf R it.dot) a (e + 1) := by
  intro c it hit
  simp only [c, ctxOf, heapNew] at hit
  split at hit
  · rcases List.mem_append.1 hit with h | h
    · simp only [medPart, List.mem_map, List.mem_filter, Bool.and_eq_true, decide_eq_true_eq] at h
      obtain ⟨x, ⟨hx, hr1, _⟩, rfl⟩ := h
      cases hS : S[o]? with
      | none => rw [hS] at hx; simp at hx
      | some l =>
        rw [hS, Option.getD_some] at hx
        obtain ⟨f, fs, hf⟩ := List.exists_cons_of_ne_nil (hbin l (List.mem_of_getElem? hS) x hx)
        obtain ⟨A', B', C', a', b, hR, h1, h2, h3, h4⟩ := hs.fact o l hS (x.dot, x.origin, f)
          (mem_facts.2 ⟨x, hx, rfl, rfl, by rw [hf]; simp⟩)
        simp only at hR h1 h2 h3 h4
        rw [ho] at h2
        simp only [Option.some.injEq] at h2
        subst h2
        simp only [rhs1Of, hR, Option.bind_some, Option.some.injEq] at hr1
        subst hr1
        exact ⟨a', _, h1, by rw [lhsOf_eq hR]; exact h4, by rw [lhsOf_eq hR]; exact .binary hR h3 ht⟩
    · simp only [unPart, List.mem_map, List.mem_filter, Bool.and_eq_true] at h
      obtain ⟨p, ⟨hp, hbit, _⟩, rfl⟩ := h
      obtain ⟨r, h1, h2, h3, h4, _⟩ := mem_unTrans.1 hp
      obtain ⟨A', B', C'⟩ := r
      simp only at h2 h3 h4
      subst h2; subst h3
      refine ⟨a, _, ho, ?_, by rw [lhsOf_eq h1]; exact .unary h1 ht⟩
      rw [lhsOf_eq h1]
      rw [h4] at hbit
      exact hP.corners (hs.row o _ a ho hbit) (hg.root_corner _ (List.mem_of_getElem? h1))
  · simp at hit

/-- A reason for the completion of position `e` to end: the symbols that get completed are ranked by the one-symbol
rules. -/
def SettlesAt (R : Rules) (W : Input) (P : Nat → Nat → Prop) (e : Nat) : Prop := ∃ rank : Nat → Nat,
  ∀ r ∈ R, r.rhs1 = none → (∃ a t, P a r.lhs ∧ TreeOf R W t r.lhs a (e + 1)) → rank r.lhs < rank r.rhs0

theorem EC.Ranked.settlesAt {rank : Nat → Nat} (h : EC.Ranked R rank) (W : Input) (P : Nat → Nat → Prop) (e : Nat) :
    SettlesAt R W P e :=
  ⟨rank, fun r hr h1 _ => h r hr h1⟩

/-- One position preserves the invariant; failure means that no derivation of the whole input goes through the tokens.
When the position ends, only finitely many trees have been completed. -/
theorem InvAt.position' (hg : GrammarOK g R root) {T : Nat → Prop} (hT : LookaheadOK g R T)
    {W : Input} {n : Nat} {H : Prop} {P : Nat → Nat → Prop} {St : Nat → Prop}
    (hP : PredOK R g.startSym W P St) {s : TRec} {e : Nat} {S loc} (h : InvAt g R W n H P St s e S loc)
    (hlen : e + 1 < 2 ^ 64) (ht : ∀ t ∈ W e, t.1 < g.syms + g.gensyms) {la sorter}
    (hh : H → la = true → HintOK W n T e s.lookahead) {lax : Prop} (hterm : lax ∨ SettlesAt R W P e) :
    Ends lax (Rec.position (treeEnv g la sorter) s (W e)) fun r =>
      ((r.2 = true ∧ r.1.lookahead = none ∧
        (∃ keep cur', 1 ≤ keep ∧ keep ≤ S.length ∧
          InvAt g R W n H P St r.1 (e + 1) (S.take keep ++ [cur']) (nextLoc loc keep e)) ∧
        ∃ X a t, P a X ∧ TreeOf R W t X a (e + 1)) ∨
      (r.2 = false ∧ r.1.lookahead = s.lookahead ∧ r.1.predicted = s.predicted ∧ r.1.complete = [] ∧
        r.1.medial = Vec2d.ofSets (S ++ [[]]) ∧
        (H → e + 1 ≤ n → ∀ t, TreeOf R W t g.startSym 0 n → ∃ a v, t = .leaf a v))) ∧
      (H → ∃ Fd : Multiset Done, ∀ A a t, TreeOf R W t A a (e + 1) → Ctx R g.startSym W n A a (e + 1) →
        ∃ o, (A, o, t) ∈ Fd) := by
  have hSl := h.sound.length_le h.rest.pos
  have hc := h.rest.ok hg (la := la) (sorter := sorter)
  -- all three conditions at once
  let J1 := (ctxOf g R root la sorter s S).JOnce (EC.Late R)
    (fun heap o A => ∀ it ∈ heap, it.origin ≤ o ∧ keyOf R it ≠ (o, A)) (W e)
  let J2 := (ctxOf g R root la sorter s S).JOnce (fun _ => True)
    (fun heap o A => ∀ it ∈ heap, KeyLt (keyOf R it) (o, A)) (W e)
  let J : List (Nat × Nat) → List TItem → List TItem → Prop := fun pre heap cur =>
    (TermToks R W → J1 pre heap cur) ∧ (EC.Ordered R → TermToks R W → J2 pre heap cur) ∧
      ∀ it ∈ heap, ∃ a t, loc[it.origin]? = some a ∧ P a (lhsOf R it.dot) ∧ TreeOf R W t (lhsOf R it.dot) a (e + 1)
  have hJ : (ctxOf g R root la sorter s S).Keeps (W e) J := by
    have k1 : TermToks R W → (ctxOf g R root la sorter s S).Keeps (W e) J1 := fun htt =>
      EC.keeps_once hc EC.deadOK_late (htt e).1 (fun t ht _ => (htt e).2 t ht)
    have k2 : EC.Ordered R → TermToks R W → (ctxOf g R root la sorter s S).Keeps (W e) J2 := fun ho htt =>
      EC.keeps_once hc (EC.deadOK_ordered ho) (htt e).1 (fun t ht _ => (htt e).2 t ht)
    refine ⟨⟨fun h => (k1 h).init, fun h1 h => (k2 h1 h).init, by simp⟩, ?_, ?_⟩
    · intro pre post a v heap heap' cur e1 e2 e3 e4
      refine ⟨fun h => (k1 h).scan pre post a v heap heap' cur e1 (e2.1 h) e3 e4,
        fun h1 h => (k2 h1 h).scan pre post a v heap heap' cur e1 (e2.2.1 h1 h) e3 e4, ?_⟩
      intro it hit
      rcases List.mem_append.1 (e4.mem_iff.1 hit) with h' | h'
      · exact e2.2.2 it h'
      · exact EC.heapNew_sound hg hP h.sound h.rest.node h.sound.last (.leaf (v := v) (by rw [e1]; simp)) it h'
    · intro heap heap' cur G rest o A e2 a1 a2 a3 a4 a5 a6
      refine ⟨fun h => (k1 h).step heap heap' cur G rest o A (e2.1 h) a1 a2 a3 a4 a5 a6,
        fun h1 h => (k2 h1 h).step heap heap' cur G rest o A (e2.2.1 h1 h) a1 a2 a3 a4 a5 a6, ?_⟩
      intro it hit
      rcases List.mem_append.1 (a6.mem_iff.1 hit) with h' | h'
      · exact e2.2.2 it (a2.mem_iff.2 (List.mem_append_right _ h'))
      · obtain ⟨it0, G', rfl⟩ := List.exists_cons_of_ne_nil a1
        obtain ⟨a, t, b1, _, b3⟩ := e2.2.2 it0 (a2.mem_iff.2 (by simp))
        have hk := a4 it0 (by simp)
        simp only [keyOf, Prod.mk.injEq, ctxOf] at hk
        rw [hk.1] at b1
        rw [hk.2] at b3
        exact EC.heapNew_sound hg hP h.sound h.rest.node b1 b3 it h'
  have hterm' : lax ∨ EC.Settles R (J (W e)) := by
    refine hterm.imp id ?_
    rintro ⟨rank, hr⟩
    refine ⟨fun d => ∃ a t, P a (lhsOf R d) ∧ TreeOf R W t (lhsOf R d) a (e + 1), rank, ?_,
      fun d r hd h1 h2 => hr r (List.mem_of_getElem? hd) h1 (by simpa only [lhsOf_eq hd] using h2)⟩
    intro heap cur hj it hit
    obtain ⟨a, t, _, b2, b3⟩ := hj.2.2 it hit
    exact ⟨a, t, b2, b3⟩
  refine (position_spec hg h.rest (by omega) (W e) ht hJ hterm').mono ?_
  rintro r ⟨Fd, cur, hf, hj, hr⟩
  refine ⟨?_, fun hHH => ⟨Fd, fun A a t htree hctx => by
    obtain ⟨hfull, hb⟩ := h.full hHH
    obtain ⟨o, _, hz⟩ := hf.complete hg hT h.rest h.sound hfull hb (hh hHH) htree rfl hctx
    exact ⟨o, hz⟩⟩⟩
  rcases hr with ⟨h1, hcur, hFd, hH, hmed, hcomp, hpred, hlook⟩ | ⟨h1, hne, hlook, cur', keep, ha⟩
  · refine Or.inr ⟨h1, hlook, hpred, hcomp, hmed, ?_⟩
    intro hHH hen t htree
    obtain ⟨hfull, hb⟩ := h.full hHH
    rcases Nat.lt_or_eq_of_le hen with hlt | heq
    · obtain ⟨d, a, l, _, hu⟩ := crossing htree (.root (R := R) (inp := W)) (e := e + 1) (by omega) hlt
      obtain ⟨o, _, hx⟩ := hf.complete_cur hg hT h.rest h.sound hfull hb (hh hHH) hu
      rw [hcur] at hx; simp at hx
    · obtain ⟨o, _, hz⟩ := hf.complete hg hT h.rest h.sound hfull hb (hh hHH) htree heq.symm .root
      rw [hFd] at hz
      simp only [scansOf, Multiset.mem_map, Prod.mk.injEq] at hz
      obtain ⟨t', _, _, _, hl⟩ := hz
      exact ⟨_, _, hl.symm⟩
  · refine Or.inl ⟨h1, hlook, ⟨keep, cur', ha.keep_pos, ha.keep_le, ?_⟩, ?_⟩
    · refine ⟨h.rest.next hf ha hlook, h.sound.next hg hP hf ha, ?_, ?_, ?_, ?_⟩
      · intro hHH
        obtain ⟨hfull, hb⟩ := h.full hHH
        exact hfull.next hg hT h.rest hf h.sound hb (hh hHH) ha
      · intro hd l hl
        rcases List.mem_append.1 hl with h' | h'
        · exact h.once hd l (List.mem_of_mem_take h')
        · simp at h'; subst h'
          rw [facts_perm ha.perm]
          exact hf.once_cur h.sound (h.once hd) (hd e)
      · intro htt l hl d o A hA hlate
        rcases List.mem_append.1 hl with h' | h'
        · exact h.late htt l (List.mem_of_mem_take h') d o A hA hlate
        · simp at h'; subst h'
          rw [(ha.perm.map dotOrigin).count_eq]
          exact (hj.1 htt d o A hA hlate).1
      · intro hord htt l hl d o hA
        rcases List.mem_append.1 hl with h' | h'
        · exact h.ordered hord htt l (List.mem_of_mem_take h') d o hA
        · simp at h'; subst h'
          rw [(ha.perm.map dotOrigin).count_eq]
          obtain ⟨A, hA⟩ := hA
          exact (hj.2.1 hord htt d o A hA trivial).1
    · rcases hne with hne | hne
      · obtain ⟨it, l, rfl⟩ := List.exists_cons_of_ne_nil hne
        have hn := (hf.citems it (by simp)).1
        obtain ⟨f, fs, hfe⟩ := List.exists_cons_of_ne_nil hn
        obtain ⟨A, B, C, a, e1, e2, e3, e4⟩ := hf.sound_cur hg h.sound hP
          (x := (it.dot, it.origin, f)) (mem_facts.2 ⟨it, by simp, rfl, rfl, by rw [hfe]; simp⟩)
        exact ⟨B, a, f, hP.corner _ _ _ e4 ⟨_, List.mem_of_getElem? e1, rfl, rfl⟩, e3⟩
      · obtain ⟨x, hx⟩ := Multiset.exists_mem_of_ne_zero hne
        obtain ⟨z, hz, hxz⟩ := Multiset.mem_bind.1 hx
        have hmem : fire R x ∈ Fd := by
          rw [hf.fd]
          exact Multiset.mem_add.2 (Or.inr (Multiset.mem_map.2 ⟨x, hx, rfl⟩))
        obtain ⟨a, ha', hta⟩ := hf.sound h.sound _ _ _ hmem
        refine ⟨_, a, _, ?_, hta⟩
        obtain ⟨_, h0 | h0⟩ := EC.mem_consH.1 hxz
        · obtain ⟨it, hit, f, hfn, _, _, rfl⟩ := h0
          cases hS : S[z.2.1]? with
          | none => simp [ctxOf, hS] at hit
          | some l =>
            simp only [ctxOf, hS, Option.getD_some] at hit
            obtain ⟨A, B, C, a', b, e1, e2, _, _, e4⟩ := h.sound.fact _ l hS (it.dot, it.origin, f)
              (mem_facts.2 ⟨it, hit, rfl, rfl, hfn⟩)
            simp only at e1 e2
            rw [e2] at ha'
            simp only [Option.some.injEq] at ha'
            rw [← ha', lhsOf_eq e1]
            exact e4
        · obtain ⟨r', hR, _, _, hbit, _, hxe⟩ := h0
          rw [hxe] at ha'
          simp only [ctxOf] at hR hbit
          have := hP.corners (h.sound.row _ _ a ha' hbit) (hg.root_corner _ (List.mem_of_getElem? hR))
          rw [lhsOf_eq hR]
          exact this

theorem InvAt.position (hg : GrammarOK g R root) {T : Nat → Prop} (hT : LookaheadOK g R T) {rank : Nat → Nat}
    (hrank : EC.Ranked R rank) {W : Input} {n : Nat} {H : Prop} {P : Nat → Nat → Prop} {St : Nat → Prop}
    (hP : PredOK R g.startSym W P St) {s : TRec} {e : Nat} {S loc} (h : InvAt g R W n H P St s e S loc)
    (hlen : e + 1 < 2 ^ 64) (ht : ∀ t ∈ W e, t.1 < g.syms + g.gensyms) {la sorter}
    (hh : H → la = true → HintOK W n T e s.lookahead) :
    Returns (Rec.position (treeEnv g la sorter) s (W e)) fun r =>
      (r.2 = true ∧ r.1.lookahead = none ∧
        (∃ keep cur', 1 ≤ keep ∧ keep ≤ S.length ∧
          InvAt g R W n H P St r.1 (e + 1) (S.take keep ++ [cur']) (nextLoc loc keep e)) ∧
        ∃ X a t, P a X ∧ TreeOf R W t X a (e + 1)) ∨
      (r.2 = false ∧ r.1.lookahead = s.lookahead ∧ r.1.predicted = s.predicted ∧ r.1.complete = [] ∧
        r.1.medial = Vec2d.ofSets (S ++ [[]]) ∧
        (H → e + 1 ≤ n → ∀ t, TreeOf R W t g.startSym 0 n → ∃ a v, t = .leaf a v)) :=
  (h.position' hg hT hP hlen ht hh (.inr (hrank.settlesAt _ _ _))).returns.mono fun _ h => h.1

/-! ### Start and reset -/

theorem RowClosed.predict {n : Nat} {row : List Bool} (hrow : ∀ B, B < n → (row[B]? = some true ↔
    Relation.ReflTransGen (Corner R) g.startSym B)) (hl : row.length = n) : RowClosed R n row := by
  intro Y X hY hYX hX
  have hYlt : Y < n := by
    rw [← hl]; exact (List.getElem?_eq_some_iff.1 hY).1
  exact (hrow X hX).2 (((hrow Y hYlt).1 hY).trans hYX)

/-- The prediction matrix of a recognizer that has been used. -/
structure PredMatrix (g : DefaultGrammar) (R : Rules) (pm : BitMatrix) : Prop where
  pos : 0 < pm.rows.length
  width : pm.width = g.syms
  rowLen : ∀ row ∈ pm.rows, row.length = g.syms
  closed : RowsClosed R g.syms pm

theorem Rest.predMatrix {s S} (h : Rest g R s S) : PredMatrix g R s.predicted :=
  ⟨by have := h.rows; have := h.pos; omega, h.width, h.rowLen, h.closed⟩

theorem clearRow_get (row : List Bool) (i : Nat) : (clearRow row)[i]? ≠ some true := by
  simp only [clearRow]
  intro h
  have := List.mem_of_getElem? h
  simp at this

/-- A state whose only set is empty and whose first row holds the predictions of the start symbol. -/
theorem inv_start (hg : GrammarOK g R root) {W : Input} {n : Nat} {H : Prop} {P : Nat → Nat → Prop} {St : Nat → Prop}
    (hP : PredOK R g.startSym W P St) {s : TRec} (hm : s.medial = Vec2d.ofSets [[]]) (hc : s.complete = [])
    (hpm : PredMatrix g R s.predicted) (hint : ∀ h, s.lookahead = some h → h < g.syms)
    (h0 : ∀ X, s.predicted.bit 0 X = true ↔ X < g.syms ∧ Relation.ReflTransGen (Corner R) g.startSym X)
    (hst : ∀ k X, 1 ≤ k → s.predicted.bit k X = true → St X) :
    InvAt g R W n H P St s 0 [[]] [0] := by
  refine ⟨⟨hm, by simp, hc, hpm.pos, hpm.width, hpm.rowLen, hpm.closed, hint, by simp, by simp, by simp, ?_⟩, ?_, ?_, by simp,
    by simp, by simp⟩
  · intro k l hk it hit
    have := List.mem_of_getElem? hk
    simp at this; subst this; simp at hit
  · refine ⟨rfl, rfl, rfl, by simp, ?_, ?_, ?_⟩
    · intro k l hk x hx
      have := List.mem_of_getElem? hk
      simp at this; subst this; simp at hx
    · intro k X b hk hbit
      have hk0 : k = 0 := by
        have := (List.getElem?_eq_some_iff.1 hk).1
        simpa using this
      subst hk0
      simp at hk; subst hk
      exact hP.corners hP.start ((h0 X).1 hbit).2
    · intro k X hk hbit
      exact hst k X (by simpa using hk) hbit
  · intro _
    refine ⟨⟨?_, ?_⟩, ?_⟩
    · intro k l b hk hb d a t hu
      have hk0 : k = 0 := by
        have := (List.getElem?_eq_some_iff.1 hb).1
        simpa using this
      subst hk0
      simp at hb; subst hb
      obtain ⟨A, B, C, b, r, _, _, hl, _⟩ := hu
      have := hl.lt; omega
    · intro k b X p t hk hctx ht
      have hk0 : k = 0 := by
        have := (List.getElem?_eq_some_iff.1 hk).1
        simpa using this
      subst hk0
      simp at hk; subst hk
      rcases Ctx.predictor hctx t ht with ⟨_, h⟩ | ⟨d, a, l, A, B, C, _, ⟨_, _, _, _, _, _, _, hl, _⟩, _⟩
      · exact ⟨g.startSym, (h0 _).2 ⟨hg.start_lt, .refl⟩, h⟩
      · have := hl.lt; omega
    · intro q hq; omega

/-- The matrix with one row replaced by the predictions of the start symbol. -/
theorem predict_start (hg : GrammarOK g R root) {pm : BitMatrix} (hpos : 0 < pm.rows.length)
    (hwidth : pm.width = g.syms) (hrl : ∀ row ∈ pm.rows, row.length = g.syms) (hcl : RowsClosed R g.syms pm)
    {row0 : List Bool} (hr0 : row0.length = g.syms) (hz : ∀ i : Nat, row0[i]? ≠ some true) :
    ∃ src row', g.predictionRow g.startSym = pure src ∧ predictRow row0 g.startSym src = pure row' ∧
      PredMatrix g R { pm with rows := pm.rows.set 0 row' } ∧
      (∀ X, BitMatrix.bit { pm with rows := pm.rows.set 0 row' } 0 X = true ↔
        X < g.syms ∧ Relation.ReflTransGen (Corner R) g.startSym X) ∧
      (∀ k X, 1 ≤ k → BitMatrix.bit { pm with rows := pm.rows.set 0 row' } k X = pm.bit k X) := by
  have hrc : RowClosed R g.syms row0 := fun Y X hY => absurd hY (hz Y)
  obtain ⟨src, e0, _, _⟩ := hg.predRow _ hg.start_lt
  obtain ⟨row', e1, e2, e3, e4⟩ := predictRow_spec hg hr0 hrc hg.start_lt e0
  refine ⟨src, row', e0, e1, ⟨by simpa using hpos, hwidth, ?_, ?_⟩, ?_, ?_⟩
  · intro row hrow
    rcases List.mem_or_eq_of_mem_set hrow with h | h
    · exact hrl row h
    · rw [h]; exact e2
  · intro row hrow
    rcases List.mem_or_eq_of_mem_set hrow with h | h
    · exact hcl row h
    · rw [h]; exact e3
  · intro X
    rw [BitMatrix.bit_iff]
    simp only [List.getElem?_set_self hpos, Option.some.injEq, exists_eq_left']
    constructor
    · intro h
      have hX : X < g.syms := by rw [← e2]; exact (List.getElem?_eq_some_iff.1 h).1
      refine ⟨hX, ?_⟩
      rcases (e4 X hX).1 h with h | h
      · exact absurd h (hz X)
      · exact h
    · rintro ⟨h1, h2⟩
      exact (e4 X h1).2 (Or.inr h2)
  · intro k X hk
    simp only [BitMatrix.bit]
    rw [List.getElem?_set_ne (by omega)]

theorem new_spec (hg : GrammarOK g R root) {W : Input} {n : Nat} {H : Prop} {P : Nat → Nat → Prop} {St : Nat → Prop}
    (hP : PredOK R g.startSym W P St) {la sorter} (f : List PTree) :
    Returns (Rec.new (treeEnv g la sorter) f) fun s => InvAt g R W n H P St s 0 [[]] [0] ∧ s.lookahead = none := by
  have hrows : (BitMatrix.new 8 g.syms).rows = List.replicate 8 (List.replicate g.syms false) := rfl
  have hlen : 0 < (BitMatrix.new 8 g.syms).rows.length := by rw [hrows]; simp
  have h0 : (BitMatrix.new 8 g.syms).rows[0] = List.replicate g.syms false := by simp [hrows]
  have hall : ∀ row ∈ (BitMatrix.new 8 g.syms).rows, row = List.replicate g.syms false := by
    intro row hrow; rw [hrows] at hrow; exact (List.mem_replicate.1 hrow).2
  obtain ⟨src, row', e0, e1, e2, e3, e4⟩ := predict_start hg (pm := BitMatrix.new 8 g.syms) hlen rfl
    (fun row hrow => by rw [hall row hrow]; simp) (fun row hrow => by rw [hall row hrow]; exact rowClosed_zero _ _)
    (row0 := List.replicate g.syms false) (by simp) (fun i => replicate_false_get _ _)
  have : Rec.new (treeEnv g la sorter) f = pure ⟨f, none, ⟨(BitMatrix.new 8 g.syms).width,
      (BitMatrix.new 8 g.syms).rows.set 0 row'⟩, Vec2d.new, []⟩ := by
    simp only [Rec.new, Rec.predictIn, treeEnv, BitMatrix.row, indexM_lt hlen, h0, pure_bind, e0, e1]
  rw [this]
  refine returns_pure ⟨inv_start hg hP (by rw [Vec2d.new_eq]) rfl e2 (by simp) e3 ?_, rfl⟩
  intro k X hk hbit
  rw [e4 k X hk, BitMatrix.bit_iff] at hbit
  obtain ⟨row, h1, h2⟩ := hbit
  rw [hall row (List.mem_of_getElem? h1)] at h2
  exact absurd h2 (replicate_false_get _ _)

theorem reset_spec (hg : GrammarOK g R root) {W : Input} {n : Nat} {H : Prop} {P : Nat → Nat → Prop} {St : Nat → Prop}
    (hP : PredOK R g.startSym W P St) {la sorter} {s : TRec} (hpm : PredMatrix g R s.predicted)
    (hint : ∀ h, s.lookahead = some h → h < g.syms) (hst : ∀ k X, 1 ≤ k → s.predicted.bit k X = true → St X) :
    Returns (Rec.reset (treeEnv g la sorter) s) fun s' =>
      InvAt g R W n H P St s' 0 [[]] [0] ∧ s'.lookahead = s.lookahead ∧
        ∀ k X, 1 ≤ k → s'.predicted.bit k X = s.predicted.bit k X := by
  obtain ⟨src, row', e0, e1, e2, e3, e4⟩ := predict_start hg hpm.pos hpm.width hpm.rowLen hpm.closed
    (row0 := clearRow (s.predicted.rows[0]'hpm.pos)) (by simp [clearRow, hpm.rowLen _ (List.getElem_mem hpm.pos)])
    (fun i => clearRow_get _ _)
  have : Rec.reset (treeEnv g la sorter) s = pure ⟨s.forest, s.lookahead,
      ⟨s.predicted.width, s.predicted.rows.set 0 row'⟩, s.medial.clear, []⟩ := by
    simp only [Rec.reset, treeEnv, BitMatrix.row, indexM_lt hpm.pos, pure_bind, e0, e1]
  rw [this]
  refine returns_pure ⟨inv_start hg hP (by show s.medial.clear = _; rw [Vec2d.clear_eq]) rfl e2 hint e3 ?_, rfl, e4⟩
  intro k X hk hbit
  rw [e4 k X hk] at hbit
  exact hst k X hk hbit

end
end Gearley
