import Verif.Proofs.Quadratic
import Verif.Proofs.CostLower

/-!
# How many sets the recognizer keeps
-/

namespace Gearley
open Spec
variable {g : DefaultGrammar} {R : Rules} {root : Nat → Nat}

theorem Rest.hintOp {s : TRec} {S} (h : Rest g R s S) (op : Rec.HintOp) (hop : ∀ x, op = .set x → x < g.syms) :
    Rest g R (Rec.applyHint s op) S := by
  cases op with
  | keep => exact h
  | set x =>
    exact ⟨h.medial, h.pos, h.empty, h.rows, h.width, h.rowLen, h.closed, by
      intro y hy; simp only [Rec.applyHint, Rec.setHint, Option.some.injEq] at hy; rw [← hy]; exact hop x rfl,
      h.binary, h.sorted, h.node, h.origin⟩
  | clear =>
    exact ⟨h.medial, h.pos, h.empty, h.rows, h.width, h.rowLen, h.closed, by
      intro y hy; simp [Rec.applyHint, Rec.clearHint] at hy, h.binary, h.sorted, h.node, h.origin⟩

/-- When no token of a position is predicted, the position fails. -/
theorem position_unpredicted (hg : GrammarOK g R root) {la sorter} {s : TRec} {S} (h : Rest g R s S)
    (hlen : S.length < 2 ^ 64) {toks : List (Nat × Nat)}
    (ht : ∀ t ∈ toks, t.1 < g.syms ∧ s.predicted.bit (S.length - 1) t.1 = false) :
    Returns (Rec.position (treeEnv g la sorter) s toks) fun r => r.2 = false ∧ r.1.medial = Vec2d.ofSets (S ++ [[]]) := by
  have hc := h.ok hg (la := la) (sorter := sorter)
  have hgate : ∀ t ∈ toks, gate g s.predicted (S.length - 1) t.1 = false := by
    intro t h1
    obtain ⟨h2, h3⟩ := ht t h1
    simp only [gate, h3, Bool.or_false, decide_eq_false_iff_not]
    omega
  have hJ : (ctxOf g R root la sorter s S).Keeps toks fun _ heap cur => heap = [] ∧ cur = [] := by
    refine ⟨⟨rfl, rfl⟩, ?_, ?_⟩
    · rintro pre post a v heap heap' cur e1 ⟨rfl, rfl⟩ _ e4
      have hga : gate g s.predicted (S.length - 1) a = false := hgate (a, v) (by rw [e1]; simp)
      have h1 : heapNew g R root la (ctxOf g R root la sorter s S).hint s.predicted S (S.length - 1) a [.leaf a v] = [] := by
        unfold heapNew; rw [hga]; rfl
      have h2 : medNew g R root la (ctxOf g R root la sorter s S).hint s.predicted (S.length - 1) a [.leaf a v] = [] := by
        unfold medNew; rw [hga]; rfl
      refine ⟨?_, ?_⟩
      · have e4 : heap'.Perm ([] ++ heapNew g R root la (ctxOf g R root la sorter s S).hint s.predicted S (S.length - 1) a
          [.leaf a v]) := e4
        rw [h1] at e4
        simpa using e4
      · show [] ++ medNew g R root la (ctxOf g R root la sorter s S).hint s.predicted (S.length - 1) a [.leaf a v] = []
        rw [h2]; rfl
    · rintro heap heap' cur G rest o A ⟨rfl, rfl⟩ hG hp
      have := hp.length_eq
      simp only [List.length_nil, List.length_append] at this
      exact absurd (List.eq_nil_of_length_eq_zero (by omega)) hG
  obtain ⟨s1, h1, cur1, hm1, hj1, rfl⟩ := scanAll_spec hc h.pos hlen hJ [] toks rfl
    (fun t h1 => by have := (ht t h1).1; show t.1 < g.syms + g.gensyms; omega) h.mid_begin (by
      show s.complete = [] ∧ _
      exact ⟨h.empty, rfl⟩)
  unfold Rec.position Rec.positionWith
  have h1 : Rec.scanAll (treeEnv g la sorter) s.beginEarleme toks = pure s1 := h1
  rw [h1, pure_bind]
  simp only [Rec.endEarlemeWith, Rec.isExhausted, hm1.medial, Vec2d.last_eq, pure_bind, hj1, List.isEmpty_nil, Bool.and_true,
    if_true]
  exact returns_pure ⟨rfl, hm1.medial⟩

/-- The input between the markers: the start symbol has the rule `start ::= g0 eof` only, `g0` only has rules that begin with the
start marker, and the markers have no rules. -/
def _root_.Gearley.Spec.Marked (R : Rules) (start eof : Nat) : Prop := ∃ g0 sof,
  (∀ r ∈ R, r.lhs = start → r.rhs0 = g0 ∧ r.rhs1 = some eof) ∧ (∀ r ∈ R, r.lhs = g0 → r.rhs0 = sof) ∧
  Terminal R sof ∧ Terminal R eof

/-- What begins at the start of the input and is not complete after two tokens waits for the end marker. -/
theorem marked_waits {start eof : Nat} (h : Marked R start eof) {inp : Input} {d A B C b : Nat} {t : PTree}
    (hd : R[d]? = some ⟨A, B, some C⟩) (hA : Pred R start inp 0 A) (ht : TreeOf R inp t B 0 b) (hb : 2 ≤ b) : C = eof := by
  obtain ⟨g0, sof, h1, h2, h3, _⟩ := h
  have key : ∀ {p X}, Pred R start inp p X → p = 0 → X = start ∨ X = g0 ∨ X = sof := by
    intro p X hX
    induction hX with
    | start => intro _; exact .inl rfl
    | corner _ hc ih =>
      intro hp
      obtain ⟨r, hr, e1, e2⟩ := hc
      rcases ih hp with rfl | rfl | rfl
      · exact .inr (.inl (e2.symm.trans (h1 r hr e1).1))
      · exact .inr (.inr (e2.symm.trans (h2 r hr e1)))
      · exact absurd e1 (h3 r hr)
    | medial _ _ ht _ =>
      intro hp
      have := ht.lt
      omega
  have hmem := List.mem_of_getElem? hd
  rcases key hA rfl with rfl | rfl | rfl
  · have := (h1 _ hmem rfl).2
    simpa using this
  · have hB : B = sof := h2 _ hmem rfl
    subst hB
    cases ht with
    | leaf _ => omega
    | unary hd' _ => exact absurd rfl (h3 _ (List.mem_of_getElem? hd'))
    | binary hd' _ _ => exact absurd rfl (h3 _ (List.mem_of_getElem? hd'))
  · exact absurd rfl (h3 _ hmem)

/-- Few sets are kept, or nothing but the end marker is expected. -/
def FewSets (g : DefaultGrammar) (K : Nat) (s : TRec) (S : List (List TItem)) : Prop :=
  S.length ≤ K + 2 ∨ (S.length ≤ K + 3 ∧ ∀ X, s.predicted.bit (S.length - 1) X = true → X = g.eofSym)

theorem FewSets.position (hg : GrammarOK g R root) {rank : Nat → Nat} (hrank : EC.Ranked R rank) {W : Input}
    (hmark : Marked R g.startSym g.eofSym) {K : Nat} (hK : ∀ d a b, EarleyItem R g.startSym W d a b → a ≤ K)
    {la sorter} {s : TRec} {S loc} {e : Nat} (h : Rest g R s S)
    (hs : Sound R W (Pred R g.startSym W) (fun _ => False) s.predicted S loc e) (hf : FewSets g K s S) (hlen : e + 1 < 2 ^ 64)
    (ht : ∀ t ∈ W e, t.1 < g.syms ∧ t.1 ≠ g.eofSym) :
    Returns (Rec.position (treeEnv g la sorter) s (W e)) fun r =>
      (r.2 = true ∧ ∃ S' loc', Rest g R r.1 S' ∧
        Sound R W (Pred R g.startSym W) (fun _ => False) r.1.predicted S' loc' (e + 1) ∧ FewSets g K r.1 S') ∨
      (r.2 = false ∧ r.1.medial = Vec2d.ofSets (S ++ [[]])) := by
  have hSl := hs.length_le h.pos
  rcases hf with hf | ⟨_, hf⟩
  swap
  · refine (position_unpredicted hg h (by omega) fun t h1 => ⟨(ht t h1).1, ?_⟩).mono fun r hr => .inr hr
    cases hb : s.predicted.bit (S.length - 1) t.1 with
    | false => rfl
    | true => exact absurd (hf _ hb) (ht t h1).2
  have hP := pred_predOK (R := R) g.startSym W
  have := position_spec hg h (by omega) (W e) (fun t h1 => by have := (ht t h1).1; omega)
    (EC.keeps_true (ctxOf g R root la sorter s S) (W e)) (lax := False) (.inr (hrank.settles _))
  refine this.returns.mono ?_
  rintro r ⟨Fd, cur, hfix, -, hr⟩
  rcases hr with ⟨h1, -, -, -, h2, -⟩ | ⟨h1, -, hlook, cur', keep, ha⟩
  · exact .inr ⟨h1, h2⟩
  refine .inl ⟨h1, _, _, h.next hfix ha hlook, hs.next hg hP hfix ha, ?_⟩
  have hlen' : (S.take keep ++ [cur']).length = keep + 1 := by have := ha.keep_le; simp; omega
  unfold FewSets
  rw [hlen', Nat.add_sub_cancel]
  -- what the items of the new set are
  have hitem : ∀ it ∈ cur, ∃ A B C a t, R[it.dot]? = some ⟨A, B, some C⟩ ∧ loc[it.origin]? = some a ∧ TreeOf R W t B a (e + 1) ∧
      Pred R g.startSym W a A := by
    intro it hit
    obtain ⟨f, fs, hfe⟩ := List.exists_cons_of_ne_nil (hfix.citems it hit).1
    obtain ⟨A, B, C, a, e1, e2, e3, e4⟩ := hfix.sound_cur hg hs hP
      (x := (it.dot, it.origin, f)) (mem_facts.2 ⟨it, hit, rfl, rfl, by rw [hfe]; simp⟩)
    exact ⟨A, B, C, a, f, e1, e2, e3, e4⟩
  have hsmall : ∀ it ∈ cur, it.origin ≤ K := by
    intro it hit
    obtain ⟨A, B, C, a, t, e1, e2, e3, e4⟩ := hitem it hit
    have h1 := hK _ _ _ ⟨A, B, C, t, e1, e4, e3⟩
    have h2 := pairwise_lt_index hs.mono _ _ e2
    omega
  rcases ha.keep_max with hk | ⟨_, ⟨it, hit, hk⟩, _⟩
  swap
  · have := hsmall it hit
    exact .inl (by omega)
  by_cases he : e = 0
  · exact .inl (by omega)
  by_cases hbig : ∃ it ∈ cur, 1 ≤ it.origin
  · cases hm : (cur.map (·.origin)).max? with
    | none =>
      obtain ⟨it, hit, _⟩ := hbig
      rw [List.max?_eq_none_iff, List.map_eq_nil_iff] at hm
      rw [hm] at hit
      simp at hit
    | some m =>
      obtain ⟨⟨it, hit, hm1⟩, hm2⟩ := max_origin hm
      obtain ⟨it', hit', h1⟩ := hbig
      have h2 := hm2 it' hit'
      have h3 := ha.keep_drop (m + 1) (by omega) ⟨it, hit, by omega⟩ (fun x hx => by have := hm2 x hx; omega)
      have h4 := hsmall it hit
      exact .inl (by omega)
  · refine .inr ⟨by omega, fun X hX => ?_⟩
    have hXs := (bit_lt ha.rowLen hX).2
    rcases (ha.new X hXs).1 hX with ⟨h1, h2⟩ | ⟨it, hit, C, hC, hcor⟩
    · exact (hs.stale keep X (by omega) h2).elim
    · obtain ⟨A, B, C', a, t, e1, e2, e3, e4⟩ := hitem it hit
      have ho : it.origin = 0 := by
        by_contra hne
        exact hbig ⟨it, hit, by omega⟩
      rw [ho, hs.loc0, Option.some.injEq] at e2
      subst e2
      have := marked_waits hmark e1 e4 e3 (by omega)
      simp only [rhs1Of, e1, Option.bind_some, Option.some.injEq] at hC
      subst hC
      subst this
      obtain ⟨_, _, _, _, _, hterm⟩ := hmark
      cases hcor.cases_head with
      | inl h => exact h.symm
      | inr h =>
        obtain ⟨_, ⟨r, hr, hr1, _⟩, _⟩ := h
        exact absurd hr1 (hterm r hr)

/-- Few sets are kept by a session. -/
theorem few_session (hg : GrammarOK g R root) {rank : Nat → Nat} (hrank : EC.Ranked R rank) {W : Input}
    (hmark : Marked R g.startSym g.eofSym) {K : Nat} (hK : ∀ d a b, EarleyItem R g.startSym W d a b → a ≤ K) {la sorter} :
    ∀ (steps : List Step) (s : TRec) (e : Nat) (S loc), Rest g R s S →
    Sound R W (Pred R g.startSym W) (fun _ => False) s.predicted S loc e → FewSets g K s S →
    e + steps.length < 2 ^ 64 → StepsOK g steps → StepsIn W e steps →
    (∀ st ∈ steps, ∀ t ∈ st.2, t.1 < g.syms ∧ t.1 ≠ g.eofSym) →
    Returns (Rec.session (treeEnv g la sorter) steps s) fun r =>
      r.1.medial.len ≤ if r.2 then K + 3 else K + 4 := by
  intro steps
  have hfl : ∀ {s S}, FewSets g K s S → S.length ≤ K + 3 := fun h => by
    rcases h with h | h <;> omega
  induction steps with
  | nil =>
    intro s e S loc h hs hf _ _ _ _
    refine returns_pure ?_
    simp only [if_true, h.medial, Vec2d.len_eq]
    exact hfl hf
  | cons st rest ih =>
    intro s e S loc h hs hf hlen hok hin htok
    obtain ⟨op, toks⟩ := st
    have htoks : W e = toks := by simpa using hin 0 (op, toks) (by simp)
    simp only [List.length_cons] at hlen
    have h' := h.hintOp op (hok (op, toks) (by simp)).1
    have hs' : Sound R W (Pred R g.startSym W) (fun _ => False) (Rec.applyHint s op).predicted S loc e := by
      rw [applyHint_predicted]; exact hs
    have hf' : FewSets g K (Rec.applyHint s op) S := by
      unfold FewSets; rw [applyHint_predicted]; exact hf
    rw [Rec.session, Rec.sessionWith]
    have hpos := FewSets.position hg hrank hmark hK (la := la) (sorter := sorter) h' hs' hf' (by omega)
      (by rw [htoks]; exact htok (op, toks) (by simp))
    rw [htoks] at hpos
    refine returns_bind (hpos.mono ?_)
    rintro ⟨s1, ok⟩ (⟨h1, S', loc', e1, e2, e3⟩ | ⟨h1, e1⟩)
    · simp only at h1 e1 e2 e3
      subst h1
      simp only [if_true]
      refine ih s1 (e + 1) S' loc' e1 e2 e3 (by omega) (fun x hx => hok x (by simp [hx])) ?_
        (fun x hx => htok x (by simp [hx]))
      intro i st hst
      have := hin (i + 1) st (by simpa using hst)
      rw [← this]; congr 1; omega
    · simp only at h1 e1
      subst h1
      simp only [Bool.false_eq_true, if_false]
      refine returns_pure ?_
      simp only [Bool.false_eq_true, if_false, e1, Vec2d.len_eq, List.length_append, List.length_singleton]
      have := hfl hf
      omega

end Gearley
