import Verif.Model.Session
import Verif.Proofs.Advance
import Verif.Proofs.Derivation

/-! # The chart of the recognizer and Earley facts -/

namespace Gearley
open Gearley.Spec

namespace EC
variable {c : EC}

/-- The equations satisfied when a position has been processed. -/
structure Fixed (c : EC) (scans : Multiset Done) (Fd : Multiset Done) (cur : List TItem) : Prop where
  fd : Fd = scans + (Fd.bind c.consH).map (fire c.R)
  cf : facts cur = Fd.bind c.consM
  citems : ∀ it ∈ cur, it.node ≠ [] ∧ it.origin < c.S.length ∧ ∃ A B C, c.R[it.dot]? = some ⟨A, B, some C⟩

theorem mem_consH {z : Done} {x : Fact} : x ∈ c.consH z ↔ gate c.g c.pm z.2.1 z.1 = true ∧
    ((∃ it ∈ c.S[z.2.1]?.getD [], ∃ f, f ∈ it.node ∧ rhs1Of c.R it.dot = some z.1 ∧
        okM c.g c.R c.la c.hint it.dot = true ∧ x = (it.dot, it.origin, .pair f z.2.2)) ∨
      (∃ r, c.R[x.1]? = some r ∧ r.rhs0 = z.1 ∧ r.rhs1 = none ∧ c.pm.bit z.2.1 (c.root r.lhs) = true ∧
        (c.g.syms ≤ z.1 ∨ okP c.g c.R c.la c.hint x.1 = true) ∧ x = (x.1, z.2.1, z.2.2))) := by
  simp only [consH]
  split
  · next h =>
    simp only [h, true_and, Multiset.mem_add, Multiset.mem_map, mem_facts, waiting, List.mem_filter, Bool.and_eq_true,
      decide_eq_true_eq, Multiset.mem_coe, entering, Bool.or_eq_true]
    apply or_congr
    · constructor
      · rintro ⟨y, ⟨it, ⟨h1, h2, h3⟩, e1, e2, e3⟩, rfl⟩
        exact ⟨it, h1, y.2.2, e3, h2, h3, by rw [e1, e2]⟩
      · rintro ⟨it, h1, f, h2, h3, h4, rfl⟩
        exact ⟨(it.dot, it.origin, f), ⟨it, ⟨h1, h3, h4⟩, rfl, rfl, h2⟩, rfl⟩
    · constructor
      · rintro ⟨p, ⟨hp, h1, h2⟩, rfl⟩
        obtain ⟨r, a1, a2, a3, a4, _⟩ := mem_unTrans.1 hp
        exact ⟨r, a1, a2, a3, by rw [← a4]; exact h1, h2, rfl⟩
      · rintro ⟨r, a1, a2, a3, a4, a5, a6⟩
        exact ⟨⟨c.root r.lhs, x.1, true⟩, ⟨mem_unTrans.2 ⟨r, a1, a2, a3, rfl, rfl⟩, a4, a5⟩, a6.symm⟩
  · next h => simp [h]

theorem mem_consM {z : Done} {x : Fact} : x ∈ c.consM z ↔ gate c.g c.pm z.2.1 z.1 = true ∧
      ∃ r, c.R[x.1]? = some r ∧ r.rhs0 = z.1 ∧ r.rhs1.isSome ∧ c.pm.bit z.2.1 (c.root r.lhs) = true ∧
        (c.g.syms ≤ z.1 ∨ okP c.g c.R c.la c.hint x.1 = true) ∧ x = (x.1, z.2.1, z.2.2) := by
  simp only [consM]
  split
  · next h =>
    simp only [h, true_and, Multiset.mem_map, Bool.and_eq_true, List.mem_filter,
      decide_eq_true_eq, Multiset.mem_coe, entering, Bool.or_eq_true]
    constructor
    · rintro ⟨p, ⟨hp, h1, h2⟩, rfl⟩
      obtain ⟨r, a1, a2, a3, a4, _⟩ := mem_binTrans.1 hp
      exact ⟨r, a1, a2, a3, by rw [← a4]; exact h1, h2, rfl⟩
    · rintro ⟨r, a1, a2, a3, a4, a5, a6⟩
      exact ⟨⟨c.root r.lhs, x.1, false⟩, ⟨mem_binTrans.2 ⟨r, a1, a2, a3, rfl, rfl⟩, a4, a5⟩, a6.symm⟩
  · next h => simp [h]

end EC

/-! ### Invariants between positions -/

/-- Structure of the state between positions; `S` are the sets. -/
structure Rest (g : DefaultGrammar) (R : Rules) (s : TRec) (S : List (List TItem)) : Prop where
  medial : s.medial = Vec2d.ofSets S
  pos : 0 < S.length
  empty : s.complete = []
  rows : S.length ≤ s.predicted.rows.length
  width : s.predicted.width = g.syms
  rowLen : ∀ row ∈ s.predicted.rows, row.length = g.syms
  closed : RowsClosed R g.syms s.predicted
  hint : ∀ h, s.lookahead = some h → h < g.syms
  binary : ∀ l ∈ S, ∀ it ∈ l, ∃ A B C, R[it.dot]? = some ⟨A, B, some C⟩
  sorted : ∀ l ∈ S, l.Pairwise (fun a b => Key.le (itemKey R a) (itemKey R b) = true)
  node : ∀ l ∈ S, ∀ it ∈ l, it.node ≠ []
  origin : ∀ (k : Nat) (l : List TItem), S[k]? = some l → ∀ it ∈ l, it.origin < k

/-- A prediction relation that contains the predictions of the grammar and allows `St` at positions after the first. -/
structure PredOK (R : Rules) (start : Nat) (inp : Input) (P : Nat → Nat → Prop) (St : Nat → Prop) : Prop where
  start : P 0 start
  corner : ∀ p A B, P p A → Corner R A B → P p B
  medial : ∀ (d A B C q p : Nat) (t : PTree), R[d]? = some ⟨A, B, some C⟩ → P q A → TreeOf R inp t B q p → P p C
  stale : ∀ p X, 0 < p → St X → P p X

theorem PredOK.corners {R start inp P St} (h : PredOK R start inp P St) {p A B} (hA : P p A)
    (hc : Relation.ReflTransGen (Corner R) A B) : P p B := by
  induction hc with
  | refl => exact hA
  | tail _ hc ih => exact h.corner _ _ _ ih hc

/-- Every fact in the chart is a true Earley fact. `loc` gives the input position of every set, `e` the last one. -/
structure Sound (R : Rules) (inp : Input) (P : Nat → Nat → Prop) (St : Nat → Prop) (pm : BitMatrix)
    (S : List (List TItem)) (loc : List Nat) (e : Nat) : Prop where
  locLen : loc.length = S.length
  loc0 : loc[0]? = some 0
  last : loc[S.length - 1]? = some e
  mono : loc.Pairwise (· < ·)
  fact : ∀ (k : Nat) (l : List TItem), S[k]? = some l → ∀ x ∈ facts l, ∃ A B C a b, R[x.1]? = some ⟨A, B, some C⟩ ∧
    loc[x.2.1]? = some a ∧ loc[k]? = some b ∧ TreeOf R inp x.2.2 B a b ∧ P a A
  row : ∀ (k : Nat) X b, loc[k]? = some b → pm.bit k X = true → P b X
  stale : ∀ k X, S.length ≤ k → pm.bit k X = true → St X

/-- Every item that takes part in a derivation of the whole input `0 .. n` is in the chart. -/
structure Full (g : DefaultGrammar) (R : Rules) (inp : Input) (n : Nat) (pm : BitMatrix) (S : List (List TItem))
    (loc : List Nat) : Prop where
  item : ∀ (k : Nat) (l : List TItem) b, S[k]? = some l → loc[k]? = some b →
    ∀ d a t, UsefulItem R g.startSym inp n d a b t → ∃ o, loc[o]? = some a ∧ (d, o, t) ∈ facts l
  row : ∀ (k : Nat) b X p t, loc[k]? = some b → Ctx R g.startSym inp n X b p → TreeOf R inp t X b p →
    ∃ Y, pm.bit k Y = true ∧ Relation.ReflTransGen (Corner R) Y X

section
variable {g : DefaultGrammar} {R : Rules} {root : Nat → Nat}

/-- A symbol that takes part in a derivation is predicted at the start, or by an item. -/
theorem Ctx.predictor {start n} {inp : Input} {X i j} (h : Ctx R start inp n X i j) :
    ∀ t, TreeOf R inp t X i j → (i = 0 ∧ Relation.ReflTransGen (Corner R) start X) ∨
      ∃ d a l A B C, R[d]? = some ⟨A, B, some C⟩ ∧ UsefulItem R start inp n d a i l ∧
        Relation.ReflTransGen (Corner R) C X := by
  induction h with
  | root => intro t _; exact Or.inl ⟨rfl, .refl⟩
  | @unary d A B i j hr hc ih =>
    intro t ht
    have hcor : Corner R A B := ⟨_, List.mem_of_getElem? hr, rfl, rfl⟩
    rcases ih _ (.unary hr ht) with ⟨h1, h2⟩ | ⟨d', a, l, A', B', C', h1, h2, h3⟩
    · exact Or.inl ⟨h1, h2.tail hcor⟩
    · exact Or.inr ⟨d', a, l, A', B', C', h1, h2, h3.tail hcor⟩
  | @left d A B C i k j r hr hc htr ih =>
    intro t ht
    have hcor : Corner R A B := ⟨_, List.mem_of_getElem? hr, rfl, rfl⟩
    rcases ih _ (.binary hr ht htr) with ⟨h1, h2⟩ | ⟨d', a, l, A', B', C', h1, h2, h3⟩
    · exact Or.inl ⟨h1, h2.tail hcor⟩
    · exact Or.inr ⟨d', a, l, A', B', C', h1, h2, h3.tail hcor⟩
  | @right d A B C i k j l hr hc htl ih =>
    intro t ht
    exact Or.inr ⟨d, i, l, A, B, C, hr, ⟨A, B, C, j, t, hr, hc, htl, ht⟩, .refl⟩

/-- The context for one position. -/
def ctxOf (g : DefaultGrammar) (R : Rules) (root : Nat → Nat) (la : Bool) (sorter : Sorter) (s : TRec)
    (S : List (List TItem)) : EC := ⟨g, R, root, la, sorter, s.lookahead, s.predicted, S⟩

theorem Rest.ok (hg : GrammarOK g R root) {s S} (h : Rest g R s S) {la sorter} : (ctxOf g R root la sorter s S).OK where
  gok := hg
  rows := h.rows
  width := h.width
  rowLen := h.rowLen
  hint := h.hint
  sets := fun l hl => setOK_of_key (h.binary l hl) (h.sorted l hl)
  node := h.node
  origin := h.origin

/-- The finished symbols a token list starts with. -/
def scansOf (m : Nat) (toks : List (Nat × Nat)) : Multiset Done :=
  (toks : Multiset (Nat × Nat)).map fun t => (t.1, m, .leaf t.1 t.2)

theorem scanAll_spec {c : EC} (hc : c.OK) (hS : 0 < c.S.length) (hlen : c.S.length < 2 ^ 64)
    {J : List (Nat × Nat) → List TItem → List TItem → Prop} {all : List (Nat × Nat)} (hJ : c.Keeps all J)
    (pre toks : List (Nat × Nat)) (hall : all = pre ++ toks) (ht : ∀ t ∈ toks, t.1 < c.g.syms + c.g.gensyms) {scans s cur}
    (h : c.Mid scans s scans 0 cur) (hj : J pre s.complete cur) :
    Returns (Rec.scanAll c.E s toks) fun s' => ∃ cur',
      c.Mid (scans + scansOf (c.S.length - 1) toks) s' (scans + scansOf (c.S.length - 1) toks) 0 cur' ∧
      J all s'.complete cur' := by
  induction toks generalizing scans s cur pre with
  | nil => exact returns_pure ⟨cur, by simpa [scansOf] using h, by rw [hall]; simpa using hj⟩
  | cons t toks ih =>
    rw [Rec.scanAll, List.foldlM_cons]
    refine returns_bind ((h.scan hc hS hlen (ht t (by simp))).mono ?_)
    rintro s' ⟨h', hp'⟩
    refine (ih (pre ++ [t]) (by rw [hall]; simp) (fun x hx => ht x (by simp [hx])) h'
      (hJ.scan pre toks t.1 t.2 _ _ _ hall hj h.hitems hp')).mono ?_
    rintro s'' ⟨cur'', h'', hj''⟩
    refine ⟨cur'', ?_, hj''⟩
    have : scans + {(t.1, c.S.length - 1, PTree.leaf t.1 t.2)} + scansOf (c.S.length - 1) toks =
        scans + scansOf (c.S.length - 1) (t :: toks) := by
      simp only [scansOf, ← Multiset.cons_coe, Multiset.map_cons, add_assoc, Multiset.singleton_add]
    rw [this] at h''
    exact h''

/-- What one position does. -/
theorem position_spec (hg : GrammarOK g R root) {la sorter} {s S}
    (h : Rest g R s S) (hlen : S.length < 2 ^ 64) (toks : List (Nat × Nat))
    (ht : ∀ t ∈ toks, t.1 < g.syms + g.gensyms) {J : List (Nat × Nat) → List TItem → List TItem → Prop}
    (hJ : (ctxOf g R root la sorter s S).Keeps toks J) {lax : Prop} (hterm : lax ∨ EC.Settles R (J toks)) :
    Ends lax (Rec.position (treeEnv g la sorter) s toks) fun r =>
      ∃ Fd cur, (ctxOf g R root la sorter s S).Fixed (scansOf (S.length - 1) toks) Fd cur ∧ J toks [] cur ∧
        ((r.2 = false ∧ cur = [] ∧ Fd = scansOf (S.length - 1) toks ∧
            Fd.bind (ctxOf g R root la sorter s S).consH = 0 ∧ r.1.medial = Vec2d.ofSets (S ++ [[]]) ∧
            r.1.complete = [] ∧ r.1.predicted = s.predicted ∧ r.1.lookahead = s.lookahead) ∨
         (r.2 = true ∧ (cur ≠ [] ∨ Fd.bind (ctxOf g R root la sorter s S).consH ≠ 0) ∧ r.1.lookahead = none ∧
            ∃ cur' keep, Advanced g R s.predicted S cur r.1 cur' keep)) := by
  have hc := h.ok hg (la := la) (sorter := sorter)
  have hmid : (ctxOf g R root la sorter s S).Mid 0 s.beginEarleme 0 0 [] := by
    refine ⟨?_, ?_, rfl, rfl, by simp, ?_, by simp, ?_, by simp⟩
    · simp only [Rec.beginEarleme, h.medial, Vec2d.nextSet_eq]; rfl
    · show Heap.IsHeap s.complete
      rw [h.empty]; exact Heap.isHeap_nil
    · show facts s.complete + 0 = _
      rw [h.empty]; simp
    · show ∀ it ∈ s.complete, _
      rw [h.empty]; simp
  unfold Rec.position Rec.positionWith
  refine ends_bind ((scanAll_spec hc h.pos hlen hJ [] toks rfl ht hmid (by
    show J [] s.complete []
    rw [h.empty]; exact hJ.init)).ends.mono ?_)
  rintro s1 ⟨cur1, hm1, hj1⟩
  rw [zero_add] at hm1
  have hSl : (ctxOf g R root la sorter s S).S.length = S.length := rfl
  rw [hSl] at hm1
  simp only [Rec.endEarlemeWith, Rec.isExhausted, hm1.medial, Vec2d.last_eq, pure_bind]
  cases hex : (cur1.isEmpty && s1.complete.isEmpty) with
  | true =>
    simp only [if_true]
    simp only [Bool.and_eq_true, List.isEmpty_iff] at hex
    have hcur := hex.1
    subst hcur
    have hH : (scansOf (S.length - 1) toks).bind (ctxOf g R root la sorter s S).consH = 0 := by
      have := hm1.hf
      rw [hex.2] at this
      simpa using this.symm
    refine ends_pure ⟨scansOf (S.length - 1) toks, [], ⟨?_, hm1.cf, by simp⟩, by have := hj1; rw [hex.2] at this; exact this, Or.inl ⟨rfl, rfl, rfl, hH, ?_, hex.2,
      hm1.pred, hm1.look⟩⟩
    · rw [hH]; simp
    · exact hm1.medial
  | false =>
    simp only [Bool.false_eq_true, if_false]
    refine ends_bind ((EC.completeAll_spec' hc hm1 (J toks) hterm hj1 hJ.step).mono ?_)
    rintro s2 ⟨Fd, cur, hend, hjend⟩
    have hadv := advance_spec hg (la := la) (sorter := sorter) hend.medial h.pos hlen hend.empty
      (fun it hit => (hend.citems it hit).2) (by rw [hend.pred]; exact h.rows) (by rw [hend.pred]; exact h.width)
      (by rw [hend.pred]; exact h.rowLen) (by rw [hend.pred]; exact h.closed)
    refine ends_bind (hadv.ends.mono ?_)
    rintro s3 ⟨a1, a2, cur', keep, a3⟩
    refine ends_pure ⟨Fd, cur, ⟨hend.fd, hend.cf, hend.citems⟩, hjend, Or.inr ⟨rfl, ?_, ?_, cur', keep, ?_⟩⟩
    · by_contra hcon
      simp only [not_or, not_not] at hcon
      obtain ⟨hc0, hh0⟩ := hcon
      have hfd := hend.fd
      rw [hh0] at hfd
      simp only [Multiset.map_zero, add_zero] at hfd
      have h1 := hm1.hf
      rw [← hfd, hh0] at h1
      have h2 := hm1.cf
      rw [← hfd, ← hend.cf, hc0] at h2
      simp only [add_zero] at h1
      have e1 : s1.complete = [] := by
        cases hcc : s1.complete with
        | nil => rfl
        | cons it l =>
          rw [hcc] at h1
          have := (hm1.hitems it (by rw [hcc]; simp)).1
          obtain ⟨f, fs, hf⟩ := List.exists_cons_of_ne_nil this
          have : (it.dot, it.origin, f) ∈ facts (it :: l) := mem_facts.2 ⟨it, by simp, rfl, rfl, by rw [hf]; simp⟩
          rw [h1] at this; simp at this
      have e2 : cur1 = [] := by
        cases hcc : cur1 with
        | nil => rfl
        | cons it l =>
          rw [hcc] at h2
          have := (hm1.citems it (by rw [hcc]; simp)).1
          obtain ⟨f, fs, hf⟩ := List.exists_cons_of_ne_nil this
          have : (it.dot, it.origin, f) ∈ facts (it :: l) := mem_facts.2 ⟨it, by simp, rfl, rfl, by rw [hf]; simp⟩
          rw [h2] at this; simp at this
      rw [e1, e2] at hex
      simp at hex
    · rw [a1]; exact hend.look
    · rw [hend.pred] at a3; exact a3

end
end Gearley
