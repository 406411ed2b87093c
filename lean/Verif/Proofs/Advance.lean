import Verif.Proofs.Earleme

/-! # Closing a position: sorting, dropping sets, predicting -/

namespace Gearley
open Gearley.Spec

/-- Sort key of a medial item. -/
def itemKey (R : Rules) (it : TItem) : Key := ((rhs1Of R it.dot).getD 0, it.dot, it.origin)

theorem mapM_pure {α β} (f : α → M β) (f' : α → β) (l : List α) (h : ∀ a ∈ l, f a = pure (f' a)) :
    l.mapM f = pure (l.map f') := by
  induction l with
  | nil => rfl
  | cons a l ih =>
    rw [List.mapM_cons, h a (by simp), pure_bind, ih (fun x hx => h x (by simp [hx])), pure_bind]
    rfl

theorem sortMedial_spec {g : DefaultGrammar} {R : Rules} {root : Nat → Nat} (hg : GrammarOK g R root) {la sorter}
    {s : TRec} {S cur} (hm : s.medial = Vec2d.ofSets (S ++ [cur]))
    (hb : ∀ it ∈ cur, ∃ A B C, R[it.dot]? = some ⟨A, B, some C⟩) :
    ∃ cur', cur'.Perm cur ∧ cur'.Pairwise (fun a b => Key.le (itemKey R a) (itemKey R b) = true) ∧
      Rec.sortMedial (treeEnv g la sorter) s = pure { s with medial := Vec2d.ofSets (S ++ [cur']) } := by
  by_cases hlen : cur.length < 2
  · refine ⟨cur, List.Perm.refl _, ?_, ?_⟩
    · match cur, hlen with
      | [], _ => simp
      | [_], _ => simp
    · simp only [Rec.sortMedial, hm]
      rw [Vec2d.modifyLast_eq S cur cur _ (by simp [hlen]), pure_bind]
  · let keyed : List (Key × TItem) := cur.map fun it => (itemKey R it, it)
    have hk : cur.mapM (fun item => do
        let r ← g.getRhs1 item.dot
        let r ← unwrapM r
        pure ((r, item.dot, item.origin), item)) = (pure keyed : M (List (Key × TItem))) := by
      apply mapM_pure
      intro it hit
      obtain ⟨A, B, C, hr⟩ := hb it hit
      rw [hg.getRhs1 _ _ hr, pure_bind]
      simp [unwrapM_some, itemKey, rhs1Of, hr]
    refine ⟨(sorter.sort (·.1) keyed).map (·.2), ?_, ?_, ?_⟩
    · have := (sorter.perm (·.1) keyed).map (·.2)
      refine this.trans ?_
      simp [keyed, Function.comp_def]
    · rw [List.pairwise_map]
      have h1 := sorter.sorted (·.1) keyed
      refine List.Pairwise.imp_of_mem ?_ h1
      intro a b ha hb' h
      have ha' := (sorter.perm (·.1) keyed).mem_iff.1 ha
      have hb'' := (sorter.perm (·.1) keyed).mem_iff.1 hb'
      simp only [keyed, List.mem_map] at ha' hb''
      obtain ⟨x, _, rfl⟩ := ha'
      obtain ⟨y, _, rfl⟩ := hb''
      exact h
    · simp only [Rec.sortMedial, hm]
      rw [Vec2d.modifyLast_eq S cur ((sorter.sort (·.1) keyed).map (·.2))]
      · rw [pure_bind]
      · rw [if_neg hlen]
        refine Eq.trans (congrArg (· >>= _) hk) ?_
        rw [pure_bind]; rfl

theorem setOK_of_key {R : Rules} {l : List TItem} (hb : ∀ it ∈ l, ∃ A B C, R[it.dot]? = some ⟨A, B, some C⟩)
    (hs : l.Pairwise (fun a b => Key.le (itemKey R a) (itemKey R b) = true)) : SetOK R l := by
  refine ⟨hb, hs.imp ?_⟩
  intro a b h x y hx hy
  simp only [Key.le, itemKey, hx, hy, Option.getD_some, decide_eq_true_eq] at h
  omega

/-! ### Rows -/

theorem orRow_length {a b : List Bool} {w : Nat} (ha : a.length = w) (hb : b.length = w) : (BitMatrix.orRow a b).length = w := by
  simp [BitMatrix.orRow, ha, hb]

theorem orRow_get {a b : List Bool} {w : Nat} (ha : a.length = w) (hb : b.length = w) (x : Nat) :
    (BitMatrix.orRow a b)[x]? = some true ↔ a[x]? = some true ∨ b[x]? = some true := by
  simp only [BitMatrix.orRow, List.getElem?_zipWith]
  by_cases h : x < w
  · rw [List.getElem?_eq_getElem (by omega), List.getElem?_eq_getElem (by omega)]
    simp
  · rw [List.getElem?_eq_none (by omega), List.getElem?_eq_none (by omega)]
    simp

/-- A row closed under prediction. -/
def RowClosed (R : Rules) (w : Nat) (row : List Bool) : Prop :=
  ∀ X Y, row[X]? = some true → Relation.ReflTransGen (Corner R) X Y → Y < w → row[Y]? = some true

theorem predictRow_spec {g : DefaultGrammar} {R : Rules} {root : Nat → Nat} (hg : GrammarOK g R root) {row src : List Bool}
    {sym : Nat} (hrow : row.length = g.syms) (hcl : RowClosed R g.syms row) (hsym : sym < g.syms)
    (hsrc : g.predictionRow sym = pure src) :
    Returns (predictRow row sym src) fun row' => row'.length = g.syms ∧ RowClosed R g.syms row' ∧
      ∀ X, X < g.syms → (row'[X]? = some true ↔ row[X]? = some true ∨ Relation.ReflTransGen (Corner R) sym X) := by
  obtain ⟨src', h1, h2, h3⟩ := hg.predRow sym hsym
  rw [hsrc] at h1
  have h1 := pure_inj_M h1
  subst h1
  have hlt : sym < row.length := by omega
  rw [predictRow, indexM_lt hlt, pure_bind]
  cases hb : row[sym] with
  | true =>
    simp only [Bool.not_true, Bool.false_eq_true, if_false]
    refine returns_pure ⟨hrow, hcl, fun X hX => ⟨Or.inl, ?_⟩⟩
    rintro (h | h)
    · exact h
    · exact hcl sym X (by rw [List.getElem?_eq_getElem hlt, hb]) h hX
  | false =>
    simp only [Bool.not_false, if_true]
    have hget : ∀ X, X < g.syms → ((BitMatrix.orRow row src)[X]? = some true ↔
        row[X]? = some true ∨ Relation.ReflTransGen (Corner R) sym X) := by
      intro X hX
      rw [orRow_get hrow h2, h3 X hX]
    refine returns_pure ⟨orRow_length hrow h2, ?_, hget⟩
    intro X Y hX hXY hY
    have hXlt : X < g.syms := by
      have : X < (BitMatrix.orRow row src).length := by
        by_contra hn
        rw [List.getElem?_eq_none (by omega)] at hX
        simp at hX
      rwa [orRow_length hrow h2] at this
    rw [hget Y hY]
    rcases (hget X hXlt).1 hX with h | h
    · exact Or.inl (hcl X Y h hXY hY)
    · exact Or.inr (h.trans hXY)

theorem BitMatrix.bit_iff {m : BitMatrix} {o x : Nat} :
    m.bit o x = true ↔ ∃ row, m.rows[o]? = some row ∧ row[x]? = some true := by
  simp only [BitMatrix.bit, beq_iff_eq, Option.bind_eq_some_iff]

theorem bit_lt {m : BitMatrix} {w o x : Nat} (hw : ∀ row ∈ m.rows, row.length = w) (h : m.bit o x = true) :
    o < m.rows.length ∧ x < w := by
  obtain ⟨row, h1, h2⟩ := BitMatrix.bit_iff.1 h
  refine ⟨?_, ?_⟩
  · exact (List.getElem?_eq_some_iff.1 h1).1
  · have := hw row (List.mem_of_getElem? h1)
    have := (List.getElem?_eq_some_iff.1 h2).1
    omega

/-- All rows are closed under prediction. -/
def RowsClosed (R : Rules) (w : Nat) (m : BitMatrix) : Prop := ∀ row ∈ m.rows, RowClosed R w row

theorem replicate_false_get (w x : Nat) : (List.replicate w false)[x]? ≠ some true := by
  rw [List.getElem?_replicate]; split <;> simp

theorem rowClosed_zero (R : Rules) (w : Nat) : RowClosed R w (List.replicate w false) :=
  fun X _ h => absurd h (replicate_false_get w X)

theorem predict_fold {g : DefaultGrammar} {R : Rules} {root : Nat → Nat} (hg : GrammarOK g R root) {la sorter}
    (cur : List TItem) (hb : ∀ it ∈ cur, ∃ A B C, R[it.dot]? = some ⟨A, B, some C⟩) (row : List Bool)
    (hrow : row.length = g.syms) (hcl : RowClosed R g.syms row) :
    Returns (cur.foldlM (fun row ei => do
      let r ← (treeEnv g la sorter).g.getRhs1 ei.dot
      let postdot ← unwrapM r
      let src ← (treeEnv g la sorter).g.predictionRow postdot
      predictRow row postdot src) row) fun row' => row'.length = g.syms ∧ RowClosed R g.syms row' ∧
      ∀ X, X < g.syms → (row'[X]? = some true ↔ row[X]? = some true ∨
        ∃ it ∈ cur, ∃ C, rhs1Of R it.dot = some C ∧ Relation.ReflTransGen (Corner R) C X) := by
  induction cur generalizing row with
  | nil => exact returns_pure ⟨hrow, hcl, by simp⟩
  | cons it cur ih =>
    obtain ⟨A, B, C, hr⟩ := hb it (by simp)
    have hC := hg.rhs1_lt _ (List.mem_of_getElem? hr) C rfl
    obtain ⟨src, hsrc, _⟩ := hg.predRow C hC
    rw [List.foldlM_cons]
    have h1 : (treeEnv g la sorter).g.getRhs1 it.dot = pure (some C) := hg.getRhs1 _ _ hr
    have h2 : (treeEnv g la sorter).g.predictionRow C = pure src := hsrc
    rw [h1, pure_bind, unwrapM_some, pure_bind, h2, pure_bind]
    refine returns_bind ((predictRow_spec hg hrow hcl hC hsrc).mono ?_)
    rintro row1 ⟨e1, e2, e3⟩
    refine (ih (fun x hx => hb x (by simp [hx])) row1 e1 e2).mono ?_
    rintro row2 ⟨f1, f2, f3⟩
    refine ⟨f1, f2, ?_⟩
    intro X hX
    rw [f3 X hX, e3 X hX]
    have hrhs : rhs1Of R it.dot = some C := by simp [rhs1Of, hr]
    simp only [List.mem_cons, exists_eq_or_imp, hrhs, Option.some.injEq, exists_eq_left', or_assoc]

/-- Outcome of `advance_after_completion`: `keep` sets are kept. -/
structure Advanced (g : DefaultGrammar) (R : Rules) (pm : BitMatrix) (S : List (List TItem)) (cur : List TItem)
    (s : TRec) (cur' : List TItem) (keep : Nat) : Prop where
  perm : cur'.Perm cur
  sorted : cur'.Pairwise (fun a b => Key.le (itemKey R a) (itemKey R b) = true)
  keep_pos : 1 ≤ keep
  keep_le : keep ≤ S.length
  keep_max : keep = S.length ∨ (2 ≤ keep ∧ (∃ it ∈ cur, it.origin + 1 = keep) ∧ ∀ it ∈ cur, it.origin < keep)
  keep_drop : ∀ k, 2 ≤ k → (∃ it ∈ cur, it.origin + 1 = k) → (∀ it ∈ cur, it.origin < k) → keep ≤ k
  medial : s.medial = Vec2d.ofSets (S.take keep ++ [cur'])
  empty : s.complete = []
  rows : keep + 1 ≤ s.predicted.rows.length
  width : s.predicted.width = g.syms
  rowLen : ∀ row ∈ s.predicted.rows, row.length = g.syms
  closed : RowsClosed R g.syms s.predicted
  old : ∀ k X, k < keep → s.predicted.bit k X = pm.bit k X
  later : ∀ k X, keep < k → s.predicted.bit k X = true → keep = S.length ∧ pm.bit k X = true
  new : ∀ X, X < g.syms → (s.predicted.bit keep X = true ↔ (keep = S.length ∧ pm.bit keep X = true) ∨
    ∃ it ∈ cur, ∃ C, rhs1Of R it.dot = some C ∧ Relation.ReflTransGen (Corner R) C X)

theorem predictionPass_spec {g : DefaultGrammar} {R : Rules} {root : Nat → Nat} (hg : GrammarOK g R root) {la sorter}
    {s : TRec} {S cur} (hm : s.medial = Vec2d.ofSets (S ++ [cur])) (hS : 0 < S.length) (hlen : S.length < 2 ^ 64)
    (hb : ∀ it ∈ cur, ∃ A B C, R[it.dot]? = some ⟨A, B, some C⟩)
    (hrows : S.length ≤ s.predicted.rows.length) (hwidth : s.predicted.width = g.syms)
    (hrl : ∀ row ∈ s.predicted.rows, row.length = g.syms) (hcl : RowsClosed R g.syms s.predicted) :
    Returns (Rec.predictionPass (treeEnv g la sorter) s) fun s' =>
      s' = { s with predicted := s'.predicted } ∧ S.length + 1 ≤ s'.predicted.rows.length ∧
      s'.predicted.rows.length = s.predicted.rows.length + 1 ∧
      s'.predicted.width = g.syms ∧ (∀ row ∈ s'.predicted.rows, row.length = g.syms) ∧
      RowsClosed R g.syms s'.predicted ∧ (∀ k X, k ≠ S.length → s'.predicted.bit k X = s.predicted.bit k X) ∧
      (∀ X, X < g.syms → (s'.predicted.bit S.length X = true ↔ s.predicted.bit S.length X = true ∨
        ∃ it ∈ cur, ∃ C, rhs1Of R it.dot = some C ∧ Relation.ReflTransGen (Corner R) C X)) := by
  have hearl : s.earleme = S.length - 1 := by
    rw [Rec.earleme, hm, Vec2d.len_eq, wrappingSub2]
    simp only [List.length_append, List.length_singleton]
    rw [if_pos (by omega)]; omega
  have hsucc : succM (S.length - 1) = pure S.length := by
    rw [succM, if_pos (by simp only [maxUsize]; omega)]
    congr 1; omega
  simp only [Rec.predictionPass, hm, Vec2d.last_eq, pure_bind, hearl, hsucc]
  have hglen : (s.predicted.grow 1 false).rows.length = s.predicted.rows.length + 1 := by simp [BitMatrix.grow]
  have hgrows : (s.predicted.grow 1 false).rows = s.predicted.rows ++ [List.replicate g.syms false] := by
    simp [BitMatrix.grow, hwidth]
  have hgl : ∀ row ∈ (s.predicted.grow 1 false).rows, row.length = g.syms := by
    rw [hgrows]; intro row hrow
    rcases List.mem_append.1 hrow with h | h
    · exact hrl row h
    · simp at h; simp [h]
  have hgc : ∀ row ∈ (s.predicted.grow 1 false).rows, RowClosed R g.syms row := by
    rw [hgrows]; intro row hrow
    rcases List.mem_append.1 hrow with h | h
    · exact hcl row h
    · simp at h; rw [h]; exact rowClosed_zero _ _
  have hgb : ∀ k X, (s.predicted.grow 1 false).bit k X = s.predicted.bit k X := by
    intro k X
    rw [Bool.eq_iff_iff, BitMatrix.bit_iff, BitMatrix.bit_iff, hgrows]
    by_cases hk : k < s.predicted.rows.length
    · rw [List.getElem?_append_left hk]
    · rw [List.getElem?_append_right (by omega), List.getElem?_eq_none (l := s.predicted.rows) (by omega)]
      constructor
      · rintro ⟨row, h1, h2⟩
        have := List.mem_of_getElem? h1
        simp at this; rw [this] at h2
        exact absurd h2 (replicate_false_get _ _)
      · rintro ⟨row, h, _⟩; simp at h
  generalize hgm : s.predicted.grow 1 false = gm at *
  have hlt : S.length < gm.rows.length := by omega
  rw [BitMatrix.row, indexM_lt hlt, pure_bind]
  refine returns_bind ((predict_fold hg cur hb gm.rows[S.length] (hgl _ (List.getElem_mem hlt))
    (hgc _ (List.getElem_mem hlt))).mono ?_)
  rintro row' ⟨e1, e2, e3⟩
  have hgw : gm.width = g.syms := by rw [← hgm]; exact hwidth
  refine returns_pure ⟨rfl, by simp only [List.length_set]; omega, by simpa using hglen, hgw, ?_, ?_, ?_, ?_⟩
  · intro row hrow
    rcases List.mem_or_eq_of_mem_set hrow with h | h
    · exact hgl row h
    · rw [h]; exact e1
  · intro row hrow
    rcases List.mem_or_eq_of_mem_set hrow with h | h
    · exact hgc row h
    · rw [h]; exact e2
  · intro k X hk
    rw [← hgb k X]
    simp only [BitMatrix.bit]
    rw [List.getElem?_set_ne (by omega)]
  · intro X hX
    rw [← hgb S.length X, BitMatrix.bit_iff, BitMatrix.bit_iff]
    simp only [List.getElem?_set_self hlt, Option.some.injEq, exists_eq_left', List.getElem?_eq_getElem hlt]
    exact e3 X hX

theorem max_origin {cur : List TItem} {m : Nat} (h : (cur.map (·.origin)).max? = some m) :
    (∃ it ∈ cur, it.origin = m) ∧ ∀ it ∈ cur, it.origin ≤ m := by
  rw [List.max?_eq_some_iff] at h
  obtain ⟨h1, h2⟩ := h
  refine ⟨?_, fun it hit => h2 _ (List.mem_map_of_mem hit)⟩
  simpa using h1

theorem advance_spec {g : DefaultGrammar} {R : Rules} {root : Nat → Nat} (hg : GrammarOK g R root) {la sorter}
    {s : TRec} {S cur} (hm : s.medial = Vec2d.ofSets (S ++ [cur])) (hS : 0 < S.length) (hlen : S.length < 2 ^ 64)
    (hc : s.complete = [])
    (hb : ∀ it ∈ cur, it.origin < S.length ∧ ∃ A B C, R[it.dot]? = some ⟨A, B, some C⟩)
    (hrows : S.length ≤ s.predicted.rows.length) (hwidth : s.predicted.width = g.syms)
    (hrl : ∀ row ∈ s.predicted.rows, row.length = g.syms) (hcl : RowsClosed R g.syms s.predicted) :
    Returns (Rec.advanceAfterCompletion (treeEnv g la sorter) s) fun s' =>
      s'.lookahead = s.lookahead ∧ s'.forest = s.forest ∧
      ∃ cur' keep, Advanced g R s.predicted S cur s' cur' keep := by
  obtain ⟨cur', hperm, hsorted, hsort⟩ := sortMedial_spec hg (la := la) (sorter := sorter) hm (fun it hit => (hb it hit).2)
  have hb' : ∀ it ∈ cur', ∃ A B C, R[it.dot]? = some ⟨A, B, some C⟩ := fun it hit => (hb it (hperm.mem_iff.1 hit)).2
  rw [Rec.advanceAfterCompletion, hsort, pure_bind]
  have hleo : (treeEnv g la sorter).leo = false := rfl
  simp only [hleo, Bool.false_eq_true, if_false]
  have hearl : ({ s with medial := Vec2d.ofSets (S ++ [cur']) } : TRec).earleme = S.length - 1 := by
    rw [Rec.earleme, Vec2d.len_eq, wrappingSub2]
    simp only [List.length_append, List.length_singleton]
    rw [if_pos (by omega)]; omega
  -- the case where nothing is dropped
  have hkeepall : (∀ k, 2 ≤ k → (∃ it ∈ cur, it.origin + 1 = k) → (∀ it ∈ cur, it.origin < k) → S.length ≤ k) →
      Returns (Rec.predictionPass (treeEnv g la sorter) { s with medial := Vec2d.ofSets (S ++ [cur']) }) fun s' =>
      s'.lookahead = s.lookahead ∧ s'.forest = s.forest ∧
      ∃ cur' keep, Advanced g R s.predicted S cur s' cur' keep := by
    intro hdrop
    refine (predictionPass_spec hg (s := { s with medial := Vec2d.ofSets (S ++ [cur']) }) rfl hS hlen hb' hrows hwidth
      hrl hcl).mono ?_
    rintro s' ⟨e0, e1, e1', e2, e3, e4, e5, e6⟩
    refine ⟨by rw [e0], by rw [e0], cur', S.length, ⟨hperm, hsorted, hS, Nat.le_refl _, Or.inl rfl, hdrop, ?_, ?_, e1,
      e2, e3, e4, ?_, ?_, ?_⟩⟩
    · rw [e0]; simp
    · rw [e0]; exact hc
    · intro k X hk; exact e5 k X (by omega)
    · intro k X hk hbit; rw [e5 k X (by omega)] at hbit; exact ⟨rfl, hbit⟩
    · intro X hX
      rw [e6 X hX]
      simp only [hperm.mem_iff, true_and]
  simp only [Rec.removeUnreachable, Vec2d.last_eq, pure_bind, hearl]
  cases hmax : (cur'.map (·.origin)).max? with
  | none =>
    have hnil : cur' = [] := by simpa [List.max?_eq_none_iff] using hmax
    simp only [Nat.lt_irrefl, gt_iff_lt, false_and, if_false, pure_bind]
    apply hkeepall
    rintro k _ ⟨it, hit, _⟩
    have := hperm.mem_iff.2 hit
    rw [hnil] at this; simp at this
  | some k0 =>
    obtain ⟨⟨it0, hit0, hk0⟩, hle⟩ := max_origin hmax
    have hlt0 : k0 < S.length := by have := (hb it0 (hperm.mem_iff.1 hit0)).1; omega
    simp only
    by_cases hcond : S.length - 1 > k0 ∧ k0 > 0
    · rw [if_pos hcond, Vec2d.truncate_eq S cur' (k0 + 1) (by omega), pure_bind]
      have htl : (S.take (k0 + 1)).length = k0 + 1 := by simp; omega
      have ha1 : ((Vec2d.ofSets (S.take (k0 + 1) ++ [cur'])).len == k0 + 2) = true := by
        rw [Vec2d.len_eq, List.length_append, htl]; simp
      have ha2 : (({ s with medial := Vec2d.ofSets (S.take (k0 + 1) ++ [cur']),
                            predicted := s.predicted.truncate (k0 + 1) } : TRec).earleme == k0) = true := by
        rw [Rec.earleme, Vec2d.len_eq, List.length_append, htl, wrappingSub2]; simp
      simp only [assertM_true ha1, pure_bind, assertM_true ha2]
      have hrow' : (s.predicted.truncate (k0 + 1)).rows = s.predicted.rows.take (k0 + 1) := rfl
      refine (predictionPass_spec hg (s := ⟨s.forest, s.lookahead, s.predicted.truncate (k0 + 1),
        Vec2d.ofSets (S.take (k0 + 1) ++ [cur']), s.complete⟩) (S := S.take (k0 + 1)) rfl (by omega) (by omega) hb' ?_ hwidth ?_
          ?_).mono ?_
      · simp only [hrow', List.length_take]; omega
      · intro row hrow; exact hrl row (List.mem_of_mem_take hrow)
      · intro row hrow; exact hcl row (List.mem_of_mem_take hrow)
      · rintro s' ⟨e0, e1, e1', e2, e3, e4, e5, e6⟩
        rw [htl] at e1 e5 e6
        have hbit : ∀ k X, k < k0 + 1 → (s.predicted.truncate (k0 + 1)).bit k X = s.predicted.bit k X := by
          intro k X hk
          simp only [BitMatrix.bit, hrow', List.getElem?_take, hk, if_true]
        have hnone : ∀ k X, k0 + 1 ≤ k → (s.predicted.truncate (k0 + 1)).bit k X = false := by
          intro k X hk
          rw [Bool.eq_false_iff]
          intro h
          obtain ⟨row, h1, _⟩ := BitMatrix.bit_iff.1 h
          rw [hrow', List.getElem?_take, if_neg (by omega)] at h1
          simp at h1
        refine ⟨by rw [e0], by rw [e0], cur', k0 + 1, ⟨hperm, hsorted, by omega, by omega, Or.inr ⟨by omega,
          ⟨it0, hperm.mem_iff.1 hit0, by omega⟩, ?_⟩, ?_, ?_, ?_, e1, e2, e3, e4, ?_, ?_, ?_⟩⟩
        · intro it hit; have := hle it (hperm.mem_iff.2 hit); omega
        · rintro k _ _ hk; have := hk it0 (hperm.mem_iff.1 hit0); omega
        · rw [e0]
        · rw [e0]; exact hc
        · intro k X hk; rw [e5 k X (by omega), hbit k X hk]
        · intro k X hk h
          rw [e5 k X (by omega), hnone k X (by omega)] at h
          simp at h
        · intro X hX
          rw [e6 X hX, hnone _ _ (Nat.le_refl _)]
          simp only [Bool.false_eq_true, false_or, hperm.mem_iff]
          constructor
          · exact Or.inr
          · rintro (⟨h, _⟩ | h)
            · omega
            · exact h
    · rw [if_neg hcond, pure_bind]
      apply hkeepall
      rintro k hk2 ⟨it, hit, hik⟩ hk
      have h1 := hle it (hperm.mem_iff.2 hit)
      have h2 := hk it0 (hperm.mem_iff.1 hit0)
      omega

end Gearley
