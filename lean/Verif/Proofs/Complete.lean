import Verif.Proofs.GrammarOK
import Verif.Proofs.BinarySearch
import Verif.Proofs.Vec2d
import Verif.Proofs.Heap
import Verif.Spec.TreeForest

/-! # The completion functions, computed explicitly for the specification forest -/

namespace Gearley
open Gearley.Spec

abbrev TItem := Item (List PTree)
abbrev TRec := Rec (List PTree) (List PTree)

/-- Second symbol of rule `d`. -/
def rhs1Of (R : Rules) (d : Nat) : Option Nat := R[d]?.bind (·.rhs1)

/-- Bit `x` of row `o`. -/
def BitMatrix.bit (m : BitMatrix) (o x : Nat) : Bool := (m.rows[o]?.bind (·[x]?)) == some true

/-- Items of a set refer to two-symbol rules and are sorted by second symbol. -/
structure SetOK (R : Rules) (l : List TItem) : Prop where
  binary : ∀ it ∈ l, ∃ A B C, R[it.dot]? = some ⟨A, B, some C⟩
  sorted : l.Pairwise fun a b => ∀ x y, rhs1Of R a.dot = some x → rhs1Of R b.dot = some y → x ≤ y

/-- Shape of the state while a position is being processed: closed sets `S`, set under construction `cur`. -/
structure Shape (g : DefaultGrammar) (R : Rules) (s : TRec) (S : List (List TItem)) (cur : List TItem) : Prop where
  medial : s.medial = Vec2d.ofSets (S ++ [cur])
  heap : Heap.IsHeap s.complete
  rows : S.length ≤ s.predicted.rows.length
  width : s.predicted.width = g.syms
  rowLen : ∀ row ∈ s.predicted.rows, row.length = g.syms
  hint : ∀ h, s.lookahead = some h → h < g.syms
  sets : ∀ l ∈ S, SetOK R l

section
variable {g : DefaultGrammar} {R : Rules} {root : Nat → Nat} (hg : GrammarOK g R root)

theorem BitMatrix.get_eq {m : BitMatrix} {w o x : Nat} (ho : o < m.rows.length)
    (hw : ∀ row ∈ m.rows, row.length = w) (hx : x < w) : m.get o x = pure (m.bit o x) := by
  have h1 : m.rows[o]? = some m.rows[o] := by simp [ho]
  have h2 : x < (m.rows[o]).length := by rw [hw _ (List.getElem_mem ho)]; exact hx
  simp only [BitMatrix.get, BitMatrix.row, BitMatrix.bit, indexM_lt ho, pure_bind, indexM_lt h2, h1, Option.bind_some,
    List.getElem?_eq_getElem h2]
  cases (m.rows[o])[x] <;> rfl

include hg in
theorem lr_get {i h : Nat} (hi : i < 2 * g.syms) (hh : h < g.syms) :
    (do let row ← g.lrSets.row i; indexM row h) = (pure ((g.lrSets.rows[i]?.bind (·[h]?)) == some true) : M Bool) := by
  have hi' : i < g.lrSets.rows.length := by rw [hg.lrLen]; exact hi
  exact BitMatrix.get_eq hi' hg.lrRow hh

include hg in
theorem medialUseful_eq {la sorter} {h d : Nat} {r : Rule} (hr : R[d]? = some r) (hh : h < g.syms) :
    Rec.medialUseful (treeEnv g la sorter) (some h) d = pure (useM g R h d) := by
  simp only [Rec.medialUseful, treeEnv, hg.getLhs d r hr, pure_bind, useM, hr, DefaultGrammar.lhsLrSet]
  by_cases hl : r.lhs ≥ g.syms
  · simp [hl]
  · simp only [hl, if_false]
    rw [lr_get hg (by omega) hh]
    simp [hl]

include hg in
theorem predictionUseful_eq {la sorter} {h d : Nat} {r : Rule} (hr : R[d]? = some r) (hh : h < g.syms) :
    Rec.predictionUseful (treeEnv g la sorter) (some h) d = pure (useP g R h d) := by
  simp only [Rec.predictionUseful, treeEnv, DefaultGrammar.rhs1OrLhs, hg.getRhs1 d r hr, pure_bind, useP, hr,
    DefaultGrammar.lookaheadSet]
  cases h1 : r.rhs1 with
  | some c =>
    have hc := hg.rhs1_lt r (List.mem_of_getElem? hr) c h1
    simp only [pure_bind, ge_iff_le, Nat.not_le.2 hc, if_false]
    have := lr_get hg (i := c * 2) (h := h) (by omega) hh
    simpa using this
  | none =>
    simp only [hg.getLhs d r hr, pure_bind]
    by_cases hl : r.lhs ≥ g.syms
    · simp [hl]
    · simp only [hl, if_false]
      have := lr_get hg (i := r.lhs * 2 + 1) (h := h) (by omega) hh
      simp only [Option.isNone_none, if_true]
      rw [this]
      simp [hl]

/-- Is a medial item kept by the look-ahead filter? -/
def okM (g : DefaultGrammar) (R : Rules) (la : Bool) (hint : Option Nat) (d : Nat) : Bool :=
  !la || (match hint with | none => true | some h => useM g R h d)

/-- Is a rule entered by the look-ahead filter? -/
def okP (g : DefaultGrammar) (R : Rules) (la : Bool) (hint : Option Nat) (d : Nat) : Bool :=
  !la || (match hint with | none => true | some h => useP g R h d)

include hg in
theorem medialUseful_ok {la sorter} {hint : Option Nat} {d : Nat} {r : Rule} (hr : R[d]? = some r)
    (hh : ∀ h, hint = some h → h < g.syms) :
    ∃ u, Rec.medialUseful (treeEnv g la sorter) hint d = pure u ∧ (!la || u) = okM g R la hint d := by
  cases hint with
  | none => exact ⟨true, rfl, rfl⟩
  | some h => exact ⟨_, medialUseful_eq hg hr (hh h rfl), rfl⟩

include hg in
theorem predictionUseful_ok {la sorter} {hint : Option Nat} {d : Nat} {r : Rule} (hr : R[d]? = some r)
    (hh : ∀ h, hint = some h → h < g.syms) :
    ∃ u, Rec.predictionUseful (treeEnv g la sorter) hint d = pure u ∧ (!la || u) = okP g R la hint d := by
  cases hint with
  | none => exact ⟨true, rfl, rfl⟩
  | some h => exact ⟨_, predictionUseful_eq hg hr (hh h rfl), rfl⟩

/-! ### The search in a set -/

theorem takeWhileM_eq {α} (p : α → M Bool) (q : α → Bool) (l : List α) (h : ∀ x ∈ l, p x = pure (q x)) :
    Rec.takeWhileM p l = pure (l.takeWhile q) := by
  induction l with
  | nil => rfl
  | cons x l ih =>
    simp only [Rec.takeWhileM, h x (by simp), pure_bind, List.takeWhile_cons]
    cases hq : q x with
    | false => simp
    | true => simp [ih (fun y hy => h y (by simp [hy]))]

/-- On a list sorted by key, dropping the smaller keys and taking while equal is filtering. -/
theorem drop_takeWhile_eq_filter {α} (k : α → Nat) (x : Nat) (l : List α) (hs : l.Pairwise fun a b => k a ≤ k b)
    (i : Nat) (hi : i ≤ l.length) (h1 : ∀ j (h : j < l.length), j < i → k l[j] < x)
    (h2 : ∀ j (h : j < l.length), i ≤ j → x ≤ k l[j]) :
    (l.drop i).takeWhile (fun a => decide (k a = x)) = l.filter fun a => decide (k a = x) := by
  induction l generalizing i with
  | nil => simp
  | cons a l ih =>
    cases i with
    | succ i =>
      have ha := h1 0 (by simp) (by omega)
      simp only [List.getElem_cons_zero] at ha
      rw [List.drop_succ_cons, List.filter_cons, if_neg (by simp; omega)]
      apply ih hs.of_cons i (by simpa using hi)
      · intro j hj hlt
        have := h1 (j+1) (by simpa using hj) (by omega)
        simpa using this
      · intro j hj hle
        have := h2 (j+1) (by simpa using hj) (by omega)
        simpa using this
    | zero =>
      simp only [List.drop_zero]
      have ha := h2 0 (by simp) (by omega)
      simp only [List.getElem_cons_zero] at ha
      by_cases hax : k a = x
      · rw [List.takeWhile_cons, if_pos (by simp [hax]), List.filter_cons, if_pos (by simp [hax])]
        congr 1
        have := ih hs.of_cons 0 (by omega) (fun j _ h => by omega)
          (fun j hj _ => by have := h2 (j+1) (by simpa using hj) (by omega); simpa using this)
        simpa using this
      · rw [List.takeWhile_cons, if_neg (by simp [hax]), List.filter_cons, if_neg (by simp [hax])]
        symm
        rw [List.filter_eq_nil_iff]
        intro b hb
        have := List.rel_of_pairwise_cons hs hb
        simp; omega

/-- The search in a set sorted by next symbol finds exactly the items waiting for `sym`. -/
theorem medialMatches_sorted {σ ν : Type} {E : Env σ ν} {l : List (Item ν)} {k : Item ν → Nat}
    (hb : ∀ it ∈ l, E.g.getRhs1 it.dot = pure (some (k it))) (hs : l.Pairwise fun a b => k a ≤ k b) (sym : Nat) :
    Rec.medialMatches E l sym = pure (l.filter fun it => decide (k it = sym)) := by
  have hmono : ∀ i j (hi : i < l.length) (hj : j < l.length), i ≤ j → k l[i] ≤ k l[j] := by
    intro i j hi hj hij
    rcases Nat.lt_or_eq_of_le hij with h | h
    · exact (List.pairwise_iff_getElem.1 hs) i j hi hj h
    · subst h; exact Nat.le_refl _
  unfold Rec.medialMatches
  have hcmp : ∀ it : Item ν, Rec.cmpRhs1 (some (k it)) sym = if k it < sym then .lt else .gt := by
    intro it
    unfold Rec.cmpRhs1
    rcases Nat.lt_trichotomy (k it) sym with h | h | h
    · simp [Nat.compare_eq_lt.2 h, h]
    · simp [Nat.compare_eq_eq.2 h, h]
    · have : ¬ k it < sym := by omega
      simp [Nat.compare_eq_gt.2 h, this]
  have hspec := bsearchBy_spec l (fun ei => do
      let r ← E.g.getRhs1 ei.dot
      pure (Rec.cmpRhs1 r sym)) (fun it => if k it < sym then .lt else .gt) (by
        intro it hit
        simp only [hb it hit, pure_bind, hcmp it]) (by
        intro i j hi hj hij
        have := hmono i j hi hj hij
        split <;> split <;> simp [ordRank]
        omega)
  obtain ⟨r, hr, hq⟩ := hspec
  simp only [hr, pure_bind]
  cases r with
  | ok i =>
    obtain ⟨h, he⟩ := hq
    split at he <;> simp at he
  | error i =>
    obtain ⟨h1, h2, h3⟩ := hq
    simp only [sliceFromM_eq h1, pure_bind]
    rw [takeWhileM_eq _ (fun it => decide (k it = sym))]
    · rw [drop_takeWhile_eq_filter k sym l hs i h1]
      · intro j hj hlt
        have := h2 j hj hlt
        split at this
        · assumption
        · simp at this
      · intro j hj hle
        have := h3 j hj hle
        split at this
        · simp at this
        · omega
    · intro it hit
      simp [hb it (List.mem_of_mem_drop hit)]

include hg in
/-- `complete_medial_items` finds exactly the items waiting for `sym`. -/
theorem medialMatches_eq {la sorter} (l : List TItem) (hl : SetOK R l) (sym : Nat) :
    Rec.medialMatches (treeEnv g la sorter) l sym =
      pure (l.filter fun it => decide (rhs1Of R it.dot = some sym)) := by
  let k : TItem → Nat := fun it => (rhs1Of R it.dot).getD 0
  have hk : ∀ it ∈ l, rhs1Of R it.dot = some (k it) ∧ g.getRhs1 it.dot = pure (some (k it)) := by
    intro it hit
    obtain ⟨A, B, C, h⟩ := hl.binary it hit
    exact ⟨by simp [k, rhs1Of, h], by rw [hg.getRhs1 _ _ h]; simp [k, rhs1Of, h]⟩
  have hs : l.Pairwise fun a b => k a ≤ k b := by
    have := hl.sorted
    rw [List.pairwise_iff_getElem] at this ⊢
    intro i j hi hj hij
    exact this i j hi hj hij _ _ (hk _ (List.getElem_mem hi)).1 (hk _ (List.getElem_mem hj)).1
  rw [medialMatches_sorted (E := treeEnv g la sorter) (k := k) (fun it hit => (hk it hit).2) hs]
  congr 1
  apply List.filter_congr
  intro it hit
  rw [(hk it hit).1]; simp

/-! ### Explicit results of a completion -/

/-- Completed items created from the set `o` when `A` is completed with trees `N`. -/
def medPart (g : DefaultGrammar) (R : Rules) (la : Bool) (hint : Option Nat) (S : List (List TItem)) (o A : Nat)
    (N : List PTree) : List TItem :=
  ((S[o]?.getD []).filter fun it => decide (rhs1Of R it.dot = some A) && okM g R la hint it.dot).map fun it =>
    ⟨it.dot, it.origin, pairs it.node N⟩

/-- Completed items created from one-symbol rules. -/
def unPart (g : DefaultGrammar) (R : Rules) (root : Nat → Nat) (la : Bool) (hint : Option Nat) (pm : BitMatrix)
    (o A : Nat) (N : List PTree) : List TItem :=
  ((unTrans R root A).filter fun p => pm.bit o p.symbol && (decide (g.syms ≤ A) || okP g R la hint p.dot)).map fun p =>
    ⟨p.dot, o, N⟩

/-- Medial items created from two-symbol rules. -/
def binPart (g : DefaultGrammar) (R : Rules) (root : Nat → Nat) (la : Bool) (hint : Option Nat) (pm : BitMatrix)
    (o A : Nat) (N : List PTree) : List TItem :=
  ((binTrans R root A).filter fun p => pm.bit o p.symbol && (decide (g.syms ≤ A) || okP g R la hint p.dot)).map fun p =>
    ⟨p.dot, o, N⟩

/-- Is `A` acted upon when completed in set `o`? -/
def gate (g : DefaultGrammar) (pm : BitMatrix) (o A : Nat) : Bool := decide (g.syms ≤ A) || pm.bit o A

def heapNew (g : DefaultGrammar) (R : Rules) (root : Nat → Nat) (la : Bool) (hint : Option Nat) (pm : BitMatrix)
    (S : List (List TItem)) (o A : Nat) (N : List PTree) : List TItem :=
  if gate g pm o A then medPart g R la hint S o A N ++ unPart g R root la hint pm o A N else []

def medNew (g : DefaultGrammar) (R : Rules) (root : Nat → Nat) (la : Bool) (hint : Option Nat) (pm : BitMatrix)
    (o A : Nat) (N : List PTree) : List TItem :=
  if gate g pm o A then binPart g R root la hint pm o A N else []

theorem heap_pushes (l new : List TItem) (hl : Heap.IsHeap l) :
    Returns (new.foldlM Heap.push l) (fun l' => l'.Perm (l ++ new) ∧ Heap.IsHeap l') := by
  induction new generalizing l with
  | nil => exact returns_pure ⟨by simp, hl⟩
  | cons x new ih =>
    rw [List.foldlM_cons]
    refine returns_bind ((Heap.push_spec l x hl).mono ?_)
    rintro l1 ⟨hp, hh⟩
    refine (ih l1 hh).mono ?_
    rintro l2 ⟨hp2, hh2⟩
    refine ⟨hp2.trans ?_, hh2⟩
    exact (hp.append_right new).trans (List.perm_middle.symm)

include hg in
theorem completeMedialItems_spec {la sorter} {s : TRec} {S cur} (hs : Shape g R s S cur) {o A : Nat}
    (ho : o < S.length) (N : List PTree) :
    Returns (Rec.completeMedialItems (treeEnv g la sorter) s o A N) (fun s' =>
      s' = { s with complete := s'.complete } ∧ Heap.IsHeap s'.complete ∧
      s'.complete.Perm (s.complete ++ medPart g R la s.lookahead S o A N)) := by
  have hidx : s.medial.index o = pure S[o] := by
    rw [hs.medial]
    exact Vec2d.index_eq _ _ _ (by simp; omega) (by simp [List.getElem?_append, ho])
  have hset := hs.sets S[o] (List.getElem_mem ho)
  simp only [Rec.completeMedialItems, hidx, pure_bind, medialMatches_eq hg _ hset]
  have hget : S[o]?.getD [] = S[o] := by simp [ho]
  simp only [medPart, hget]
  have hbin := hset.binary
  generalize S[o] = l at hbin
  have key : ∀ (l : List TItem) (s0 : TRec), Heap.IsHeap s0.complete → s0 = { s with complete := s0.complete } →
      (∀ it ∈ l, ∃ A B C, R[it.dot]? = some ⟨A, B, some C⟩) →
      Returns ((l.filter fun it => decide (rhs1Of R it.dot = some A)).foldlM
        (Rec.completeMedialItem (treeEnv g la sorter) N) s0) (fun s' =>
      s' = { s with complete := s'.complete } ∧ Heap.IsHeap s'.complete ∧
      s'.complete.Perm (s0.complete ++ ((l.filter fun it => decide (rhs1Of R it.dot = some A) &&
        okM g R la s.lookahead it.dot).map fun it => ⟨it.dot, it.origin, pairs it.node N⟩))) := by
    intro l
    induction l with
    | nil => intro s0 hh he _; exact returns_pure ⟨he, hh, by simp⟩
    | cons it l ih =>
      intro s0 hh he hb
      by_cases hA : rhs1Of R it.dot = some A
      · rw [List.filter_cons, if_pos (by simp [hA]), List.foldlM_cons]
        obtain ⟨A', B', C', hr⟩ := hb it (by simp)
        have hhint : ∀ h, s0.lookahead = some h → h < g.syms := by rw [he]; exact hs.hint
        obtain ⟨u, hu1, hu2⟩ := medialUseful_ok hg (la := la) (sorter := sorter) hr hhint
        have hla : s0.lookahead = s.lookahead := by rw [he]
        rw [hla] at hu2
        simp only [Rec.completeMedialItem, hu1, pure_bind, List.filter_cons, hA, decide_true, Bool.true_and]
        have hEla : (treeEnv g la sorter).lookahead = la := rfl
        rw [hEla, hu2]
        cases hok : okM g R la s.lookahead it.dot with
        | false =>
          simp only [Bool.false_eq_true, if_false, pure_bind]
          exact ih s0 hh he (fun x hx => hb x (by simp [hx]))
        | true =>
          simp only [if_true, treeEnv, treeForest, pure_bind, bind_assoc]
          refine returns_bind ((Heap.push_spec s0.complete _ hh).mono ?_)
          rintro l1 ⟨hp, hh1⟩
          simp only [treeEnv, treeForest] at ih
          refine (ih { s0 with complete := l1 } hh1 (by rw [he]) (fun x hx => hb x (by simp [hx]))).mono ?_
          rintro s' ⟨h1, h2, h3⟩
          refine ⟨h1, h2, h3.trans ?_⟩
          simp only [List.map_cons]
          exact (hp.append_right _).trans (List.perm_middle.symm)
      · rw [List.filter_cons, if_neg (by simp [hA]), List.filter_cons, if_neg (by simp [hA])]
        exact ih s0 hh he (fun x hx => hb x (by simp [hx]))
  exact key l s hs.heap rfl hbin

include hg in
theorem completePrediction_fold {la sorter} {s : TRec} {S cur} (hs : Shape g R s S cur) {o A : Nat}
    (ho : o < S.length) (N : List PTree) (hA : A < g.syms) (ps : List PT) (cur' : List TItem) (b : Nat)
    (hps : ∀ p ∈ ps, ∃ r, R[p.dot]? = some r ∧ p.symbol = root r.lhs) :
    ps.foldlM (Rec.completePrediction (treeEnv g la sorter) o N)
      ({ s with medial := Vec2d.ofSets (S ++ [cur']) }, b) =
    (pure ({ s with medial := Vec2d.ofSets (S ++ [cur' ++ (ps.filter fun p => s.predicted.bit o p.symbol &&
          (decide (g.syms ≤ A) || okP g R la s.lookahead p.dot)).map fun p => ⟨p.dot, o, N⟩]) },
      b + ((ps.filter fun p => s.predicted.bit o p.symbol && (decide (g.syms ≤ A) ||
        okP g R la s.lookahead p.dot)).countP fun p => !p.isUnary)) : M (TRec × Nat)) := by
  induction ps generalizing cur' b with
  | nil => simp
  | cons p ps ih =>
    obtain ⟨r, hr, hsym⟩ := hps p (by simp)
    have hlt : p.symbol < g.syms := by rw [hsym]; exact hg.root_lt r (List.mem_of_getElem? hr)
    have hget : s.predicted.get o p.symbol = pure (s.predicted.bit o p.symbol) :=
      BitMatrix.get_eq (Nat.lt_of_lt_of_le ho hs.rows) hs.rowLen hlt
    obtain ⟨u, hu1, hu2⟩ := predictionUseful_ok hg (la := la) (sorter := sorter) hr hs.hint
    have hA' : decide (g.syms ≤ A) = false := by simp [hA]
    rw [List.foldlM_cons]
    simp only [Rec.completePrediction, hget, hu1, pure_bind, hA', Bool.false_or]
    have hEla : (treeEnv g la sorter).lookahead = la := rfl
    rw [hEla, hu2]
    have ih' := fun c b => ih c b (fun x hx => hps x (by simp [hx]))
    simp only [hA', Bool.false_or] at ih'
    cases hc : (s.predicted.bit o p.symbol && okP g R la s.lookahead p.dot) with
    | false =>
      simp only [Bool.false_eq_true, if_false, pure_bind, List.filter_cons, hc]
      exact ih' cur' b
    | true =>
      simp only [if_true, pure_bind, List.filter_cons, hc, Vec2d.pushItem_eq]
      rw [ih']
      simp only [List.map_cons, List.append_assoc, List.singleton_append, List.countP_cons]
      cases p.isUnary <;> simp <;> omega

include hg in
theorem completePredictions_spec {la sorter} {s : TRec} {S cur} (hs : Shape g R s S cur) {o A : Nat}
    (ho : o < S.length) (hA : A < g.syms) (N : List PTree) :
    Returns (Rec.completePredictions (treeEnv g la sorter) s o A N) (fun s' =>
      s' = { s with complete := s'.complete, medial := Vec2d.ofSets (S ++ [cur ++
        binPart g R root la s.lookahead s.predicted o A N]) } ∧ Heap.IsHeap s'.complete ∧
      s'.complete.Perm (s.complete ++ unPart g R root la s.lookahead s.predicted o A N)) := by
  have hself : s = { s with medial := Vec2d.ofSets (S ++ [cur]) } := by
    have := hs.medial; cases s; simp_all
  have hlast : s.medial.last = pure cur := by rw [hs.medial]; exact Vec2d.last_eq _ _
  simp only [Rec.completePredictions, hlast, pure_bind]
  have hcomps : (treeEnv g la sorter).g.completions A = pure (binTrans R root A ++ unTrans R root A) := hg.comps A hA
  rw [hcomps, pure_bind]
  have hfold := completePrediction_fold hg (la := la) (sorter := sorter) hs ho N hA
    (binTrans R root A ++ unTrans R root A) cur cur.length (by
      intro p hp
      rcases List.mem_append.1 hp with h | h
      · obtain ⟨r, h1, _, _, h2, _⟩ := mem_binTrans.1 h; exact ⟨r, h1, h2⟩
      · obtain ⟨r, h1, _, _, h2, _⟩ := mem_unTrans.1 h; exact ⟨r, h1, h2⟩)
  rw [← hself] at hfold
  rw [hfold, pure_bind]
  simp only [List.filter_append, List.map_append, List.countP_append]
  have hbin : (List.filter (fun p => s.predicted.bit o p.symbol && (decide (g.syms ≤ A) ||
      okP g R la s.lookahead p.dot)) (binTrans R root A)).map (fun p => (⟨p.dot, o, N⟩ : TItem)) =
      binPart g R root la s.lookahead s.predicted o A N := rfl
  have hun : (List.filter (fun p => s.predicted.bit o p.symbol && (decide (g.syms ≤ A) ||
      okP g R la s.lookahead p.dot)) (unTrans R root A)).map (fun p => (⟨p.dot, o, N⟩ : TItem)) =
      unPart g R root la s.lookahead s.predicted o A N := rfl
  rw [hbin, hun]
  have hcb : (List.filter (fun p => s.predicted.bit o p.symbol && (decide (g.syms ≤ A) ||
      okP g R la s.lookahead p.dot)) (binTrans R root A)).countP (fun p => !p.isUnary) =
      (binPart g R root la s.lookahead s.predicted o A N).length := by
    rw [← hbin, List.length_map, List.countP_eq_length]
    intro p hp
    obtain ⟨r, _, _, _, _, h⟩ := mem_binTrans.1 (List.mem_filter.1 hp).1
    simp [h]
  have hcu : (List.filter (fun p => s.predicted.bit o p.symbol && (decide (g.syms ≤ A) ||
      okP g R la s.lookahead p.dot)) (unTrans R root A)).countP (fun p => !p.isUnary) = 0 := by
    rw [List.countP_eq_zero]
    intro p hp
    obtain ⟨r, _, _, _, _, h⟩ := mem_unTrans.1 (List.mem_filter.1 hp).1
    simp [h]
  rw [hcb, hcu]
  generalize binPart g R root la s.lookahead s.predicted o A N = bp
  generalize unPart g R root la s.lookahead s.predicted o A N = up
  simp only [Vec2d.last_eq, pure_bind, Nat.add_zero]
  have hdrop : (cur ++ (bp ++ up)).drop (cur.length + bp.length) = up := by
    rw [← List.append_assoc, ← List.length_append, List.drop_left]
  rw [hdrop]
  refine returns_bind ((heap_pushes s.complete up hs.heap).mono ?_)
  rintro l1 ⟨hp, hh⟩
  rw [subM_eq (by simp), pure_bind, Vec2d.itemCount_eq, subM_eq (by simp; omega), pure_bind]
  refine returns_pure ⟨?_, hh, hp⟩
  have hkeep : (S ++ [cur ++ (bp ++ up)]).flatten.length - ((cur ++ (bp ++ up)).length - (cur.length + bp.length)) =
      S.flatten.length + (cur.length + bp.length) := by
    simp only [List.flatten_append, List.flatten_cons, List.flatten_nil, List.append_nil, List.length_append]
    omega
  rw [hkeep, Vec2d.truncateChart_eq]
  have htake : (cur ++ (bp ++ up)).take (cur.length + bp.length) = cur ++ bp := by
    rw [← List.append_assoc, ← List.length_append, List.take_left]
  rw [htake]

theorem medPart_gen (hg : GrammarOK g R root) {la hint} {S : List (List TItem)} (hs : ∀ l ∈ S, SetOK R l) {o A : Nat}
    (hA : g.syms ≤ A) (N : List PTree) : medPart g R la hint S o A N = [] := by
  simp only [medPart, List.map_eq_nil_iff, List.filter_eq_nil_iff]
  intro it hit
  cases hS : S[o]? with
  | none => simp [hS] at hit
  | some l =>
    simp only [hS, Option.getD_some] at hit
    obtain ⟨A', B, C, h⟩ := (hs l (List.mem_of_getElem? hS)).binary it hit
    have := hg.rhs1_lt _ (List.mem_of_getElem? h) C rfl
    have : rhs1Of R it.dot = some C := by simp [rhs1Of, h]
    simp only [this, Option.some.injEq, Bool.and_eq_true, decide_eq_true_eq, not_and]
    intro h; omega

include hg in
theorem completeGenerated_spec {la sorter} {s : TRec} {S cur} (hs : Shape g R s S cur) {o A : Nat}
    (ho : o < S.length) (hA : g.syms ≤ A) (hA' : A < g.syms + g.gensyms) (N : List PTree) :
    Returns (Rec.completeGenerated (treeEnv g la sorter) s o A N) (fun s' =>
      s' = { s with complete := s'.complete, medial := Vec2d.ofSets (S ++ [cur ++
        binPart g R root la s.lookahead s.predicted o A N]) } ∧ Heap.IsHeap s'.complete ∧
      s'.complete.Perm (s.complete ++ unPart g R root la s.lookahead s.predicted o A N)) := by
  obtain ⟨b, u, hbu, hb, hu⟩ := hg.gens A hA hA'
  have hbu' : (treeEnv g la sorter).g.genCompletion A = pure (b, u) := hbu
  have hAd : decide (g.syms ≤ A) = true := by simp [hA]
  have hget : ∀ p : PT, (p ∈ binTrans R root A ∨ p ∈ unTrans R root A) →
      s.predicted.get o p.symbol = pure (s.predicted.bit o p.symbol) := by
    intro p hp
    have : ∃ r, R[p.dot]? = some r ∧ p.symbol = root r.lhs := by
      rcases hp with h | h
      · obtain ⟨r, h1, _, _, h2, _⟩ := mem_binTrans.1 h; exact ⟨r, h1, h2⟩
      · obtain ⟨r, h1, _, _, h2, _⟩ := mem_unTrans.1 h; exact ⟨r, h1, h2⟩
    obtain ⟨r, hr, hsym⟩ := this
    exact BitMatrix.get_eq (Nat.lt_of_lt_of_le ho hs.rows) hs.rowLen
      (by rw [hsym]; exact hg.root_lt r (List.mem_of_getElem? hr))
  simp only [Rec.completeGenerated, hbu', pure_bind, binPart, unPart, hAd, Bool.true_or, Bool.and_true, ← hb, ← hu]
  have hfin : ∀ s1 : TRec, s1 = { s with complete := s1.complete } → Heap.IsHeap s1.complete →
      s1.complete.Perm (s.complete ++ ((u.toList.filter fun p => s.predicted.bit o p.symbol).map fun p =>
        ⟨p.dot, o, N⟩)) →
      Returns (match (generalizing := false) b with
        | some tr => do
          let wasPredicted ← s1.predicted.get o tr.symbol
          if wasPredicted then
            pure { s1 with medial := s1.medial.pushItem ⟨tr.dot, o, N⟩ }
          else pure s1
        | none => pure s1 : M TRec) (fun s' =>
        s' = { s with complete := s'.complete, medial := Vec2d.ofSets (S ++ [cur ++
          ((b.toList.filter fun p => s.predicted.bit o p.symbol).map fun p => ⟨p.dot, o, N⟩)]) } ∧
        Heap.IsHeap s'.complete ∧
        s'.complete.Perm (s.complete ++ ((u.toList.filter fun p => s.predicted.bit o p.symbol).map fun p =>
        ⟨p.dot, o, N⟩))) := by
    intro s1 he hh hp
    have hm : s1.medial = Vec2d.ofSets (S ++ [cur]) := by rw [he]; exact hs.medial
    have hpr : s1.predicted = s.predicted := by rw [he]
    cases b with
    | none =>
      refine returns_pure ⟨?_, hh, hp⟩
      simp only [Option.toList_none, List.filter_nil, List.map_nil, List.append_nil, ← hs.medial]
      exact he
    | some tr =>
      simp only [hpr, hget tr (Or.inl (by rw [← hb]; simp)), pure_bind]
      cases hbit : s.predicted.bit o tr.symbol with
      | false =>
        refine returns_pure ⟨?_, hh, hp⟩
        simp only [Option.toList_some, List.filter_cons, hbit, Bool.false_eq_true, if_false,
          List.filter_nil, List.map_nil, List.append_nil, ← hs.medial]
        exact he
      | true =>
        refine returns_pure ⟨?_, hh, hp⟩
        simp only [hm, Vec2d.pushItem_eq, Option.toList_some, List.filter_cons, hbit, if_true,
          List.filter_nil, List.map_cons, List.map_nil]
        rw [he]
  cases u with
  | none =>
    simp only [pure_bind]
    exact hfin s rfl hs.heap (by simp)
  | some tr =>
    simp only [hget tr (Or.inr (by rw [← hu]; simp)), pure_bind]
    cases hbit : s.predicted.bit o tr.symbol with
    | false =>
      simp only [Bool.false_eq_true, if_false, pure_bind]
      exact hfin s rfl hs.heap (by simp [hbit])
    | true =>
      simp only [if_true, bind_assoc, pure_bind]
      refine returns_bind ((Heap.push_spec s.complete _ hs.heap).mono ?_)
      rintro l1 ⟨hp, hh⟩
      refine hfin { s with complete := l1 } rfl hh ?_
      simp only [Option.toList_some, List.filter_cons, hbit, if_true, List.filter_nil, List.map_cons, List.map_nil]
      exact hp.trans (List.perm_append_singleton _ _).symm

include hg in
/-- `complete`, explicitly. -/
theorem completeSym_spec {la sorter} {s : TRec} {S cur} (hs : Shape g R s S cur) {o A : Nat}
    (ho : o < S.length) (hA : A < g.syms + g.gensyms) (N : List PTree) :
    Returns (Rec.completeSym (treeEnv g la sorter) s o A N) (fun s' =>
      s' = { s with complete := s'.complete, medial := Vec2d.ofSets (S ++ [cur ++
        medNew g R root la s.lookahead s.predicted o A N]) } ∧ Heap.IsHeap s'.complete ∧
      s'.complete.Perm (s.complete ++ heapNew g R root la s.lookahead s.predicted S o A N)) := by
  unfold Rec.completeSym
  have hE : (treeEnv g la sorter).g = g := rfl
  have hleo : (treeEnv g la sorter).leo = false := rfl
  rw [hE]
  split
  · next hge =>
    have hgate : gate g s.predicted o A = true := by simp [gate, hge]
    simp only [heapNew, medNew, hgate, if_true, medPart_gen hg hs.sets hge, List.nil_append]
    exact completeGenerated_spec hg hs ho hge hA N
  · next hlt =>
    have hlt' : A < g.syms := by omega
    rw [BitMatrix.get_eq (Nat.lt_of_lt_of_le ho hs.rows) hs.rowLen hlt', pure_bind]
    have hgate : gate g s.predicted o A = s.predicted.bit o A := by simp [gate, Nat.not_le.2 hlt']
    simp only [heapNew, medNew, hgate]
    cases s.predicted.bit o A with
    | false =>
      simp only [Bool.false_eq_true, if_false, List.append_nil, ← hs.medial]
      exact returns_pure ⟨rfl, hs.heap, List.Perm.refl _⟩
    | true =>
      simp only [if_true, hleo, Bool.false_eq_true, if_false]
      refine returns_bind ((completeMedialItems_spec hg hs ho N).mono ?_)
      rintro s1 ⟨h1, h2, h3⟩
      have hs1 : Shape g R s1 S cur := by
        constructor
        · rw [h1]; exact hs.medial
        · exact h2
        · rw [h1]; exact hs.rows
        · rw [h1]; exact hs.width
        · rw [h1]; exact hs.rowLen
        · rw [h1]; exact hs.hint
        · exact hs.sets
      have hla : s1.lookahead = s.lookahead := by rw [h1]
      have hpr : s1.predicted = s.predicted := by rw [h1]
      refine (completePredictions_spec hg hs1 ho hlt' N).mono ?_
      rintro s2 ⟨h4, h5, h6⟩
      rw [hla, hpr] at h4 h6
      refine ⟨?_, h5, ?_⟩
      · rw [h4]; rw [h1]
      · rw [← List.append_assoc]
        exact h6.trans (h3.append_right _)

end
end Gearley
