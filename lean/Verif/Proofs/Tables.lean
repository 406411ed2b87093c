import Verif.Proofs.Gensyms
import Verif.Proofs.GrammarOK
import Verif.Proofs.BinarySearch
import Verif.Proofs.Vec2d

/-! # The tables built by `from_processed_grammars` represent the rules -/

namespace Gearley
open Gearley.Spec Build

/-! ### Stable sort -/

theorem insertByKey_perm {α} (k : α → Nat) (x : α) (l : List α) : (insertByKey k x l).Perm (x :: l) := by
  induction l with
  | nil => exact .refl _
  | cons y l ih =>
    unfold insertByKey
    split
    · exact .refl _
    · exact (ih.cons y).trans (.swap x y l)

theorem insertByKey_sorted {α} (k : α → Nat) (x : α) (l : List α) (h : l.Pairwise fun a b => k a ≤ k b) :
    (insertByKey k x l).Pairwise fun a b => k a ≤ k b := by
  induction l with
  | nil => simp [insertByKey]
  | cons y l ih =>
    rw [List.pairwise_cons] at h
    unfold insertByKey
    split
    · next hxy =>
      refine List.pairwise_cons.2 ⟨fun a ha => ?_, List.pairwise_cons.2 h⟩
      rcases List.mem_cons.1 ha with rfl | ha
      · exact hxy
      · exact Nat.le_trans hxy (h.1 a ha)
    · next hxy =>
      refine List.pairwise_cons.2 ⟨fun a ha => ?_, ih h.2⟩
      rcases List.mem_cons.1 ((insertByKey_perm k x l).mem_iff.1 ha) with rfl | ha
      · omega
      · exact h.1 a ha

theorem sortByKey_perm {α} (k : α → Nat) (l : List α) : (sortByKey k l).Perm l := by
  induction l with
  | nil => exact .refl _
  | cons x l ih => exact (insertByKey_perm k x _).trans (ih.cons x)

theorem sortByKey_sorted {α} (k : α → Nat) (l : List α) : (sortByKey k l).Pairwise fun a b => k a ≤ k b := by
  induction l with
  | nil => simp [sortByKey]
  | cons x l ih => exact insertByKey_sorted k x _ ih

/-! ### The climbing loop -/

variable {c : Cfg} {syms : Nat} {w : WrappedRoot} {depth : Nat → Nat}

theorem _root_.Gearley.Spec.ProcessedOK.rhs0 (hc : ProcessedOK c syms w depth) {r : CfgRule} (hr : r ∈ c.rules) :
    r.rhs[0]? = some (ruleOf r).rhs0 := by
  have := hc.len r hr
  match h : r.rhs with
  | [] => rw [h] at this; simp at this
  | a :: l => simp [ruleOf, h]

theorem _root_.Gearley.Spec.ProcessedOK.rhs0M (hc : ProcessedOK c syms w depth) {r : CfgRule} (hr : r ∈ c.rules) :
    Build.rhs0 r = pure (ruleOf r).rhs0 := indexM_eq (hc.rhs0 hr)

/-- The rules sorted by first symbol. -/
def SortedRules (c : Cfg) (L : List CfgRule) : Prop :=
  (∀ r, r ∈ L ↔ r ∈ c.rules) ∧ L.Pairwise fun a b => (ruleOf a).rhs0 ≤ (ruleOf b).rhs0

theorem rulesByRhs0_spec (hc : ProcessedOK c syms w depth) : Returns (rulesByRhs0 c) (SortedRules c) := by
  unfold rulesByRhs0
  rw [mapM_returns (fun r => ((ruleOf r).rhs0, r)) (fun r hr => by rw [hc.rhs0M hr, pure_bind]), pure_bind]
  refine returns_pure ⟨fun r => ?_, ?_⟩
  · rw [List.mem_map]
    constructor
    · rintro ⟨p, hp, rfl⟩
      rw [(sortByKey_perm _ _).mem_iff, List.mem_map] at hp
      obtain ⟨r, hr, rfl⟩ := hp
      exact hr
    · intro hr
      exact ⟨((ruleOf r).rhs0, r), (sortByKey_perm _ _).mem_iff.2 (List.mem_map.2 ⟨r, hr, rfl⟩), rfl⟩
  · rw [List.pairwise_map]
    refine (sortByKey_sorted (·.1) (c.rules.map fun r => ((ruleOf r).rhs0, r))).imp_of_mem ?_
    intro a b ha hb hab
    rw [(sortByKey_perm _ _).mem_iff, List.mem_map] at ha hb
    obtain ⟨r, _, rfl⟩ := ha
    obtain ⟨r', _, rfl⟩ := hb
    exact hab

theorem ordRank_compare_mono {a b k : Nat} (h : a ≤ b) : ordRank (compare a k) ≤ ordRank (compare b k) := by
  rcases Nat.lt_trichotomy a k with h1 | h1 | h1
  · rw [Nat.compare_eq_lt.2 h1]; exact Nat.zero_le _
  · subst h1
    rcases Nat.lt_or_eq_of_le h with h2 | h2
    · rw [Nat.compare_eq_gt.2 h2, Nat.compare_eq_eq.2 rfl]; decide
    · subst h2; exact Nat.le_refl _
  · rw [Nat.compare_eq_gt.2 h1, Nat.compare_eq_gt.2 (by omega)]; exact Nat.le_refl _

/-- Some rule starts with each generated symbol. -/
theorem _root_.Gearley.Spec.ProcessedOK.exists_rule (hc : ProcessedOK c syms w depth) {A : Nat} (hA : A < c.numSyms) (hs : syms ≤ A) :
    ∃ r ∈ c.rules, (ruleOf r).rhs0 = A := by
  have hg := (hc.gen A hA).2 hs
  have h1 : 0 < (c.rules.countP fun r => decide (r.rhs.length = 2 ∧ r.rhs[0]? ≠ some r.lhs ∧ r.rhs[0]? = some A)) := by
    have := hg.2.1
    omega
  obtain ⟨r, hr, h⟩ := List.countP_pos_iff.1 h1
  have h := of_decide_eq_true h
  refine ⟨r, hr, ?_⟩
  have := hc.rhs0 hr
  rw [h.2.2] at this
  exact (Option.some.inj this).symm

theorem _root_.Gearley.Spec.ProcessedOK.same_lhs (hc : ProcessedOK c syms w depth) {r₁ r₂ : CfgRule} (h1 : r₁ ∈ c.rules) (h2 : r₂ ∈ c.rules)
    (h : (ruleOf r₁).rhs0 = (ruleOf r₂).rhs0) (hs : syms ≤ (ruleOf r₁).rhs0) : r₁.lhs = r₂.lhs := by
  refine hc.genLhs r₁ h1 r₂ h2 ?_ ?_
  · rw [hc.rhs0 h1, hc.rhs0 h2, h]
  · intro A hA
    rw [hc.rhs0 h1] at hA
    rw [← Option.some.inj hA]; exact hs

/-- One round of the climbing loop finds the unique left-hand side above a generated symbol. -/
theorem rootStep_gen (hc : ProcessedOK c syms w depth) {L : List CfgRule} (hL : SortedRules c L) {r : CfgRule}
    (hr : r ∈ c.rules) (hs : syms ≤ (ruleOf r).rhs0) :
    rootStep L syms (ruleOf r).rhs0 = pure (.inl r.lhs) := by
  unfold rootStep
  rw [if_pos hs]
  have hb := bsearchBy_spec L (fun elem => do
      let k ← Build.rhs0 elem
      pure (compare k (ruleOf r).rhs0)) (fun elem => compare (ruleOf elem).rhs0 (ruleOf r).rhs0)
      (fun x hx => by rw [hc.rhs0M ((hL.1 x).1 hx), pure_bind])
      (fun i j hi hj hij => by
        rcases Nat.lt_or_eq_of_le hij with h | h
        · exact ordRank_compare_mono (List.pairwise_iff_getElem.1 hL.2 i j hi hj h)
        · subst h; exact Nat.le_refl _)
  obtain ⟨x, hx, hq⟩ := hb
  rw [hx, pure_bind]
  match x, hq with
  | .ok i, hq =>
    obtain ⟨hi, he⟩ := hq
    dsimp only
    rw [indexM_lt hi, pure_bind]
    have hm := (hL.1 _).1 (List.getElem_mem hi)
    have he := Nat.compare_eq_eq.1 he
    rw [hc.same_lhs hm hr he (by rw [he]; exact hs)]
  | .error i, hq =>
    exfalso
    obtain ⟨j, hj, hje⟩ := List.getElem_of_mem ((hL.1 r).2 hr)
    rcases Nat.lt_or_ge j i with h | h
    · have := hq.2.1 j hj h
      rw [hje] at this
      simp [Nat.compare_eq_lt] at this
    · have := hq.2.2 j hj h
      rw [hje] at this
      simp [Nat.compare_eq_gt] at this

theorem rootOf_lt {L : List CfgRule} {A : Nat} (h : A < syms) : rootOf L syms A = pure A :=
  loop_inr (by unfold rootStep; rw [if_neg (by omega)])

theorem rootOf_gen (hc : ProcessedOK c syms w depth) {L : List CfgRule} (hL : SortedRules c L) {r : CfgRule}
    (hr : r ∈ c.rules) (hs : syms ≤ (ruleOf r).rhs0) : rootOf L syms (ruleOf r).rhs0 = rootOf L syms r.lhs :=
  loop_inl (rootStep_gen hc hL hr hs)

theorem mem_rulesOf {r : Rule} : r ∈ rulesOf c ↔ ∃ r' ∈ c.rules, ruleOf r' = r := by
  simp [rulesOf, List.mem_map]

theorem rootOf_spec (hc : ProcessedOK c syms w depth) {L : List CfgRule} (hL : SortedRules c L) :
    ∀ A, A < c.numSyms → Returns (rootOf L syms A) fun x => x < syms ∧ Relation.ReflTransGen (Corner (rulesOf c)) x A := by
  suffices H : ∀ n A, depth A = n → A < c.numSyms →
      Returns (rootOf L syms A) fun x => x < syms ∧ Relation.ReflTransGen (Corner (rulesOf c)) x A from
    fun A hA => H _ A rfl hA
  intro n
  induction n using Nat.strongRecOn with
  | _ n ih =>
    intro A hn hA
    rcases Nat.lt_or_ge A syms with h | h
    · rw [rootOf_lt h]; exact returns_pure ⟨h, .refl⟩
    · obtain ⟨r, hr, rfl⟩ := hc.exists_rule hA h
      rw [rootOf_gen hc hL hr h]
      refine (ih _ (by rw [← hn]; exact hc.depth r hr _ (hc.rhs0 hr) h) r.lhs rfl (hc.lhs_lt r hr)).mono ?_
      rintro x ⟨hx, hxc⟩
      exact ⟨hx, hxc.tail ⟨ruleOf r, mem_rulesOf.2 ⟨r, hr, rfl⟩, rfl, rfl⟩⟩

/-- The value of the climbing loop. -/
def rootFn (L : List CfgRule) (syms A : Nat) : Nat :=
  match (rootOf L syms A : Option (Except Panic Nat)) with
  | some (.ok x) => x
  | _ => 0

theorem rootFn_eq {L : List CfgRule} {A x : Nat} (h : rootOf L syms A = pure x) : rootFn L syms A = x := by
  unfold rootFn; rw [h]; rfl

theorem rootOf_rootFn (hc : ProcessedOK c syms w depth) {L : List CfgRule} (hL : SortedRules c L) {A : Nat}
    (hA : A < c.numSyms) : rootOf L syms A = pure (rootFn L syms A) := by
  obtain ⟨x, hx, _⟩ := rootOf_spec hc hL A hA
  rw [rootFn_eq hx]; exact hx

theorem rootFn_spec (hc : ProcessedOK c syms w depth) {L : List CfgRule} (hL : SortedRules c L) {A : Nat}
    (hA : A < c.numSyms) : rootFn L syms A < syms ∧ Relation.ReflTransGen (Corner (rulesOf c)) (rootFn L syms A) A := by
  obtain ⟨x, hx, h⟩ := rootOf_spec hc hL A hA
  rw [rootFn_eq hx]; exact h

/-! ### Prediction table -/

theorem predictionMatrix_spec (hc : ProcessedOK c syms w depth) {L : List CfgRule} (hL : SortedRules c L) :
    Returns (predictionMatrix (rootOf L syms) syms c) fun m => m.Dim syms ∧ m.width = syms ∧
      ∀ A B, A < syms → B < syms → (m.has A B ↔ Relation.ReflTransGen (Corner (rulesOf c)) A B) := by
  unfold predictionMatrix
  refine returns_bind ?_
  have h1 := foldlM_returns (l := c.rules) (f := fun m rule => do
    let r0 ← rhs0 rule
    if r0 < syms then do
      let lhs ← rootOf L syms rule.lhs
      BitMatrix.set m lhs r0 true
    else pure m) (b := BitMatrix.new syms syms)
    (fun (p : List CfgRule) (m : BitMatrix) => m.Dim syms ∧ m.width = syms ∧
      ∀ A B, m.has A B ↔ ∃ r ∈ p, rootFn L syms r.lhs = A ∧ (ruleOf r).rhs0 = B ∧ B < syms)
    ⟨BitMatrix.new_dim _ _, rfl, fun A B => by simpa using BitMatrix.new_has syms syms A B⟩
    (by
      rintro p a s m hl ⟨hm, hw, hb⟩
      have ha : a ∈ c.rules := by rw [hl]; simp
      rw [hc.rhs0M ha, pure_bind]
      split
      · next hlt =>
        rw [rootOf_rootFn hc hL (hc.lhs_lt a ha), pure_bind]
        refine (BitMatrix.set_returns hm (rootFn_spec hc hL (hc.lhs_lt a ha)).1 (by rw [hw]; exact hlt)).mono ?_
        rintro m' ⟨hm', hw', hb'⟩
        refine ⟨hm', by rw [hw', hw], fun A B => ?_⟩
        rw [hb', hb]
        constructor
        · rintro (⟨rfl, rfl⟩ | ⟨r, hr, h⟩)
          · exact ⟨a, by simp, rfl, rfl, hlt⟩
          · exact ⟨r, by simp [hr], h⟩
        · rintro ⟨r, hr, h1, h2, h3⟩
          rw [List.mem_append, List.mem_singleton] at hr
          rcases hr with hr | rfl
          · exact .inr ⟨r, hr, h1, h2, h3⟩
          · exact .inl ⟨h1.symm, h2.symm⟩
      · next hge =>
        refine returns_pure ⟨hm, hw, fun A B => ?_⟩
        rw [hb]
        constructor
        · rintro ⟨r, hr, h⟩; exact ⟨r, by simp [hr], h⟩
        · rintro ⟨r, hr, h1, h2, h3⟩
          rw [List.mem_append, List.mem_singleton] at hr
          rcases hr with hr | rfl
          · exact ⟨r, hr, h1, h2, h3⟩
          · exact absurd (by rw [h2]; exact h3) hge)
  refine h1.mono ?_
  rintro m ⟨hm, hw, hb⟩
  obtain ⟨t1, t2, t3⟩ := BitMatrix.transitiveClosure_spec hm (by omega)
  obtain ⟨s1, s2, s3⟩ := BitMatrix.reflexiveClosure_spec t1
  refine returns_pure ⟨s1, by rw [s2, t2, hw], fun A B hA hB => ?_⟩
  rw [s3, t3, t2, hw]
  have hedge : ∀ A B, m.has A B → Relation.ReflTransGen (Corner (rulesOf c)) A B := by
    intro A B h
    obtain ⟨r, hr, rfl, rfl, _⟩ := (hb A B).1 h
    exact (rootFn_spec hc hL (hc.lhs_lt r hr)).2.tail ⟨ruleOf r, mem_rulesOf.2 ⟨r, hr, rfl⟩, rfl, rfl⟩
  constructor
  · rintro (⟨rfl, _⟩ | h)
    · exact .refl
    · induction h with
      | single h => exact hedge _ _ h
      | tail _ h ih => exact (ih (BitMatrix.has_lt hm h).1).trans (hedge _ _ h)
  · intro h
    have key : Relation.ReflTransGen m.has A (rootFn L syms B) := by
      clear hB
      induction h with
      | refl => rw [rootFn_eq (rootOf_lt hA)]
      | @tail X B hx hcn ih =>
        obtain ⟨r, hr, rfl, rfl⟩ := hcn
        obtain ⟨r, hr', rfl⟩ := mem_rulesOf.1 hr
        rcases Nat.lt_or_ge (ruleOf r).rhs0 syms with h | h
        · rw [rootFn_eq (rootOf_lt h)]
          exact ih.tail ((hb _ _).2 ⟨r, hr', rfl, rfl, h⟩)
        · have : rootFn L syms (ruleOf r).rhs0 = rootFn L syms r.lhs := by
            unfold rootFn; rw [rootOf_gen hc hL hr' h]
          rw [this]; exact ih
    rw [rootFn_eq (rootOf_lt hB)] at key
    rcases Relation.reflTransGen_iff_eq_or_transGen.1 key with h | h
    · exact .inl ⟨h.symm, hA, hA⟩
    · exact .inr h

/-! ### Completion tables -/

/-- The transition of a rule. -/
def transOf (root : Nat → Nat) (p : CfgRule × Nat) : Nat × PT :=
  ((ruleOf p.1).rhs0, ⟨root p.1.lhs, p.2, p.1.rhs[1]?.isNone⟩)

/-- Tables after recording the transitions `l`. -/
def CompIs (syms gensyms : Nat) (t : List (List PT) × List (Option PT × Option PT)) (l : List (Nat × PT)) : Prop :=
  t.1.length = syms ∧ t.2.length = gensyms ∧
  (∀ A, A < syms → t.1[A]? = some ((l.filter fun p => p.1 = A).map (·.2))) ∧
  (∀ k, k < gensyms → t.2[k]? = some
    (((l.filter fun p => decide (p.1 = syms + k) && !p.2.isUnary).map (·.2)).getLast?,
     ((l.filter fun p => decide (p.1 = syms + k) && p.2.isUnary).map (·.2)).getLast?))

theorem recordTransition_spec {syms gensyms : Nat} {t : List (List PT) × List (Option PT × Option PT)}
    {l : List (Nat × PT)} {p : Nat × PT} (h : CompIs syms gensyms t l) (hp : p.1 < syms + gensyms) :
    Returns (recordTransition syms t p) fun t' => CompIs syms gensyms t' (l ++ [p]) := by
  obtain ⟨h1, h2, h3, h4⟩ := h
  unfold recordTransition
  split
  · next hge =>
    obtain ⟨A, pt⟩ := p
    obtain ⟨k, rfl⟩ : ∃ k, A = syms + k := ⟨A - syms, by simp only at hge; omega⟩
    have hk : k < gensyms := by simp only at hp; omega
    simp only [Nat.add_sub_cancel_left]
    rw [indexM_eq (h4 k hk), pure_bind, setM_eq (by omega), pure_bind]
    refine returns_pure ⟨h1, by simp [h2], ?_, ?_⟩
    · intro A hA
      rw [h3 A hA]
      have : ¬ syms + k = A := by omega
      simp [List.filter_append, List.filter_cons, this]
    · intro j hj
      rw [List.getElem?_set]
      by_cases hkj : k = j
      · subst hkj
        rw [if_pos rfl, if_pos (by omega)]
        cases hu : pt.isUnary <;> simp [List.filter_append, List.filter_cons, hu]
      · have : ¬ syms + k = syms + j := by omega
        rw [if_neg hkj, h4 j hj]
        simp [List.filter_append, List.filter_cons, hkj]
  · next hlt =>
    have hlt : p.1 < syms := by omega
    rw [indexM_eq (h3 _ hlt), pure_bind, setM_eq (by omega), pure_bind]
    refine returns_pure ⟨by simp [h1], h2, ?_, ?_⟩
    · intro A hA
      rw [List.getElem?_set]
      by_cases hA' : p.1 = A
      · subst hA'
        rw [if_pos rfl, if_pos (by omega)]
        simp [List.filter_append, List.filter_cons]
      · rw [if_neg hA', h3 A hA]
        simp [List.filter_append, List.filter_cons, hA']
    · intro k hk
      rw [h4 k hk]
      have : ¬ p.1 = syms + k := by omega
      simp [List.filter_append, List.filter_cons, this]

theorem rulesOf_getElem? (c : Cfg) (d : Nat) : (rulesOf c)[d]? = c.rules[d]?.map ruleOf := by
  simp [rulesOf]

theorem zipIdx_rulesOf (c : Cfg) : (rulesOf c).zipIdx = c.rules.zipIdx.map fun p => (ruleOf p.1, p.2) := by
  unfold rulesOf
  rw [List.zipIdx_map]
  rfl

theorem ruleOf_rhs1 (r : CfgRule) : (ruleOf r).rhs1 = r.rhs[1]? := rfl

theorem binTrans_eq (c : Cfg) (root : Nat → Nat) (A : Nat) : binTrans (rulesOf c) root A =
    (((c.rules.zipIdx.map (transOf root)).filter fun p => !p.2.isUnary).filter fun p => decide (p.1 = A)).map (·.2) := by
  unfold binTrans
  rw [zipIdx_rulesOf, List.filter_filter, List.filter_map, List.filter_map, List.map_map, List.map_map]
  have hf : (fun p : CfgRule × Nat => (decide ((ruleOf p.1).rhs0 = A) && (ruleOf p.1).rhs1.isSome)) =
      fun p => (decide ((ruleOf p.1).rhs0 = A) && !p.1.rhs[1]?.isNone) := by
    funext p; rw [ruleOf_rhs1]; cases p.1.rhs[1]? <;> rfl
  have e1 : ((fun p : Rule × Nat => decide (p.1.rhs0 = A) && p.1.rhs1.isSome) ∘ fun p : CfgRule × Nat => (ruleOf p.1, p.2)) =
      ((fun a : Nat × PT => decide (a.1 = A) && !a.2.isUnary) ∘ transOf root) := hf
  rw [e1]
  apply List.map_congr_left
  intro p hp
  have hp := (List.mem_filter.1 hp).2
  simp only [Function.comp, transOf, Bool.and_eq_true, Bool.not_eq_true'] at hp
  simp only [Function.comp, transOf, hp.2]
  rfl

theorem unTrans_eq (c : Cfg) (root : Nat → Nat) (A : Nat) : unTrans (rulesOf c) root A =
    (((c.rules.zipIdx.map (transOf root)).filter fun p => p.2.isUnary).filter fun p => decide (p.1 = A)).map (·.2) := by
  unfold unTrans
  rw [zipIdx_rulesOf, List.filter_filter, List.filter_map, List.filter_map, List.map_map, List.map_map]
  have e1 : ((fun p : Rule × Nat => decide (p.1.rhs0 = A) && p.1.rhs1.isNone) ∘ fun p : CfgRule × Nat => (ruleOf p.1, p.2)) =
      ((fun a : Nat × PT => decide (a.1 = A) && a.2.isUnary) ∘ transOf root) := rfl
  rw [e1]
  apply List.map_congr_left
  intro p hp
  have hp := (List.mem_filter.1 hp).2
  simp only [Function.comp, transOf, Bool.and_eq_true] at hp
  simp only [Function.comp, transOf, hp.2]
  rfl

theorem completionTable_spec (hc : ProcessedOK c syms w depth) {L : List CfgRule} (hL : SortedRules c L) :
    Returns (completionTable (rootOf L syms) syms (c.numSyms - syms) c) fun t =>
      CompIs syms (c.numSyms - syms) t
        (((c.rules.zipIdx.map (transOf (rootFn L syms))).filter fun p => !p.2.isUnary) ++
         ((c.rules.zipIdx.map (transOf (rootFn L syms))).filter fun p => p.2.isUnary)) := by
  unfold completionTable
  have hmem : ∀ p ∈ c.rules.zipIdx, p.1 ∈ c.rules := fun p hp => by
    obtain ⟨r, d⟩ := p
    exact List.mem_of_getElem? (List.mem_zipIdx_iff_getElem?.1 hp)
  rw [mapM_returns (transOf (rootFn L syms)) (fun p hp => by
    unfold transition
    rw [hc.rhs0M (hmem p hp), pure_bind, rootOf_rootFn hc hL (hc.lhs_lt _ (hmem p hp)), pure_bind]; rfl), pure_bind]
  refine foldlM_returns (fun l t => CompIs syms (c.numSyms - syms) t l) ?_ ?_
  · refine ⟨by simp, by simp, fun A hA => by simp [hA], fun k hk => by simp [hk]⟩
  · intro p a s t hl hI
    refine recordTransition_spec hI ?_
    have ha : a ∈ c.rules.zipIdx.map (transOf (rootFn L syms)) := by
      have : a ∈ p ++ a :: s := by simp
      rw [← hl] at this
      rcases List.mem_append.1 this with h | h
      · exact (List.mem_filter.1 h).1
      · exact (List.mem_filter.1 h).1
    obtain ⟨q, hq, rfl⟩ := List.mem_map.1 ha
    have := hc.rhs_lt q.1 (hmem q hq) _ (List.mem_of_getElem? (hc.rhs0 (hmem q hq)))
    have := hc.syms_le
    simp only [transOf]
    omega

/-- A list with at most one element is given by its last element. -/
theorem toList_getLast? {α} {l : List α} (h : l.length ≤ 1) : l.getLast?.toList = l := by
  match l, h with
  | [], _ => rfl
  | [a], _ => rfl
  | a :: b :: l, h => simp at h

/-- A generated symbol has at most one two-symbol continuation. -/
theorem binTrans_gen (hc : ProcessedOK c syms w depth) {root : Nat → Nat} {A : Nat} (hA : A < c.numSyms) (hs : syms ≤ A) :
    (binTrans (rulesOf c) root A).length ≤ 1 := by
  unfold binTrans
  rw [List.length_map, ← List.countP_eq_length_filter, zipIdx_rulesOf, List.countP_map]
  have h1 := ((hc.gen A hA).2 hs).2.1
  refine Nat.le_trans (Nat.le_of_eq ?_) (Nat.le_of_eq h1)
  have hz : c.rules = c.rules.zipIdx.map (·.1) := by simp
  conv => rhs; rw [hz]
  rw [List.countP_map]
  apply List.countP_congr
  intro p hp
  have hr : p.1 ∈ c.rules := by
    obtain ⟨r, d⟩ := p
    exact List.mem_of_getElem? (List.mem_zipIdx_iff_getElem?.1 hp)
  have h0 := hc.rhs0 hr
  have hlen := hc.len p.1 hr
  simp only [Function.comp, Bool.and_eq_true, decide_eq_true_eq]
  constructor
  · rintro ⟨rfl, h⟩
    refine ⟨?_, ?_, h0⟩
    · rcases hlen with h' | h'
      · rw [ruleOf_rhs1, List.getElem?_eq_none (by omega)] at h; simp at h
      · exact h'
    · rw [h0]
      intro he
      have := hc.depth p.1 hr _ h0 hs
      rw [Option.some.inj he] at this
      omega
  · rintro ⟨h2, _, h3⟩
    rw [h0] at h3
    refine ⟨Option.some.inj h3, ?_⟩
    rw [ruleOf_rhs1, List.getElem?_eq_getElem (by omega)]; rfl

theorem unTrans_gen (hc : ProcessedOK c syms w depth) {root : Nat → Nat} {A : Nat} (hA : A < c.numSyms) (hs : syms ≤ A) :
    (unTrans (rulesOf c) root A).length ≤ 1 := by
  unfold unTrans
  rw [List.length_map, ← List.countP_eq_length_filter, zipIdx_rulesOf, List.countP_map]
  refine Nat.le_trans (Nat.le_of_eq ?_) (hc.genUnary A hs hA)
  have hz : c.rules = c.rules.zipIdx.map (·.1) := by simp
  conv => rhs; rw [hz]
  rw [List.countP_map]
  apply List.countP_congr
  intro p hp
  have hr : p.1 ∈ c.rules := by
    obtain ⟨r, d⟩ := p
    exact List.mem_of_getElem? (List.mem_zipIdx_iff_getElem?.1 hp)
  have h0 := hc.rhs0 hr
  have hlen := hc.len p.1 hr
  simp only [Function.comp, Bool.and_eq_true, decide_eq_true_eq, Option.isNone_iff_eq_none, ruleOf_rhs1]
  match h : p.1.rhs, hlen with
  | [a], _ => simp [ruleOf, h]
  | [a, b], _ => simp

/-! ### Look-ahead rows -/

theorem fillSets_spec (syms : Nat) (sets : List (Nat × List Nat)) :
    Returns (fillSets syms sets) fun m => m.Dim syms ∧ m.width = syms ∧
      ∀ A B, m.has A B ↔ A < syms ∧ B < syms ∧ ∃ p ∈ sets, p.1 = A ∧ B ∈ p.2 := by
  unfold fillSets
  refine foldlM_returns (fun (l : List (Nat × List Nat)) (m : BitMatrix) => m.Dim syms ∧ m.width = syms ∧
      ∀ A B, m.has A B ↔ A < syms ∧ B < syms ∧ ∃ p ∈ l, p.1 = A ∧ B ∈ p.2) ?_ ?_
  · exact ⟨BitMatrix.new_dim _ _, rfl, fun A B => by simpa using BitMatrix.new_has syms syms A B⟩
  · rintro l p s m hl ⟨hm, hw, hb⟩
    refine (foldlM_returns (fun (q : List Nat) (m : BitMatrix) => m.Dim syms ∧ m.width = syms ∧
      ∀ A B, m.has A B ↔ A < syms ∧ B < syms ∧ ((∃ p ∈ l, p.1 = A ∧ B ∈ p.2) ∨ (p.1 = A ∧ B ∈ q))) ?_ ?_).mono ?_
    · exact ⟨hm, hw, fun A B => by simpa using hb A B⟩
    · rintro q x s' m' hl' ⟨hm, hw, hb⟩
      split
      · next hlt =>
        refine (BitMatrix.set_returns hm hlt.1 (by rw [hw]; exact hlt.2)).mono ?_
        rintro m'' ⟨h1, h2, h3⟩
        refine ⟨h1, by rw [h2, hw], fun A B => ?_⟩
        rw [h3, hb]
        simp only [List.mem_append, List.mem_singleton]
        constructor
        · rintro (⟨rfl, rfl⟩ | ⟨h1, h2, h | h⟩)
          · exact ⟨hlt.1, hlt.2, .inr ⟨rfl, .inr rfl⟩⟩
          · exact ⟨h1, h2, .inl h⟩
          · exact ⟨h1, h2, .inr ⟨h.1, .inl h.2⟩⟩
        · rintro ⟨h1, h2, h | ⟨h, h' | rfl⟩⟩
          · exact .inr ⟨h1, h2, .inl h⟩
          · exact .inr ⟨h1, h2, .inr ⟨h, h'⟩⟩
          · exact .inl ⟨h.symm, rfl⟩
      · next hge =>
        refine returns_pure ⟨hm, hw, fun A B => ?_⟩
        rw [hb]
        simp only [List.mem_append, List.mem_singleton]
        constructor
        · rintro ⟨h1, h2, h | h⟩
          · exact ⟨h1, h2, .inl h⟩
          · exact ⟨h1, h2, .inr ⟨h.1, .inl h.2⟩⟩
        · rintro ⟨h1, h2, h | ⟨h, h' | rfl⟩⟩
          · exact ⟨h1, h2, .inl h⟩
          · exact ⟨h1, h2, .inr ⟨h, h'⟩⟩
          · exact absurd ⟨by rw [h]; exact h1, h2⟩ hge
    · rintro m' ⟨h1, h2, h3⟩
      refine ⟨h1, h2, fun A B => ?_⟩
      rw [h3]
      refine and_congr Iff.rfl (and_congr Iff.rfl ?_)
      constructor
      · rintro (⟨p', hp', h⟩ | h)
        · exact ⟨p', by simp [hp'], h⟩
        · exact ⟨p, by simp, h⟩
      · rintro ⟨p', hp', h⟩
        rw [List.mem_append, List.mem_singleton] at hp'
        rcases hp' with hp' | rfl
        · exact .inl ⟨p', hp', h⟩
        · exact .inr h

/-- Row `2A` of the look-ahead table is FIRST(A) with A itself, row `2A+1` is FOLLOW(A). -/
theorem lrSets_spec (syms : Nat) (first follow : List (Nat × List Nat)) :
    Returns (lrSets syms first follow) fun m => m.rows.length = 2 * syms ∧ (∀ r ∈ m.rows, r.length = syms) ∧
      (∀ A B, A < syms → B < syms → (m.has (A * 2) B ↔ A = B ∨ ∃ p ∈ first, p.1 = A ∧ B ∈ p.2)) ∧
      (∀ A B, A < syms → B < syms → (m.has (A * 2 + 1) B ↔ ∃ p ∈ follow, p.1 = A ∧ B ∈ p.2)) := by
  unfold lrSets
  refine returns_bind ((fillSets_spec syms first).mono ?_)
  rintro f1 ⟨hf1, hf2, hf3⟩
  dsimp only
  obtain ⟨r1, r2, r3⟩ := BitMatrix.reflexiveClosure_spec hf1
  generalize f1.reflexiveClosure = fm at *
  refine returns_bind ((fillSets_spec syms follow).mono ?_)
  rintro f2 ⟨hg1, hg2, hg3⟩
  refine (foldlM_returns (fun (l : List Nat) (m : BitMatrix) => m.rows.length = 2 * syms ∧
    (∀ r ∈ m.rows, r.length = syms) ∧ ∀ A ∈ l, m.rows[A * 2]? = fm.rows[A]? ∧ m.rows[A * 2 + 1]? = f2.rows[A]?) ?_ ?_).mono ?_
  · refine ⟨by simp [BitMatrix.new, Nat.mul_comm], ?_, by simp⟩
    exact (BitMatrix.new_dim (syms * 2) syms).2
  · rintro l i s m hl ⟨h1, h2, h3⟩
    have hi : i < syms := by
      have : i ∈ l ++ i :: s := by simp
      rw [← hl] at this; exact List.mem_range.1 this
    have hi1 : i < fm.rows.length := by rw [r1.1]; exact hi
    have hi2 : i < f2.rows.length := by rw [hg1.1]; exact hi
    simp only [BitMatrix.row]
    rw [indexM_lt hi1, pure_bind, setM_eq (by omega), pure_bind, indexM_lt hi2, pure_bind,
      setM_eq (by simp; omega), pure_bind]
    refine returns_pure ⟨by simp [h1], ?_, ?_⟩
    · intro r hr
      rcases List.mem_or_eq_of_mem_set hr with hr | hr
      · rcases List.mem_or_eq_of_mem_set hr with hr | hr
        · exact h2 r hr
        · rw [hr, r1.2 _ (List.getElem_mem hi1), r2, hf2]
      · rw [hr, hg1.2 _ (List.getElem_mem hi2), hg2]
    · intro A hA
      by_cases hAi : A = i
      · subst hAi
        constructor
        · rw [List.getElem?_set_ne (by omega), List.getElem?_set_self (by omega), List.getElem?_eq_getElem hi1]
        · rw [List.getElem?_set_self (by simp; omega), List.getElem?_eq_getElem hi2]
      · have hA' : A ∈ l := by simpa [hAi] using hA
        rw [List.getElem?_set_ne (by omega), List.getElem?_set_ne (by omega), List.getElem?_set_ne (by omega),
          List.getElem?_set_ne (by omega)]
        exact h3 A hA'
  · rintro m ⟨h1, h2, h3⟩
    refine ⟨h1, h2, fun A B hA hB => ?_, fun A B hA hB => ?_⟩
    · have := (h3 A (List.mem_range.2 hA)).1
      unfold BitMatrix.has
      rw [this]
      have := r3 A B
      unfold BitMatrix.has at this
      rw [this]
      have := hf3 A B
      unfold BitMatrix.has at this
      rw [this]
      simp only [hA, hB, hf2, true_and, and_true]
    · have := (h3 A (List.mem_range.2 hA)).2
      unfold BitMatrix.has
      rw [this]
      have := hg3 A B
      unfold BitMatrix.has at this
      rw [this]
      simp only [hA, hB, true_and]

/-! ### Columns and events -/

theorem columnDots_returns (hc : ProcessedOK c syms w depth) {k : Nat} (hk : k < 3) :
    ∃ l, columnDots c k = pure l ∧ l.length = c.rules.length ∧
      ∀ (d : Nat) (r : CfgRule), c.rules[d]? = some r → ∃ e, l[d]? = some e ∧ r.dots[k]? = some e := by
  unfold columnDots
  have hex : ∀ r ∈ c.rules, ∃ e, r.dots[k]? = some e := fun r hr =>
    ⟨_, List.getElem?_eq_getElem (by have := hc.dots r hr; omega)⟩
  suffices H : ∀ l : List CfgRule, (∀ r ∈ l, ∃ e, r.dots[k]? = some e) →
      ∃ l', (l.mapM fun r => unwrapM r.dots[k]?) = pure l' ∧ l'.length = l.length ∧
      ∀ (d : Nat) (r : CfgRule), l[d]? = some r → ∃ e, l'[d]? = some e ∧ r.dots[k]? = some e from H c.rules hex
  intro l
  induction l with
  | nil => intro _; exact ⟨[], rfl, rfl, by simp⟩
  | cons r l ih =>
    intro h
    obtain ⟨e, he⟩ := h r (by simp)
    obtain ⟨l', h1, h2, h3⟩ := ih fun r hr => h r (by simp [hr])
    refine ⟨e :: l', ?_, by simp [h2], ?_⟩
    · rw [List.mapM_cons, he, unwrapM_some, pure_bind, h1]; rfl
    · intro d r' hd
      cases d with
      | zero => simp at hd; subst hd; exact ⟨e, rfl, he⟩
      | succ d => simpa using h3 d r' (by simpa using hd)

theorem predictionEvents_returns (hc : ProcessedOK c syms w depth) :
    Returns (predictionEvents syms (c.numSyms - syms) c) fun t =>
      t.1.length = c.numSyms + 1 ∧ t.2.length = c.numSyms + 1 ∧
      (∀ A, A < c.numSyms → ∃ d, StartDot c.rules A d ∧ t.1[A]? = some d.event ∧ t.2[A]? = some d.trace) := by
  unfold predictionEvents
  have hn : syms + (c.numSyms - syms) = c.numSyms := by have := hc.syms_le; omega
  rw [hn]
  refine foldlM_returns (fun (l : List CfgRule) (t : List (Nat × Nat) × List (Nat × Nat)) =>
      t.1.length = c.numSyms + 1 ∧ t.2.length = c.numSyms + 1 ∧
      (∀ A, A < c.numSyms → ∃ d, StartDot l A d ∧ t.1[A]? = some d.event ∧ t.2[A]? = some d.trace)) ?_ ?_
  · refine ⟨by simp, by simp, ?_⟩
    intro A hA
    refine ⟨⟨(0, 0), (0, 0)⟩, .inr ⟨by simp, rfl⟩, ?_, ?_⟩ <;>
    · rw [List.getElem?_replicate, if_pos (by omega)]
  · rintro l r s t hl ⟨h1, h2, h3⟩
    have hr : r ∈ c.rules := by rw [hl]; simp
    have hlt := hc.lhs_lt r hr
    have hdots := hc.dots r hr
    split
    · next d hd =>
      rw [setM_eq (by omega), pure_bind, setM_eq (by omega), pure_bind]
      refine returns_pure ⟨by simp [h1], by simp [h2], ?_⟩
      intro A hA
      dsimp only
      by_cases hA' : r.lhs = A
      · subst hA'
        rw [List.getElem?_set_self (by omega), List.getElem?_set_self (by omega)]
        exact ⟨d, .inl ⟨l, r, [], rfl, rfl, by simp, hd⟩, rfl, rfl⟩
      · rw [List.getElem?_set_ne hA', List.getElem?_set_ne hA']
        obtain ⟨d', h4, h5, h6⟩ := h3 A hA
        refine ⟨d', ?_, h5, h6⟩
        rcases h4 with ⟨pre, q, post, rfl, h7, h8, h9⟩ | ⟨h7, rfl⟩
        · refine .inl ⟨pre, q, post ++ [r], by simp, h7, ?_, h9⟩
          intro x hx
          rcases List.mem_append.1 hx with hx | hx
          · exact h8 x hx
          · rw [List.mem_singleton.1 hx]; exact hA'
        · refine .inr ⟨?_, rfl⟩
          intro x hx
          rcases List.mem_append.1 hx with hx | hx
          · exact h7 x hx
          · rw [List.mem_singleton.1 hx]; exact hA'
    · next hd =>
      rw [List.getElem?_eq_none_iff] at hd
      omega

/-! ### The whole construction -/

/-- Everything proved about the result of `from_processed_grammars`. -/
structure BuiltOK (c : Cfg) (n : Nat) (w : WrappedRoot) (maps : Mapping) (nulling : Cfg)
    (first follow : List (Nat × List Nat)) (g : DefaultGrammar) (root : Nat → Nat) : Prop where
  ok : GrammarOK g (rulesOf c) root
  syms : g.syms = n
  gensyms : g.gensyms = c.numSyms - n
  numRules : g.numRules = c.rules.length
  startSym : g.startSym = w.root
  sofSym : g.sofSym = w.sof
  eofSym : g.eofSym = w.eof
  inner : g.originalStartSym = w.innerRoot
  trivial : g.hasTrivialDerivation = !nulling.rules.isEmpty
  maps : g.symMaps = maps
  firstRow : ∀ A B, A < n → B < n →
    (g.lrSets.has (A * 2) B ↔ A = B ∨ ∃ p ∈ first, p.1 = A ∧ B ∈ p.2)
  followRow : ∀ A B, A < n → B < n → (g.lrSets.has (A * 2 + 1) B ↔ ∃ p ∈ follow, p.1 = A ∧ B ∈ p.2)
  eval : g.forestInfo.eval = c.rules.map (·.origin)
  nullingEliminated : g.forestInfo.nullingEliminated = c.rules.map (·.nullable)
  forestStart : g.forestInfo.start = w.innerRoot
  column0 : g.column0.syms = c.rules.map fun r => some r.lhs
  column1 : g.column1.syms = c.rules.map fun r => r.rhs[1]?
  ev0 : ∀ A, A < c.numSyms → ∃ d, StartDot c.rules A d ∧ g.column0.events[A]? = some d.event ∧
    g.column0.tracing[A]? = some d.trace
  ev1 : ∀ (d : Nat) (r : CfgRule), c.rules[d]? = some r → ∃ e, r.dots[1]? = some e ∧
    g.column1.events[d]? = some e.event ∧ g.column1.tracing[d]? = some e.trace
  ev2 : ∀ (d : Nat) (r : CfgRule), c.rules[d]? = some r → ∃ e, r.dots[2]? = some e ∧
    g.column2.events[d]? = some e.event ∧ g.column2.tracing[d]? = some e.trace
  compRange : ∀ A ts, g.completions A = pure ts → A < n
  genRange : ∀ A e, g.genCompletion A = pure e → n ≤ A ∧ A < c.numSyms
  lens : g.column0.events.length = c.numSyms + 1 ∧ g.column0.tracing.length = c.numSyms + 1 ∧
    g.column1.events.length = c.rules.length

theorem countP_one_idx {α} {p : α → Bool} {l : List α} (h : l.countP p = 1) {i j : Nat} {x y : α} (hx : l[i]? = some x)
    (hy : l[j]? = some y) (px : p x = true) (py : p y = true) : i = j := by
  induction l generalizing i j with
  | nil => simp at hx
  | cons a l ih =>
    rw [List.countP_cons] at h
    have none_of : l.countP p = 0 → ∀ k z, l[k]? = some z → ¬ p z = true := fun h0 k z hz hp => by
      have := List.countP_eq_zero.1 h0 z (List.mem_of_getElem? hz)
      exact this hp
    cases i with
    | zero =>
      cases j with
      | zero => rfl
      | succ j =>
        simp only [List.getElem?_cons_zero, Option.some.injEq] at hx
        simp only [List.getElem?_cons_succ] at hy
        subst hx
        rw [if_pos px] at h
        exact absurd py (none_of (by omega) j y hy)
    | succ i =>
      simp only [List.getElem?_cons_succ] at hx
      cases j with
      | zero =>
        simp only [List.getElem?_cons_zero, Option.some.injEq] at hy
        subst hy
        rw [if_pos py] at h
        exact absurd px (none_of (by omega) i x hx)
      | succ j =>
        simp only [List.getElem?_cons_succ] at hy
        by_cases hp : p a = true
        · rw [if_pos hp] at h
          exact absurd px (none_of (by omega) i x hx)
        · rw [if_neg hp] at h
          rw [ih h hx hy]

theorem filter_bin (ts : List (Nat × PT)) (k : Nat) :
    ((ts.filter fun p => !p.2.isUnary) ++ ts.filter fun p => p.2.isUnary).filter
      (fun p => decide (p.1 = k) && !p.2.isUnary) = (ts.filter fun p => !p.2.isUnary).filter fun p => decide (p.1 = k) := by
  rw [List.filter_append, List.filter_filter, List.filter_filter, List.filter_filter]
  have h : (ts.filter fun a => (decide (a.1 = k) && !a.2.isUnary) && a.2.isUnary) = [] :=
    List.filter_eq_nil_iff.2 (by intro a _; cases a.2.isUnary <;> simp)
  rw [h, List.append_nil]
  congr 1
  funext a
  cases a.2.isUnary <;> simp

theorem filter_un (ts : List (Nat × PT)) (k : Nat) :
    ((ts.filter fun p => !p.2.isUnary) ++ ts.filter fun p => p.2.isUnary).filter
      (fun p => decide (p.1 = k) && p.2.isUnary) = (ts.filter fun p => p.2.isUnary).filter fun p => decide (p.1 = k) := by
  rw [List.filter_append, List.filter_filter, List.filter_filter, List.filter_filter]
  have h : (ts.filter fun a => (decide (a.1 = k) && a.2.isUnary) && !a.2.isUnary) = [] :=
    List.filter_eq_nil_iff.2 (by intro a _; cases a.2.isUnary <;> simp)
  rw [h, List.nil_append]
  congr 1
  funext a
  cases a.2.isUnary <;> simp

theorem fromProcessed_ok (hc : ProcessedOK c syms w depth) {maps : Mapping} {nulling : Cfg}
    {first follow : List (Nat × List Nat)} (hn : ∃ ni, nullingIntermediate maps nulling = pure ni) :
    ∃ g root, fromProcessed c maps nulling first follow = pure g ∧ BuiltOK c syms w maps nulling first follow g root := by
  unfold fromProcessed fromProcessedWith
  obtain ⟨ni, hni⟩ := hn
  obtain ⟨rs, hrs, hrl, hre⟩ := hc.startRule
  have hfind : ∃ i, (c.rules.findIdx? fun r => r.rhs[1]? == some w.eof) = some i ∧
      ∃ r, c.rules[i]? = some r ∧ r.rhs[1]? = some w.eof := by
    cases h : c.rules.findIdx? fun r => r.rhs[1]? == some w.eof with
    | none =>
      rw [List.findIdx?_eq_none_iff] at h
      have := h rs hrs
      simp [hre] at this
    | some i =>
      rw [List.findIdx?_eq_some_iff_getElem] at h
      obtain ⟨hi, hp, _⟩ := h
      exact ⟨i, rfl, c.rules[i], List.getElem?_eq_getElem hi, by simpa using hp⟩
  obtain ⟨di, hdi, r0, hr0, hr0e⟩ := hfind
  have huniq : ∀ (d : Nat) (r : CfgRule), c.rules[d]? = some r → r.rhs[1]? = some w.eof → d = di := fun d r hd hr =>
    countP_one_idx hc.eofOnce hd hr0 (by simpa using hr) (by simpa using hr0e)
  obtain ⟨ds, hds, hdse⟩ := List.getElem_of_mem hrs
  have hr0s : r0 = rs := by
    have := huniq ds rs (by rw [List.getElem?_eq_getElem hds, hdse]) hre
    subst this
    rw [List.getElem?_eq_getElem hds, hdse] at hr0
    exact (Option.some.inj hr0).symm
  subst hr0s
  obtain ⟨l1, hl1, hl1n, hl1e⟩ := columnDots_returns hc (k := 1) (by omega)
  obtain ⟨l2, hl2, hl2n, hl2e⟩ := columnDots_returns hc (k := 2) (by omega)
  obtain ⟨L, hL, hLs⟩ := rulesByRhs0_spec hc
  obtain ⟨pm, hpm, hpm1, hpm2, hpm3⟩ := predictionMatrix_spec hc hLs
  obtain ⟨pe, hpe, hpe1, hpe2, hpe3⟩ := predictionEvents_returns hc
  obtain ⟨ct, hct, hct1, hct2, hct3, hct4⟩ := completionTable_spec hc hLs
  obtain ⟨lr, hlr, hlr1, hlr2, hlr3, hlr4⟩ := lrSets_spec syms first follow
  have hsub : c.numSyms - (c.numSyms - syms) = syms := by have := hc.syms_le; omega
  have hadd : syms + (c.numSyms - syms) = c.numSyms := by have := hc.syms_le; omega
  rw [numGensyms_spec hc, pure_bind, subM_eq (by omega), pure_bind, hsub, assertM_true (by simp [hc.numRoots]), pure_bind,
    hc.root, unwrapM_some, pure_bind, hdi, unwrapM_some, pure_bind, hl1, pure_bind, hl2, pure_bind, hL, pure_bind]
  rw [hpm, pure_bind, hpe, pure_bind, hct, pure_bind, hlr, pure_bind, hni, pure_bind]
  have hmemR : ∀ r ∈ rulesOf c, ∃ r' ∈ c.rules, ruleOf r' = r := fun r => mem_rulesOf.1
  have hget : ∀ (d : Nat) (r : Rule), (rulesOf c)[d]? = some r → ∃ r', c.rules[d]? = some r' ∧ ruleOf r' = r := by
    intro d r h
    rw [rulesOf_getElem?] at h
    simpa using h
  refine ⟨_, rootFn L syms, rfl, ?_, rfl, rfl, rfl, rfl, rfl, rfl, rfl, rfl, rfl, hlr3, hlr4, rfl, rfl, rfl, rfl, rfl, ?_, ?_, ?_,
    ?_, ?_, ⟨hpe1, hpe2, by simp [hl1n]⟩⟩
  · refine {
      getLhs := ?_, getRhs1 := ?_, sorted := ?_, lhs_lt := ?_, rhs0_lt := ?_, rhs1_lt := ?_, root_id := ?_, root_gen := ?_,
      root_lt := ?_, root_corner := ?_, predRow := ?_, comps := ?_, gens := ?_, lrLen := hlr1, lrRow := hlr2,
      start_lt := hc.start_lt, eof_lt := hc.eof_lt, startRule := ?_, eofOnce := ?_, eofNot0 := ?_, eofMin := ?_,
      eofTerm := ?_, startNot0 := ?_, startNot1 := ?_ }
    · intro d r h
      obtain ⟨r', h', rfl⟩ := hget d r h
      unfold DefaultGrammar.getLhs
      dsimp only
      rw [indexM_eq (a := some r'.lhs) (by simp [h']), pure_bind]
      rfl
    · intro d r h
      obtain ⟨r', h', rfl⟩ := hget d r h
      unfold DefaultGrammar.getRhs1
      dsimp only
      rw [indexM_eq (a := r'.rhs[1]?) (by simp [h'])]
      rfl
    · unfold rulesOf
      rw [List.pairwise_map]
      exact hc.sorted
    · intro r hr
      obtain ⟨r', h', rfl⟩ := hmemR r hr
      show r'.lhs < syms + (c.numSyms - syms)
      rw [hadd]; exact hc.lhs_lt r' h'
    · intro r hr
      obtain ⟨r', h', rfl⟩ := hmemR r hr
      show (ruleOf r').rhs0 < syms + (c.numSyms - syms)
      rw [hadd]
      exact hc.rhs_lt r' h' _ (List.mem_of_getElem? (hc.rhs0 h'))
    · intro r hr C hC
      obtain ⟨r', h', rfl⟩ := hmemR r hr
      have hC : r'.rhs[1]? = some C := hC
      have hlt := hc.rhs_lt r' h' C (List.mem_of_getElem? hC)
      show C < syms
      refine Nat.lt_of_not_le fun hge => ?_
      have hgen := (hc.gen C hlt).2 hge
      refine hgen.2.2.1 r' h' ?_
      rw [List.mem_iff_getElem?]
      exact ⟨0, by simpa using hC⟩
    · intro A hA; exact rootFn_eq (rootOf_lt hA)
    · intro r hr hs
      obtain ⟨r', h', rfl⟩ := hmemR r hr
      unfold rootFn
      rw [rootOf_gen hc hLs h' hs]
      rfl
    · intro r hr
      obtain ⟨r', h', rfl⟩ := hmemR r hr
      exact (rootFn_spec hc hLs (hc.lhs_lt r' h')).1
    · intro r hr
      obtain ⟨r', h', rfl⟩ := hmemR r hr
      exact (rootFn_spec hc hLs (hc.lhs_lt r' h')).2
    · intro A hA
      have hA' : A < pm.rows.length := by rw [hpm1.1]; exact hA
      refine ⟨pm.rows[A], indexM_lt hA', ?_, ?_⟩
      · rw [hpm1.2 _ (List.getElem_mem hA'), hpm2]
      · intro B hB
        rw [← hpm3 A B hA hB, BitMatrix.has_iff, List.getElem?_eq_getElem hA']
        simp
    · intro A hA
      unfold DefaultGrammar.completions
      dsimp only
      have hvec : Vec2d.extend Vec2d.new ct.1 = Vec2d.ofSets (ct.1 ++ [[]]) := by
        have := Vec2d.extend_eq ([] : List (List PT)) ct.1
        simpa [Vec2d.new_eq] using this
      have hA' : A < ct.1.length := by rw [hct1]; exact hA
      rw [hvec, Vec2d.index_eq _ A _ (by simpa using hA') (by rw [List.getElem?_append_left hA']; exact hct3 A hA)]
      rw [binTrans_eq, unTrans_eq, ← List.map_append, ← List.filter_append]
    · intro A h1 h2
      have h1' : syms ≤ A := h1
      have h2' : A < c.numSyms := by rw [← hadd]; exact h2
      obtain ⟨k, rfl⟩ : ∃ k, A = syms + k := ⟨A - syms, by omega⟩
      unfold DefaultGrammar.genCompletion
      dsimp only
      rw [subM_eq (by omega), pure_bind, Nat.add_sub_cancel_left, indexM_eq (hct4 k (by omega))]
      refine ⟨_, _, rfl, ?_, ?_⟩
      · rw [← toList_getLast? (binTrans_gen hc h2' h1'), binTrans_eq, filter_bin]
      · rw [← toList_getLast? (unTrans_gen hc h2' h1'), unTrans_eq, filter_un]
    · refine ⟨(ruleOf r0).rhs0, ?_⟩
      rw [rulesOf_getElem?, hr0]
      simp only [Option.map_some, Option.some.injEq]
      simp [ruleOf, hrl, hr0e]
    · intro d r h he
      obtain ⟨r', h', rfl⟩ := hget d r h
      exact huniq d r' h' he
    · intro r hr he
      obtain ⟨r', h', rfl⟩ := hmemR r hr
      exact hc.eofNot0 r' h' (by rw [hc.rhs0 h', he])
    · intro r hr C hC
      obtain ⟨r', h', rfl⟩ := hmemR r hr
      exact hc.eofMin r' h' C hC
    · intro r hr he
      obtain ⟨r', h', rfl⟩ := hmemR r hr
      exact hc.eofTerm r' h' he
    · intro r hr he
      obtain ⟨r', h', rfl⟩ := hmemR r hr
      exact hc.startNot r' h' (by rw [← show (ruleOf r').rhs0 = w.root from he]; exact List.mem_of_getElem? (hc.rhs0 h'))
    · intro r hr he
      obtain ⟨r', h', rfl⟩ := hmemR r hr
      exact hc.startNot r' h' (List.mem_of_getElem? he)
  · exact hpe3
  · intro d r h
    obtain ⟨e, he1, he2⟩ := hl1e d r h
    exact ⟨e, he2, by simp [he1], by simp [he1]⟩
  · intro d r h
    obtain ⟨e, he1, he2⟩ := hl2e d r h
    exact ⟨e, he2, by simp [he1], by simp [he1]⟩

  · intro A ts h
    refine Nat.lt_of_not_le fun hge => ?_
    unfold DefaultGrammar.completions at h
    dsimp only at h
    have hvec : Vec2d.extend Vec2d.new ct.1 = Vec2d.ofSets (ct.1 ++ [[]]) := by
      have := Vec2d.extend_eq ([] : List (List PT)) ct.1
      simpa [Vec2d.new_eq] using this
    rw [hvec, Vec2d.index_panic _ A (by simp [hct1]; exact hge)] at h
    exact panicM_ne_pure h
  · intro A e h
    unfold DefaultGrammar.genCompletion at h
    dsimp only at h
    obtain ⟨i, h1, h2⟩ := bind_eq_pure h
    have h3 := (List.getElem?_eq_some_iff.1 (indexM_pure h2)).1
    unfold subM at h1
    split at h1
    · next hle =>
      have := pure_inj_M h1
      omega
    · exact absurd h1 panicM_ne_pure

/-- The look-ahead rows are large enough if the sets computed by crate `cfg` are. -/
theorem BuiltOK.lookahead {maps : Mapping} {nulling : Cfg} {first follow : List (Nat × List Nat)} {g : DefaultGrammar}
    {root : Nat → Nat} (h : BuiltOK c syms w maps nulling first follow g root) (h1 : FirstSetsOK (rulesOf c) syms first)
    (h2 : FollowSetsOK (rulesOf c) syms w.root follow) :
    LookaheadOK g (rulesOf c) (fun t => t < g.syms ∧ Terminal (rulesOf c) t) := by
  constructor
  · rintro C t u hC ⟨ht, htt⟩ hd
    rw [h.syms] at hC ht
    refine (h.firstRow C t hC ht).2 ?_
    by_cases hct : C = t
    · exact .inl hct
    · exact .inr (h1 C t u hC ht htt (Ne.symm hct) hd)
  · rintro A t α β hA ⟨ht, htt⟩ hd
    rw [h.syms] at hA ht
    rw [h.startSym] at hd
    exact (h.followRow A t hA ht).2 (h2 A t α β hA ht htt hd)

end Gearley
