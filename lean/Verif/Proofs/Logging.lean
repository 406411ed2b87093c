import Verif.Proofs.Machine
import Verif.Proofs.BitMatrix
import Verif.Model.Logging
import Verif.Spec.Protocol

/-!
# Logging evaluates nothing that is not evaluated anyway, as long as there is a row for each set
-/

namespace Gearley
variable {σ ν : Type} {E : Env σ ν}

theorem map_eq_bind_M {α β : Type} (g : α → β) (x : M α) : (g <$> x) = (x >>= fun a => pure (g a)) := map_eq_pure_bind g x

theorem mapM_pure_mem {α β : Type} {f : α → M β} : ∀ {l : List α} {r : List β}, l.mapM f = pure r → ∀ a ∈ l, ∃ b, f a = pure b
  | [], _, _ => by simp
  | a :: l, r, h => by
    rw [List.mapM_cons] at h
    obtain ⟨b, hb, h⟩ := bind_eq_pure h
    obtain ⟨bs, hbs, _⟩ := bind_eq_pure h
    intro x hx
    rcases List.mem_cons.1 hx with rfl | hx
    · exact ⟨b, hb⟩
    · exact mapM_pure_mem hbs x hx

/-- If all calls return, so does `mapM`. -/
theorem mapM_exists {α β : Type} {f : α → M β} : ∀ {l : List α}, (∀ a ∈ l, ∃ b, f a = pure b) → ∃ r, l.mapM f = pure r
  | [], _ => ⟨[], rfl⟩
  | a :: l, h => by
    obtain ⟨b, hb⟩ := h a (by simp)
    obtain ⟨r, hr⟩ := mapM_exists (l := l) fun x hx => h x (by simp [hx])
    exact ⟨b :: r, by rw [List.mapM_cons, hb, pure_bind, hr, pure_bind]⟩

namespace Rec

/-! ### Completion -/

theorem completeMedialItemLogged_eq (link : ν) : completeMedialItemLogged E link = completeMedialItem E link := by
  funext s item
  unfold completeMedialItemLogged completeMedialItem
  refine bind_congr_pure fun useful hu => ?_
  cases useful with
  | true => rfl
  | false =>
    have : ∃ x, E.g.getLhs item.dot = pure x := by
      unfold medialUseful at hu
      cases hl : s.lookahead with
      | none => rw [hl] at hu; have := pure_inj_M hu; cases this
      | some sym =>
        rw [hl] at hu
        obtain ⟨x, hx, _⟩ := bind_eq_pure hu
        exact ⟨x, hx⟩
    obtain ⟨x, hx⟩ := this
    rw [hx]
    rfl

theorem completeMedialItemsLogged_eq : completeMedialItemsLogged E = completeMedialItems E := by
  funext s o sym link
  unfold completeMedialItemsLogged completeMedialItems
  rw [completeMedialItemLogged_eq]

theorem completePredictionLogged_eq (o : Nat) (link : ν) : completePredictionLogged E o link = completePrediction E o link := by
  funext p t
  unfold completePredictionLogged completePrediction
  refine bind_congr_pure fun was _ => ?_
  refine bind_congr_pure fun useful hu => ?_
  cases was with
  | false => rfl
  | true =>
    cases useful with
    | true => rfl
    | false =>
      have : ∃ x, unwrapM p.1.lookahead = pure x ∧ ∃ y, E.g.rhs1OrLhs t.dot = pure y := by
        unfold predictionUseful at hu
        cases hl : p.1.lookahead with
        | none => rw [hl] at hu; have := pure_inj_M hu; cases this
        | some sym =>
          rw [hl] at hu
          obtain ⟨x, hx, _⟩ := bind_eq_pure hu
          exact ⟨sym, rfl, x, hx⟩
      obtain ⟨x, hx, y, hy⟩ := this
      rw [hx, hy]
      rfl

theorem completePredictionsLogged_eq : completePredictionsLogged E = completePredictions E := by
  funext s o sym link
  unfold completePredictionsLogged completePredictions
  rw [completePredictionLogged_eq]

theorem completeSymLogged_eq : completeSymLogged E = completeSym E := by
  funext s o sym link
  unfold completeSymLogged completeSym
  rw [completeMedialItemsLogged_eq, completePredictionsLogged_eq]

theorem scanLogged_eq : scanLogged E = scan E := by
  funext s sym v
  unfold scanLogged scan
  rw [completeSymLogged_eq]

theorem completeSumLogged_eq : completeSumLogged E = completeSum E := by
  funext s o A
  unfold completeSumLogged completeSum
  rw [completeSymLogged_eq]

theorem completeEntireSumLogged_eq : completeEntireSumLogged E = completeEntireSum E := by
  funext s o A
  unfold completeEntireSumLogged completeEntireSum
  rw [completeSumLogged_eq]

theorem completeStepLogged_eq : completeStepLogged E = completeStep E := by
  funext s
  unfold completeStepLogged completeStep
  rw [completeEntireSumLogged_eq]
  rfl

theorem completeAllLogged_eq : completeAllLogged E = completeAll E := by
  funext s
  unfold completeAllLogged completeAll
  rw [completeStepLogged_eq]

/-! ### Rows of the prediction matrix -/

theorem completePrediction_predicted {o : Nat} {link : ν} {p p' : Rec σ ν × Nat} {t : PT}
    (h : completePrediction E o link p t = pure p') : p'.1.predicted = p.1.predicted := by
  unfold completePrediction at h
  obtain ⟨_, _, h⟩ := bind_eq_pure h
  obtain ⟨_, _, h⟩ := bind_eq_pure h
  split at h
  · cases pure_inj_M h; rfl
  · cases pure_inj_M h; rfl

theorem completeMedialItem_predicted {link : ν} {s s' : Rec σ ν} {it : Item ν}
    (h : completeMedialItem E link s it = pure s') : s'.predicted = s.predicted := by
  unfold completeMedialItem at h
  obtain ⟨_, _, h⟩ := bind_eq_pure h
  split at h
  · obtain ⟨_, _, h⟩ := bind_eq_pure h
    obtain ⟨_, _, h⟩ := bind_eq_pure h
    cases pure_inj_M h; rfl
  · cases pure_inj_M h; rfl

theorem completeSym_predicted {s s' : Rec σ ν} {o sym : Nat} {link : ν} (h : completeSym E s o sym link = pure s') :
    s'.predicted = s.predicted := by
  unfold completeSym at h
  split at h
  · unfold completeGenerated at h
    obtain ⟨⟨bi, un⟩, _, h⟩ := bind_eq_pure h
    obtain ⟨s1, h1, h⟩ := bind_eq_pure h
    have hs1 : s1.predicted = s.predicted := by
      cases un with
      | none => cases pure_inj_M h1; rfl
      | some t =>
        obtain ⟨_, _, h1⟩ := bind_eq_pure h1
        split at h1
        · obtain ⟨_, _, h1⟩ := bind_eq_pure h1
          cases pure_inj_M h1; rfl
        · cases pure_inj_M h1; rfl
    rw [← hs1]
    cases bi with
    | none => cases pure_inj_M h; rfl
    | some t =>
      obtain ⟨_, _, h⟩ := bind_eq_pure h
      split at h
      · cases pure_inj_M h; rfl
      · cases pure_inj_M h; rfl
  · obtain ⟨_, _, h⟩ := bind_eq_pure h
    split at h
    · split at h
      · exact absurd h panicM_ne_pure
      · obtain ⟨s1, h1, h⟩ := bind_eq_pure h
        have e1 : s1.predicted = s.predicted := by
          unfold completeMedialItems at h1
          obtain ⟨_, _, h1⟩ := bind_eq_pure h1
          obtain ⟨_, _, h1⟩ := bind_eq_pure h1
          exact foldlM_inv (P := fun t => t.predicted = s.predicted)
            (fun b a b' hb hab => by rw [completeMedialItem_predicted hab]; exact hb) rfl h1
        rw [← e1]
        unfold completePredictions at h
        obtain ⟨_, _, h⟩ := bind_eq_pure h
        obtain ⟨_, _, h⟩ := bind_eq_pure h
        obtain ⟨⟨s2, b⟩, h2, h⟩ := bind_eq_pure h
        obtain ⟨_, _, h⟩ := bind_eq_pure h
        obtain ⟨_, _, h⟩ := bind_eq_pure h
        obtain ⟨_, _, h⟩ := bind_eq_pure h
        obtain ⟨_, _, h⟩ := bind_eq_pure h
        cases pure_inj_M h
        exact foldlM_inv (P := fun p => p.1.predicted = s1.predicted)
          (fun b a b' hb hab => (completePrediction_predicted hab).trans hb) rfl h2
    · cases pure_inj_M h; rfl

theorem scan_predicted {s s' : Rec σ ν} {sym v : Nat} (h : scan E s sym v = pure s') : s'.predicted = s.predicted := by
  unfold scan at h
  obtain ⟨_, _, h⟩ := bind_eq_pure h
  obtain ⟨⟨fo, nd⟩, _, h⟩ := bind_eq_pure h
  have h' : completeSym E { s with forest := fo } s.earleme sym nd = pure s' := h
  exact (completeSym_predicted h').trans rfl

theorem nextSummand_predicted {s : Rec σ ν} {o A : Nat} {p : Rec σ ν × Option (Item ν)} (h : nextSummand E s o A = pure p) :
    p.1.predicted = s.predicted := by
  unfold nextSummand at h
  split at h
  · obtain ⟨_, _, h⟩ := bind_eq_pure h
    split at h
    · obtain ⟨_, _, h⟩ := bind_eq_pure h
      cases pure_inj_M h; rfl
    · cases pure_inj_M h; rfl
  · cases pure_inj_M h; rfl

theorem summandLoop_predicted {o A : Nat} : ∀ {fuel : Nat} {s s' : Rec σ ν}, summandLoop E o A fuel s = pure s' →
    s'.predicted = s.predicted := by
  intro fuel
  induction fuel with
  | zero => intro s s' h; cases pure_inj_M h; rfl
  | succ fuel ih =>
    intro s s' h
    rw [summandLoop] at h
    obtain ⟨⟨s1, it⟩, h1, h⟩ := bind_eq_pure h
    have e1 := nextSummand_predicted h1
    cases it with
    | none => cases pure_inj_M h; exact e1
    | some it =>
      obtain ⟨s2, h2, h⟩ := bind_eq_pure h
      unfold pushSummand at h2
      obtain ⟨_, _, h2⟩ := bind_eq_pure h2
      cases pure_inj_M h2
      exact (ih h).trans e1

theorem completeEntireSum_predicted {s s' : Rec σ ν} {o A : Nat} (h : completeEntireSum E s o A = pure s') :
    s'.predicted = s.predicted := by
  unfold completeEntireSum at h
  obtain ⟨fo, _, h⟩ := bind_eq_pure h
  obtain ⟨s1, h1, h⟩ := bind_eq_pure h
  obtain ⟨⟨s2, nd⟩, h2, h⟩ := bind_eq_pure h
  cases pure_inj_M h
  unfold completeSum at h2
  obtain ⟨⟨fo', nd'⟩, _, h2⟩ := bind_eq_pure h2
  obtain ⟨s3, h3, h2⟩ := bind_eq_pure h2
  cases pure_inj_M h2
  have e1 : s1.predicted = s.predicted := (summandLoop_predicted h1).trans rfl
  have h3' : completeSym E { s1 with forest := fo' } o A nd = pure s' := h3
  exact (completeSym_predicted h3').trans e1

theorem completeAll_predicted {s s' : Rec σ ν} (h : completeAll E s = pure s') : s'.predicted = s.predicted := by
  refine loop_inv (fun t => t.predicted = s.predicted) (fun t => t.predicted = s.predicted) ?_ ?_ s s' rfl h
  · intro a a' ha h
    unfold completeStep at h
    obtain ⟨o, _, h⟩ := bind_eq_pure h
    cases o with
    | none => have := pure_inj_M h; cases this
    | some p =>
      obtain ⟨a1, h1, h⟩ := bind_eq_pure h
      have := pure_inj_M h
      cases this
      exact (completeEntireSum_predicted h1).trans ha
  · intro a b ha h
    unfold completeStep at h
    obtain ⟨o, _, h⟩ := bind_eq_pure h
    cases o with
    | none => have := pure_inj_M h; cases this; exact ha
    | some p =>
      obtain ⟨a1, h1, h⟩ := bind_eq_pure h
      have := pure_inj_M h
      cases this

theorem sortMedial_predicted {s s' : Rec σ ν} (h : sortMedial E s = pure s') : s'.predicted = s.predicted := by
  unfold sortMedial at h
  obtain ⟨m, h1, h⟩ := bind_eq_pure h
  cases pure_inj_M h
  rfl

/-- The set in progress is read before it is sorted. -/
theorem last_sortMedial (s : Rec σ ν) : (s.medial.last >>= fun _ => sortMedial E s) = sortMedial E s := by
  unfold Vec2d.last sortMedial Vec2d.modifyLast
  simp only [bind_assoc]
  refine bind_congr_pure fun i hi => ?_
  rw [hi, pure_bind]
  rcases bind_cases (sliceFromM s.medial.chart i) (fun _ => (pure () : M Unit)) with ⟨a, ha, _⟩ | ⟨p, hp, _⟩ | ⟨hn, _⟩
  · simp only [ha, pure_bind]
  · simp only [hp]; rfl
  · simp only [hn]; rfl

theorem last_predictionPass (s : Rec σ ν) : (s.medial.last >>= fun _ => predictionPass E s) = predictionPass E s := by
  unfold predictionPass
  rcases bind_cases s.medial.last (fun _ => (pure () : M Unit)) with ⟨a, ha, _⟩ | ⟨p, hp, _⟩ | ⟨hn, _⟩
  · rw [ha]; simp only [pure_bind]
  · rw [hp]; rfl
  · rw [hn]; rfl

theorem advanceAfterCompletionLogged_eq : advanceAfterCompletionLogged E = advanceAfterCompletion E := by
  funext s
  unfold advanceAfterCompletionLogged advanceAfterCompletion
  simp only [last_predictionPass]

/-- Removal of sets keeps a row for each set but the last. -/
theorem removeUnreachable_rows {s s' : Rec σ ν} (h : removeUnreachable s = pure s')
    (h1 : s.medial.len ≤ s.predicted.rows.length + 1) : s'.medial.len ≤ s'.predicted.rows.length + 1 := by
  have key : ∀ k : Nat, ∀ {m : Vec2d (Item ν)}, s.medial.truncate (k + 1) = pure m →
      m.len ≤ (s.predicted.truncate (k + 1)).rows.length + 1 := by
    intro k m h2
    unfold Vec2d.truncate at h2
    obtain ⟨_, h4, h2⟩ := bind_eq_pure h2
    obtain ⟨_, _, h2⟩ := bind_eq_pure h2
    obtain ⟨_, _, h2⟩ := bind_eq_pure h2
    obtain ⟨_, _, h2⟩ := bind_eq_pure h2
    cases pure_inj_M h2
    have := indexM_pure h4
    have := (List.getElem?_eq_some_iff.1 this).1
    simp only [Vec2d.len, List.length_take, BitMatrix.truncate] at h1 ⊢
    omega
  unfold removeUnreachable at h
  obtain ⟨l, _, h⟩ := bind_eq_pure h
  dsimp only at h
  split at h <;> split at h
  · obtain ⟨m, h2, h⟩ := bind_eq_pure h
    obtain ⟨_, _, h⟩ := bind_eq_pure h
    obtain ⟨_, _, h⟩ := bind_eq_pure h
    cases pure_inj_M h
    exact key _ h2
  · cases pure_inj_M h
    exact h1
  · obtain ⟨m, h2, h⟩ := bind_eq_pure h
    obtain ⟨_, _, h⟩ := bind_eq_pure h
    obtain ⟨_, _, h⟩ := bind_eq_pure h
    cases pure_inj_M h
    exact key _ h2
  · cases pure_inj_M h
    exact h1

/-- Prediction adds a row, and reads the row after that of the last complete set. -/
theorem predictionPass_rows {s s' : Rec σ ν} (h : predictionPass E s = pure s') :
    s'.predicted.rows.length = s.predicted.rows.length + 1 ∧ s.earleme < maxUsize := by
  unfold predictionPass at h
  obtain ⟨_, _, h⟩ := bind_eq_pure h
  obtain ⟨i, h1, h⟩ := bind_eq_pure h
  obtain ⟨_, _, h⟩ := bind_eq_pure h
  obtain ⟨_, _, h⟩ := bind_eq_pure h
  cases pure_inj_M h
  refine ⟨by simp [BitMatrix.grow], ?_⟩
  unfold succM at h1
  split at h1
  · assumption
  · exact absurd h1 panicM_ne_pure

/-- There is a row for each set; while a set is being read there may be one row less. -/
def Fits (pending : Bool) (s : Rec σ ν) : Prop :=
  1 ≤ s.medial.len ∧ s.medial.len ≤ s.predicted.rows.length + (if pending then 1 else 0)

theorem Fits.weaken {s : Rec σ ν} {p : Bool} (h : Fits p s) : Fits true s := by
  unfold Fits at *
  cases p <;> simp at h ⊢ <;> omega

theorem earleme_row {s : Rec σ ν} (h1 : 2 ≤ s.medial.len) (h2 : s.medial.len ≤ s.predicted.rows.length + 1) :
    ∃ r, s.predicted.row s.earleme = pure r := by
  have : s.earleme = s.medial.len - 2 := by
    unfold earleme wrappingSub2
    rw [if_pos h1]
  exact ⟨_, indexM_lt (by rw [this]; omega)⟩

theorem beginEarlemeLogged_eq {s : Rec σ ν} (h : Fits false s) : beginEarlemeLogged s = pure s.beginEarleme := by
  unfold beginEarlemeLogged
  obtain ⟨r, hr⟩ := earleme_row (s := s.beginEarleme) (by rw [begin_len]; have := h.1; omega)
    (by rw [begin_len]; have := h.2; simp at this; exact Nat.succ_le_succ this)
  dsimp only
  rw [hr]
  rfl

theorem begin_fits {s : Rec σ ν} (h : Fits false s) : Fits true s.beginEarleme := by
  unfold Fits at *
  rw [begin_len]
  simp only [Bool.false_eq_true, if_false, Nat.add_zero, if_true] at h ⊢
  show _ ∧ _ ≤ s.predicted.rows.length + 1
  omega

theorem scan_fits {s s' : Rec σ ν} {sym v : Nat} {p : Bool} (hs : Fits p s) (h : scan E s sym v = pure s') : Fits p s' := by
  have e : s'.medial.len = s.medial.len := congrArg List.length (scan_indices h)
  unfold Fits at *
  rw [e, scan_predicted h]
  exact hs

/-- `end_earleme` with logging is `end_earleme`, and if it succeeds there is a row for each set. -/
theorem endEarlemeLogged_eq {s : Rec σ ν} (hs : Fits true s) : endEarlemeLogged E s = endEarleme E s ∧
    ∀ s' b, endEarleme E s = pure (s', b) → Fits (!b) s' := by
  have key : ∀ s1 s2, completeAll E s = pure s1 → advanceAfterCompletion E s1 = pure s2 →
      2 ≤ s2.medial.len ∧ s2.medial.len ≤ s2.predicted.rows.length := by
    intro s1 s2 h1 h2
    have e1 : s1.medial.len = s.medial.len := congrArg List.length (completeAll_keepsSets _ _ h1)
    have e2 := completeAll_predicted h1
    unfold advanceAfterCompletion at h2
    obtain ⟨s3, h3, h2⟩ := bind_eq_pure h2
    obtain ⟨s4, h4, h2⟩ := bind_eq_pure h2
    split at h2
    · exact absurd h2 panicM_ne_pure
    · have e3 := sortMedial_len h3
      have e4 := sortMedial_predicted h3
      have e5 := removeUnreachable_len h4
      have := hs.1
      have := hs.2
      simp only [if_true] at this
      have e6 := removeUnreachable_rows h4 (by rw [e3, e1, e4, e2]; exact this)
      obtain ⟨e7, e8⟩ := predictionPass_rows h2
      rw [predictionPass_medial h2, e7]
      refine ⟨?_, e6⟩
      by_contra hlt
      have hl : s4.medial.len = 1 := by omega
      have : s4.earleme = maxUsize := by
        unfold earleme wrappingSub2 maxUsize
        rw [hl]; rfl
      omega
  constructor
  · unfold endEarlemeLogged endEarleme endEarlemeWith
    rw [completeAllLogged_eq, advanceAfterCompletionLogged_eq]
    refine bind_congr_pure fun b _ => ?_
    split
    · rfl
    · refine bind_congr_pure fun s1 h1 => ?_
      have : (s1.medial.last >>= fun _ => advanceAfterCompletion E s1) = advanceAfterCompletion E s1 := by
        unfold advanceAfterCompletion
        rw [← bind_assoc, last_sortMedial]
      rw [← bind_assoc, this]
      refine bind_congr_pure fun s2 h2 => ?_
      obtain ⟨k1, k2⟩ := key s1 s2 h1 h2
      obtain ⟨r, hr⟩ := earleme_row k1 (by omega)
      rw [hr]
      rfl
  · intro s' b h
    unfold endEarleme endEarlemeWith at h
    obtain ⟨ex, _, h⟩ := bind_eq_pure h
    split at h
    · cases pure_inj_M h
      exact hs
    · obtain ⟨s1, h1, h⟩ := bind_eq_pure h
      obtain ⟨s2, h2, h⟩ := bind_eq_pure h
      cases pure_inj_M h
      obtain ⟨k1, k2⟩ := key s1 s' h1 h2
      unfold Fits
      simp only [Bool.not_true, Bool.false_eq_true, if_false]
      omega

theorem new_rows {f : σ} {s : Rec σ ν} (h : new E f = pure s) : s.predicted.rows.length = 8 := by
  unfold new at h
  obtain ⟨m, h1, h⟩ := bind_eq_pure h
  cases pure_inj_M h
  unfold predictIn at h1
  obtain ⟨_, _, h1⟩ := bind_eq_pure h1
  obtain ⟨_, _, h1⟩ := bind_eq_pure h1
  obtain ⟨_, _, h1⟩ := bind_eq_pure h1
  cases pure_inj_M h1
  simp [BitMatrix.new]

theorem new_fits {f : σ} {s : Rec σ ν} (h : new E f = pure s) : Fits false s := by
  unfold Fits
  rw [new_len h, new_rows h]
  simp

theorem reset_fits {s s' : Rec σ ν} {p : Bool} (h : reset E s = pure s') : Fits p s' := by
  unfold reset at h
  obtain ⟨_, h1, h⟩ := bind_eq_pure h
  obtain ⟨_, _, h⟩ := bind_eq_pure h
  obtain ⟨_, _, h⟩ := bind_eq_pure h
  cases pure_inj_M h
  have := (List.getElem?_eq_some_iff.1 (indexM_pure h1)).1
  unfold Fits
  simp only [Vec2d.clear, Vec2d.len, List.length_set, List.length_singleton]
  omega

/-! ### Clients -/

theorem scanAll_fits {p : Bool} : ∀ {toks : List (Nat × Nat)} {s s' : Rec σ ν}, Fits p s → scanAll E s toks = pure s' → Fits p s'
  | [], s, s', hs, h => by cases pure_inj_M h; exact hs
  | t :: toks, s, s', hs, h => by
    unfold scanAll at h
    rw [List.foldlM_cons] at h
    obtain ⟨s1, h1, h⟩ := bind_eq_pure h
    exact scanAll_fits (scan_fits hs h1) h

theorem positionLogged_eq {s : Rec σ ν} {toks : List (Nat × Nat)} (hs : Fits false s) :
    positionLogged E s toks = position E s toks ∧ ∀ s', position E s toks = pure (s', true) → Fits false s' := by
  unfold positionLogged position positionWith
  rw [beginEarlemeLogged_eq hs, pure_bind, scanLogged_eq]
  constructor
  · refine bind_congr_pure fun s1 h1 => ?_
    exact (endEarlemeLogged_eq (scanAll_fits (begin_fits hs) h1)).1
  · intro s' h
    obtain ⟨s1, h1, h⟩ := bind_eq_pure h
    exact (endEarlemeLogged_eq (E := E) (scanAll_fits (begin_fits hs) h1)).2 _ _ h

theorem applyHint_fits {s : Rec σ ν} {p : Bool} (op : HintOp) (h : Fits p s) : Fits p (applyHint s op) := by
  cases op <;> exact h

theorem sessionLogged_eq : ∀ (steps : List (HintOp × List (Nat × Nat))) (s : Rec σ ν), Fits false s →
    sessionLogged E steps s = session E steps s
  | [], _, _ => rfl
  | (op, toks) :: rest, s, h => by
    unfold session
    rw [sessionLogged, sessionWith]
    obtain ⟨k1, k2⟩ := positionLogged_eq (E := E) (toks := toks) (applyHint_fits op h)
    rw [k1]
    refine bind_congr_pure fun r hr => ?_
    obtain ⟨s1, ok⟩ := r
    cases ok with
    | true => exact sessionLogged_eq rest s1 (k2 s1 hr)
    | false => rfl

theorem parseLoopLogged_eq : ∀ (i : Nat) (tokens : List Nat) (s : Rec σ ν), Fits false s →
    parseLoopLogged E i tokens s = parseLoop E (completeAll E) i tokens s
  | _, [], _, _ => rfl
  | i, token :: rest, s, h => by
    unfold parseLoopLogged parseLoop
    rw [beginEarlemeLogged_eq h, pure_bind]
    refine bind_congr_pure fun s1 h1 => ?_
    have hs1 : Fits true s1 := by
      cases rest with
      | nil => cases pure_inj_M h1; exact begin_fits h
      | cons t rest =>
        obtain ⟨_, _, h1⟩ := bind_eq_pure h1
        cases pure_inj_M h1
        exact begin_fits h
    refine bind_congr_pure fun x _ => ?_
    rw [scanLogged_eq]
    refine bind_congr_pure fun s2 h2 => ?_
    obtain ⟨k1, k2⟩ := endEarlemeLogged_eq (E := E) (scan_fits hs1 h2)
    rw [k1]
    unfold endEarleme
    refine bind_congr_pure fun r hr => ?_
    obtain ⟨s3, ok⟩ := r
    cases ok with
    | true => exact parseLoopLogged_eq (i + 1) rest s3 (k2 _ _ hr)
    | false => rfl

theorem readSofLogged_eq {s : Rec σ ν} (hs : Fits false s) :
    readSofLogged E s = readSof E (completeAll E) s ∧ ∀ s', readSof E (completeAll E) s = pure (s', true) → Fits false s' := by
  unfold readSofLogged readSof
  rw [beginEarlemeLogged_eq hs, pure_bind, scanLogged_eq]
  constructor
  · refine bind_congr_pure fun s1 h1 => ?_
    exact (endEarlemeLogged_eq (scan_fits (begin_fits hs) h1)).1
  · intro s' h
    obtain ⟨s1, h1, h⟩ := bind_eq_pure h
    exact (endEarlemeLogged_eq (E := E) (scan_fits (begin_fits hs) h1)).2 _ _ h

theorem parseLogged_eq {s : Rec σ ν} {tokens : List Nat} (hs : Fits false s) : parseLogged E s tokens = parse E s tokens := by
  unfold parseLogged parse parseWith
  obtain ⟨k1, k2⟩ := readSofLogged_eq (E := E) hs
  rw [k1]
  refine bind_congr_pure fun r hr => ?_
  obtain ⟨s1, ok⟩ := r
  cases ok with
  | true => exact parseLoopLogged_eq 0 tokens s1 (k2 _ hr)
  | false => rfl

theorem parseTerminalListLogged_eq : parseTerminalListLogged E = parseTerminalList E := by
  funext f names words
  unfold parseTerminalListLogged parseTerminalList parseTerminalListWith
  refine bind_congr_pure fun s hs => ?_
  cases tokenizeWords names words with
  | error e => rfl
  | ok tokens =>
    simp only
    rw [parseLogged_eq (new_fits hs)]
    rfl

theorem scanChar_fits {p : Bool} {ch : Nat} : ∀ {l : List Nat} {s s' : Rec σ ν}, Fits p s → scanChar E l ch s = pure s' → Fits p s'
  | [], s, s', hs, h => by cases pure_inj_M h; exact hs
  | t :: l, s, s', hs, h => by
    unfold scanChar at h
    rw [List.foldlM_cons] at h
    obtain ⟨s1, h1, h⟩ := bind_eq_pure h
    obtain ⟨_, _, h1⟩ := bind_eq_pure h1
    exact scanChar_fits (scan_fits hs h1) h

theorem charLoopLogged_eq (lexer : Nat → List Nat) : ∀ (i : Nat) (input : List Nat) (s : Rec σ ν), Fits false s →
    charLoopLogged E lexer i input s = charLoop E (completeAll E) lexer i input s
  | _, [], _, _ => rfl
  | i, ch :: rest, s, h => by
    unfold charLoopLogged charLoop
    rw [beginEarlemeLogged_eq h, pure_bind, scanLogged_eq]
    refine bind_congr_pure fun s2 h2 => ?_
    obtain ⟨k1, k2⟩ := endEarlemeLogged_eq (E := E) (scanChar_fits (begin_fits h) h2)
    rw [k1]
    unfold endEarleme
    refine bind_congr_pure fun r hr => ?_
    obtain ⟨s3, ok⟩ := r
    cases ok with
    | true => exact charLoopLogged_eq lexer (i + 1) rest s3 (k2 _ _ hr)
    | false => rfl

theorem parseTokenizingLogged_eq : parseTokenizingLogged E = parseTokenizing E := by
  funext f lexer input
  unfold parseTokenizingLogged parseTokenizing parseTokenizingWith
  refine bind_congr_pure fun s hs => ?_
  obtain ⟨k1, k2⟩ := readSofLogged_eq (E := E) (new_fits hs)
  rw [k1]
  refine bind_congr_pure fun r hr => ?_
  obtain ⟨s1, ok⟩ := r
  cases ok with
  | true =>
    simp only [if_true]
    rw [charLoopLogged_eq lexer 0 input s1 (k2 _ hr)]
    rfl
  | false => rfl

end Rec

/-! ### Calls in any order -/

open Spec

namespace Rec

theorem callLogged_eq {s : Rec σ ν} {c : Call} {p : Bool} (hs : Fits p s) (hc : c = .beginEarleme → p = false) :
    callLogged E s c = call E s c ∧ ∀ s' o, call E s c = pure (s', o) → Fits (pendingFrom p [(c, o)]) s' := by
  have keep : ∀ {α : Type} {x : M α} {g : α → Obs} {s' : Rec σ ν} {o : Obs},
      (x >>= fun a => pure (s, g a)) = pure (s', o) → s' = s := by
    intro α x g s' o h
    obtain ⟨_, _, h⟩ := bind_eq_pure h
    cases pure_inj_M h; rfl
  cases c with
  | beginEarleme =>
    have hp := hc rfl
    subst hp
    refine ⟨by simp only [callLogged, beginEarlemeLogged_eq hs]; rfl, fun s' o h => ?_⟩
    have := pure_inj_M h
    simp only [Prod.mk.injEq] at this
    obtain ⟨rfl, rfl⟩ := this
    exact begin_fits hs
  | scan sym v =>
    refine ⟨by simp only [callLogged, scanLogged_eq]; rfl, fun s' o h => ?_⟩
    obtain ⟨s1, h1, h⟩ := bind_eq_pure h
    cases pure_inj_M h
    exact scan_fits hs h1
  | endEarleme =>
    obtain ⟨k1, k2⟩ := endEarlemeLogged_eq (E := E) hs.weaken
    refine ⟨by simp only [callLogged, k1]; rfl, fun s' o h => ?_⟩
    obtain ⟨⟨s1, b⟩, h1, h⟩ := bind_eq_pure h
    cases pure_inj_M h
    cases b with
    | true => exact k2 _ _ h1
    | false =>
      have : s' = s := by
        unfold endEarlemeWith at h1
        obtain ⟨ex, _, h1⟩ := bind_eq_pure h1
        split at h1
        · cases pure_inj_M h1; rfl
        · obtain ⟨_, _, h1⟩ := bind_eq_pure h1
          obtain ⟨_, _, h1⟩ := bind_eq_pure h1
          have := pure_inj_M h1
          cases this
      rw [this]
      exact hs
  | reset =>
    refine ⟨rfl, fun s' o h => ?_⟩
    obtain ⟨s1, h1, h⟩ := bind_eq_pure h
    cases pure_inj_M h
    exact reset_fits h1
  | setHint sym => exact ⟨rfl, fun s' o h => by cases pure_inj_M h; exact hs⟩
  | clearHint => exact ⟨rfl, fun s' o h => by cases pure_inj_M h; exact hs⟩
  | earleme => exact ⟨rfl, fun s' o h => by cases pure_inj_M h; exact hs⟩
  | isFinished => exact ⟨rfl, fun s' o h => by rw [keep h]; exact hs⟩
  | isExhausted => exact ⟨rfl, fun s' o h => by rw [keep h]; exact hs⟩
  | predictedSymbols => exact ⟨rfl, fun s' o h => by rw [keep h]; exact hs⟩
  | medialItems => exact ⟨rfl, fun s' o h => by rw [keep h]; exact hs⟩
  | trace => exact ⟨rfl, fun s' o h => by rw [keep h]; exact hs⟩
  | events => exact ⟨rfl, fun s' o h => by rw [keep h]; exact hs⟩
  | expectedTerminals => exact ⟨rfl, fun s' o h => by rw [keep h]; exact hs⟩

theorem pendingFrom_cons (p : Bool) (x : Call × Obs) (l : List (Call × Obs)) :
    pendingFrom p (x :: l) = pendingFrom (pendingFrom p [x]) l := by
  obtain ⟨c, o⟩ := x
  cases c <;> try rfl
  cases o <;> try rfl
  rename_i b
  cases b <;> rfl

theorem callsLogged_eq : ∀ (cs : List Call) (s : Rec σ ν) (p : Bool), Fits p s →
    (∀ pre more, cs = pre ++ .beginEarleme :: more → ∀ s' os, calls E pre s = pure (s', os) → pendingFrom p (pre.zip os) = false) →
    callsLogged E cs s = calls E cs s
  | [], _, _, _, _ => rfl
  | c :: rest, s, p, hs, h => by
    obtain ⟨k1, k2⟩ := callLogged_eq (E := E) (c := c) hs fun hc => h [] rest (by rw [hc]; rfl) s [] rfl
    unfold callsLogged calls
    rw [callsWith, k1]
    refine bind_congr_pure fun r hr => ?_
    obtain ⟨s1, o⟩ := r
    simp only
    rw [callsLogged_eq rest s1 _ (k2 _ _ hr) ?_]
    · rfl
    · intro pre more hp s' os h2
      rw [← pendingFrom_cons]
      refine h (c :: pre) more (by rw [hp]; rfl) s' (o :: os) ?_
      unfold calls
      rw [callsWith]
      unfold call at hr
      rw [hr, pure_bind]
      unfold calls at h2
      simp only
      rw [h2]
      rfl

theorem callsLogged_paired : ∀ (cs : List Call) (s : Rec σ ν) (p : Bool) (s' : Rec σ ν) (os : List Obs), Fits p s →
    calls E cs s = pure (s', os) → pairedFrom p (cs.zip os) = true → callsLogged E cs s = pure (s', os)
  | [], _, _, _, _, _, h, _ => h
  | c :: rest, s, p, s', os, hs, h, hp => by
    unfold calls at h
    rw [callsWith] at h
    obtain ⟨⟨s1, o⟩, h1, h⟩ := bind_eq_pure h
    obtain ⟨⟨s2, os'⟩, h2, h⟩ := bind_eq_pure h
    have := pure_inj_M h
    simp only [Prod.mk.injEq] at this
    obtain ⟨rfl, rfl⟩ := this
    rw [List.zip_cons_cons, pairedFrom, Bool.and_eq_true, Bool.or_eq_true] at hp
    obtain ⟨k1, k2⟩ := callLogged_eq (E := E) (c := c) hs fun hc => by
      rcases hp.1 with h | h
      · simp [hc] at h
      · simpa using h
    unfold callsLogged
    rw [k1]
    unfold call
    rw [h1, pure_bind]
    simp only
    rw [callsLogged_paired rest s1 _ _ _ (k2 _ _ h1) h2 hp.2]
    rfl

/-! ### Positions that are begun and not ended -/

/-- The recognizer after so many calls of `begin_earleme`. -/
def begun (s : Rec σ ν) : Nat → Rec σ ν
  | 0 => s
  | k + 1 => (begun s k).beginEarleme

theorem begun_len (s : Rec σ ν) (k : Nat) : (begun s k).medial.len = s.medial.len + k := by
  induction k with
  | zero => rfl
  | succ k ih => rw [begun, begin_len, ih]; omega

theorem begun_predicted (s : Rec σ ν) (k : Nat) : (begun s k).predicted = s.predicted := by
  induction k with
  | zero => rfl
  | succ k ih => exact ih

theorem begun_complete (s : Rec σ ν) (k : Nat) : (begun s k).complete = s.complete := by
  induction k with
  | zero => rfl
  | succ k ih => exact ih

/-- Logging of `begin_earleme` needs as many rows as there are sets. -/
theorem beginEarlemeLogged_panic {s : Rec σ ν} (h1 : 1 ≤ s.medial.len) (h : s.predicted.rows.length < s.medial.len) :
    beginEarlemeLogged s = panicM .index := by
  unfold beginEarlemeLogged
  have : s.beginEarleme.earleme = s.medial.len - 1 := by
    unfold earleme wrappingSub2
    rw [begin_len, if_pos (by omega)]
    omega
  dsimp only
  have e : s.beginEarleme.predicted.row s.beginEarleme.earleme = panicM .index :=
    indexM_panic (by rw [this]; show s.predicted.rows.length ≤ _; omega)
  rw [e]
  rfl

/-- A position without tokens fails and changes nothing. -/
theorem end_begun {s : Rec σ ν} (h : s.complete = []) : endEarleme E s.beginEarleme = pure (s.beginEarleme, false) := by
  have : s.beginEarleme.isExhausted = pure true := by
    unfold isExhausted beginEarleme Vec2d.nextSet Vec2d.last
    simp [h, unwrapM, sliceFromM]
  unfold endEarleme endEarlemeWith
  rw [this]
  rfl

/-- Positions without tokens, one after the other. -/
def failing : Nat → List Call
  | 0 => []
  | k + 1 => .beginEarleme :: .endEarleme :: failing k

theorem calls_failing : ∀ (k : Nat) (s : Rec σ ν), s.complete = [] →
    ∃ r, calls E (failing k) s = pure r
  | 0, s, _ => ⟨_, rfl⟩
  | k + 1, s, h => by
    obtain ⟨r, hr⟩ := calls_failing k s.beginEarleme h
    refine ⟨(r.1, .unit :: .bool false :: r.2), ?_⟩
    unfold failing calls callsWith callWith
    rw [pure_bind]
    simp only
    rw [callsWith]
    simp only [callWith]
    have := end_begun (E := E) h
    unfold endEarleme at this
    rw [this, pure_bind]
    simp only [pure_bind]
    unfold calls at hr
    rw [hr]
    rfl

theorem callsLogged_failing_eq : ∀ (k : Nat) (s : Rec σ ν), s.complete = [] → 1 ≤ s.medial.len →
    s.medial.len + k ≤ s.predicted.rows.length + 1 → callsLogged E (failing k) s = calls E (failing k) s
  | 0, s, _, _, _ => rfl
  | k + 1, s, hc, h1, h => by
    have hF : Fits false s := ⟨h1, by simp; omega⟩
    have h2 := end_begun (E := E) hc
    unfold failing callsLogged
    simp only [callLogged, beginEarlemeLogged_eq hF, pure_bind]
    rw [callsLogged]
    simp only [callLogged]
    rw [(endEarlemeLogged_eq (begin_fits hF)).1, h2, pure_bind]
    simp only [pure_bind]
    rw [callsLogged_failing_eq k s.beginEarleme hc (by rw [begin_len]; omega)
      (by rw [begin_len]; show _ ≤ s.predicted.rows.length + 1; omega)]
    unfold calls
    rw [callsWith]
    simp only [callWith, pure_bind]
    rw [callsWith]
    simp only [callWith]
    unfold endEarleme at h2
    rw [h2, pure_bind]
    rfl

theorem callsLogged_failing : ∀ (k : Nat) (s : Rec σ ν), s.complete = [] → 1 ≤ s.medial.len →
    s.medial.len ≤ s.predicted.rows.length + 1 →
    s.predicted.rows.length + 1 < s.medial.len + k → callsLogged E (failing k) s = panicM .index
  | 0, s, _, _, _, h => by omega
  | k + 1, s, hc, h1, h2, h => by
    unfold failing callsLogged
    by_cases hf : s.medial.len ≤ s.predicted.rows.length
    · have hF : Fits false s := ⟨h1, by simpa using hf⟩
      simp only [callLogged, beginEarlemeLogged_eq hF, pure_bind]
      rw [callsLogged]
      simp only [callLogged]
      rw [(endEarlemeLogged_eq (begin_fits hF)).1, end_begun hc, pure_bind]
      simp only [pure_bind]
      rw [callsLogged_failing k s.beginEarleme hc (by rw [begin_len]; omega) (by rw [begin_len]; exact Nat.succ_le_succ hf)
        (by rw [begin_len]; show s.predicted.rows.length + 1 < _; omega)]
      rfl
    · simp only [callLogged]
      rw [beginEarlemeLogged_panic h1 (by omega)]
      rfl

end Rec

/-! ### `from_grammar` -/

namespace Build

theorem foldl_tcStep_length (rows : List (List Bool)) : ∀ ks : List Nat, (ks.foldl BitMatrix.tcStep rows).length = rows.length := by
  intro ks
  induction ks generalizing rows with
  | nil => rfl
  | cons k ks ih =>
    rw [List.foldl_cons, ih]
    unfold BitMatrix.tcStep
    split <;> simp

theorem set_dim {m m' : BitMatrix} {n i j : Nat} {b : Bool} (hm : m.Dim n) (h : m.set i j b = pure m') :
    m'.Dim n ∧ m'.width = m.width := by
  unfold BitMatrix.set at h
  obtain ⟨r, h1, h⟩ := bind_eq_pure h
  obtain ⟨r', h2, h⟩ := bind_eq_pure h
  cases pure_inj_M h
  have hr := hm.2 r (List.mem_of_getElem? (indexM_pure h1))
  have hr' : r'.length = r.length := by
    unfold setM at h2
    split at h2
    · cases pure_inj_M h2; simp
    · exact absurd h2 panicM_ne_pure
  refine ⟨⟨by simpa using hm.1, fun x hx => ?_⟩, rfl⟩
  rcases List.mem_or_eq_of_mem_set hx with hx | rfl
  · exact hm.2 x hx
  · rw [hr', hr]

theorem predictionMatrix_dim {root : Nat → M Nat} {syms : Nat} {c : Cfg} {m : BitMatrix}
    (h : predictionMatrix root syms c = pure m) : m.Dim syms ∧ m.width = syms := by
  unfold predictionMatrix at h
  obtain ⟨m1, h1, h⟩ := bind_eq_pure h
  cases pure_inj_M h
  have := foldlM_inv (P := fun m : BitMatrix => m.Dim syms ∧ m.width = syms)
    (fun m r m' hm hr => by
      obtain ⟨_, _, hr⟩ := bind_eq_pure hr
      split at hr
      · obtain ⟨_, _, hr⟩ := bind_eq_pure hr
        obtain ⟨a, b⟩ := set_dim hm.1 hr
        exact ⟨a, b.trans hm.2⟩
      · cases pure_inj_M hr; exact hm)
    ⟨BitMatrix.new_dim syms syms, rfl⟩ h1
  obtain ⟨a, b, _⟩ := BitMatrix.transitiveClosure_spec this.1 (by omega)
  obtain ⟨a', b', _⟩ := BitMatrix.reflexiveClosure_spec a
  exact ⟨a', by rw [b', b, this.2]⟩

theorem rulesByRhs0_rhs0 {c : Cfg} {l : List CfgRule} (h : rulesByRhs0 c = pure l) : ∀ r ∈ c.rules, ∃ x, rhs0 r = pure x := by
  unfold rulesByRhs0 at h
  obtain ⟨k, h1, _⟩ := bind_eq_pure h
  intro r hr
  obtain ⟨x, hx⟩ := mapM_pure_mem h1 r hr
  obtain ⟨y, hy, _⟩ := bind_eq_pure hx
  exact ⟨y, hy⟩

theorem symInfo_returns {c : Cfg} {m : BitMatrix} {syms internal : Nat} (h0 : ∀ r ∈ c.rules, ∃ x, rhs0 r = pure x)
    (hm : m.Dim syms) (hw : m.width = syms) : ∃ u, symInfo c m syms internal = pure u := by
  unfold symInfo
  obtain ⟨l1, h1⟩ := mapM_exists (f := fun r : CfgRule => (if r.lhs = internal then some <$> rhs0 r else pure none : M (Option Nat)))
    (l := c.rules) (fun r hr => by
      obtain ⟨x, hx⟩ := h0 r hr
      split
      · exact ⟨some x, by rw [hx]; rfl⟩
      · exact ⟨none, rfl⟩)
  obtain ⟨l2, h2⟩ := mapM_exists (f := fun r : CfgRule => do
      let r0 ← rhs0 r
      if r0 = internal ∨ r.rhs[1]? = some internal then some <$> rhs0 r else pure none)
    (l := c.rules) (fun r hr => by
      obtain ⟨x, hx⟩ := h0 r hr
      rw [hx, pure_bind]
      split
      · exact ⟨some x, rfl⟩
      · exact ⟨none, rfl⟩)
  rw [h1, pure_bind, h2, pure_bind]
  split
  · next hlt =>
    have hrow : ∀ i, i < syms → ∃ r, m.row i = pure r ∧ r.length = syms := fun i hi =>
      ⟨m.rows[i]'(by rw [hm.1]; exact hi), indexM_lt _, by rw [hm.2 _ (List.getElem_mem _), hw]⟩
    obtain ⟨r, hr, _⟩ := hrow internal hlt
    obtain ⟨l3, h3⟩ := mapM_exists (f := fun sym => m.get sym internal) (l := List.range syms) (fun i hi => by
      obtain ⟨r, hr, hl⟩ := hrow i (List.mem_range.1 hi)
      exact ⟨_, by unfold BitMatrix.get; rw [hr, pure_bind]; exact indexM_lt (by rw [hl]; exact hlt)⟩)
    rw [hr, pure_bind, h3]
    exact ⟨(), rfl⟩
  · exact ⟨(), rfl⟩

theorem traceTablesLogged_eq (c : Cfg) (maps : Mapping) : traceTablesLogged c maps = traceTables c := by
  unfold traceTablesLogged traceTables
  refine bind_congr_pure fun g _ => ?_
  refine bind_congr_pure fun syms _ => ?_
  refine bind_congr_pure fun l hl => ?_
  refine bind_congr_pure fun m hm => ?_
  obtain ⟨h1, h2⟩ := predictionMatrix_dim hm
  obtain ⟨us, hus⟩ := mapM_exists (f := fun internal => symInfo c m syms internal)
    (l := List.range (min maps.toExternal.length syms)) (fun _ _ => symInfo_returns (rulesByRhs0_rhs0 hl) h1 h2)
  rw [hus]
  rfl

end Build
end Gearley
