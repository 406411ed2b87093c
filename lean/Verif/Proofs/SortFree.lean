import Verif.Proofs.Cycle

/-!
# The order chosen by an unstable sort

If no two items of the current set agree in dot and origin, all sorts give the same set.
-/

namespace Gearley
open Gearley.Spec
variable {σ ν : Type}

theorem Key.le_antisymm {a b : Key} (h1 : Key.le a b = true) (h2 : Key.le b a = true) : a = b := by
  obtain ⟨a1, a2, a3⟩ := a
  obtain ⟨b1, b2, b3⟩ := b
  simp only [Key.le, decide_eq_true_eq] at h1 h2
  simp only [Prod.mk.injEq]
  omega

/-- On distinct keys the result of a sort is determined. -/
theorem Sorter.unique (S T : Sorter) {α : Type} (k : α → Key) {l : List α} (h : (l.map k).Nodup) : S.sort k l = T.sort k l := by
  have hp : (S.sort k l).Perm (T.sort k l) := (S.perm k l).trans (T.perm k l).symm
  refine hp.eq_of_pairwise (le := fun a b => Key.le (k a) (k b) = true) ?_ (S.sorted k l) (T.sorted k l)
  intro a b ha hb h1 h2
  have := Key.le_antisymm h1 h2
  exact List.inj_on_of_nodup_map h ((S.perm k l).mem_iff.1 ha) ((T.perm k l).mem_iff.1 hb) this

/-- The same environment with another sort. -/
abbrev Env.withSort (E : Env σ ν) (T : Sorter) : Env σ ν := { E with sorter := T }

theorem Vec2d.modifyLast_last {α : Type} {v v' : Vec2d α} {f : List α → M (List α)} (h : v.modifyLast f = pure v') :
    ∃ l l', v.last = pure l ∧ f l = pure l' ∧ v'.last = pure l' := by
  unfold Vec2d.modifyLast at h
  obtain ⟨i, h1, h⟩ := bind_eq_pure h
  obtain ⟨l, h2, h⟩ := bind_eq_pure h
  obtain ⟨l', h3, h⟩ := bind_eq_pure h
  cases pure_inj_M h
  refine ⟨l, l', ?_, h3, ?_⟩
  · unfold Vec2d.last
    rw [h1, pure_bind, h2]
  · unfold Vec2d.last
    rw [h1, pure_bind]
    unfold sliceFromM at h2 ⊢
    split at h2
    · next hi =>
      rw [if_pos (by simp; omega)]
      congr 1
      rw [List.drop_append_of_le_length (by simp; omega)]
      simp
    · exact absurd h2 panicM_ne_pure

theorem Vec2d.truncate_last {α : Type} {v v' : Vec2d α} {k : Nat} (h : v.truncate k = pure v') {l : List α}
    (hl : v.last = pure l) : v'.last = pure l := by
  unfold Vec2d.truncate at h
  obtain ⟨st, h1, h⟩ := bind_eq_pure h
  obtain ⟨la, h2, h⟩ := bind_eq_pure h
  obtain ⟨ch, h3, h⟩ := bind_eq_pure h
  obtain ⟨n, h4, h⟩ := bind_eq_pure h
  cases pure_inj_M h
  unfold Vec2d.last at hl ⊢
  rw [h2, pure_bind] at hl
  unfold sliceFromM at hl
  unfold Vec2d.copyWithin at h3
  unfold subM at h4
  split at hl
  · next hla =>
    cases pure_inj_M hl
    split at h3
    · next hc =>
      cases pure_inj_M h3
      split at h4
      · next hs =>
        cases pure_inj_M h4
        have hk : v.indices[k]? = some st := by
          unfold indexM at h1
          split at h1
          · next h => cases pure_inj_M h1; exact h
          · exact absurd h1 panicM_ne_pure
        have hkl := (List.getElem?_eq_some_iff.1 hk).1
        have hlast : (v.indices.take (k + 1)).getLast? = some st := by
          rw [List.getLast?_take, if_neg (by omega)]
          simp [hk]
        simp only [hlast, unwrapM, pure_bind]
        unfold sliceFromM
        have hlen : (v.chart.take st ++ v.chart.drop la ++ v.chart.drop (st + (v.chart.length - la))).length = v.chart.length := by
          simp only [List.length_append, List.length_take, List.length_drop]; omega
        rw [hlen]
        have : (v.chart.take st ++ v.chart.drop la ++ v.chart.drop (st + (v.chart.length - la))).take (v.chart.length + st - la)
            = v.chart.take st ++ v.chart.drop la := by
          rw [List.take_append_of_le_length (by simp only [List.length_append, List.length_take, List.length_drop]; omega)]
          rw [List.take_of_length_le (by simp only [List.length_append, List.length_take, List.length_drop]; omega)]
        rw [this, if_pos (by simp only [List.length_append, List.length_take, List.length_drop]; omega)]
        congr 1
        rw [List.drop_append_of_le_length (by simp only [List.length_take]; omega)]
        rw [List.drop_of_length_le (by simp only [List.length_take]; omega)]
        simp
      · exact absurd h4 panicM_ne_pure
    · exact absurd h3 panicM_ne_pure
  · exact absurd hl panicM_ne_pure

namespace Rec

/-- Dots and origins of the current set. -/
def CurNodup (s : Rec σ ν) : Prop := ∃ l, s.medial.last = pure l ∧ (l.map fun it => (it.dot, it.origin)).Nodup

theorem mapM_keys {E : Env σ ν} {l : List (Item ν)} {k : List (Key × Item ν)}
    (h : (l.mapM fun item => do
        let r ← E.g.getRhs1 item.dot
        let r ← unwrapM r
        pure ((r, item.dot, item.origin), item) : M _) = pure k) :
    k.map (·.2) = l ∧ ∀ p ∈ k, p.1.2 = (p.2.dot, p.2.origin) := by
  induction l generalizing k with
  | nil => cases pure_inj_M h; simp
  | cons a l ih =>
    rw [List.mapM_cons] at h
    obtain ⟨p, h1, h⟩ := bind_eq_pure h
    obtain ⟨k', h2, h⟩ := bind_eq_pure h
    cases pure_inj_M h
    obtain ⟨r, _, h1⟩ := bind_eq_pure h1
    obtain ⟨r', _, h1⟩ := bind_eq_pure h1
    cases pure_inj_M h1
    obtain ⟨e1, e2⟩ := ih h2
    refine ⟨by simp [e1], ?_⟩
    intro p hp
    rcases List.mem_cons.1 hp with rfl | hp
    · rfl
    · exact e2 p hp

/-- The sorted set is a rearrangement of the set. -/
theorem sortMedial_perm {E : Env σ ν} {s s' : Rec σ ν} (h : sortMedial E s = pure s') :
    ∃ l l', s.medial.last = pure l ∧ s'.medial.last = pure l' ∧ l'.Perm l := by
  unfold sortMedial at h
  obtain ⟨m, h1, h⟩ := bind_eq_pure h
  cases pure_inj_M h
  obtain ⟨l, l', h2, h3, h4⟩ := Vec2d.modifyLast_last h1
  refine ⟨l, l', h2, h4, ?_⟩
  split at h3
  · cases pure_inj_M h3; exact .refl _
  · obtain ⟨k, h5, h3⟩ := bind_eq_pure h3
    cases pure_inj_M h3
    have := (E.sorter.perm (·.1) k).map (·.2)
    rwa [(mapM_keys h5).1] at this

theorem removeUnreachable_last {s s' : Rec σ ν} (h : removeUnreachable s = pure s') {l : List (Item ν)}
    (hl : s.medial.last = pure l) : s'.medial.last = pure l := by
  unfold removeUnreachable at h
  obtain ⟨la, h1, h⟩ := bind_eq_pure h
  split at h
  all_goals
    dsimp only at h
    split at h
    · obtain ⟨m, h2, h⟩ := bind_eq_pure h
      obtain ⟨_, _, h⟩ := bind_eq_pure h
      obtain ⟨_, _, h⟩ := bind_eq_pure h
      cases pure_inj_M h
      exact Vec2d.truncate_last h2 hl
    · cases pure_inj_M h; exact hl

theorem predictionPass_medial {E : Env σ ν} {s s' : Rec σ ν} (h : predictionPass E s = pure s') : s'.medial = s.medial := by
  unfold predictionPass at h
  obtain ⟨_, _, h⟩ := bind_eq_pure h
  obtain ⟨_, _, h⟩ := bind_eq_pure h
  obtain ⟨_, _, h⟩ := bind_eq_pure h
  obtain ⟨_, _, h⟩ := bind_eq_pure h
  cases pure_inj_M h
  rfl

/-- If the set has no item twice after a position was closed, it had none before. -/
theorem curNodup_of_advance {E : Env σ ν} {s s' : Rec σ ν} (h : advanceAfterCompletion E s = pure s') (hs : CurNodup s') :
    CurNodup s := by
  unfold advanceAfterCompletion at h
  obtain ⟨s1, h1, h⟩ := bind_eq_pure h
  obtain ⟨s2, h2, h⟩ := bind_eq_pure h
  split at h
  · exact absurd h panicM_ne_pure
  · obtain ⟨l, l', e1, e2, e3⟩ := sortMedial_perm h1
    have e4 := removeUnreachable_last h2 e2
    obtain ⟨l2, e5, e6⟩ := hs
    rw [predictionPass_medial h, e4] at e5
    cases pure_inj_M e5
    exact ⟨l, e1, (e3.map _).nodup_iff.1 e6⟩

theorem sortMedial_withSort {E : Env σ ν} {s : Rec σ ν} (hs : CurNodup s) (T : Sorter) :
    sortMedial (E.withSort T) s = sortMedial E s := by
  obtain ⟨l, hl, hn⟩ := hs
  unfold sortMedial Vec2d.modifyLast
  unfold Vec2d.last at hl
  obtain ⟨i, h1, h2⟩ := bind_eq_pure hl
  simp only [h1, pure_bind, h2]
  split
  · rfl
  · simp only [bind_assoc]
    cases hk : (l.mapM fun item => do
        let r ← E.g.getRhs1 item.dot
        let r ← unwrapM r
        pure ((r, item.dot, item.origin), item) : M (List (Key × Item ν))) with
    | none => rfl
    | some x =>
      cases x with
      | error p => rfl
      | ok k =>
        obtain ⟨e1, e2⟩ := mapM_keys (E := E) (k := k) hk
        have hn' : (k.map (·.1)).Nodup := by
          rw [← e1, List.map_map] at hn
          have : k.map ((fun it : Item ν => (it.dot, it.origin)) ∘ fun x => x.2) = (k.map (·.1)).map (·.2) := by
            rw [List.map_map]
            exact List.map_congr_left fun p hp => (e2 p hp).symm
          rw [this] at hn
          exact hn.of_map _
        show (pure k >>= _ : M _) = pure k >>= _
        simp only [pure_bind]
        rw [Sorter.unique T E.sorter _ hn']

theorem advance_withSort {E : Env σ ν} {s : Rec σ ν} (hs : CurNodup s) (T : Sorter) :
    advanceAfterCompletion (E.withSort T) s = advanceAfterCompletion E s := by
  unfold advanceAfterCompletion
  rw [sortMedial_withSort hs]
  rfl

theorem new_withSort {E : Env σ ν} (T : Sorter) (f : σ) : new (E.withSort T) f = new E f := rfl

theorem summandLoop_withSort {E : Env σ ν} (T : Sorter) (o A : Nat) (fuel : Nat) :
    summandLoop (E.withSort T) o A fuel = summandLoop E o A fuel := by
  induction fuel with
  | zero => rfl
  | succ k ih =>
    funext s
    simp only [summandLoop, ih]
    rfl

theorem completeAll_withSort {E : Env σ ν} (T : Sorter) : completeAll (E.withSort T) = completeAll E := by
  have h1 : ∀ s o A, completeEntireSum (E.withSort T) s o A = completeEntireSum E s o A := by
    intro s o A
    simp only [completeEntireSum, summandLoop_withSort]
    rfl
  have : completeStep (E.withSort T) = completeStep E := by
    funext s
    simp only [completeStep, h1]
    rfl
  unfold completeAll
  rw [this]

/-- If a position gets through and leaves a set without repeated items, the sort does not matter. -/
theorem position_withSort {E : Env σ ν} {s s' : Rec σ ν} {toks : List (Nat × Nat)} {b : Bool}
    (h : position E s toks = pure (s', b)) (hs : b = true → CurNodup s') (T : Sorter) :
    position (E.withSort T) s toks = pure (s', b) := by
  rw [← h]
  unfold position positionWith at h ⊢
  obtain ⟨s1, h1, h⟩ := bind_eq_pure h
  have : scanAll (E.withSort T) s.beginEarleme toks = scanAll E s.beginEarleme toks := rfl
  rw [this, h1, pure_bind, pure_bind]
  unfold endEarlemeWith at h ⊢
  obtain ⟨ex, h2, h⟩ := bind_eq_pure h
  rw [h2, pure_bind, pure_bind]
  split
  · rfl
  · next hex =>
    rw [if_neg hex] at h
    obtain ⟨s2, h3, h⟩ := bind_eq_pure h
    obtain ⟨s3, h4, h⟩ := bind_eq_pure h
    have := pure_inj_M h
    simp only [Prod.mk.injEq] at this
    obtain ⟨rfl, rfl⟩ := this
    rw [completeAll_withSort, h3, pure_bind, pure_bind, advance_withSort (curNodup_of_advance h4 (hs rfl))]

theorem session_snoc {E : Env σ ν} (pre : List Step) (op : HintOp) (toks : List (Nat × Nat)) (s : Rec σ ν) :
    session E (pre ++ [(op, toks)]) s = (session E pre s >>= fun r =>
      if r.2 then position E (applyHint r.1 op) toks else pure (r.1, false)) := by
  unfold session position
  rw [sessionWith_append]
  congr 1
  funext ⟨s1, ok⟩
  cases ok with
  | false => rfl
  | true =>
    simp only [if_true, sessionWith]
    refine Eq.trans ?_ (bind_pure _)
    congr 1
    funext ⟨s2, b⟩
    cases b
    · simp
    · simp

end Rec
end Gearley
