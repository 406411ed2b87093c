import Verif.Model.Width
import Verif.Proofs.Logging

/-!
# The width of `usize` makes no difference

A recognizer that has not begun a position is as new. Otherwise `earleme` does not wrap around.
-/

namespace Gearley
namespace Rec
variable {σ ν : Type} {W : Nat} {E : Env σ ν}

/-- A position was begun, or the chart is as new. -/
def Begun (s : Rec σ ν) : Prop := 2 ≤ s.medial.len ∨ s.medial = Vec2d.new ∧ s.complete = []

theorem Begun.fresh {s : Rec σ ν} (h : Begun s) (h2 : ¬ 2 ≤ s.medial.len) : s.medial = Vec2d.new ∧ s.complete = [] :=
  h.resolve_left h2

theorem Begun.len {s : Rec σ ν} (h : Begun s) : 1 ≤ s.medial.len := by
  rcases h with h | ⟨h, _⟩
  · omega
  · rw [h]; exact Nat.le_refl 1

theorem earlemeOf_eq {s : Rec σ ν} (h : 2 ≤ s.medial.len) : s.earlemeOf W = s.earleme := by
  unfold earlemeOf earleme wrappingSub2
  rw [if_pos h, if_pos h]

theorem earleme_lt {s : Rec σ ν} (h : 2 ≤ s.medial.len) : s.earleme = s.medial.len - 2 := by
  unfold earleme wrappingSub2
  rw [if_pos h]

theorem earlemeOf_new {s : Rec σ ν} (h : s.medial = Vec2d.new) : s.earlemeOf W = maxOf W := by
  unfold earlemeOf maxOf
  have e : s.medial.len = 1 := by rw [h]; rfl
  rw [e, if_neg (by omega)]
  omega

theorem earleme_new {s : Rec σ ν} (h : s.medial = Vec2d.new) : s.earleme = maxUsize := by
  unfold earleme; rw [h]; rfl

theorem max_lt (hW : 32 ≤ W) : 2 ^ 32 - 1 ≤ maxOf W := by
  have := Nat.pow_le_pow_right (n := 2) (by decide) hW
  unfold maxOf; omega

theorem succOf_eq {a : Nat} (hW : 32 ≤ W) (h : a + 1 < 2 ^ 32) : succOf W a = succM a := by
  have := max_lt hW
  unfold succOf succM maxUsize
  rw [if_pos (by omega), if_pos (by omega)]

theorem assert_false : assertM false = panicM .assert := rfl

theorem scanOf_eq {s : Rec σ ν} {sym v : Nat} (hW : 32 ≤ W) (h1 : Begun s) (h2 : s.medial.len ≤ 2 ^ 32) :
    scanOf W E s sym v = scan E s sym v := by
  rw [← scan32_eq h1.len h2]
  unfold scanOf scan32
  by_cases h : 2 ≤ s.medial.len
  · rw [earlemeOf_eq h]
    have h3 := earleme_lt h
    have := max_lt hW
    have e1 : (s.earleme != maxOf W) = true := by simp only [bne_iff_ne, ne_eq]; omega
    have e2 : (s.earleme != maxUsize) = true := by simp only [bne_iff_ne, ne_eq, maxUsize]; omega
    rw [e1, e2]
  · have h3 := (h1.fresh h).1
    rw [earlemeOf_new h3, earleme_new h3, bne_self_eq_false, bne_self_eq_false, assert_false, panicM_bind, panicM_bind]

theorem removeUnreachableOf_eq {s : Rec σ ν} (h : 2 ≤ s.medial.len) : removeUnreachableOf W s = removeUnreachable s := by
  unfold removeUnreachableOf removeUnreachable
  rw [earlemeOf_eq h]
  refine bind_congr_pure fun l _ => ?_
  dsimp only
  have key : ∀ k : Nat,
      (s.medial.truncate (k + 1) >>= fun medial =>
        assertM ((({ s with predicted := s.predicted.truncate (k + 1), medial := medial } : Rec σ ν).medial.len) == k + 2) >>= fun _ =>
        assertM (({ s with predicted := s.predicted.truncate (k + 1), medial := medial } : Rec σ ν).earlemeOf W == k) >>= fun _ =>
        (pure { s with predicted := s.predicted.truncate (k + 1), medial := medial } : M (Rec σ ν))) =
      (s.medial.truncate (k + 1) >>= fun medial =>
        assertM ((({ s with predicted := s.predicted.truncate (k + 1), medial := medial } : Rec σ ν).medial.len) == k + 2) >>= fun _ =>
        assertM (({ s with predicted := s.predicted.truncate (k + 1), medial := medial } : Rec σ ν).earleme == k) >>= fun _ =>
        (pure { s with predicted := s.predicted.truncate (k + 1), medial := medial } : M (Rec σ ν))) := by
    intro k
    refine bind_congr_pure fun m _ => ?_
    refine bind_congr_pure fun _ ha => ?_
    rw [earlemeOf_eq]
    unfold assertM at ha
    split at ha
    · rename_i hb
      have : m.len = k + 2 := by simpa using hb
      show 2 ≤ m.len
      omega
    · exact absurd ha panicM_ne_pure
  cases (l.map (·.origin)).max? with
  | none =>
    dsimp only
    split
    · exact key _
    · rfl
  | some m =>
    dsimp only
    split
    · exact key _
    · rfl

theorem predictionPassOf_eq {s : Rec σ ν} (hW : 32 ≤ W) (h : 2 ≤ s.medial.len) (h2 : s.medial.len ≤ 2 ^ 32) :
    predictionPassOf W E s = predictionPass E s := by
  unfold predictionPassOf predictionPass
  rw [earlemeOf_eq h, succOf_eq hW (by rw [earleme_lt h]; omega)]

/-- Removal of sets leaves a begun position. -/
theorem removeUnreachable_begun {s s' : Rec σ ν} (h : removeUnreachable s = pure s') (h2 : 2 ≤ s.medial.len) :
    2 ≤ s'.medial.len := by
  unfold removeUnreachable at h
  obtain ⟨l, _, h⟩ := bind_eq_pure h
  dsimp only at h
  have key : ∀ (k : Nat) (s1 : Rec σ ν), assertM (s1.medial.len == k + 2) = pure () → 2 ≤ s1.medial.len := by
    intro k s1 ha
    unfold assertM at ha
    split at ha
    · rename_i hb
      have : s1.medial.len = k + 2 := by simpa using hb
      omega
    · exact absurd ha panicM_ne_pure
  split at h <;> split at h
  · obtain ⟨m, _, h⟩ := bind_eq_pure h
    obtain ⟨_, ha, h⟩ := bind_eq_pure h
    obtain ⟨_, _, h⟩ := bind_eq_pure h
    cases pure_inj_M h
    exact key _ _ ha
  · cases pure_inj_M h; exact h2
  · obtain ⟨m, _, h⟩ := bind_eq_pure h
    obtain ⟨_, ha, h⟩ := bind_eq_pure h
    obtain ⟨_, _, h⟩ := bind_eq_pure h
    cases pure_inj_M h
    exact key _ _ ha
  · cases pure_inj_M h; exact h2

theorem removeUnreachable_rowsLe {s s' : Rec σ ν} (h : removeUnreachable s = pure s') :
    s'.predicted.rows.length ≤ s.predicted.rows.length := by
  unfold removeUnreachable at h
  obtain ⟨l, _, h⟩ := bind_eq_pure h
  dsimp only at h
  split at h <;> split at h
  · obtain ⟨m, _, h⟩ := bind_eq_pure h
    obtain ⟨_, ha, h⟩ := bind_eq_pure h
    obtain ⟨_, _, h⟩ := bind_eq_pure h
    cases pure_inj_M h
    simp [BitMatrix.truncate]
  · cases pure_inj_M h; exact Nat.le_refl _
  · obtain ⟨m, _, h⟩ := bind_eq_pure h
    obtain ⟨_, ha, h⟩ := bind_eq_pure h
    obtain ⟨_, _, h⟩ := bind_eq_pure h
    cases pure_inj_M h
    simp [BitMatrix.truncate]
  · cases pure_inj_M h; exact Nat.le_refl _

theorem exhausted_new {s : Rec σ ν} (h : s.medial = Vec2d.new ∧ s.complete = []) : s.isExhausted = pure true := by
  unfold isExhausted
  rw [h.1, h.2]
  rfl

theorem endEarlemeOf_eq {s : Rec σ ν} (hW : 32 ≤ W) (h1 : Begun s) (h2 : s.medial.len ≤ 2 ^ 32) :
    endEarlemeOf W E (completeAll E) s = endEarlemeWith E (completeAll E) s := by
  unfold endEarlemeOf endEarlemeWith
  by_cases h : 2 ≤ s.medial.len
  · refine bind_congr_pure fun b _ => ?_
    cases b with
    | true => rfl
    | false =>
      simp only [Bool.false_eq_true, if_false]
      refine bind_congr_pure fun s1 hs1 => ?_
      have e1 : s1.medial.len = s.medial.len := congrArg List.length (completeAll_keepsSets _ _ hs1)
      unfold advanceAfterCompletionOf advanceAfterCompletion
      congr 1
      refine bind_congr_pure fun s2 hs2 => ?_
      have e2 := sortMedial_len hs2
      rw [removeUnreachableOf_eq (by omega)]
      refine bind_congr_pure fun s3 hs3 => ?_
      have e3 := removeUnreachable_begun hs3 (by omega)
      have e4 := (removeUnreachable_len hs3).1
      rw [predictionPassOf_eq hW e3 (by omega)]
  · rw [exhausted_new (h1.fresh h)]
    rfl

theorem finishedNodeOf_eq {s : Rec σ ν} (hW : 32 ≤ W) (h1 : Begun s) (h2 : s.medial.len ≤ 2 ^ 32) :
    finishedNodeOf W E s = finishedNode E s := by
  unfold finishedNodeOf finishedNode
  have : (s.earlemeOf W == maxOf W) = (s.earleme == maxUsize) := by
    by_cases h : 2 ≤ s.medial.len
    · rw [earlemeOf_eq h]
      have h3 := earleme_lt h
      have := max_lt hW
      have e1 : (s.earleme == maxOf W) = false := by simp only [beq_eq_false_iff_ne, ne_eq]; omega
      have e2 : (s.earleme == maxUsize) = false := by simp only [beq_eq_false_iff_ne, ne_eq, maxUsize]; omega
      rw [e1, e2]
    · have h3 := (h1.fresh h).1
      rw [earlemeOf_new h3, earleme_new h3, beq_self_eq_true, beq_self_eq_true]
  rw [this]
  rfl

theorem isFinishedOf_eq {s : Rec σ ν} (hW : 32 ≤ W) (h1 : Begun s) (h2 : s.medial.len ≤ 2 ^ 32) :
    isFinishedOf W E s = isFinished E s := by
  unfold isFinishedOf isFinished
  rw [finishedNodeOf_eq hW h1 h2]

theorem row_new {m : BitMatrix} {i : Nat} (h : m.rows.length ≤ i) : m.row i = panicM .index := by
  unfold BitMatrix.row indexM
  rw [List.getElem?_eq_none h]

theorem predictedSymbolsOf_eq {s : Rec σ ν} (hW : 32 ≤ W) (h1 : Begun s) (h2 : s.predicted.rows.length < 2 ^ 32) :
    s.predictedSymbolsOf W = s.predictedSymbols := by
  unfold predictedSymbolsOf predictedSymbols
  by_cases h : 2 ≤ s.medial.len
  · rw [earlemeOf_eq h]
  · have h3 := (h1.fresh h).1
    have := max_lt hW
    rw [earlemeOf_new h3, earleme_new h3, row_new (i := maxOf W) (by omega), row_new (i := maxUsize) (by unfold maxUsize; omega)]

theorem index_new {m : Vec2d (Item ν)} {i : Nat} (h : m = Vec2d.new) (hi : 1 ≤ i) : m.index i = panicM .index := by
  subst h
  unfold Vec2d.index indexM
  rw [List.getElem?_eq_none (by exact hi)]
  rfl

theorem medialItemsOf_eq {s : Rec σ ν} (hW : 32 ≤ W) (h1 : Begun s) : s.medialItemsOf W = s.medialItems := by
  unfold medialItemsOf medialItems
  by_cases h : 2 ≤ s.medial.len
  · rw [earlemeOf_eq h]
  · have h3 := (h1.fresh h).1
    have := max_lt hW
    rw [earlemeOf_new h3, earleme_new h3, index_new (i := maxOf W) h3 (by omega), index_new (i := maxUsize) h3 (by unfold maxUsize; omega)]

theorem traceOf_eq {s : Rec σ ν} (hW : 32 ≤ W) (h1 : Begun s) (h2 : s.predicted.rows.length < 2 ^ 32) :
    traceOf W E s = trace E s := by
  unfold traceOf trace
  rw [predictedSymbolsOf_eq hW h1 h2, medialItemsOf_eq hW h1]
  by_cases h : 2 ≤ s.medial.len
  · rw [earlemeOf_eq h]
  · have h3 := (h1.fresh h).1
    have : s.predictedSymbols = panicM .index := by
      unfold predictedSymbols
      rw [earleme_new h3, row_new (i := maxUsize) (by unfold maxUsize; omega), panicM_bind]
    rw [this]
    simp only [panicM_bind]

theorem eventsOf_eq {s : Rec σ ν} (hW : 32 ≤ W) (h1 : Begun s) (h2 : s.predicted.rows.length < 2 ^ 32) :
    eventsOf W E s = events E s := by
  unfold eventsOf events
  rw [predictedSymbolsOf_eq hW h1 h2, medialItemsOf_eq hW h1]

theorem expectedTerminalsOf_eq {s : Rec σ ν} (hW : 32 ≤ W) (h1 : Begun s) : expectedTerminalsOf W E s = expectedTerminals E s := by
  unfold expectedTerminalsOf expectedTerminals
  rw [medialItemsOf_eq hW h1]

/-- What a client sees of a result of type `usize` in `W` bits. -/
def _root_.Gearley.Obs.narrow (W : Nat) : Obs → Obs
  | .num n => .num (n % 2 ^ W)
  | o => o

theorem callOf_eq {s : Rec σ ν} (hW : 32 ≤ W) (hW' : W ≤ 64) (h1 : Begun s) (h2 : s.medial.len ≤ 2 ^ 32)
    (h3 : s.predicted.rows.length < 2 ^ 32) (c : Call) :
    callOf W E (completeAll E) s c = callWith E (completeAll E) s c >>= fun p => pure (p.1, p.2.narrow W) := by
  cases c <;> simp only [callOf, callWith, pure_bind, bind_assoc, Obs.narrow]
  case scan => rw [scanOf_eq hW h1 h2]
  case endEarleme => rw [endEarlemeOf_eq hW h1 h2]
  case isFinished => rw [isFinishedOf_eq hW h1 h2]
  case predictedSymbols => rw [predictedSymbolsOf_eq hW h1 h3]
  case medialItems => rw [medialItemsOf_eq hW h1]
  case trace => rw [traceOf_eq hW h1 h3]
  case events => rw [eventsOf_eq hW h1 h3]
  case expectedTerminals => rw [expectedTerminalsOf_eq hW h1]
  case earleme =>
    have : s.earlemeOf W = s.earleme % 2 ^ W := by
      have hp := Nat.pow_le_pow_right (n := 2) (by decide) hW
      by_cases h : 2 ≤ s.medial.len
      · rw [earlemeOf_eq h, Nat.mod_eq_of_lt]
        have := earleme_lt h
        omega
      · have h4 := (h1.fresh h).1
        rw [earlemeOf_new h4, earleme_new h4]
        unfold maxOf maxUsize
        have hd : 2 ^ 64 = 2 ^ W * 2 ^ (64 - W) := by rw [← Nat.pow_add, Nat.add_sub_of_le hW']
        have hq : 0 < 2 ^ (64 - W) := Nat.two_pow_pos _
        obtain ⟨q, hq⟩ := Nat.exists_eq_add_of_le' hq
        rw [hd, hq, Nat.mul_add, Nat.mul_one, Nat.add_sub_assoc (by omega), Nat.mul_add_mod, Nat.mod_eq_of_lt (by omega)]
    rw [this]

theorem predictRow_new {s s' : Rec σ ν} (h : reset E s = pure s') :
    s'.medial = Vec2d.new ∧ s'.complete = [] ∧ s'.predicted.rows.length = s.predicted.rows.length := by
  unfold reset at h
  obtain ⟨_, _, h⟩ := bind_eq_pure h
  obtain ⟨_, _, h⟩ := bind_eq_pure h
  obtain ⟨_, _, h⟩ := bind_eq_pure h
  cases pure_inj_M h
  exact ⟨rfl, rfl, by simp⟩

theorem endEarleme_begun {s : Rec σ ν} {r : Rec σ ν × Bool} (h1 : Begun s) (h : endEarlemeWith E (completeAll E) s = pure r) :
    Begun r.1 ∧ r.1.medial.len ≤ s.medial.len ∧ r.1.predicted.rows.length ≤ s.predicted.rows.length + 1 := by
  by_cases h2 : 2 ≤ s.medial.len
  · refine ⟨.inl ?_, (endEarlemeWith_len completeAll_keepsSets h).1, ?_⟩
    all_goals
      unfold endEarlemeWith at h
      obtain ⟨b, _, h⟩ := bind_eq_pure h
      cases b with
      | true => cases pure_inj_M h; first | exact h2 | exact Nat.le_succ _
      | false =>
        obtain ⟨s1, hs1, h⟩ := bind_eq_pure h
        obtain ⟨s2, hs2, h⟩ := bind_eq_pure h
        cases pure_inj_M h
        have e1 : s1.medial.len = s.medial.len := congrArg List.length (completeAll_keepsSets _ _ hs1)
        have f1 := completeAll_predicted hs1
        unfold advanceAfterCompletion at hs2
        obtain ⟨s3, hs3, hs2⟩ := bind_eq_pure hs2
        obtain ⟨s4, hs4, hs2⟩ := bind_eq_pure hs2
        have e3 := sortMedial_len hs3
        have f3 := sortMedial_predicted hs3
        have e4 := removeUnreachable_begun hs4 (by omega)
        have f4 := removeUnreachable_rowsLe hs4
        split at hs2
        · exact absurd hs2 panicM_ne_pure
        · first
          | (rw [predictionPass_medial hs2]; exact e4)
          | (rw [(predictionPass_rows hs2).1]; rw [f3, f1] at f4; omega)
  · unfold endEarlemeWith at h
    rw [exhausted_new (h1.fresh h2), pure_bind] at h
    cases pure_inj_M h
    exact ⟨h1, Nat.le_refl _, Nat.le_succ _⟩

theorem scan_begun {s s' : Rec σ ν} {sym v : Nat} (h1 : Begun s) (h : scan E s sym v = pure s') : 2 ≤ s.medial.len := by
  by_contra h2
  unfold scan at h
  rw [earleme_new (h1.fresh h2).1] at h
  rw [bne_self_eq_false, assert_false, panicM_bind] at h
  exact absurd h panicM_ne_pure

theorem scan_len {s s' : Rec σ ν} {sym v : Nat} (h : scan E s sym v = pure s') : s'.medial.len = s.medial.len :=
  congrArg List.length (scan_indices h)

theorem begun_begin {s : Rec σ ν} (h : Begun s) : 2 ≤ s.beginEarleme.medial.len := by
  rw [begin_len]
  have := h.len
  omega

theorem callWith_begun {s : Rec σ ν} {c : Call} {p : Rec σ ν × Obs} (h1 : Begun s)
    (h : callWith E (completeAll E) s c = pure p) : Begun p.1 ∧ p.1.medial.len ≤ s.medial.len + 1 ∧
      p.1.predicted.rows.length ≤ s.predicted.rows.length + 1 := by
  cases c <;> simp only [callWith] at h
  case beginEarleme =>
    cases pure_inj_M h
    exact ⟨.inl (begun_begin h1), Nat.le_of_eq (begin_len s), Nat.le_succ _⟩
  case setHint => cases pure_inj_M h; exact ⟨h1, Nat.le_succ _, Nat.le_succ _⟩
  case clearHint => cases pure_inj_M h; exact ⟨h1, Nat.le_succ _, Nat.le_succ _⟩
  case scan =>
    obtain ⟨s1, hs, h⟩ := bind_eq_pure h
    cases pure_inj_M h
    have e := scan_len hs
    have := scan_begun h1 hs
    exact ⟨.inl (by simp only; omega), by simp only; omega, by simp only [scan_predicted hs]; omega⟩
  case endEarleme =>
    obtain ⟨⟨s1, ok⟩, hs, h⟩ := bind_eq_pure h
    cases pure_inj_M h
    obtain ⟨a, b, c⟩ := endEarleme_begun h1 hs
    exact ⟨a, Nat.le_succ_of_le b, c⟩
  case reset =>
    obtain ⟨s1, hs, h⟩ := bind_eq_pure h
    cases pure_inj_M h
    obtain ⟨a, b, c⟩ := predictRow_new hs
    exact ⟨.inr ⟨a, b⟩, by simp only [a]; exact Nat.le_add_left 1 _, by simp only; omega⟩
  case earleme => cases pure_inj_M h; exact ⟨h1, Nat.le_succ _, Nat.le_succ _⟩
  all_goals
    obtain ⟨_, _, h⟩ := bind_eq_pure h
    cases pure_inj_M h
    exact ⟨h1, Nat.le_succ _, Nat.le_succ _⟩

theorem callsOf_eq (hW : 32 ≤ W) (hW' : W ≤ 64) : ∀ (cs : List Call) (s : Rec σ ν), Begun s →
    s.medial.len + cs.length ≤ 2 ^ 32 → s.predicted.rows.length + cs.length < 2 ^ 32 + 1 →
    callsOf W E (completeAll E) cs s = callsWith E (completeAll E) cs s >>= fun p => pure (p.1, p.2.map (Obs.narrow W))
  | [], _, _, _, _ => rfl
  | c :: rest, s, h1, h2, h3 => by
    simp only [List.length_cons] at h2 h3
    rw [callsOf, callsWith, callOf_eq hW hW' h1 (by omega) (by omega), bind_assoc, bind_assoc]
    refine bind_congr_pure fun p hp => ?_
    obtain ⟨a, b, d⟩ := callWith_begun h1 hp
    rw [pure_bind]
    simp only
    rw [callsOf_eq hW hW' rest p.1 a (by omega) (by omega), bind_assoc, bind_assoc]
    refine bind_congr_pure fun q _ => ?_
    simp [pure_bind]

theorem new_begun {f : σ} {s : Rec σ ν} (h : new E f = pure s) : Begun s := by
  unfold new at h
  obtain ⟨_, _, h⟩ := bind_eq_pure h
  cases pure_inj_M h
  exact .inr ⟨rfl, rfl⟩

/-! ### Drivers -/

theorem parseLoopOf_eq (hW : 32 ≤ W) : ∀ (i : Nat) (tokens : List Nat) (s : Rec σ ν), Begun s →
    s.medial.len + tokens.length ≤ 2 ^ 32 →
    parseLoopOf W E (completeAll E) i tokens s = parseLoop E (completeAll E) i tokens s
  | _, [], s, h1, h2 => by
    unfold parseLoopOf parseLoop
    rw [isFinishedOf_eq hW h1 h2]
  | i, token :: rest, s, h1, h => by
    simp only [List.length_cons] at h
    unfold parseLoopOf parseLoop
    refine bind_congr_pure fun s1 hs1 => ?_
    have e1 : s1.medial = s.beginEarleme.medial := by
      cases rest with
      | nil => cases pure_inj_M hs1; rfl
      | cons t rest =>
        obtain ⟨_, _, hs1⟩ := bind_eq_pure hs1
        cases pure_inj_M hs1
        rfl
    have e2 := begun_begin h1
    have e3 := begin_len s
    rw [← e1] at e2 e3
    refine bind_congr_pure fun x _ => ?_
    rw [scanOf_eq hW (.inl e2) (by omega)]
    refine bind_congr_pure fun s2 hs2 => ?_
    have e4 := scan_len hs2
    rw [endEarlemeOf_eq hW (.inl (by omega)) (by omega)]
    refine bind_congr_pure fun r hr => ?_
    obtain ⟨a, b, -⟩ := endEarleme_begun (.inl (by omega)) hr
    obtain ⟨s3, ok⟩ := r
    simp only at a b ⊢
    split
    · exact parseLoopOf_eq hW (i + 1) rest s3 a (by omega)
    · rfl

theorem readSofOf_eq (hW : 32 ≤ W) {s : Rec σ ν} (h1 : Begun s) (h2 : s.medial.len + 1 ≤ 2 ^ 32) :
    readSofOf W E (completeAll E) s = readSof E (completeAll E) s := by
  unfold readSofOf readSof
  have e2 := begun_begin h1
  have e3 := begin_len s
  rw [scanOf_eq hW (.inl e2) (by omega)]
  refine bind_congr_pure fun s2 hs2 => ?_
  have e4 := scan_len hs2
  exact endEarlemeOf_eq hW (.inl (by omega)) (by omega)

theorem readSof_begun {s : Rec σ ν} {r : Rec σ ν × Bool} (h1 : Begun s) (h : readSof E (completeAll E) s = pure r) :
    Begun r.1 ∧ r.1.medial.len ≤ s.medial.len + 1 := by
  unfold readSof at h
  obtain ⟨s2, hs2, h⟩ := bind_eq_pure h
  have e2 := begun_begin h1
  have e3 := begin_len s
  have e4 := scan_len hs2
  obtain ⟨a, b, -⟩ := endEarleme_begun (.inl (by omega)) h
  exact ⟨a, by omega⟩

theorem parseOf_eq (hW : 32 ≤ W) {s : Rec σ ν} {tokens : List Nat} (h1 : Begun s)
    (h2 : s.medial.len + tokens.length + 1 ≤ 2 ^ 32) : parseOf W E (completeAll E) s tokens = parse E s tokens := by
  unfold parseOf parse parseWith
  rw [readSofOf_eq hW h1 (by omega)]
  refine bind_congr_pure fun r hr => ?_
  obtain ⟨a, b⟩ := readSof_begun h1 hr
  obtain ⟨s1, ok⟩ := r
  simp only at a b ⊢
  split
  · exact parseLoopOf_eq hW 0 tokens s1 a (by omega)
  · rfl

theorem parseLoop_begun : ∀ (i : Nat) (tokens : List Nat) (s : Rec σ ν) (r), Begun s →
    parseLoop E (completeAll E) i tokens s = pure r → Begun r.1 ∧ r.1.medial.len ≤ s.medial.len + tokens.length
  | _, [], s, r, h1, h => by
    unfold parseLoop at h
    obtain ⟨_, _, h⟩ := bind_eq_pure h
    cases pure_inj_M h
    exact ⟨h1, Nat.le_refl _⟩
  | i, token :: rest, s, r, h1, h => by
    unfold parseLoop at h
    obtain ⟨s1, hs1, h⟩ := bind_eq_pure h
    have e1 : s1.medial = s.beginEarleme.medial := by
      cases rest with
      | nil => cases pure_inj_M hs1; rfl
      | cons t rest =>
        obtain ⟨_, _, hs1⟩ := bind_eq_pure hs1
        cases pure_inj_M hs1
        rfl
    have e2 := begun_begin h1
    have e3 := begin_len s
    rw [← e1] at e2 e3
    obtain ⟨x, _, h⟩ := bind_eq_pure h
    obtain ⟨s2, hs2, h⟩ := bind_eq_pure h
    obtain ⟨⟨s3, ok⟩, hs3, h⟩ := bind_eq_pure h
    have e4 := scan_len hs2
    obtain ⟨a, b, -⟩ := endEarleme_begun (.inl (by omega)) hs3
    simp only [List.length_cons] at a b h ⊢
    split at h
    · obtain ⟨c, d⟩ := parseLoop_begun (i + 1) rest s3 r a h
      exact ⟨c, by omega⟩
    · cases pure_inj_M h
      exact ⟨a, by simp only; omega⟩

theorem parse_begun {s : Rec σ ν} {tokens : List Nat} {r} (h1 : Begun s) (h : parse E s tokens = pure r) :
    Begun r.1 ∧ r.1.medial.len ≤ s.medial.len + tokens.length + 1 := by
  unfold parse parseWith at h
  obtain ⟨⟨s1, ok⟩, hs1, h⟩ := bind_eq_pure h
  obtain ⟨a, b⟩ := readSof_begun h1 hs1
  simp only at a b h
  split at h
  · obtain ⟨c, d⟩ := parseLoop_begun 0 tokens s1 r a h
    exact ⟨c, by omega⟩
  · cases pure_inj_M h
    exact ⟨a, by simp only; omega⟩

theorem tokenizeWords_length {nameMap : List Char → Option Nat} : ∀ {words : List (List Char)} {toks : List Nat},
    tokenizeWords nameMap words = .ok toks → toks.length = words.length
  | [], toks, h => by cases h; rfl
  | word :: rest, toks, h => by
    unfold tokenizeWords at h
    split at h
    · split at h
      · rename_i l hl
        cases h
        simp [tokenizeWords_length hl]
      · cases h
    · cases h

theorem parseTerminalListOf_eq (hW : 32 ≤ W) {f : σ} {nameMap : List Char → Option Nat} {words : List (List Char)}
    (h : words.length + 2 ≤ 2 ^ 32) :
    parseTerminalListOf W E (completeAll E) f nameMap words = parseTerminalList E f nameMap words := by
  unfold parseTerminalListOf parseTerminalList parseTerminalListWith
  refine bind_congr_pure fun s hs => ?_
  have e1 := new_begun hs
  have e2 := new_len hs
  cases ht : tokenizeWords nameMap words with
  | error e => rfl
  | ok toks =>
    have e3 := tokenizeWords_length ht
    simp only
    rw [parseOf_eq hW e1 (by omega)]
    refine bind_congr_pure fun r hr => ?_
    obtain ⟨a, b⟩ := parse_begun e1 hr
    obtain ⟨s1, res⟩ := r
    simp only at a b ⊢
    rw [finishedNodeOf_eq hW a (by omega)]
    rfl

theorem scanCharOf_eq (hW : 32 ≤ W) {ch : Nat} : ∀ (ts : List Nat) (s : Rec σ ν), 2 ≤ s.medial.len → s.medial.len ≤ 2 ^ 32 →
    scanCharOf W E ts ch s = scanChar E ts ch s
  | [], _, _, _ => rfl
  | t :: ts, s, h1, h2 => by
    unfold scanCharOf scanChar
    rw [List.foldlM_cons, List.foldlM_cons]
    simp only [bind_assoc]
    refine bind_congr_pure fun x _ => ?_
    rw [scanOf_eq hW (.inl h1) h2]
    refine bind_congr_pure fun s1 hs1 => ?_
    have e := scan_len hs1
    exact scanCharOf_eq hW ts s1 (by omega) (by omega)

theorem scanChar_len {ch : Nat} : ∀ (ts : List Nat) (s s' : Rec σ ν), scanChar E ts ch s = pure s' →
    s'.medial.len = s.medial.len
  | [], s, s', h => by cases pure_inj_M h; rfl
  | t :: ts, s, s', h => by
    unfold scanChar at h
    rw [List.foldlM_cons] at h
    obtain ⟨s1, h1, h⟩ := bind_eq_pure h
    obtain ⟨x, _, h1⟩ := bind_eq_pure h1
    rw [scanChar_len ts s1 s' h, scan_len h1]

theorem charLoopOf_eq (hW : 32 ≤ W) {lexer : Nat → List Nat} : ∀ (i : Nat) (input : List Nat) (s : Rec σ ν), Begun s →
    s.medial.len + input.length ≤ 2 ^ 32 →
    charLoopOf W E (completeAll E) lexer i input s = charLoop E (completeAll E) lexer i input s
  | _, [], _, _, _ => rfl
  | i, ch :: rest, s, h1, h => by
    simp only [List.length_cons] at h
    unfold charLoopOf charLoop
    have e2 := begun_begin h1
    have e3 := begin_len s
    rw [scanCharOf_eq hW _ _ e2 (by omega)]
    refine bind_congr_pure fun s2 hs2 => ?_
    have e4 := scanChar_len _ _ _ hs2
    rw [endEarlemeOf_eq hW (.inl (by omega)) (by omega)]
    refine bind_congr_pure fun r hr => ?_
    obtain ⟨a, b, -⟩ := endEarleme_begun (.inl (by omega)) hr
    obtain ⟨s3, ok⟩ := r
    simp only at a b ⊢
    split
    · exact charLoopOf_eq hW (i + 1) rest s3 a (by omega)
    · rfl

theorem charLoop_begun {lexer : Nat → List Nat} : ∀ (i : Nat) (input : List Nat) (s : Rec σ ν) (r), Begun s →
    charLoop E (completeAll E) lexer i input s = pure r → Begun r.1 ∧ r.1.medial.len ≤ s.medial.len + input.length
  | _, [], s, r, h1, h => by
    cases pure_inj_M h
    exact ⟨h1, Nat.le_refl _⟩
  | i, ch :: rest, s, r, h1, h => by
    unfold charLoop at h
    have e2 := begun_begin h1
    have e3 := begin_len s
    obtain ⟨s2, hs2, h⟩ := bind_eq_pure h
    obtain ⟨⟨s3, ok⟩, hs3, h⟩ := bind_eq_pure h
    have e4 := scanChar_len _ _ _ hs2
    obtain ⟨a, b, -⟩ := endEarleme_begun (.inl (by omega)) hs3
    simp only [List.length_cons] at a b h ⊢
    split at h
    · obtain ⟨c, d⟩ := charLoop_begun (i + 1) rest s3 r a h
      exact ⟨c, by omega⟩
    · cases pure_inj_M h
      exact ⟨a, by simp only; omega⟩

theorem parseTokenizingOf_eq (hW : 32 ≤ W) {f : σ} {lexer : Nat → List Nat} {input : List Nat}
    (h : input.length + 2 ≤ 2 ^ 32) :
    parseTokenizingOf W E (completeAll E) f lexer input = parseTokenizing E f lexer input := by
  unfold parseTokenizingOf parseTokenizing parseTokenizingWith
  refine bind_congr_pure fun s hs => ?_
  have e1 := new_begun hs
  have e2 := new_len hs
  rw [readSofOf_eq hW e1 (by omega)]
  refine bind_congr_pure fun r hr => ?_
  obtain ⟨a, b⟩ := readSof_begun e1 hr
  obtain ⟨s1, ok⟩ := r
  simp only at a b ⊢
  split
  · rw [charLoopOf_eq hW _ _ _ a (by omega)]
    refine bind_congr_pure fun q hq => ?_
    obtain ⟨c, d⟩ := charLoop_begun _ _ _ _ a hq
    obtain ⟨s2, err⟩ := q
    simp only at c d ⊢
    cases err with
    | some e => rfl
    | none =>
      simp only
      rw [isFinishedOf_eq hW c (by omega), finishedNodeOf_eq hW c (by omega)]
      rfl
  · rfl

end Rec
end Gearley
