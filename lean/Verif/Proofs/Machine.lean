import Verif.Proofs.Failed
import Verif.Model.Machine

/-!
# The number of sets grows by at most one per position, and 32 bits suffice as long as it is small
-/

namespace Gearley
variable {σ ν : Type} {E : Env σ ν}

theorem bind_congr_pure {α β : Type} {x : M α} {f g : α → M β} (h : ∀ a, x = pure a → f a = g a) :
    (x >>= f) = (x >>= g) := by
  rcases bind_cases x f with ⟨a, ha, _⟩ | ⟨p, hp, _⟩ | ⟨hn, _⟩
  · subst ha
    rw [pure_bind, pure_bind, h a rfl]
  · subst hp; rfl
  · subst hn; rfl

/-- Partial correctness of a loop that may panic. -/
theorem loop_inv {α β : Type} {f : α → M (α ⊕ β)} (Inv : α → Prop) (Q : β → Prop)
    (hl : ∀ a a', Inv a → f a = pure (.inl a') → Inv a') (hr : ∀ a b, Inv a → f a = pure (.inr b) → Q b) :
    ∀ a b, Inv a → loop f a = pure b → Q b := by
  have := loop.fixpoint_induct (α := α) (β := β) f
    (motive := fun g => ∀ a, Inv a → ∀ b, g a = pure b → Q b)
    (Lean.Order.admissible_pi_apply (P := fun a (y : M β) => Inv a → ∀ b, y = pure b → Q b)
      (fun a => Lean.Order.admissible_flatOrder (α := Option (Except Panic β)) (b := none) _
        fun _ b h => by cases h))
    (by
      intro g hg a ha b hb
      obtain ⟨r, h1, h2⟩ := bind_eq_pure hb
      cases r with
      | inl a' => exact hg a' (hl a a' ha h1) b h2
      | inr b' => cases pure_inj_M h2; exact hr a _ ha h1)
  exact fun a b ha hb => this a ha b hb

namespace Rec

theorem completeSym_indices {s s' : Rec σ ν} {o sym : Nat} {link : ν} (h : completeSym E s o sym link = pure s') :
    s'.medial.indices = s.medial.indices := by
  unfold completeSym at h
  split at h
  · exact completeGenerated_indices h
  · obtain ⟨_, _, h⟩ := bind_eq_pure h
    split at h
    · split at h
      · exact absurd h panicM_ne_pure
      · obtain ⟨s1, h1, h⟩ := bind_eq_pure h
        rw [completePredictions_indices h]
        unfold completeMedialItems at h1
        obtain ⟨_, _, h1⟩ := bind_eq_pure h1
        obtain ⟨_, _, h1⟩ := bind_eq_pure h1
        exact foldlM_inv (P := fun t => t.medial.indices = s.medial.indices)
          (fun b a b' hb hab => by rw [completeMedialItem_indices hab]; exact hb) rfl h1
    · cases pure_inj_M h; rfl

theorem nextSummand_medial {s : Rec σ ν} {o A : Nat} {p : Rec σ ν × Option (Item ν)} (h : nextSummand E s o A = pure p) :
    p.1.medial = s.medial := by
  unfold nextSummand at h
  split at h
  · obtain ⟨_, _, h⟩ := bind_eq_pure h
    split at h
    · obtain ⟨_, _, h⟩ := bind_eq_pure h
      cases pure_inj_M h; rfl
    · cases pure_inj_M h; rfl
  · cases pure_inj_M h; rfl

theorem summandLoop_medial {o A : Nat} : ∀ {fuel : Nat} {s s' : Rec σ ν}, summandLoop E o A fuel s = pure s' →
    s'.medial = s.medial := by
  intro fuel
  induction fuel with
  | zero => intro s s' h; cases pure_inj_M h; rfl
  | succ fuel ih =>
    intro s s' h
    unfold summandLoop at h
    obtain ⟨⟨s1, it⟩, h1, h⟩ := bind_eq_pure h
    have h2 := nextSummand_medial h1
    cases it with
    | none => cases pure_inj_M h; exact h2
    | some it =>
      obtain ⟨s2, h3, h⟩ := bind_eq_pure h
      rw [ih h]
      unfold pushSummand at h3
      obtain ⟨_, _, h3⟩ := bind_eq_pure h3
      cases pure_inj_M h3
      exact h2

theorem completeEntireSum_indices {s s' : Rec σ ν} {o A : Nat} (h : completeEntireSum E s o A = pure s') :
    s'.medial.indices = s.medial.indices := by
  unfold completeEntireSum at h
  obtain ⟨_, _, h⟩ := bind_eq_pure h
  obtain ⟨s1, h1, h⟩ := bind_eq_pure h
  obtain ⟨⟨s2, nd⟩, h2, h⟩ := bind_eq_pure h
  cases pure_inj_M h
  unfold completeSum at h2
  obtain ⟨_, _, h2⟩ := bind_eq_pure h2
  obtain ⟨s3, h3, h2⟩ := bind_eq_pure h2
  cases pure_inj_M h2
  rw [completeSym_indices h3]
  show s1.medial.indices = _
  rw [summandLoop_medial h1]

/-- A completion pass keeps the boundaries of the sets. -/
def KeepsSets (ca : Rec σ ν → M (Rec σ ν)) : Prop := ∀ s s', ca s = pure s' → s'.medial.indices = s.medial.indices

theorem completeAll_keepsSets : KeepsSets (completeAll E) := by
  intro s s' h
  refine loop_inv (fun t => t.medial.indices = s.medial.indices) (fun t => t.medial.indices = s.medial.indices) ?_ ?_ s s' rfl h
  · intro a a' ha h
    unfold completeStep at h
    obtain ⟨o, _, h⟩ := bind_eq_pure h
    cases o with
    | none => have := pure_inj_M h; cases this
    | some p =>
      obtain ⟨a1, h1, h⟩ := bind_eq_pure h
      have := pure_inj_M h
      cases this
      exact (completeEntireSum_indices h1).trans ha
  · intro a b ha h
    unfold completeStep at h
    obtain ⟨o, _, h⟩ := bind_eq_pure h
    cases o with
    | none => have := pure_inj_M h; cases this; exact ha
    | some p =>
      obtain ⟨a1, h1, h⟩ := bind_eq_pure h
      have := pure_inj_M h
      cases this

theorem sortMedial_len {s s' : Rec σ ν} (h : sortMedial E s = pure s') : s'.medial.len = s.medial.len := by
  unfold sortMedial at h
  obtain ⟨m, h1, h⟩ := bind_eq_pure h
  cases pure_inj_M h
  unfold Vec2d.modifyLast at h1
  obtain ⟨_, _, h1⟩ := bind_eq_pure h1
  obtain ⟨_, _, h1⟩ := bind_eq_pure h1
  obtain ⟨_, _, h1⟩ := bind_eq_pure h1
  cases pure_inj_M h1
  rfl

theorem removeUnreachable_len {s s' : Rec σ ν} (h : removeUnreachable s = pure s') :
    s'.medial.len ≤ s.medial.len ∧ (1 ≤ s.medial.len → 1 ≤ s'.medial.len) := by
  have key : ∀ k : Nat, ∀ {m : Vec2d (Item ν)}, s.medial.truncate (k + 1) = pure m →
      m.len ≤ s.medial.len ∧ (1 ≤ s.medial.len → 1 ≤ m.len) := by
    intro k m h1
    unfold Vec2d.truncate at h1
    obtain ⟨_, h4, h1⟩ := bind_eq_pure h1
    obtain ⟨_, _, h1⟩ := bind_eq_pure h1
    obtain ⟨_, _, h1⟩ := bind_eq_pure h1
    obtain ⟨_, _, h1⟩ := bind_eq_pure h1
    cases pure_inj_M h1
    simp only [Vec2d.len, List.length_take]
    omega
  unfold removeUnreachable at h
  obtain ⟨l, _, h⟩ := bind_eq_pure h
  dsimp only at h
  split at h <;> split at h
  · obtain ⟨m, h1, h⟩ := bind_eq_pure h
    obtain ⟨_, h2, h⟩ := bind_eq_pure h
    obtain ⟨_, _, h⟩ := bind_eq_pure h
    cases pure_inj_M h
    exact key _ h1
  · cases pure_inj_M h
    omega
  · obtain ⟨m, h1, h⟩ := bind_eq_pure h
    obtain ⟨_, h2, h⟩ := bind_eq_pure h
    obtain ⟨_, _, h⟩ := bind_eq_pure h
    cases pure_inj_M h
    exact key _ h1
  · cases pure_inj_M h
    omega

theorem predictionPass_medial {s s' : Rec σ ν} (h : predictionPass E s = pure s') : s'.medial = s.medial := by
  unfold predictionPass at h
  obtain ⟨_, _, h⟩ := bind_eq_pure h
  obtain ⟨_, _, h⟩ := bind_eq_pure h
  obtain ⟨_, _, h⟩ := bind_eq_pure h
  obtain ⟨_, _, h⟩ := bind_eq_pure h
  cases pure_inj_M h
  rfl

theorem endEarlemeWith_len {ca : Rec σ ν → M (Rec σ ν)} (hca : KeepsSets ca) {s : Rec σ ν} {r : Rec σ ν × Bool}
    (h : endEarlemeWith E ca s = pure r) :
    r.1.medial.len ≤ s.medial.len ∧ (1 ≤ s.medial.len → 1 ≤ r.1.medial.len) := by
  unfold endEarlemeWith at h
  obtain ⟨b, _, h⟩ := bind_eq_pure h
  cases b with
  | true => cases pure_inj_M h; exact ⟨le_refl _, id⟩
  | false =>
    obtain ⟨s1, h1, h⟩ := bind_eq_pure h
    obtain ⟨s2, h2, h⟩ := bind_eq_pure h
    cases pure_inj_M h
    have e1 : s1.medial.len = s.medial.len := congrArg List.length (hca _ _ h1)
    unfold advanceAfterCompletion at h2
    obtain ⟨s3, h3, h2⟩ := bind_eq_pure h2
    obtain ⟨s4, h4, h2⟩ := bind_eq_pure h2
    split at h2
    · exact absurd h2 panicM_ne_pure
    · have := sortMedial_len h3
      have := removeUnreachable_len h4
      rw [predictionPass_medial h2]
      omega

/-! ### 32 bits -/

theorem scan32_eq {s : Rec σ ν} {sym v : Nat} (h1 : 1 ≤ s.medial.len) (h2 : s.medial.len ≤ 2 ^ 32) :
    scan32 E s sym v = scan E s sym v := by
  unfold scan32 scan
  by_cases h : s.medial.len = 1
  · have : s.earleme = maxUsize := by
      unfold earleme wrappingSub2 maxUsize
      rw [h]; rfl
    rw [this]
    rfl
  · have he : s.earleme = s.medial.len - 2 := by
      unfold earleme wrappingSub2
      rw [if_pos (by omega)]
    have h3 : s.earleme % 2 ^ 32 = s.earleme := Nat.mod_eq_of_lt (by omega)
    have h4 : succU32 s.earleme = pure (s.earleme + 1) := by
      unfold succU32
      rw [if_pos (by omega)]
    simp only [h3, h4, pure_bind]

/-- At the last position that 32 bits can express, `scan` panics. -/
theorem scan32_overflow {s : Rec σ ν} {sym v : Nat} (h : s.medial.len = 2 ^ 32 + 1) :
    scan32 E s sym v = panicM .overflow := by
  have he : s.earleme = 2 ^ 32 - 1 := by
    unfold earleme wrappingSub2
    rw [h]; rfl
  unfold scan32
  rw [he]
  rfl

theorem callWith_len {ca : Rec σ ν → M (Rec σ ν)} (hca : KeepsSets ca) {s : Rec σ ν} {c : Call} {p : Rec σ ν × Obs}
    (hs : 1 ≤ s.medial.len) (h : callWith E ca s c = pure p) :
    p.1.medial.len ≤ s.medial.len + (if c = .beginEarleme then 1 else 0) ∧ 1 ≤ p.1.medial.len := by
  cases c <;> simp only [callWith] at h
  case beginEarleme =>
    cases pure_inj_M h
    simp [beginEarleme, Vec2d.nextSet, Vec2d.len]
  case setHint => cases pure_inj_M h; exact ⟨Nat.le_add_right .., hs⟩
  case clearHint => cases pure_inj_M h; exact ⟨Nat.le_add_right .., hs⟩
  case scan =>
    obtain ⟨s1, h1, h⟩ := bind_eq_pure h
    cases pure_inj_M h
    have : s1.medial.len = s.medial.len := congrArg List.length (scan_indices h1)
    simpa [this] using hs
  case endEarleme =>
    obtain ⟨⟨s1, ok⟩, h1, h⟩ := bind_eq_pure h
    cases pure_inj_M h
    have := endEarlemeWith_len hca h1
    exact ⟨this.1, this.2 hs⟩
  case reset =>
    obtain ⟨s1, h1, h⟩ := bind_eq_pure h
    cases pure_inj_M h
    unfold reset at h1
    obtain ⟨_, _, h1⟩ := bind_eq_pure h1
    obtain ⟨_, _, h1⟩ := bind_eq_pure h1
    obtain ⟨_, _, h1⟩ := bind_eq_pure h1
    cases pure_inj_M h1
    exact ⟨hs, le_refl _⟩
  case earleme => cases pure_inj_M h; exact ⟨Nat.le_add_right .., hs⟩
  all_goals
    obtain ⟨_, _, h⟩ := bind_eq_pure h
    cases pure_inj_M h
    exact ⟨Nat.le_add_right .., hs⟩

theorem scanAll32_eq : ∀ (toks : List (Nat × Nat)) (s : Rec σ ν), 1 ≤ s.medial.len → s.medial.len ≤ 2 ^ 32 →
    toks.foldlM (fun s t => scan32 E s t.1 t.2) s = scanAll E s toks
  | [], _, _, _ => rfl
  | t :: toks, s, h1, h2 => by
    unfold scanAll
    rw [List.foldlM_cons, List.foldlM_cons, scan32_eq h1 h2]
    refine bind_congr_pure fun s' h => ?_
    have : s'.medial.len = s.medial.len := congrArg List.length (scan_indices h)
    exact scanAll32_eq toks s' (by omega) (by omega)

theorem scanAll_len : ∀ (toks : List (Nat × Nat)) (s s' : Rec σ ν), scanAll E s toks = pure s' →
    s'.medial.len = s.medial.len
  | [], s, s', h => by cases pure_inj_M h; rfl
  | t :: toks, s, s', h => by
    unfold scanAll at h
    rw [List.foldlM_cons] at h
    obtain ⟨s1, h1, h⟩ := bind_eq_pure h
    have e1 : s1.medial.len = s.medial.len := congrArg List.length (scan_indices h1)
    rw [scanAll_len toks s1 s' h, e1]

theorem applyHint_medial (s : Rec σ ν) (op : HintOp) : (applyHint s op).medial = s.medial := by cases op <;> rfl

theorem begin_len (s : Rec σ ν) : s.beginEarleme.medial.len = s.medial.len + 1 := by
  simp [beginEarleme, Vec2d.nextSet, Vec2d.len]

theorem position_len {s : Rec σ ν} {toks : List (Nat × Nat)} {r : Rec σ ν × Bool} (h : position E s toks = pure r) :
    r.1.medial.len ≤ s.medial.len + 1 ∧ 1 ≤ r.1.medial.len := by
  unfold position positionWith at h
  obtain ⟨s1, h1, h⟩ := bind_eq_pure h
  have e1 := scanAll_len _ _ _ h1
  rw [begin_len] at e1
  have e2 := endEarlemeWith_len completeAll_keepsSets h
  omega

theorem position32_eq {s : Rec σ ν} {toks : List (Nat × Nat)} (h : s.medial.len + 1 ≤ 2 ^ 32) :
    position32 E s toks = position E s toks := by
  unfold position32 position positionWith
  rw [scanAll32_eq toks _ (by rw [begin_len]; omega) (by rw [begin_len]; omega)]
  rfl

theorem session32_eq : ∀ (steps : List (HintOp × List (Nat × Nat))) (s : Rec σ ν), s.medial.len + steps.length ≤ 2 ^ 32 →
    session32 E steps s = session E steps s
  | [], _, _ => rfl
  | (op, toks) :: rest, s, h => by
    simp only [List.length_cons] at h
    unfold session
    rw [session32, sessionWith, position32_eq (by rw [applyHint_medial]; omega)]
    refine bind_congr_pure fun r hr => ?_
    obtain ⟨s1, ok⟩ := r
    have := position_len hr
    rw [applyHint_medial] at this
    simp only at this ⊢
    split
    · exact session32_eq rest s1 (by omega)
    · rfl

theorem session32_eq_of : ∀ (steps : List (HintOp × List (Nat × Nat))) (s : Rec σ ν),
    (∀ pre more, steps = pre ++ more → ∀ r, session E pre s = pure r → r.2 = true → r.1.medial.len < 2 ^ 32) →
    session32 E steps s = session E steps s
  | [], _, _ => rfl
  | (op, toks) :: rest, s, h => by
    have h0 : s.medial.len < 2 ^ 32 := h [] _ rfl (s, true) rfl rfl
    unfold session
    rw [session32, sessionWith, position32_eq (by rw [applyHint_medial]; omega)]
    refine bind_congr_pure fun r hr => ?_
    obtain ⟨s1, ok⟩ := r
    cases ok with
    | true =>
      simp only [if_true]
      refine session32_eq_of rest s1 fun pre more hp r h1 h2 => ?_
      refine h ((op, toks) :: pre) more (by rw [hp]; rfl) r ?_ h2
      unfold session at h1 ⊢
      rw [sessionWith]
      have hr : positionWith E (completeAll E) (applyHint s op) toks = pure (s1, true) := hr
      rw [hr, pure_bind]
      exact h1
    | false => rfl

theorem session_len : ∀ (steps : List (HintOp × List (Nat × Nat))) (s : Rec σ ν) (r : Rec σ ν × Bool),
    session E steps s = pure r → r.1.medial.len ≤ s.medial.len + steps.length
  | [], s, r, h => by cases pure_inj_M h; simp
  | (op, toks) :: rest, s, r, h => by
    unfold session at h
    rw [sessionWith] at h
    obtain ⟨⟨s1, ok⟩, h1, h⟩ := bind_eq_pure h
    have := position_len h1
    rw [applyHint_medial] at this
    simp only [List.length_cons] at this ⊢
    cases ok with
    | true =>
      have := session_len rest s1 r h
      omega
    | false => cases pure_inj_M h; show s1.medial.len ≤ _; omega

theorem session32_snoc (pre : List (HintOp × List (Nat × Nat))) (op : HintOp) (toks : List (Nat × Nat)) :
    ∀ s : Rec σ ν, session32 E (pre ++ [(op, toks)]) s = (session32 E pre s >>= fun r =>
      if r.2 then position32 E (applyHint r.1 op) toks else pure (r.1, false)) := by
  induction pre with
  | nil =>
    intro s
    rw [List.nil_append, session32, session32, pure_bind]
    refine Eq.trans ?_ (bind_pure _)
    refine bind_congr_pure fun r _ => ?_
    obtain ⟨s1, ok⟩ := r
    cases ok <;> rfl
  | cons x pre ih =>
    intro s
    obtain ⟨op', toks'⟩ := x
    rw [List.cons_append, session32, session32, bind_assoc]
    refine bind_congr_pure fun r _ => ?_
    obtain ⟨s1, ok⟩ := r
    cases ok with
    | true => simp only [if_true]; exact ih s1
    | false => simp

theorem position32_overflow {s : Rec σ ν} {t : Nat × Nat} {toks : List (Nat × Nat)} (h : s.medial.len = 2 ^ 32) :
    position32 E s (t :: toks) = panicM .overflow := by
  unfold position32
  rw [List.foldlM_cons, scan32_overflow (by rw [begin_len]; omega)]
  rfl

theorem calls32_eq {ca : Rec σ ν → M (Rec σ ν)} (hca : KeepsSets ca) : ∀ (cs : List Call) (s : Rec σ ν), 1 ≤ s.medial.len →
    s.medial.len + cs.count .beginEarleme ≤ 2 ^ 32 → calls32 E ca cs s = callsWith E ca cs s
  | [], _, _, _ => rfl
  | c :: rest, s, h1, h2 => by
    have hc : call32 E ca s c = callWith E ca s c := by
      cases c <;> try rfl
      simp only [call32, callWith]
      rw [scan32_eq h1 (by omega)]
    rw [calls32, callsWith, hc]
    refine bind_congr_pure fun p hp => ?_
    obtain ⟨s1, o⟩ := p
    have := callWith_len hca h1 hp
    simp only at this ⊢
    rw [calls32_eq hca rest s1 this.2 (by
      rw [List.count_cons] at h2
      have h3 := this.1
      by_cases hb : c = .beginEarleme
      · subst hb; simp at h2 h3; omega
      · simp only [hb, if_false] at h3
        rw [if_neg (by simpa using hb)] at h2
        omega)]

theorem parseLoop32_eq : ∀ (i : Nat) (tokens : List Nat) (s : Rec σ ν), s.medial.len + tokens.length ≤ 2 ^ 32 →
    parseLoop32 E (completeAll E) i tokens s = parseLoop E (completeAll E) i tokens s
  | _, [], _, _ => rfl
  | i, token :: rest, s, h => by
    simp only [List.length_cons] at h
    unfold parseLoop32 parseLoop
    have key : ∀ s1 : Rec σ ν, s1.medial.len = s.medial.len + 1 →
        (internal E token >>= fun x => scan32 E s1 x (i % 2 ^ 32) >>= fun s => endEarlemeWith E (completeAll E) s >>= fun r =>
          if r.2 then parseLoop32 E (completeAll E) (i + 1) rest r.1 else pure (r.1, .error (.parse [token] i))) =
        (internal E token >>= fun x => scan E s1 x (i % 2 ^ 32) >>= fun s => endEarlemeWith E (completeAll E) s >>= fun r =>
          if r.2 then parseLoop E (completeAll E) (i + 1) rest r.1 else pure (r.1, .error (.parse [token] i))) := by
      intro s1 hs1
      refine bind_congr_pure fun x _ => ?_
      rw [scan32_eq (by omega) (by omega)]
      refine bind_congr_pure fun s2 h2 => ?_
      have e2 : s2.medial.len = s1.medial.len := congrArg List.length (scan_indices h2)
      refine bind_congr_pure fun r hr => ?_
      have e3 := endEarlemeWith_len completeAll_keepsSets hr
      split
      · exact parseLoop32_eq (i + 1) rest r.1 (by omega)
      · rfl
    refine bind_congr_pure fun s1 h1 => ?_
    refine key s1 ?_
    cases rest with
    | nil => cases pure_inj_M h1; exact begin_len s
    | cons t rest =>
      obtain ⟨_, _, h1⟩ := bind_eq_pure h1
      cases pure_inj_M h1
      exact begin_len s

theorem parse32_eq {s : Rec σ ν} {tokens : List Nat} (h : s.medial.len + tokens.length + 1 ≤ 2 ^ 32) :
    parse32 E (completeAll E) s tokens = parse E s tokens := by
  unfold parse32 parse parseWith readSof
  rw [bind_assoc, scan32_eq (by rw [begin_len]; omega) (by rw [begin_len]; omega)]
  refine bind_congr_pure fun s1 h1 => ?_
  have e1 : s1.medial.len = s.beginEarleme.medial.len := congrArg List.length (scan_indices h1)
  rw [begin_len] at e1
  refine bind_congr_pure fun r hr => ?_
  have e3 := endEarlemeWith_len completeAll_keepsSets hr
  obtain ⟨s2, ok⟩ := r
  simp only at e3 ⊢
  split
  · exact parseLoop32_eq 0 tokens s2 (by omega)
  · rfl

theorem new_len {f : σ} {s : Rec σ ν} (h : new E f = pure s) : s.medial.len = 1 := by
  unfold new at h
  obtain ⟨_, _, h⟩ := bind_eq_pure h
  cases pure_inj_M h
  rfl

end Rec
end Gearley
