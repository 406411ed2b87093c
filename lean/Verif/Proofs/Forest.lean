import Verif.Proofs.CompactBocage
import Verif.Proofs.Parse
import Verif.Model.Api

/-!
# Sessions with the bocages
-/

namespace Gearley
open Gearley.Spec
variable {σ ν : Type}

theorem relM_self {lax : Prop} {α} {x : M α} {Q : α → α → Prop} (h : ∀ a, x = pure a → Q a a) : RelM lax x x Q := by
  rcases hx : x with _ | (p | a)
  · exact .inr (.inr (.inl ⟨rfl, rfl⟩))
  · exact .inr (.inl ⟨p, rfl, rfl⟩)
  · exact .inl ⟨a, a, rfl, rfl, h a hx⟩

/-- A forest related to the specification forest is safe. -/
def FSim.safe {F : ForestOps σ ν} {okDot : Nat → Prop} {okLeaf : Nat → Nat → Prop}
    (S : FSim False F treeForest okDot okLeaf) : SafeForest F okDot okLeaf where
  γ := S.γ
  le := S.le
  refl := S.refl
  trans := S.trans
  Valid w a := ∃ t, S.N w a t
  mono h := fun ⟨t, ht⟩ => ⟨t, S.mono h ht⟩
  Idle w s := ∃ t, S.Idle w s t
  Summing w k s := ∃ t, S.Summing w k s t
  beginSum := by
    rintro w s ⟨t, h⟩
    obtain ⟨s', h1, w', h2, h3⟩ := (S.beginSum h).returns rfl
    exact ⟨s', h1, w', h2, _, h3⟩
  pushSummand := by
    rintro w k s d o a ⟨t, h⟩ hd ⟨b, hb⟩
    obtain ⟨s', h1, w', h2, h3⟩ := (S.pushSummand (o := o) h hd hb).returns rfl
    exact ⟨s', h1, w', h2, _, h3⟩
  sum := by
    rintro w k s lhs o ⟨t, h⟩ hk
    obtain ⟨⟨s', n⟩, h1, w', h2, h3, h4⟩ := (S.sum (lhs := lhs) (o := o) h hk).returns rfl
    exact ⟨s', n, h1, w', h2, ⟨_, h3⟩, _, h4⟩
  product := by
    rintro w s a c ⟨t, h⟩ ⟨b, hb⟩ ⟨d, hd⟩
    obtain ⟨⟨s', n⟩, h1, w', h2, h3, h4⟩ := (S.product h hb hd).returns rfl
    exact ⟨s', n, h1, w', h2, ⟨_, h3⟩, _, h4⟩
  leaf := by
    rintro w s sym pos val ⟨t, h⟩ hl
    obtain ⟨⟨s', n⟩, h1, w', h2, h3, h4⟩ := (S.leaf (pos := pos) h hl).returns rfl
    exact ⟨s', n, h1, w', h2, ⟨_, h3⟩, _, h4⟩

theorem Simple.safeStart {b : Simple.Bocage} (h : b.summandCount = 0) (dots syms : Nat) :
    SafeStart Simple.forest b dots syms :=
  ⟨_, _, (Simple.sim b.info).safe, b.graph, ⟨[], rfl, rfl, h⟩, fun _ _ => trivial, fun _ _ _ _ => trivial⟩

theorem Compact.safeStart {b : Compact.Bocage} (h : b.sumStart = none) {dots syms : Nat} (hd : dots ≤ 2 ^ 32)
    (hs : syms ≤ 2 ^ 32) : SafeStart Compact.forest b dots syms :=
  ⟨_, _, (Compact.sim b.info).safe, b.graph, ⟨[], rfl, rfl, h⟩, fun _ h => Nat.lt_of_lt_of_le h hd,
    fun _ _ h h' => ⟨Nat.lt_of_lt_of_le h hs, h'⟩⟩

/-! ### The graph only grows -/

namespace Simple

structure Grown (w : List Node) (k : Nat) (b : Bocage) : Prop where
  pre : w <+: b.graph
  len : b.graph.length = w.length + k
  count : b.summandCount = k

theorem sum_grown {w : List Node} {k : Nat} {b b' : Bocage} {lhs n : Nat} (h : Grown w k b)
    (e : b.sum lhs = pure (b', n)) : w <+: b'.graph ∧ b'.summandCount = 0 := by
  unfold Bocage.sum at e
  rw [h.count] at e
  match k, e, h with
  | 0, e, h => exact absurd e panicM_ne_pure
  | 1, e, h =>
    have := pure_inj_M e
    cases this
    exact ⟨h.pre, rfl⟩
  | k + 2, e, h =>
    simp only at e
    obtain ⟨first, h1, e⟩ := bind_eq_pure e
    obtain ⟨x, h2, e⟩ := bind_eq_pure e
    obtain ⟨g, h3, e⟩ := bind_eq_pure e
    cases pure_inj_M e
    refine ⟨?_, rfl⟩
    unfold subM at h1
    rw [h.len, if_pos (by omega)] at h1
    have hf : w.length + (k + 2) - (k + 2) = first := pure_inj_M h1
    have hf : first = w.length := by omega
    subst hf
    unfold setM at h3
    split at h3
    · cases pure_inj_M h3
      obtain ⟨c, hc⟩ := h.pre
      rw [← hc, List.append_assoc, List.set_append_right _ _ (Nat.le_refl _)]
      exact ⟨_, rfl⟩
    · exact absurd h3 panicM_ne_pure

/-- The simple bocage compared with itself: the graph present before a sum is kept. -/
def growSim : FSim False forest forest (fun _ => True) (fun _ _ => True) where
  γ := List Node
  le := (· <+: ·)
  refl _ := List.prefix_rfl
  trans := List.IsPrefix.trans
  N _ a b := a = b
  mono _ h := h
  Idle w s t := s = t ∧ s.graph = w ∧ s.summandCount = 0
  Summing w k s t := s = t ∧ Grown w k s
  beginSum := by
    rintro w s _ ⟨rfl, rfl, hc⟩
    exact relM_pure ⟨s.graph, List.prefix_rfl, rfl, List.prefix_rfl, rfl, hc⟩
  pushSummand := by
    rintro w k s _ d o a _ ⟨rfl, h⟩ - rfl
    refine relM_pure ⟨w, List.prefix_rfl, rfl, h.pre.trans ⟨_, rfl⟩, ?_, ?_⟩
    · have := h.len; simp [Bocage.pushSummand, this]; omega
    · simp [Bocage.pushSummand, h.count]
  sum := by
    rintro w k s _ lhs o ⟨rfl, h⟩ _
    refine relM_self ?_
    rintro ⟨b', n⟩ e
    obtain ⟨h1, h2⟩ := sum_grown h e
    exact ⟨b'.graph, h1, ⟨rfl, rfl, h2⟩, rfl⟩
  product := by
    rintro w s _ a _ c _ ⟨rfl, rfl, hc⟩ rfl rfl
    exact relM_pure ⟨_, ⟨_, rfl⟩, ⟨rfl, rfl, hc⟩, rfl⟩
  leaf := by
    rintro w s _ sym pos val ⟨rfl, rfl, hc⟩ -
    exact relM_pure ⟨_, ⟨_, rfl⟩, ⟨rfl, rfl, hc⟩, rfl⟩

end Simple

namespace Compact

/-- The compact bocage compared with itself: the graph only grows. -/
def growSim : FSim False forest forest (fun _ => True) (fun _ _ => True) where
  γ := List Nat
  le := (· <+: ·)
  refl _ := List.prefix_rfl
  trans := List.IsPrefix.trans
  N _ a b := a = b
  mono _ h := h
  Idle w s t := s = t ∧ s.graph = w
  Summing w _ s t := s = t ∧ s.graph = w
  beginSum := by
    rintro w s _ ⟨rfl, rfl⟩
    exact relM_pure ⟨_, ⟨_, rfl⟩, rfl, rfl⟩
  pushSummand := by
    rintro w k s _ d o a _ ⟨rfl, rfl⟩ - rfl
    exact relM_pure ⟨_, ⟨_, rfl⟩, rfl, rfl⟩
  sum := by
    rintro w k s _ lhs o ⟨rfl, rfl⟩ _
    refine relM_self ?_
    rintro ⟨b', n⟩ e
    refine ⟨b'.graph, ?_, ⟨rfl, rfl⟩, rfl⟩
    change s.sum = pure (b', n) at e
    unfold Bocage.sum at e
    obtain ⟨x, _, e⟩ := bind_eq_pure e
    simp only at e
    split at e <;> cases pure_inj_M e <;> exact ⟨_, rfl⟩
  product := by
    rintro w s _ a _ c _ ⟨rfl, rfl⟩ rfl rfl
    exact relM_pure ⟨_, ⟨_, rfl⟩, ⟨rfl, rfl⟩, rfl⟩
  leaf := by
    rintro w s _ sym pos val ⟨rfl, rfl⟩ -
    exact relM_pure ⟨_, ⟨_, rfl⟩, ⟨rfl, rfl⟩, rfl⟩

end Compact

section
variable {F : ForestOps σ ν} {g : DefaultGrammar} {la leo : Bool} {so : Sorter}

theorem dotsOK_true (g : DefaultGrammar) : DotsOK g (fun _ => True) :=
  ⟨fun _ _ _ _ _ => trivial, fun _ _ _ _ _ => trivial, fun _ _ _ _ _ => trivial⟩

/-- A forest compared with itself stays idle over any calls. -/
theorem call_grow (S : FSim False F F (fun _ => True) (fun _ _ => True)) (hN : ∀ w a, S.N w a a) {w : S.γ} {s s' : Rec σ ν} {o : Obs} (c : Call)
    (h : S.Idle w s.forest s.forest) (e : Rec.call (FSim.env g la leo so F) s c = pure (s', o)) :
    ∃ w', S.le w w' ∧ S.Idle w' s'.forest s'.forest := by
  have hi : ∀ w (it : Item ν), S.IRel w it it := fun w it => ⟨rfl, rfl, trivial, hN _ _⟩
  have hl : ∀ w (l : List (Item ν)), List.Forall₂ (S.IRel w) l l := by
    intro w l
    induction l with
    | nil => exact .nil
    | cons a l ih => exact .cons (hi w a) ih
  have hr : S.RIdle w s s := ⟨rfl, rfl, ⟨rfl, hl _ _⟩, hl _ _, h⟩
  have same : ∀ {α} {x : M α} {k : α → Obs}, (x >>= fun a => pure (s, k a)) = pure (s', o) → s' = s := by
    intro α x k he
    obtain ⟨a, _, he⟩ := bind_eq_pure he
    exact (congrArg Prod.fst (pure_inj_M he)).symm
  cases c with
  | beginEarleme => cases pure_inj_M e; exact ⟨w, S.refl w, h⟩
  | setHint sym => cases pure_inj_M e; exact ⟨w, S.refl w, h⟩
  | clearHint => cases pure_inj_M e; exact ⟨w, S.refl w, h⟩
  | scan sym val =>
    obtain ⟨s1, h1, e⟩ := bind_eq_pure e
    cases pure_inj_M e
    obtain ⟨a, ha, w', h2, h3⟩ := (FSim.scan_rel (la := la) (leo := leo) (so := so) (dotsOK_true g) hr
      (sym := sym) (val := val) trivial).returns h1
    have := pure_inj_M (h1.symm.trans ha)
    subst this
    exact ⟨w', h2, h3.forest⟩
  | endEarleme =>
    obtain ⟨⟨s1, ok⟩, h1, e⟩ := bind_eq_pure e
    cases pure_inj_M e
    obtain ⟨a, ha, w', h2, h3, _⟩ := (FSim.endEarleme_rel (la := la) (leo := leo) (so := so) (dotsOK_true g) hr).returns h1
    have := pure_inj_M (h1.symm.trans ha)
    subst this
    exact ⟨w', h2, h3.forest⟩
  | reset =>
    obtain ⟨s1, h1, e⟩ := bind_eq_pure e
    cases pure_inj_M e
    obtain ⟨a, ha, h3⟩ := (FSim.reset_rel (la := la) (leo := leo) (so := so) (g := g) hr).returns h1
    have := pure_inj_M (h1.symm.trans ha)
    subst this
    exact ⟨w, S.refl w, h3.forest⟩
  | isFinished | isExhausted | predictedSymbols | medialItems | trace | events | expectedTerminals =>
    rw [same e]; exact ⟨w, S.refl w, h⟩
  | earleme => cases pure_inj_M e; exact ⟨w, S.refl w, h⟩

theorem calls_grow (S : FSim False F F (fun _ => True) (fun _ _ => True)) (hN : ∀ w a, S.N w a a) (cs : List Call) {w : S.γ} {s s' : Rec σ ν} {o : List Obs}
    (h : S.Idle w s.forest s.forest) (e : Rec.calls (FSim.env g la leo so F) cs s = pure (s', o)) :
    ∃ w', S.le w w' ∧ S.Idle w' s'.forest s'.forest := by
  induction cs generalizing w s o with
  | nil => cases pure_inj_M e; exact ⟨w, S.refl w, h⟩
  | cons c cs ih =>
    obtain ⟨⟨s1, o1⟩, h1, e⟩ := bind_eq_pure e
    obtain ⟨⟨s2, o2⟩, h2, e⟩ := bind_eq_pure e
    cases pure_inj_M e
    obtain ⟨w1, h3, h4⟩ := call_grow S hN c h h1
    obtain ⟨w2, h5, h6⟩ := ih h4 h2
    exact ⟨w2, S.trans h3 h5, h6⟩

end

section
variable {c : Cfg} {n : Nat} {w : WrappedRoot} {root rank : Nat → Nat} {g0 : Nat}

/-- Acceptance and the trees of the finished node with a forest that is related to the specification forest. -/
theorem sim_trees {E : Env σ ν} {okDot : Nat → Prop} {okLeaf : Nat → Nat → Prop}
    (S : FSim False E.F treeForest okDot okLeaf) {w0 : S.γ} {f : σ} (hI : S.Idle w0 f []) (hleo : E.leo = false)
    (h : Ready0 c n w E.g root g0) (hd : ∀ d, d < c.rules.length → okDot d)
    (hl : ∀ sym val, sym < c.numSyms → val < 2 ^ 32 → okLeaf sym val) {steps : List Step}
    (hterm : Terminates E.g E.lookahead E.sorter steps)
    (htok : TokensOK c.numSyms steps) (hin : HintsIn n steps) (hne : steps ≠ []) (hlen : steps.length < 2 ^ 64 - 1)
    (hh : E.lookahead = true → Honest (fun t => t < n ∧ Terminal (rulesOf c) t) w.eof steps) :
    Returns (Rec.new E f >>= Rec.session E steps) fun r =>
      (r.2 = true → Returns (Rec.finishedNode E r.1) fun N =>
        (N.isSome = true ↔ Accepts (rulesOf c) g0 steps) ∧
        ∀ x, N = some x → ∃ w' N' t, S.N w' x N' ∧ S.Idle w' r.1.forest t ∧
          (∀ t ∈ N', TreeOf (rulesOf c) (inputOf steps) t g0 0 steps.length) ∧
          (Distinct (inputOf steps) → N'.Nodup) ∧
          (TermToks (rulesOf c) (inputOf steps) → EC.Late (rulesOf c) g0 →
            ∀ t, TreeOf (rulesOf c) (inputOf steps) t g0 0 steps.length → t ∈ N')) ∧
      (r.2 = false → ¬ Accepts (rulesOf c) g0 steps) := by
  have hl' : ∀ st ∈ steps, ∀ p ∈ st.2, okLeaf p.1 p.2 := fun st hst p hp => hl p.1 p.2 (htok st hst p hp).1 (htok st hst p hp).2
  have := sim_accept' (lax := True) (la := E.lookahead) (so := E.sorter) S (h.dots hd) (f0 := []) (w := w0) hI h.ok h.look
    h.rule hne hlen (stepsOK_of0 h htok hin) hl' (by rw [h.eof]; exact hh) (.inl trivial)
  obtain ⟨r0, hr0⟩ := hterm
  obtain ⟨r, hr, _⟩ := (sim_rel (la := E.lookahead) (so := E.sorter) S (h.dots hd) (w := w0) hI hl').returns hr0
  rw [env_eta hleo] at this hr
  have this := this.returns_of hr
  refine this.mono ?_
  rintro r ⟨_, h1, _, h2⟩
  refine ⟨fun ht => (h1 ht).mono ?_, h2⟩
  rintro N ⟨hN, hN'⟩
  refine ⟨hN, fun x hx => ?_⟩
  obtain ⟨w', N', r0, h3, h4, h5⟩ := hN' x hx
  exact ⟨w', N', _, h3, h4.forest, h5⟩

end
end Gearley
