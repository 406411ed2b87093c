import Verif.Proofs.PackedBocage

/-! # The finished node of a session is packed -/

namespace Gearley.Props
open Gearley.Spec
variable {c : Cfg} {n : Nat} {w : WrappedRoot} {σ : Type} {nullable : Prop} {g0 : Nat}

theorem GoodParse.late {E : Env σ Nat} {steps : List Step} (h : GoodParse E c n w nullable steps g0) :
    EC.Late (rulesOf c) g0 :=
  fun r' h1 h2 h3 => rootRules_of h.wrapping _ h.rule rfl r' h1 h2 h3

/-- The finished node represents exactly the trees of the input, and all sums had separate summands. -/
theorem packed_session {E : Env σ Nat} {okDot : Nat → Prop} {okLeaf : Nat → Nat → Prop}
    (S : FSim False E.F sepForest okDot okLeaf) {w0 : S.γ} {f : σ} (hI : S.Idle w0 f ([], True)) {steps : List Step}
    (h : GoodParse E c n w nullable steps g0) (ho : UnaryOrdered (rulesOf c))
    (hd : ∀ d, d < c.rules.length → okDot d) (hl : ∀ sym val, sym < c.numSyms → val < 2 ^ 32 → okLeaf sym val)
    (hacc : Accepts (rulesOf c) g0 steps) :
    ∃ r x w' ts s, (Rec.new E f >>= Rec.session E steps) = pure r ∧ r.2 = true ∧
      Rec.finishedNode E r.1 = pure (some x) ∧ S.le w0 w' ∧ S.N w' x ts ∧ S.Idle w' r.1.forest s ∧ s.2 ∧ ts.Nodup ∧
      ∀ t, t ∈ ts ↔ TreeOf (rulesOf c) (inputOf steps) t g0 0 steps.length := by
  have hlate := h.late
  obtain ⟨⟨hB, hleo, hr32, _, hW, htok, hin, hne, hlen, hh, hpl, hg0⟩, hterm⟩ := h
  obtain ⟨root, g0', hR0⟩ := hB.ready0
  have hR : Ready c n w E.g root id g0' := ⟨hR0, ho⟩
  obtain ⟨g, F, la, leo, so⟩ := E
  simp only at hleo
  subst hleo
  have hrule := hR.rule
  have hrule' := hrule
  rw [hR.start, hR.eof] at hrule'
  obtain ⟨g1, ⟨_, hroot⟩, _, _, hg1⟩ := hW.rules
  have : g0' = g1 := by have := hroot _ (List.mem_of_getElem? hrule') rfl; simpa using this
  subst this
  have : g0 = g0' := by have := hroot _ hg0 rfl; simpa using this
  subst this
  obtain ⟨r0, e1, _, e2, e3, e4⟩ := sim_accept (la := la) (so := so) sepSim (dotsOK_true g) (f0 := []) (w := ()) (f := ([], True))
    trivial hR.ok hR.look hR.ranked hrule hne hlen (stepsOK_of hR htok hin) (fun _ _ _ _ => trivial)
    (by rw [hR.eof]; exact hh)
  have hr0 : r0.2 = true := by
    cases hr : r0.2 with
    | true => rfl
    | false => exact absurd hacc (e4 hr)
  obtain ⟨N, e5, e6, e7⟩ := e2 hr0
  obtain ⟨ts, rfl⟩ := Option.isSome_iff_exists.1 (e6.2 hacc)
  obtain ⟨_, ts', _, hts, _, e8, e9, e10⟩ := e7 ts rfl
  have hts : ts = ts' := hts
  subst hts
  have hsep := session_sep (la := la) (so := so) hR.ok hR.ranked (show EC.Ordered (rulesOf c) from ho) (by omega)
    (stepsOK_of hR htok hin) (fun st hst => by
      obtain ⟨i, hi⟩ := List.mem_iff_getElem?.1 hst
      have := hpl i
      simpa [inputOf, hi] using this) e1
  have hrel : RelM False (Rec.new (FSim.env g la false so F) f >>= Rec.session (FSim.env g la false so F) steps)
      (Rec.new (sepEnv g la so) ([], True) >>= Rec.session (sepEnv g la so) steps)
      (S.Ext (fun w a b => S.RIdle w a.1 b.1 ∧ a.2 = b.2) w0) :=
    relM_bind (FSim.new_rel hI) fun a b hab => FSim.session_rel (hR.dots hd) hab steps
      fun st hst p hp => hl p.1 p.2 (htok st hst p hp).1 (htok st hst p hp).2
  obtain ⟨r, h1, w', hle, h2, h3⟩ := hrel.returns e1
  have hml := h2.medial.len
  obtain ⟨N', h4, h5⟩ := (FSim.finishedNode_rel' (la := la) (leo := false) (so := so) (g := g) h2
    (by rw [hml]; exact (e3 hr0).1) (by rw [hml]; exact (e3 hr0).2)).returns e5
  cases h5 with
  | @some x _ h5 =>
    exact ⟨r, x, w', ts, _, h1, by rw [h3]; exact hr0, h4, hle, h5, h2.forest, hsep,
      e9 fun i => List.Nodup.of_map _ (hpl i).1, fun t => ⟨e8 t, fun ht => e10 hpl hlate t ht⟩⟩

theorem packed_simple {E : Env Simple.Bocage Nat} {b : Simple.Bocage} {steps : List Step}
    (h : GoodParse E c n w nullable steps g0) (ho : UnaryOrdered (rulesOf c)) (hF : E.F = Simple.forest)
    (hb : Simple.Bocage.new E.g.forestInfo = pure b) (hacc : Accepts (rulesOf c) g0 steps) :
    ∃ r x, (Rec.new E b >>= Rec.session E steps) = pure r ∧ r.2 = true ∧ Rec.finishedNode E r.1 = pure (some x) ∧
      (r.1.forest.graph.length < 2 ^ 32 →
        Packs (Simple.HasView r.1.forest.graph) (rulesOf c) (inputOf steps) g0 0 steps.length x) := by
  obtain ⟨hb1, hbi, hbs⟩ := Simple.new_eq hb
  obtain ⟨g, F, la, leo, so⟩ := E
  simp only at hF
  subst hF
  obtain ⟨r, x, w', ts, s, h1, h2, h3, _, h4, ⟨h5, _, _, h6⟩, h7, _, h8⟩ := packed_session (E := ⟨g, Simple.forest, la, leo, so⟩)
    (Simple.psim b.info) (w0 := (b.graph, True)) (f := b) ⟨rfl, rfl, hbs, rfl⟩ h ho (fun _ _ => trivial)
    (fun _ _ _ _ => trivial) hacc
  refine ⟨r, x, h1, h2, h3, fun hl => ?_⟩
  rw [h5] at hl ⊢
  obtain ⟨us, h9, h10⟩ := h4 hl (h6 ▸ h7)
  exact (packs_of_vden (V := Simple.HasView w'.1) Simple.HasView.det h9).1 _ _ _ fun t => (h10.mem_iff).trans (h8 t)

theorem packed_compact {E : Env Compact.Bocage Nat} {b : Compact.Bocage} {steps : List Step}
    (h : GoodParse E c n w nullable steps g0) (ho : UnaryOrdered (rulesOf c)) (hF : E.F = Compact.forest)
    (hb : Compact.Bocage.new E.g.forestInfo = pure b) (hacc : Accepts (rulesOf c) g0 steps) :
    ∃ r x, (Rec.new E b >>= Rec.session E steps) = pure r ∧ r.2 = true ∧ Rec.finishedNode E r.1 = pure (some x) ∧
      (r.1.forest.graph.length < 2 ^ 32 →
        Packs (Compact.HasView r.1.forest.graph) (rulesOf c) (inputOf steps) g0 0 steps.length x) := by
  obtain ⟨hbi, hbs, _⟩ := Compact.new_eq hb
  obtain ⟨g, F, la, leo, so⟩ := E
  simp only at hF
  subst hF
  obtain ⟨r, x, w', ts, s, h1, h2, h3, _, h4, ⟨h5, _, _, h6⟩, h7, _, h8⟩ := packed_session (E := ⟨g, Compact.forest, la, leo, so⟩)
    (Compact.psim b.info) (w0 := (b.graph, True)) (f := b) ⟨rfl, rfl, hbs, rfl⟩ h ho
    (fun d hd => Nat.lt_trans hd h.rules32) (fun s v hs hv => ⟨Nat.lt_of_lt_of_le hs h.syms32, hv⟩) hacc
  refine ⟨r, x, h1, h2, h3, fun hl => ?_⟩
  rw [h5] at hl ⊢
  obtain ⟨us, h9, h10⟩ := h4.2 hl (h6 ▸ h7)
  exact (packs_of_vden (V := Compact.HasView w'.1) Compact.HasView.det h9).1 _ _ _ fun t => (h10.mem_iff).trans (h8 t)

end Gearley.Props
