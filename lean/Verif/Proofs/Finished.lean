import Verif.Proofs.Denote
import Verif.Props.Forest

/-! # The finished node of a parse, with everything needed for its evaluation -/

namespace Gearley.Props
open Gearley.Spec
variable {c : Cfg} {n : Nat} {w : WrappedRoot} {α σ : Type} {nullable : Prop}

/-- A parse of the input `steps` with the tables of the wrapped grammar `c`: each position has tokens which are symbols
of the grammar without rules, hints are honest. `g0` is the symbol before the end marker. The grammar may have cycles. -/
structure PlainParse (E : Env σ Nat) (c : Cfg) (n : Nat) (w : WrappedRoot) (nullable : Prop) (steps : List Step) (g0 : Nat) :
    Prop where
  prepared : Prepared c n w E.g
  leo : E.leo = false
  rules32 : c.rules.length < 2 ^ 32
  syms32 : c.numSyms ≤ 2 ^ 32
  wrapping : Wrapping (rulesOf c) w nullable
  tokens : TokensOK c.numSyms steps
  hints : HintsIn n steps
  ne : steps ≠ []
  len : steps.length < 2 ^ 64 - 1
  honest : E.lookahead = true → Honest (fun t => t < n ∧ Terminal (rulesOf c) t) w.eof steps
  plain : PlainInput (rulesOf c) (inputOf steps)
  rule : ⟨w.root, g0, some w.eof⟩ ∈ rulesOf c

/-- A parse where the recognizer gets through the input. Without cycles it always does (`PlainParse.good`). -/
structure GoodParse (E : Env σ Nat) (c : Cfg) (n : Nat) (w : WrappedRoot) (nullable : Prop) (steps : List Step) (g0 : Nat) : Prop
    extends PlainParse E c n w nullable steps g0 where
  terminates : Terminates E.g E.lookahead E.sorter steps

theorem PlainParse.good {E : Env σ Nat} {steps : List Step} {g0 : Nat} (h : PlainParse E c n w nullable steps g0)
    (hac : UnaryAcyclic (rulesOf c)) : GoodParse E c n w nullable steps g0 := by
  obtain ⟨_, _, _, hR⟩ := Built.ready ⟨h.prepared, hac⟩
  exact ⟨h, hR.terminates h.tokens h.hints (Nat.lt_of_lt_of_le h.len (Nat.sub_le _ _))⟩

theorem built_forestInfo {g : DefaultGrammar} (hB : Prepared c n w g) : g.forestInfo.eval = c.rules.map (·.origin) ∧
    g.forestInfo.nullingEliminated = c.rules.map (·.nullable) ∧ g.forestInfo.sof = w.sof ∧ g.forestInfo.start = w.innerRoot := by
  obtain ⟨maps, nulling, first, follow, h, _⟩ := hB.tables
  obtain ⟨depth, hP⟩ := hB.processed
  unfold fromProcessed fromProcessedWith at h
  obtain ⟨_, _, h⟩ := bind_eq_pure h
  obtain ⟨_, _, h⟩ := bind_eq_pure h
  obtain ⟨_, _, h⟩ := bind_eq_pure h
  obtain ⟨w', hw, h⟩ := bind_eq_pure h
  obtain ⟨_, _, h⟩ := bind_eq_pure h
  obtain ⟨_, _, h⟩ := bind_eq_pure h
  obtain ⟨_, _, h⟩ := bind_eq_pure h
  obtain ⟨_, _, h⟩ := bind_eq_pure h
  obtain ⟨_, _, h⟩ := bind_eq_pure h
  obtain ⟨_, _, h⟩ := bind_eq_pure h
  obtain ⟨_, _, h⟩ := bind_eq_pure h
  obtain ⟨_, _, h⟩ := bind_eq_pure h
  obtain ⟨_, _, h⟩ := bind_eq_pure h
  rw [hP.root] at hw
  have := pure_inj_M (show (pure w : M _) = pure w' from hw)
  subst this
  cases pure_inj_M h
  exact ⟨rfl, rfl, rfl, rfl⟩

theorem rootRules_of (hW : Wrapping (rulesOf c) w nullable) : RootRules c w := by
  obtain ⟨g0, ⟨_, h1⟩, _, _, h2⟩ := hW.rules
  intro r hr hl r' hr' hl' h
  have := h1 r hr hl
  subst this
  rcases h2 r' hr' hl' with rfl | rfl
  · cases h
  · exact hW.sof

theorem GoodParse.accepts {E : Env σ Nat} {steps : List Step} {g0 : Nat} {t : PTree}
    (_ : GoodParse E c n w nullable steps g0) (ht : TreeOf (rulesOf c) (inputOf steps) t g0 0 steps.length) :
    Accepts (rulesOf c) g0 steps := by
  obtain ⟨u, h1, h2, h3⟩ := ht.derives
  exact ⟨u, by simpa using h3, h2, h1⟩

theorem GoodParse.root_eq {E : Env σ Nat} {steps : List Step} {g0 g1 : Nat} (h : GoodParse E c n w nullable steps g0)
    (h1 : ⟨w.root, g1, some w.eof⟩ ∈ rulesOf c) : g1 = g0 := by
  obtain ⟨g2, ⟨_, hroot⟩, _⟩ := h.wrapping.rules
  have e1 := hroot _ h.rule rfl
  have e2 := hroot _ h1 rfl
  simp only [Rule.mk.injEq, true_and, and_true] at e1 e2
  rw [e2, ← e1]

/-- The form of the trees of the whole input. -/
theorem GoodParse.tree_form {E : Env σ Nat} {steps : List Step} {g0 : Nat} {t : PTree}
    (h : GoodParse E c n w nullable steps g0) (ht : TreeOf (rulesOf c) (inputOf steps) t g0 0 steps.length) :
    (∃ d v u, t = .node d (.pair (.leaf w.sof v) u) ∧ TreeOf (rulesOf c) (inputOf steps) u w.innerRoot 1 steps.length) ∨
    (∃ d v, t = .node d (.leaf w.sof v) ∧ steps.length = 1 ∧ nullable) := by
  obtain ⟨g1, ⟨h1, _⟩, h3, hn, h2⟩ := h.wrapping.rules
  have := h.root_eq h1
  subst this
  have hsof : ∀ {t : PTree} {i j : Nat}, TreeOf (rulesOf c) (inputOf steps) t w.sof i j → ∃ v, t = .leaf w.sof v ∧ j = i + 1 := by
    intro t i j ht
    cases ht with
    | leaf => exact ⟨_, rfl, rfl⟩
    | unary hr _ => exact absurd rfl (h.wrapping.sof _ (List.mem_of_getElem? hr))
    | binary hr _ _ => exact absurd rfl (h.wrapping.sof _ (List.mem_of_getElem? hr))
  generalize hi : (0 : Nat) = i at ht
  generalize hj : steps.length = j at ht
  cases ht with
  | leaf hm => exact absurd rfl ((h.plain _).2 _ hm _ h3)
  | unary hr hf =>
    rcases h2 _ (List.mem_of_getElem? hr) rfl with he | he
    · simp at he
    · have hm := List.mem_of_getElem? hr
      rw [he] at hm
      simp only [Rule.mk.injEq, true_and, and_true] at he
      subst he
      obtain ⟨v, rfl, rfl⟩ := hsof hf
      exact .inr ⟨_, _, rfl, by omega, hn.1 hm⟩
  | binary hr hl hf =>
    rcases h2 _ (List.mem_of_getElem? hr) rfl with he | he
    · simp only [Rule.mk.injEq, true_and, Option.some.injEq] at he
      obtain ⟨rfl, rfl⟩ := he
      obtain ⟨v, rfl, rfl⟩ := hsof hl
      subst hi
      exact .inl ⟨_, _, _, rfl, hf⟩
    · simp at he

theorem finished_simple {E : Env Simple.Bocage Nat} {b : Simple.Bocage} {steps : List Step} {g0 : Nat}
    (h : GoodParse E c n w nullable steps g0) (hF : E.F = Simple.forest) (hb : Simple.Bocage.new E.g.forestInfo = pure b)
    (hacc : Accepts (rulesOf c) g0 steps) :
    ∃ r x, (Rec.new E b >>= Rec.session E steps) = pure r ∧ r.2 = true ∧ Rec.finishedNode E r.1 = pure (some x) ∧
      r.1.forest.info = E.g.forestInfo ∧ (r.1.forest.graph.length < 2 ^ 32 →
        (∃ ts, Simple.Den r.1.forest.graph x ts ∧ ts.Nodup ∧
          ∀ t, t ∈ ts ↔ TreeOf (rulesOf c) (inputOf steps) t g0 0 steps.length) ∧
        ∀ {α : Type} (ev : Evaluator α) nv nc, NullEval E.g.forestInfo ev nv nc →
          Simple.Tables E.g.forestInfo ev nv nc r.1.forest.graph (rulesOf c).length) := by
  obtain ⟨⟨hB, hleo, hr32, _, hW, htok, hin, hne, hlen, hh, hpl, hg0⟩, hterm⟩ := h
  obtain ⟨he1, he2, he3, _⟩ := built_forestInfo hB
  obtain ⟨hb1, hbi, hbs⟩ := Simple.new_eq hb
  obtain ⟨root, g0', hR⟩ := hB.ready0
  obtain ⟨g, F, la, leo, so⟩ := E
  simp only at hF hleo
  subst hF hleo
  have hrule := hR.rule
  rw [hR.start, hR.eof] at hrule
  obtain ⟨g1, ⟨_, hroot⟩, _, _, hg1⟩ := hW.rules
  have : g0' = g1 := by have := hroot _ (List.mem_of_getElem? hrule) rfl; simpa using this
  subst this
  have : g0 = g0' := by have := hroot _ hg0 rfl; simpa using this
  subst this
  obtain ⟨r, h1, h2, h3⟩ := sim_trees (E := ⟨g, Simple.forest, la, false, so⟩) (Simple.sim b.info) (w0 := b.graph) (f := b)
    ⟨rfl, rfl, hbs⟩ rfl hR
    (fun _ _ => trivial) (fun _ _ _ _ => trivial) hterm htok hin hne hlen hh
  have hr2 : r.2 = true := by
    cases hr : r.2 with
    | true => rfl
    | false => exact absurd hacc (h3 hr)
  obtain ⟨N, h4, h5, h6⟩ := h2 hr2
  obtain ⟨x, rfl⟩ := Option.isSome_iff_exists.1 (h5.2 hacc)
  obtain ⟨w', N', t', hN', ⟨rfl, hinfo, _⟩, ht1, ht2, ht3⟩ := h6 x rfl
  have hi : r.1.forest.info = g.forestInfo := hinfo.trans hbi
  refine ⟨r, x, h1, hr2, h4, hi, fun hl => ⟨?_, fun ev nv nc hN => ?_⟩⟩
  · obtain ⟨ts, hd, hp⟩ := hN' hl
    refine ⟨ts, hd, hp.nodup_iff.2 (ht2 fun i => List.Nodup.of_map _ (hpl i).1), fun t => ⟨fun ht => ht1 t (hp.mem_iff.1 ht), fun ht => ?_⟩⟩
    exact hp.mem_iff.2 (ht3 hpl (fun r' h1 h2 h3 => rootRules_of hW _ (List.mem_of_getElem? hrule) rfl r' h1 h2 h3) _ ht)
  · obtain ⟨w2, hpre, _, hg, _⟩ := session_grow Simple.growSim (w := b.graph) ⟨rfl, rfl, hbs⟩ h1
    have hpre : b.graph <+: r.1.forest.graph := by rw [hg]; exact hpre
    exact Simple.tables (k := (rulesOf c).length) hb hpre hl hN (by rw [he1]; simpa using hr32)
      (by rw [he2]; simpa using hr32) (by rw [he2]; simp [rulesOf])

theorem finished_compact {E : Env Compact.Bocage Nat} {b : Compact.Bocage} {steps : List Step} {g0 : Nat}
    (h : GoodParse E c n w nullable steps g0) (hF : E.F = Compact.forest) (hb : Compact.Bocage.new E.g.forestInfo = pure b)
    (hacc : Accepts (rulesOf c) g0 steps) :
    ∃ r x, (Rec.new E b >>= Rec.session E steps) = pure r ∧ r.2 = true ∧ Rec.finishedNode E r.1 = pure (some x) ∧
      r.1.forest.info = E.g.forestInfo ∧ (r.1.forest.graph.length < 2 ^ 32 →
        (∃ ts, Compact.Den r.1.forest.graph x ts ∧ ts.Nodup ∧
          ∀ t, t ∈ ts ↔ TreeOf (rulesOf c) (inputOf steps) t g0 0 steps.length) ∧
        ∀ {α : Type} (ev : Evaluator α) nv nc, NullEval E.g.forestInfo ev nv nc →
          Compact.Tables E.g.forestInfo ev nv nc r.1.forest.graph (rulesOf c).length) := by
  obtain ⟨⟨hB, hleo, hr32, hs32, hW, htok, hin, hne, hlen, hh, hpl, hg0⟩, hterm⟩ := h
  obtain ⟨he1, he2, he3, _⟩ := built_forestInfo hB
  obtain ⟨hbi, hbs, _⟩ := Compact.new_eq hb
  obtain ⟨root, g0', hR⟩ := hB.ready0
  obtain ⟨g, F, la, leo, so⟩ := E
  simp only at hF hleo
  subst hF hleo
  have hrule := hR.rule
  rw [hR.start, hR.eof] at hrule
  obtain ⟨g1, ⟨_, hroot⟩, _, _, hg1⟩ := hW.rules
  have : g0' = g1 := by have := hroot _ (List.mem_of_getElem? hrule) rfl; simpa using this
  subst this
  have : g0 = g0' := by have := hroot _ hg0 rfl; simpa using this
  subst this
  obtain ⟨r, h1, h2, h3⟩ := sim_trees (E := ⟨g, Compact.forest, la, false, so⟩) (Compact.sim b.info) (w0 := b.graph) (f := b)
    ⟨rfl, rfl, hbs⟩ rfl hR
    (fun d hd => Nat.lt_trans hd hr32) (fun s v hs hv => ⟨Nat.lt_of_lt_of_le hs hs32, hv⟩) hterm htok hin hne hlen hh
  have hr2 : r.2 = true := by
    cases hr : r.2 with
    | true => rfl
    | false => exact absurd hacc (h3 hr)
  obtain ⟨N, h4, h5, h6⟩ := h2 hr2
  obtain ⟨x, rfl⟩ := Option.isSome_iff_exists.1 (h5.2 hacc)
  obtain ⟨w', ts, t', ⟨_, hN'⟩, ⟨rfl, hinfo, _⟩, ht1, ht2, ht3⟩ := h6 x rfl
  have hi : r.1.forest.info = g.forestInfo := hinfo.trans hbi
  refine ⟨r, x, h1, hr2, h4, hi, fun hl => ⟨?_, fun ev nv nc hN => ?_⟩⟩
  · refine ⟨ts, hN' hl, ht2 fun i => List.Nodup.of_map _ (hpl i).1, fun t => ⟨ht1 t, fun ht => ?_⟩⟩
    exact ht3 hpl (fun r' h1 h2 h3 => rootRules_of hW _ (List.mem_of_getElem? hrule) rfl r' h1 h2 h3) _ ht
  · obtain ⟨w2, hpre, _, hg⟩ := session_grow Compact.growSim (w := b.graph) ⟨rfl, rfl⟩ h1
    have hpre : b.graph <+: r.1.forest.graph := by rw [hg]; exact hpre
    exact Compact.tables (k := (rulesOf c).length) hb hpre hl hN (by rw [he1]; simpa using hr32)
      (by rw [he2]; simpa using hr32) (by rw [he2]; simp [rulesOf])

theorem eq_single {β : Type} {l : List β} {x : β} (hn : l.Nodup) (hx : x ∈ l) (h : ∀ y ∈ l, y = x) : l = [x] := by
  rcases l with _ | ⟨a, l⟩
  · simp at hx
  · have ha := h a (by simp)
    subst ha
    rcases l with _ | ⟨b, l⟩
    · rfl
    · have hb := h b (by simp)
      subst hb
      simp at hn

end Gearley.Props
