import Verif.Proofs.Size
import Verif.Props.Linear
import Verif.Props.Quadratic
import Verif.Props.Lookahead

/-!
# C54: the size of the forest

The bounds of C43, C48, C50 and C53 count operations of a forest. Here they become bounds on the number of nodes of the simple
bocage and the number of bytes of the compact bocage.
-/

namespace Gearley

open Gearley.Spec
variable {σ ν : Type} {F : ForestOps σ ν} {m : σ → Nat} {K m0 : Nat}

theorem uncount_of_rel {hg : Grows F m K} {s : Rec (σ × Nat) ν} {t : Rec σ ν} (h : (sizeSim hg m0).RIdle () s t) :
    t = s.uncount ∧ m t.forest ≤ m0 + K * s.forest.2 := by
  have items : ∀ {l l' : List (Item ν)}, List.Forall₂ ((sizeSim hg m0).IRel ()) l l' → l' = l := by
    intro l l' h
    induction h with
    | nil => rfl
    | @cons a b _ _ hab _ ih =>
      obtain ⟨d, o, x⟩ := a
      obtain ⟨d', o', x'⟩ := b
      obtain ⟨h1, h2, -, h3⟩ := hab
      simp only at h1 h2
      subst h1 h2
      have h3 : x = x' := h3
      rw [ih, h3]
  obtain ⟨sf, sl, sp, ⟨sc, si⟩, sq⟩ := s
  obtain ⟨tf, tl, tp, ⟨tc, ti⟩, tq⟩ := t
  obtain ⟨h1, h2, ⟨h3, h4⟩, h5, h6⟩ := h
  simp only at h1 h2 h3 h4 h5 h6
  obtain ⟨h6, h7⟩ := h6
  refine ⟨?_, h7⟩
  simp only [Rec.uncount, Rec.mk.injEq]
  exact ⟨h6.symm, h1.symm, h2.symm, by rw [h3, items h4], items h5⟩

theorem eq_of_relM {α β : Type} {x : M α} {y : M β} {f : α → β} (h : RelM False x y fun a b => b = f a) :
    y = x >>= fun a => pure (f a) := by
  rcases h with ⟨a, b, hx, hy, h⟩ | ⟨p, hx, hy⟩ | ⟨hx, hy⟩ | ⟨hl, -⟩
  · rw [hx, hy, h]; rfl
  · rw [hx, hy]; rfl
  · rw [hx, hy]; rfl
  · exact hl.elim

theorem session_counted (hg : Grows F m K) (E : Env σ ν) (hF : E.F = F) (f : σ) (i : Nat) (steps : List Step) :
    RelM False (Rec.new E.counting (f, i) >>= Rec.session E.counting steps) (Rec.new E f >>= Rec.session E steps)
      fun a b => b = (a.1.uncount, a.2) ∧ (i = 0 → m b.1.forest ≤ m f + K * a.1.forest.2) := by
  subst hF
  have h0 : (sizeSim hg (m f)).Idle () (f, i) f := ⟨rfl, Nat.le_add_right _ _⟩
  refine (relM_bind (FSim.new_rel (g := E.g) (la := E.lookahead) (leo := E.leo) (so := E.sorter) h0)
    fun a b hab => FSim.session_rel (dotsOK_true E.g) hab steps fun _ _ _ _ => trivial).mono ?_
  rintro ⟨a, x⟩ ⟨b, y⟩ ⟨_, _, hab, h⟩
  simp only at h
  subst h
  obtain ⟨h1, h2⟩ := uncount_of_rel hab
  exact ⟨Prod.ext h1 rfl, fun _ => h2⟩

theorem parse_counted (hg : Grows F m K) (E : Env σ ν) (hF : E.F = F) (f : σ) (i : Nat) (toks : List Nat) :
    RelM False (Rec.new E.counting (f, i) >>= fun s => Rec.parse E.counting s toks)
      (Rec.new E f >>= fun s => Rec.parse E s toks)
      fun a b => b = (a.1.uncount, a.2) ∧ (i = 0 → m b.1.forest ≤ m f + K * a.1.forest.2) := by
  subst hF
  have h0 : (sizeSim hg (m f)).Idle () (f, i) f := ⟨rfl, Nat.le_add_right _ _⟩
  refine (relM_bind (FSim.new_rel (g := E.g) (la := E.lookahead) (leo := E.leo) (so := E.sorter) h0)
    fun a b hab => FSim.parse_rel (dotsOK_true E.g) (fun _ _ => trivial) ?_ hab toks).mono ?_
  · rintro _ ⟨s, j⟩ t sym ⟨rfl, _⟩
    exact relM_same.mono fun a b h => h.1
  · rintro ⟨a, x⟩ ⟨b, y⟩ ⟨_, _, hab, h⟩
    simp only at h
    subst h
    obtain ⟨h1, h2⟩ := uncount_of_rel hab
    exact ⟨Prod.ext h1 rfl, fun _ => h2⟩

namespace Props
variable {c : Cfg} {n : Nat} {w : WrappedRoot} {E : Env σ ν} {f : σ}

/-- C54. Counting is invisible: for every grammar, forest and policy, running a session without the counter is the same as
running it with the counter and forgetting it. This includes panics and runs without end. -/
theorem C54_counted (E : Env σ ν) (f : σ) (i : Nat) (steps : List Step) :
    (Rec.new E f >>= Rec.session E steps) =
      (Rec.new E.counting (f, i) >>= Rec.session E.counting steps) >>= fun r => pure (r.1.uncount, r.2) :=
  eq_of_relM ((session_counted (Grows.zero E.F) E rfl f i steps).mono fun _ _ h => h.1)

/-- C54. The same for `parse`. -/
theorem C54_counted_parse (E : Env σ ν) (f : σ) (i : Nat) (toks : List Nat) :
    (Rec.new E f >>= fun s => Rec.parse E s toks) =
      (Rec.new E.counting (f, i) >>= fun s => Rec.parse E.counting s toks) >>= fun r => pure (r.1.uncount, r.2) :=
  eq_of_relM ((parse_counted (Grows.zero E.F) E rfl f i toks).mono fun _ _ h => h.1)

/-- C54. Each operation adds at most one node to the simple bocage, and at most nine bytes to the compact bocage. -/
theorem C54_forests : Grows Simple.forest (fun b => b.graph.length) 1 ∧ Grows Compact.forest (fun b => b.graph.length) 9 :=
  ⟨Simple.grows, Compact.grows⟩

/-- C54. A new bocage has one node for each number up to the greatest nulling symbol and one for each nulling rule with two
symbols; a new compact bocage has nine bytes for each. -/
theorem C54_new {info : ForestInfo} :
    (∀ b, Simple.Bocage.new info = pure b →
      b.graph.length = info.maxNullingSymbol.getD 0 + 1 + info.nullingIntermediate.length) ∧
    ∀ b, Compact.Bocage.new info = pure b →
      b.graph.length = 9 * (info.maxNullingSymbol.getD 0 + 1 + info.nullingIntermediate.length) := by
  have fold : ∀ (l : List (Nat × Nat × Nat)) (g g' : List Simple.Node), l.foldlM Simple.nullingRule g = pure g' →
      g'.length = g.length + l.length := by
    intro l
    induction l with
    | nil => intro g g' h; rw [pure_inj_M h]; rfl
    | cons x l ih =>
      intro g g' h
      rw [List.foldlM_cons] at h
      obtain ⟨g1, h1, h⟩ := bind_eq_pure h
      have := ih _ _ h
      unfold Simple.nullingRule setM at h1
      dsimp only at h1
      split at h1
      · rw [← pure_inj_M h1] at this
        simp only [List.length_set, List.length_append, List.length_singleton] at this
        simp only [List.length_cons]; omega
      · exact absurd h1 panicM_ne_pure
  have nulling : ∀ g, Simple.nullingGraph info = pure g →
      g.length = info.maxNullingSymbol.getD 0 + 1 + info.nullingIntermediate.length := by
    intro g h
    unfold Simple.nullingGraph at h
    obtain ⟨_, _, h⟩ := bind_eq_pure h
    simpa using fold _ _ _ h
  have expand : ∀ (l : List Simple.Node) (g g' : List Nat), l.foldlM Compact.expandNulling g = pure g' →
      g'.length = g.length + 9 * l.length := by
    intro l
    induction l with
    | nil => intro g g' h; rw [pure_inj_M h]; rfl
    | cons x l ih =>
      intro g g' h
      rw [List.foldlM_cons] at h
      obtain ⟨g1, h1, h⟩ := bind_eq_pure h
      have h2 := ih _ _ h
      have h3 : g1.length = g.length + 9 := by
        unfold Compact.expandNulling at h1
        split at h1
        all_goals first
          | exact absurd h1 panicM_ne_pure
          | rw [← pure_inj_M h1]; simp [Compact.pushExpanded, Compact.encodeExpanded, Compact.Node.words, Compact.leBytes]
      rw [h2, h3, List.length_cons]; omega
  refine ⟨fun b h => ?_, fun b h => ?_⟩
  · unfold Simple.Bocage.new at h
    obtain ⟨g, hg, h⟩ := bind_eq_pure h
    rw [← pure_inj_M h]
    exact nulling g hg
  · unfold Compact.Bocage.new at h
    obtain ⟨g, hg, h⟩ := bind_eq_pure h
    obtain ⟨g', hg', h⟩ := bind_eq_pure h
    rw [← pure_inj_M h]
    have := expand _ _ _ hg'
    rw [nulling g hg] at this
    simpa using this

/-- C54. The forest grows by at most `K` for each operation that is counted. -/
theorem C54_size (hg : Grows E.F m K) {steps : List Step} {r} (hr : (Rec.new E f >>= Rec.session E steps) = pure r) :
    ∃ r', (Rec.new E.counting (f, 0) >>= Rec.session E.counting steps) = pure r' ∧ r = (r'.1.uncount, r'.2) ∧
      m r.1.forest ≤ m f + K * r'.1.forest.2 := by
  obtain ⟨r', h1, h2, h3⟩ := (session_counted hg E rfl f 0 steps).returns hr
  exact ⟨r', h1, h2, h3 rfl⟩

theorem size_of_counted (hg : Grows E.F m K) {steps : List Step} {N : Nat}
    (h : ∃ r, (Rec.new E.counting (f, 0) >>= Rec.session E.counting steps) = pure r ∧ r.1.forest.2 ≤ N) :
    ∃ r, (Rec.new E f >>= Rec.session E steps) = pure r ∧ m r.1.forest ≤ m f + K * N := by
  obtain ⟨r, h1, h2⟩ := h
  obtain ⟨r', h3, -, h4⟩ := (session_counted hg E rfl f 0 steps).returns_left h1
  exact ⟨r', h3, (h4 rfl).trans (Nat.add_le_add_left (Nat.mul_le_mul_left _ h2) _)⟩

/-- C54. The forest is of cubic size in the length of the input. -/
theorem C54_cubic (hB : Built c n w E.g) (hleo : E.leo = false) (ho : UnaryOrdered (rulesOf c))
    (hF : SafeStart E.F f c.rules.length c.numSyms) (hg : Grows E.F m K) {steps : List Step}
    (htok : TokensOK c.numSyms steps) (hin : HintsIn n steps) (hlen : steps.length + 1 < 2 ^ 64)
    (hterm : ∀ st ∈ steps, (st.2.map (·.1)).Nodup ∧ Terminals c n (st.2.map (·.1))) :
    ∃ r, (Rec.new E f >>= Rec.session E steps) = pure r ∧
      m r.1.forest ≤ m f + K * ((3 * c.numSyms + 6 * c.rules.length) * steps.length ^ 3) := by
  obtain ⟨r, h1, h2, -⟩ := C43_cubic hB hleo ho hF htok hin hlen hterm
  exact size_of_counted hg ⟨r, h1, h2⟩

/-- C54. The forest is of quadratic size for unambiguous grammars. -/
theorem C54_quadratic (hB : Built c n w E.g) (hleo : E.leo = false)
    (hF : SafeStart E.F f c.rules.length c.numSyms) (hg : Grows E.F m K) (hu : Unambiguous (rulesOf c) w.root)
    (hprod : Productive (rulesOf c)) {u : List (Nat × Nat)} (htok : ∀ p ∈ u, p.2 < 2 ^ 32)
    (hterm : Terminals c n (u.map (·.1))) (hlen : u.length + 1 < 2 ^ 64) :
    ∃ r, (Rec.new E f >>= Rec.session E (u.map fun p => (.keep, [p]))) = pure r ∧
      m r.1.forest ≤ m f + K * ((3 * c.numSyms + 6 * c.rules.length) * u.length ^ 2) :=
  size_of_counted hg (C48_unambiguous hB hleo hF hu hprod htok hterm hlen)

/-- C54. The forest is of linear size for left-linear grammars. -/
theorem C54_left_linear (hB : Built c n w E.g) (hleo : E.leo = false) (ho : UnaryOrdered (rulesOf c))
    (hF : SafeStart E.F f c.rules.length c.numSyms) (hg : Grows E.F m K) (hl : LeftLinear (rulesOf c) w.root)
    {steps : List Step} (htok : TokensOK c.numSyms steps) (hin : HintsIn n steps) (hlen : steps.length + 1 < 2 ^ 64)
    (hterm : ∀ st ∈ steps, (st.2.map (·.1)).Nodup ∧ Terminals c n (st.2.map (·.1))) :
    ∃ r, (Rec.new E f >>= Rec.session E steps) = pure r ∧
      m r.1.forest ≤ m f + K * (linearCost c.numSyms c.rules.length (3 * c.numSyms) * steps.length) :=
  size_of_counted hg (C50_left_linear hB hleo ho hF hl htok hin hlen hterm)

/-- C54. With look-ahead and exact FOLLOW sets, `parse` builds a forest of linear size for right-linear grammars. -/
theorem C54_right_linear {maps nulling first follow} (hB : Built c n w E.g)
    (hb : fromProcessed c maps nulling first follow = pure E.g) (hex : FollowExact (rulesOf c) w.root follow)
    (hleo : E.leo = false) (hla : E.lookahead = true) (ho : UnaryOrdered (rulesOf c))
    (hF : SafeStart E.F f c.rules.length c.numSyms) (hg : Grows E.F m K) {L : Nat}
    (hL : RightLinear (rulesOf c) w.root w.eof L) {toks u : List Nat} (hi : Internals E.g toks u) (ht : Terminals c n u)
    (hne : w.eof ∉ u) (hlen : u.length + 1 < 2 ^ 64 - 1) :
    ∃ s res, (Rec.new E f >>= fun s => Rec.parse E s toks) = pure (s, res) ∧
      m s.forest ≤ m f + K * (lookCost c.numSyms c.rules.length L * (u.length + 1)) := by
  obtain ⟨s, res, h1, h2⟩ := C53_right_linear hB hb hex hleo hla ho hF hL hi ht hne hlen
  obtain ⟨⟨s', res'⟩, h3, -, h4⟩ := (parse_counted hg E rfl f 0 toks).returns_left h1
  exact ⟨s', res', h3, (h4 rfl).trans (Nat.add_le_add_left (Nat.mul_le_mul_left _ h2) _)⟩

theorem plain_of_terms {steps : List Step}
    (hterm : ∀ st ∈ steps, (st.2.map (·.1)).Nodup ∧ Terminals c n (st.2.map (·.1))) :
    PlainInput (rulesOf c) (inputOf steps) := by
  intro i
  unfold inputOf
  cases hst : steps[i]? with
  | none => simp
  | some st =>
    have := hterm st (List.mem_of_getElem? hst)
    exact ⟨this.1, fun t ht => (this.2 t.1 (List.mem_map_of_mem ht)).2⟩

/-- C54 and C13, C14 together. If `size + (3 * symbols + 6 * rules) * k ^ 3 < 2 ^ 32`, where `k` is the length of the input and
`size` is the size of the new bocage, then no handle overflows: the finished node stands for exactly the parse trees. -/
theorem C54_all_trees_simple {E : Env Simple.Bocage Nat} {b : Simple.Bocage} (hB : Built c n w E.g) (hleo : E.leo = false)
    (ho : UnaryOrdered (rulesOf c)) (hF : E.F = Simple.forest) (hb : Simple.Bocage.new E.g.forestInfo = pure b)
    {steps : List Step} (htok : TokensOK c.numSyms steps) (hin : HintsIn n steps) (hne : steps ≠ [])
    (hlen : steps.length < 2 ^ 64 - 1)
    (hh : E.lookahead = true → Honest (fun t => t < n ∧ Terminal (rulesOf c) t) w.eof steps)
    (hterm : ∀ st ∈ steps, (st.2.map (·.1)).Nodup ∧ Terminals c n (st.2.map (·.1)))
    (hroot : RootRules c w)
    (hsize : b.graph.length + (3 * c.numSyms + 6 * c.rules.length) * steps.length ^ 3 < 2 ^ 32) :
    ∃ g0 r, ⟨w.root, g0, some w.eof⟩ ∈ rulesOf c ∧ (Rec.new E b >>= Rec.session E steps) = pure r ∧
      (r.2 = false → ¬ Accepts (rulesOf c) g0 steps) ∧
      (r.2 = true → ∃ N, Rec.finishedNode E r.1 = pure N ∧ (N.isSome ↔ Accepts (rulesOf c) g0 steps) ∧
        ∀ x, N = some x → ∃ ts, Simple.Den r.1.forest.graph x ts ∧ ts.Nodup ∧
          ∀ t, t ∈ ts ↔ TreeOf (rulesOf c) (inputOf steps) t g0 0 steps.length) := by
  have hs := (C02_forests c.rules.length c.numSyms).2.1 _ _ hb
  rw [← hF] at hs
  have hc : b.summandCount = 0 := by
    unfold Simple.Bocage.new at hb
    obtain ⟨g, _, hb⟩ := bind_eq_pure hb
    rw [← pure_inj_M hb]
  obtain ⟨r', h1, h2⟩ := C54_cubic (m := fun b : Simple.Bocage => b.graph.length) hB hleo ho hs (hF ▸ C54_forests.1) htok hin
    (by omega) hterm
  obtain ⟨g0, r, h3, h4, h5, h6⟩ := C13_C14_simple hB hleo hF hc htok hin hne hlen hh
  refine ⟨g0, r, h3, h4, h5, fun ht => ?_⟩
  obtain ⟨N, h7, h8, h9⟩ := h6 ht
  have : r' = r := by rw [h4] at h1; exact (pure_inj_M h1).symm
  subst this
  refine ⟨N, h7, h8, fun x hx => ?_⟩
  obtain ⟨ts, ha, hb, hc⟩ := h9 x hx (by omega)
  obtain ⟨hd, he⟩ := hc (plain_of_terms hterm) hroot
  exact ⟨ts, ha, hd, fun t => ⟨hb t, he t⟩⟩

/-- C54 and C13, C14 together, for the compact bocage. -/
theorem C54_all_trees_compact {E : Env Compact.Bocage Nat} {b : Compact.Bocage} (hB : Built c n w E.g) (hleo : E.leo = false)
    (ho : UnaryOrdered (rulesOf c)) (hF : E.F = Compact.forest) (hb : Compact.Bocage.new E.g.forestInfo = pure b)
    (hr32 : c.rules.length ≤ 2 ^ 32) (hs32 : c.numSyms ≤ 2 ^ 32)
    {steps : List Step} (htok : TokensOK c.numSyms steps) (hin : HintsIn n steps) (hne : steps ≠ [])
    (hlen : steps.length < 2 ^ 64 - 1)
    (hh : E.lookahead = true → Honest (fun t => t < n ∧ Terminal (rulesOf c) t) w.eof steps)
    (hterm : ∀ st ∈ steps, (st.2.map (·.1)).Nodup ∧ Terminals c n (st.2.map (·.1)))
    (hroot : RootRules c w)
    (hsize : b.graph.length + 9 * ((3 * c.numSyms + 6 * c.rules.length) * steps.length ^ 3) < 2 ^ 32) :
    ∃ g0 r, ⟨w.root, g0, some w.eof⟩ ∈ rulesOf c ∧ (Rec.new E b >>= Rec.session E steps) = pure r ∧
      (r.2 = false → ¬ Accepts (rulesOf c) g0 steps) ∧
      (r.2 = true → ∃ N, Rec.finishedNode E r.1 = pure N ∧ (N.isSome ↔ Accepts (rulesOf c) g0 steps) ∧
        ∀ x, N = some x → ∃ ts, Compact.Den r.1.forest.graph x ts ∧ ts.Nodup ∧
          ∀ t, t ∈ ts ↔ TreeOf (rulesOf c) (inputOf steps) t g0 0 steps.length) := by
  have hs := (C02_forests c.rules.length c.numSyms).2.2 b
  rw [← hF] at hs
  have hc : b.sumStart = none := by
    unfold Compact.Bocage.new at hb
    obtain ⟨g, _, hb⟩ := bind_eq_pure hb
    obtain ⟨g', _, hb⟩ := bind_eq_pure hb
    rw [← pure_inj_M hb]
  obtain ⟨r', h1, h2⟩ := C54_cubic (m := fun b : Compact.Bocage => b.graph.length) hB hleo ho hs (hF ▸ C54_forests.2) htok hin
    (by omega) hterm
  obtain ⟨g0, r, h3, h4, h5, h6⟩ := C13_C14_compact hB hleo hF hc hr32 hs32 htok hin hne hlen hh
  refine ⟨g0, r, h3, h4, h5, fun ht => ?_⟩
  obtain ⟨N, h7, h8, h9⟩ := h6 ht
  have : r' = r := by rw [h4] at h1; exact (pure_inj_M h1).symm
  subst this
  refine ⟨N, h7, h8, fun x hx => ?_⟩
  obtain ⟨ts, ha, hb, hc⟩ := h9 x hx (by omega)
  obtain ⟨hd, he⟩ := hc (plain_of_terms hterm) hroot
  exact ⟨ts, ha, hd, fun t => ⟨hb t, he t⟩⟩

/-! ### Examples -/

section
open Gearley.Example

-- the hypotheses are met by the session of Props/Forest.lean
example {b : Simple.Bocage} (hb : Simple.Bocage.new grammar.forestInfo = pure b) :
    ∃ g0 r, ⟨wrap.root, g0, some wrap.eof⟩ ∈ rulesOf cfg ∧ (Rec.new simpleEnv b >>= Rec.session simpleEnv forestSteps) = pure r ∧
      (r.2 = false → ¬ Accepts (rulesOf cfg) g0 forestSteps) ∧
      (r.2 = true → ∃ N, Rec.finishedNode simpleEnv r.1 = pure N ∧ (N.isSome ↔ Accepts (rulesOf cfg) g0 forestSteps) ∧
        ∀ x, N = some x → ∃ ts, Simple.Den r.1.forest.graph x ts ∧ ts.Nodup ∧
          ∀ t, t ∈ ts ↔ TreeOf (rulesOf cfg) (inputOf forestSteps) t g0 0 6) :=
  C54_all_trees_simple (c := cfg) (n := 6) (w := wrap) built rfl (by unfold UnaryOrdered; decide) rfl hb
    (by unfold TokensOK; decide) (fun st hst x hx => absurd hx (forestSteps_noHints st hst x)) (by decide) (by decide)
    (fun _ _ st x hst hx => absurd hx (forestSteps_noHints st (List.mem_of_getElem? hst) x))
    (by unfold Terminals Terminal; decide) (by unfold RootRules Terminal; decide) (by
      rw [C54_new.1 b hb]
      decide +kernel)

example : ∃ b, Simple.Bocage.new grammar.forestInfo = pure b :=
  (C36_simple grammar.forestInfo (by decide +kernel) (by decide +kernel)).imp fun _ h => h.1

example {b : Compact.Bocage} (hb : Compact.Bocage.new grammar.forestInfo = pure b) :
    ∃ r, (Rec.new compactEnv b >>= Rec.session compactEnv chartSteps) = pure r ∧
      r.1.forest.graph.length ≤ b.graph.length + 9 * ((3 * cfg.numSyms + 6 * cfg.rules.length) * 4 ^ 3) :=
  C54_cubic (c := cfg) (n := 6) (w := wrap) (m := fun b : Compact.Bocage => b.graph.length) built rfl
    (by unfold UnaryOrdered; decide) ((C02_forests _ _).2.2 b) C54_forests.2 (by unfold TokensOK; decide) chartSteps_hints
    (by decide) (by unfold Terminals Terminal; decide)

/-- C54 for right recursion: the forest of a list of `k` elements has at most `1942 * (k + 1)` nodes more than a new one. -/
theorem C54_right_recursion {E : Env Simple.Bocage Nat} {b : Simple.Bocage} (hg : E.g = Right.grammar) (hleo : E.leo = false)
    (hla : E.lookahead = true) (hF : E.F = Simple.forest) (hb : Simple.Bocage.new E.g.forestInfo = pure b) (k : Nat)
    (hk : k + 1 < 2 ^ 64 - 1) :
    ∃ s res, (Rec.new E b >>= fun s => Rec.parse E s (List.replicate k 4)) = pure (s, res) ∧
      s.forest.graph.length ≤ b.graph.length + 1942 * (k + 1) := by
  have hs := (C02_forests Right.cfg.rules.length Right.cfg.numSyms).2.1 _ _ hb
  rw [← hF] at hs
  obtain ⟨s, res, h1, h2⟩ := C53_right_recursion hg hleo hla hs k hk
  have hG : Grows E.F (fun b => b.graph.length) 1 := hF ▸ C54_forests.1
  obtain ⟨⟨s', res'⟩, h3, -, h4⟩ := (parse_counted hG E rfl b 0 (List.replicate k 4)).returns_left h1
  refine ⟨s', res', h3, (h4 rfl).trans ?_⟩
  show b.graph.length + 1 * s.forest.2 ≤ _
  omega

end

end Props
end Gearley
