import Verif.Proofs.Forest
import Verif.Proofs.Nulling
import Verif.Props.Chart

/-!
# C13, C14, C18, C19, C36, C38: forests

`Simple.Den` and `Compact.Den` (Spec/Denote.lean) say which trees a node represents. Handles are 32-bit numbers, so
theorems about handles assume that the graph is shorter than `2 ^ 32`.
-/

namespace Gearley.Props
open Gearley.Spec
variable {c : Cfg} {n : Nat} {w : WrappedRoot}

/-- The rules for the symbol before the end marker have either two symbols or a single terminal. The wrapping rules
`g0 ::= sof root` and `g0 ::= sof` have this form. -/
def RootRules (c : Cfg) (w : WrappedRoot) : Prop :=
  ∀ r ∈ rulesOf c, r.lhs = w.root → ∀ r' ∈ rulesOf c, r'.lhs = r.rhs0 → r'.rhs1 = none → Terminal (rulesOf c) r'.rhs0

/-- Tokens have no rules, and no symbol is scanned twice at a position. -/
def PlainInput (R : Rules) (inp : Input) : Prop := ∀ i, ((inp i).map (·.1)).Nodup ∧ ∀ t ∈ inp i, Terminal R t.1

/-! ### C13, C14: the trees of the finished node -/

/-- C13 and C14 for the simple bocage and any grammar, with cycles or not: the same as below for a session that returned. -/
theorem C13_C14_returned_simple {E : Env Simple.Bocage Nat} {b : Simple.Bocage} {r : Rec Simple.Bocage Nat × Bool} (hB : Prepared c n w E.g) (hleo : E.leo = false)
    (hF : E.F = Simple.forest) (hb : b.summandCount = 0) {steps : List Step} (htok : TokensOK c.numSyms steps)
    (hin : HintsIn n steps) (hne : steps ≠ []) (hlen : steps.length < 2 ^ 64 - 1)
    (hh : E.lookahead = true → Honest (fun t => t < n ∧ Terminal (rulesOf c) t) w.eof steps)
    (hr : (Rec.new E b >>= Rec.session E steps) = pure r) :
    ∃ g0, ⟨w.root, g0, some w.eof⟩ ∈ rulesOf c ∧
      (r.2 = false → ¬ Accepts (rulesOf c) g0 steps) ∧
      (r.2 = true → ∃ N, Rec.finishedNode E r.1 = pure N ∧ (N.isSome ↔ Accepts (rulesOf c) g0 steps) ∧
        ∀ x, N = some x → r.1.forest.graph.length < 2 ^ 32 → ∃ ts, Simple.Den r.1.forest.graph x ts ∧
          (∀ t ∈ ts, TreeOf (rulesOf c) (inputOf steps) t g0 0 steps.length) ∧
          (PlainInput (rulesOf c) (inputOf steps) → RootRules c w →
            ts.Nodup ∧ ∀ t, TreeOf (rulesOf c) (inputOf steps) t g0 0 steps.length → t ∈ ts)) := by
  obtain ⟨root, g0, hR⟩ := hB.ready0
  obtain ⟨g, F, la, leo, so⟩ := E
  simp only at hF
  subst hF
  have hrule := hR.rule
  rw [hR.start, hR.eof] at hrule
  obtain ⟨r0, hr0, _⟩ := (safe_rel (E := ⟨g, Simple.forest, la, leo, so⟩) hleo hR (simple_safeStart hb _ _) htok []).returns_left hr
  obtain ⟨r', h1, h2, h3⟩ := sim_trees (E := ⟨g, Simple.forest, la, leo, so⟩) (Simple.sim b.info) (w0 := b.graph) (f := b)
    ⟨rfl, rfl, hb⟩ hleo hR
    (fun _ _ => trivial) (fun _ _ _ _ => trivial) ⟨r0, hr0⟩ htok hin hne hlen hh
  rw [hr] at h1
  cases pure_inj_M h1
  refine ⟨g0, List.mem_of_getElem? hrule, h3, fun ht => ?_⟩
  obtain ⟨N, h4, h5, h6⟩ := h2 ht
  refine ⟨N, h4, h5, fun x hx hl => ?_⟩
  obtain ⟨w', N', t, hN, ⟨rfl, _⟩, ht1, ht2, ht3⟩ := h6 x hx
  obtain ⟨ts, hd, hp⟩ := hN hl
  refine ⟨ts, hd, fun t h => ht1 t (hp.mem_iff.1 h), fun hpl hrr => ⟨?_, fun t h => hp.mem_iff.2 (ht3 hpl ?_ t h)⟩⟩
  · exact hp.nodup_iff.2 (ht2 fun i => List.Nodup.of_map _ (hpl i).1)
  · exact fun r' h1 h2 h3 => hrr _ (List.mem_of_getElem? hrule) rfl r' h1 h2 h3

/-- C13 and C14 for the simple bocage. `g0` is the symbol before the end marker in the root rule. After a session with
honest hints, `finished_node` returns a node exactly for accepted input; the node represents a list of trees, all of
which are derivation trees of the scanned input (C13), and for plain input every derivation tree occurs exactly once
(C14). -/
theorem C13_C14_simple {E : Env Simple.Bocage Nat} {b : Simple.Bocage} (hB : Built c n w E.g) (hleo : E.leo = false)
    (hF : E.F = Simple.forest) (hb : b.summandCount = 0) {steps : List Step} (htok : TokensOK c.numSyms steps)
    (hin : HintsIn n steps) (hne : steps ≠ []) (hlen : steps.length < 2 ^ 64 - 1)
    (hh : E.lookahead = true → Honest (fun t => t < n ∧ Terminal (rulesOf c) t) w.eof steps) :
    ∃ g0 r, ⟨w.root, g0, some w.eof⟩ ∈ rulesOf c ∧ (Rec.new E b >>= Rec.session E steps) = pure r ∧
      (r.2 = false → ¬ Accepts (rulesOf c) g0 steps) ∧
      (r.2 = true → ∃ N, Rec.finishedNode E r.1 = pure N ∧ (N.isSome ↔ Accepts (rulesOf c) g0 steps) ∧
        ∀ x, N = some x → r.1.forest.graph.length < 2 ^ 32 → ∃ ts, Simple.Den r.1.forest.graph x ts ∧
          (∀ t ∈ ts, TreeOf (rulesOf c) (inputOf steps) t g0 0 steps.length) ∧
          (PlainInput (rulesOf c) (inputOf steps) → RootRules c w →
            ts.Nodup ∧ ∀ t, TreeOf (rulesOf c) (inputOf steps) t g0 0 steps.length → t ∈ ts)) := by
  obtain ⟨root, rank, g0', hR⟩ := hB.ready
  obtain ⟨r, hr, _⟩ := (safe_rel (E := E) hleo hR.toReady0 (hF ▸ simple_safeStart hb _ _) htok []).returns
    (hR.terminates htok hin (by omega)).choose_spec
  obtain ⟨g0, h1, h2, h3⟩ := C13_C14_returned_simple hB.toPrepared hleo hF hb htok hin hne hlen hh hr
  exact ⟨g0, r, h1, hr, h2, h3⟩

/-- C13 and C14 for the compact bocage and any grammar, with cycles or not: the same as below for a session that returned. -/
theorem C13_C14_returned_compact {E : Env Compact.Bocage Nat} {b : Compact.Bocage} {r : Rec Compact.Bocage Nat × Bool} (hB : Prepared c n w E.g) (hleo : E.leo = false)
    (hF : E.F = Compact.forest) (hb : b.sumStart = none) (hr32 : c.rules.length ≤ 2 ^ 32) (hs32 : c.numSyms ≤ 2 ^ 32)
    {steps : List Step} (htok : TokensOK c.numSyms steps)
    (hin : HintsIn n steps) (hne : steps ≠ []) (hlen : steps.length < 2 ^ 64 - 1)
    (hh : E.lookahead = true → Honest (fun t => t < n ∧ Terminal (rulesOf c) t) w.eof steps)
    (hr : (Rec.new E b >>= Rec.session E steps) = pure r) :
    ∃ g0, ⟨w.root, g0, some w.eof⟩ ∈ rulesOf c ∧
      (r.2 = false → ¬ Accepts (rulesOf c) g0 steps) ∧
      (r.2 = true → ∃ N, Rec.finishedNode E r.1 = pure N ∧ (N.isSome ↔ Accepts (rulesOf c) g0 steps) ∧
        ∀ x, N = some x → r.1.forest.graph.length < 2 ^ 32 → ∃ ts, Compact.Den r.1.forest.graph x ts ∧
          (∀ t ∈ ts, TreeOf (rulesOf c) (inputOf steps) t g0 0 steps.length) ∧
          (PlainInput (rulesOf c) (inputOf steps) → RootRules c w →
            ts.Nodup ∧ ∀ t, TreeOf (rulesOf c) (inputOf steps) t g0 0 steps.length → t ∈ ts)) := by
  obtain ⟨root, g0, hR⟩ := hB.ready0
  obtain ⟨g, F, la, leo, so⟩ := E
  simp only at hF
  subst hF
  have hrule := hR.rule
  rw [hR.start, hR.eof] at hrule
  obtain ⟨r0, hr0, _⟩ := (safe_rel (E := ⟨g, Compact.forest, la, leo, so⟩) hleo hR (compact_safeStart b _ _) htok []).returns_left hr
  obtain ⟨r', h1, h2, h3⟩ := sim_trees (E := ⟨g, Compact.forest, la, leo, so⟩) (Compact.sim b.info) (w0 := b.graph) (f := b)
    ⟨rfl, rfl, hb⟩ hleo hR
    (fun d hd => Nat.lt_of_lt_of_le hd hr32) (fun s v hs hv => ⟨Nat.lt_of_lt_of_le hs hs32, hv⟩) ⟨r0, hr0⟩ htok hin hne hlen hh
  rw [hr] at h1
  cases pure_inj_M h1
  refine ⟨g0, List.mem_of_getElem? hrule, h3, fun ht => ?_⟩
  obtain ⟨N, h4, h5, h6⟩ := h2 ht
  refine ⟨N, h4, h5, fun x hx hl => ?_⟩
  obtain ⟨w', N', t, ⟨_, hN⟩, ⟨rfl, _⟩, ht1, ht2, ht3⟩ := h6 x hx
  refine ⟨N', hN hl, ht1, fun hpl hrr => ⟨?_, fun t h => ht3 hpl ?_ t h⟩⟩
  · exact ht2 fun i => List.Nodup.of_map _ (hpl i).1
  · exact fun r' h1 h2 h3 => hrr _ (List.mem_of_getElem? hrule) rfl r' h1 h2 h3

/-- C13 and C14 for the compact bocage. -/
theorem C13_C14_compact {E : Env Compact.Bocage Nat} {b : Compact.Bocage} (hB : Built c n w E.g) (hleo : E.leo = false)
    (hF : E.F = Compact.forest) (hb : b.sumStart = none) (hr32 : c.rules.length ≤ 2 ^ 32) (hs32 : c.numSyms ≤ 2 ^ 32)
    {steps : List Step} (htok : TokensOK c.numSyms steps)
    (hin : HintsIn n steps) (hne : steps ≠ []) (hlen : steps.length < 2 ^ 64 - 1)
    (hh : E.lookahead = true → Honest (fun t => t < n ∧ Terminal (rulesOf c) t) w.eof steps) :
    ∃ g0 r, ⟨w.root, g0, some w.eof⟩ ∈ rulesOf c ∧ (Rec.new E b >>= Rec.session E steps) = pure r ∧
      (r.2 = false → ¬ Accepts (rulesOf c) g0 steps) ∧
      (r.2 = true → ∃ N, Rec.finishedNode E r.1 = pure N ∧ (N.isSome ↔ Accepts (rulesOf c) g0 steps) ∧
        ∀ x, N = some x → r.1.forest.graph.length < 2 ^ 32 → ∃ ts, Compact.Den r.1.forest.graph x ts ∧
          (∀ t ∈ ts, TreeOf (rulesOf c) (inputOf steps) t g0 0 steps.length) ∧
          (PlainInput (rulesOf c) (inputOf steps) → RootRules c w →
            ts.Nodup ∧ ∀ t, TreeOf (rulesOf c) (inputOf steps) t g0 0 steps.length → t ∈ ts)) := by
  obtain ⟨root, rank, g0', hR⟩ := hB.ready
  obtain ⟨r, hr, _⟩ := (safe_rel (E := E) hleo hR.toReady0 (hF ▸ compact_safeStart b _ _) htok []).returns
    (hR.terminates htok hin (by omega)).choose_spec
  obtain ⟨g0, h1, h2, h3⟩ := C13_C14_returned_compact hB.toPrepared hleo hF hb hr32 hs32 htok hin hne hlen hh hr
  exact ⟨g0, r, h1, hr, h2, h3⟩

/-! ### C18: the byte graph -/

/-- The bytes of a node, in either form. -/
def pushed (p : Compact.Node × Bool) (g : List Nat) : List Nat :=
  if p.2 then Compact.pushExpanded g p.1 else Compact.push g p.1

def pushAll : List (Compact.Node × Bool) → List Nat → List Nat
  | [], g => g
  | p :: ps, g => pushAll ps (pushed p g)

/-- Stepping through the graph by node sizes from offset `i` yields the nodes `ns` and ends at the end of the graph. -/
inductive Walk (g : List Nat) : Nat → List Compact.Node → Prop
  | done : Walk g g.length []
  | step {i s x ns} : Compact.get g i = pure x → Compact.getNodeSize g i = pure s → Walk g (i + s) ns → Walk g i (x :: ns)

theorem pushAll_append (ps : List (Compact.Node × Bool)) (g : List Nat) : g <+: pushAll ps g := by
  induction ps generalizing g with
  | nil => exact List.prefix_rfl
  | cons p ps ih =>
    refine List.IsPrefix.trans ?_ (ih (pushed p g))
    unfold pushed
    split <;> exact ⟨_, rfl⟩

/-- C18. A node with 32-bit payload pushed on any graph `g`, in either form, reads back at offset `g.length` as the same
node, with the size by which the graph grew, also after any later pushes. -/
theorem C18_roundtrip (g : List Nat) (p : Compact.Node × Bool) (hp : p.1.Fits) (later : List (Compact.Node × Bool)) :
    Compact.get (pushAll later (pushed p g)) g.length = pure p.1 ∧
    Compact.getNodeSize (pushAll later (pushed p g)) g.length = pure ((pushed p g).length - g.length) := by
  obtain ⟨x, e⟩ := p
  have hpre := pushAll_append later (pushed (x, e) g)
  refine ⟨Compact.get_prefix hpre ?_, Compact.size_prefix hpre ?_⟩
  · cases e
    · have := Compact.get_encode g hp []
      rwa [List.append_nil] at this
    · have := Compact.get_encodeExpanded g hp []
      rwa [List.append_nil] at this
  · cases e
    · have := Compact.size_encode g x []
      rw [List.append_nil] at this
      simpa [pushed, Compact.push] using this
    · have := Compact.size_encodeExpanded g x []
      rw [List.append_nil] at this
      simpa [pushed, Compact.pushExpanded] using this

theorem walk_pushAll (ps : List (Compact.Node × Bool)) (h : ∀ p ∈ ps, p.1.Fits) (g : List Nat) :
    Walk (pushAll ps g) g.length (ps.map (·.1)) := by
  induction ps generalizing g with
  | nil => exact .done
  | cons p ps ih =>
    obtain ⟨h1, h2⟩ := C18_roundtrip g p (h p (by simp)) ps
    refine .step h1 h2 ?_
    have hlen : g.length + ((pushed p g).length - g.length) = (pushed p g).length := by
      have : g.length ≤ (pushed p g).length := by unfold pushed; split <;> simp [Compact.push, Compact.pushExpanded]
      omega
    rw [hlen]
    exact ih (fun q hq => h q (by simp [hq])) (pushed p g)

/-- C18. Stepping by the reported sizes from the beginning visits exactly the pushed nodes in order. -/
theorem C18_walk (ps : List (Compact.Node × Bool)) (h : ∀ p ∈ ps, p.1.Fits) :
    Walk (pushAll ps []) 0 (ps.map (·.1)) := walk_pushAll ps h []

-- one- to four-byte payloads
example : (∀ p ∈ [(Compact.Node.beginSum, false), (.summand 0 300, false), (.rule 70000 (2 ^ 32 - 1), false),
    (.nullingLeaf 5, true), (.endSum, false)], (p : Compact.Node × Bool).1.Fits) := by
  simp [Compact.Node.Fits]
example : pushAll [(Compact.Node.beginSum, false), (.summand 0 300, false), (.rule 70000 (2 ^ 32 - 1), false),
    (.nullingLeaf 5, true), (.endSum, false)] [] =
  [0, 35, 0, 44, 1, 116, 112, 17, 1, 255, 255, 255, 255, 126, 5, 0, 0, 0, 0, 0, 0, 0, 1] := by decide +kernel

/-! ### C36: nulling nodes -/

/-- C36, simple bocage. If all nulling symbols are below the limit of `initialize_nulling`, a bocage is created, and the
handle of each nulling symbol refers to a nulling leaf or to the product of the two factors of its (last) intermediate
rule. -/
theorem C36_simple (info : ForestInfo) (hc : info.maxNullingSymbol.getD 0 < 2 ^ 20)
    (hl : info.maxNullingSymbol.getD 0 + 1 + info.nullingIntermediate.length < 2 ^ 32) :
    ∃ b, Simple.Bocage.new info = pure b ∧ b.summandCount = 0 ∧ b.info = info ∧
      ∀ s, s ≤ info.maxNullingSymbol.getD 0 → ∃ h, Simple.forest.nulling b s = pure h ∧
        match info.nullingRule s with
        | none => b.graph[h]? = some (.nullingLeaf s)
        | some (x, y) => ∃ f, b.graph[h]? = some (.product nullAction f) ∧ ∃ hx hy,
            Simple.forest.nulling b x = pure hx ∧ Simple.forest.nulling b y = pure hy ∧ b.graph[f]? = some (.rule hx hy) := by
  obtain ⟨G, h1, h2⟩ := Simple.nullingGraph_ok info hc hl
  refine ⟨⟨G, info, 0⟩, by rw [Simple.Bocage.new, h1]; rfl, rfl, rfl, fun s hs => ?_⟩
  refine ⟨u32 s, rfl, ?_⟩
  rw [u32_of_lt' (by omega)]
  unfold ForestInfo.nullingRule
  cases hf : info.nullingIntermediate.reverse.find? (fun r => r.1 = s) with
  | none => exact h2.leaf s hs hf
  | some r =>
    obtain ⟨s', x, y⟩ := r
    obtain ⟨i, h3, h4⟩ := h2.product s _ hs hf
    have hle := info.rule_le _ (List.mem_of_getElem? h3)
    dsimp only at hle
    refine ⟨_, h4, u32 x, u32 y, rfl, rfl, ?_⟩
    rw [u32_of_lt' (by omega), u32_of_lt' (by omega)]
    exact h2.rule i _ h3

/-- C36, compact bocage. -/
theorem C36_compact (info : ForestInfo) (hc : info.maxNullingSymbol.getD 0 < 2 ^ 20)
    (hl : 9 * (info.maxNullingSymbol.getD 0 + 1 + info.nullingIntermediate.length) < 2 ^ 32) :
    ∃ b, Compact.Bocage.new info = pure b ∧ b.sumStart = none ∧ b.info = info ∧
      ∀ s, s ≤ info.maxNullingSymbol.getD 0 → ∃ h, Compact.forest.nulling b s = pure h ∧
        match info.nullingRule s with
        | none => Compact.get b.graph h = pure (.nullingLeaf s)
        | some (x, y) => ∃ f, Compact.get b.graph h = pure (.product nullAction f) ∧ ∃ hx hy,
            Compact.forest.nulling b x = pure hx ∧ Compact.forest.nulling b y = pure hy ∧
            Compact.get b.graph f = pure (.rule hx hy) := by
  obtain ⟨G, h1, h2⟩ := Simple.nullingGraph_ok info hc (by omega)
  obtain ⟨g, e1, _, e3, e4⟩ := Compact.expand_fold hc G [] (by
    intro x hx
    obtain ⟨i, hi⟩ := List.mem_iff_getElem?.1 hx
    rcases h2.kinds i x hi with h | ⟨f, h, _⟩ | ⟨l, r, h, _⟩
    · exact .inl h
    · exact .inr (.inl ⟨f, h⟩)
    · exact .inr (.inr ⟨l, r, h⟩))
  simp only [List.length_nil, Nat.zero_add] at e3 e4
  refine ⟨{ graph := g, info := info, nullingLimit := Compact.len g }, ?_, rfl, rfl, fun s hs => ?_⟩
  · rw [Compact.Bocage.new, h1, pure_bind, e1]; rfl
  refine ⟨u32 (s * 9), rfl, ?_⟩
  rw [u32_of_lt' (by omega), Nat.mul_comm s 9]
  unfold ForestInfo.nullingRule
  cases hf : info.nullingIntermediate.reverse.find? (fun r => r.1 = s) with
  | none => exact e4 s _ (h2.leaf s hs hf)
  | some r =>
    obtain ⟨s', x, y⟩ := r
    obtain ⟨i, h3, h4⟩ := h2.product s _ hs hf
    have hi := (List.getElem?_eq_some_iff.1 h3).1
    refine ⟨_, e4 s _ h4, u32 (x * 9), u32 (y * 9), rfl, rfl, ?_⟩
    have := e4 _ _ (h2.rule i _ h3)
    unfold Compact.mul9
    rw [u32_of_lt' (by omega), Nat.mul_comm _ 9]
    exact this

/-- C36. Above the limit creating a bocage panics. -/
theorem C36_limit (info : ForestInfo) (hc : 2 ^ 20 ≤ info.maxNullingSymbol.getD 0) :
    Simple.Bocage.new info = panicM .assert ∧ Compact.Bocage.new info = panicM .assert := by
  constructor
  · unfold Simple.Bocage.new; rw [Simple.nullingGraph_panic info (Nat.not_lt.2 hc)]; rfl
  · unfold Compact.Bocage.new; rw [Simple.nullingGraph_panic info (Nat.not_lt.2 hc)]; rfl

-- A ::= B C with nulling B, C; and a rule in which A was eliminated on the right
def nullingInfo : ForestInfo := { nullingIntermediate := [(2, 3, 4)], nullingEliminated := [none, some (2, true)] }
example : nullingInfo.maxNullingSymbol.getD 0 = 4 ∧ nullingInfo.nullingRule 2 = some (3, 4) ∧
    nullingInfo.nullingRule 3 = none := by decide
example : (Simple.Bocage.new nullingInfo).map (·.graph) = pure
    [.nullingLeaf 0, .nullingLeaf 1, .product nullAction 5, .nullingLeaf 3, .nullingLeaf 4, .rule 3 4] := by decide +kernel

/-! ### C38: the forest is not disturbed -/

/-- C38, simple bocage. Over any sequence of calls a handle keeps representing the same trees. -/
theorem C38_simple {E : Env Simple.Bocage Nat} (hF : E.F = Simple.forest) {b : Simple.Bocage}
    (hb : b.summandCount = 0) (cs₁ cs₂ : List Call) {r₁ r₂ : Rec Simple.Bocage Nat × List Obs}
    (h₁ : (Rec.new E b >>= Rec.calls E cs₁) = pure r₁) (h₂ : Rec.calls E cs₂ r₁.1 = pure r₂) {h : Nat} {ts : List PTree}
    (hd : Simple.Den r₁.1.forest.graph h ts) : Simple.Den r₂.1.forest.graph h ts := by
  obtain ⟨g, F, la, leo, so⟩ := E
  simp only at hF
  subst hF
  obtain ⟨s0, h0, h1⟩ := bind_eq_pure h₁
  have hs0 : s0.forest = b := by
    unfold Rec.new at h0
    obtain ⟨_, _, h0⟩ := bind_eq_pure h0
    exact (congrArg Rec.forest (pure_inj_M h0)).symm
  obtain ⟨w1, _, _, h3, h4⟩ := calls_grow Simple.growSim (fun _ _ => rfl) cs₁ (w := b.graph) (by rw [hs0]; exact ⟨rfl, rfl, hb⟩) h1
  obtain ⟨w2, h5, _, h6, _⟩ := calls_grow Simple.growSim (fun _ _ => rfl) cs₂ ⟨rfl, h3, h4⟩ h₂
  have : r₁.1.forest.graph <+: r₂.1.forest.graph := by rw [h3, h6]; exact h5
  exact hd.mono this

/-- C38, compact bocage. -/
theorem C38_compact {E : Env Compact.Bocage Nat} (hF : E.F = Compact.forest) (cs : List Call)
    {s : Rec Compact.Bocage Nat} {r : Rec Compact.Bocage Nat × List Obs} (h₁ : Rec.calls E cs s = pure r) {h : Nat} {ts : List PTree}
    (hd : Compact.Den s.forest.graph h ts) : Compact.Den r.1.forest.graph h ts := by
  obtain ⟨g, F, la, leo, so⟩ := E
  simp only at hF
  subst hF
  obtain ⟨w2, h5, _, h6⟩ := calls_grow Compact.growSim (fun _ _ => rfl) cs (w := s.forest.graph) ⟨rfl, rfl⟩ h₁
  have : s.forest.graph <+: r.1.forest.graph := by rw [h6]; exact h5
  exact hd.mono this

/-- A represented list of trees is determined by the graph. -/
theorem C38_functional_simple {G : List Simple.Node} {h : Nat} {ts us : List PTree} (h1 : Simple.Den G h ts)
    (h2 : Simple.Den G h us) : ts = us := h1.det h2

theorem C38_functional_compact {G : List Nat} {h : Nat} {ts us : List PTree} (h1 : Compact.Den G h ts)
    (h2 : Compact.Den G h us) : ts = us := h1.det h2

/-! ### C19: the two bocages agree -/

theorem forall₂_comp {α β γ : Type} {R : α → β → Prop} {S : γ → β → Prop} {T : α → γ → Prop}
    (hT : ∀ a b c, R a b → S c b → T a c) {l : List α} {m : List β} {k : List γ} (h1 : List.Forall₂ R l m)
    (h2 : List.Forall₂ S k m) : List.Forall₂ T l k := by
  induction h1 generalizing k with
  | nil => cases h2; exact .nil
  | cons hab _ ih =>
    cases h2 with
    | cons hcb h2 => exact .cons (hT _ _ _ hab hcb) (ih h2)

/-- Corresponding nodes of the two bocages represent the same trees, up to order. -/
def SameTrees (G : List Simple.Node) (G' : List Nat) (a b : Nat) : Prop :=
  ∃ ts us, Simple.Den G a ts ∧ Compact.Den G' b us ∧ ts.Perm us

/-- C19. The same session, with any hints, run with the simple and with the compact bocage: both runs return, they agree
on success and on the items of all sets, and the nodes of corresponding items, as well as the finished nodes, represent
the same trees. -/
theorem C19_same_forest {E₁ : Env Simple.Bocage Nat} {E₂ : Env Compact.Bocage Nat} {b₁ : Simple.Bocage}
    {b₂ : Compact.Bocage} (hB : Built c n w E₁.g) (hg : E₁.g = E₂.g) (hla : E₁.lookahead = E₂.lookahead)
    (hso : E₁.sorter = E₂.sorter) (hleo₁ : E₁.leo = false) (hleo₂ : E₂.leo = false)
    (hF₁ : E₁.F = Simple.forest) (hF₂ : E₂.F = Compact.forest) (hb₁ : b₁.summandCount = 0) (hb₂ : b₂.sumStart = none)
    (hr32 : c.rules.length ≤ 2 ^ 32) (hs32 : c.numSyms ≤ 2 ^ 32) {steps : List Step} (htok : TokensOK c.numSyms steps)
    (hin : HintsIn n steps) (hlen : steps.length + 1 < 2 ^ 64) :
    ∃ r₁ r₂, (Rec.new E₁ b₁ >>= Rec.session E₁ steps) = pure r₁ ∧ (Rec.new E₂ b₂ >>= Rec.session E₂ steps) = pure r₂ ∧
      r₁.2 = r₂.2 ∧ (r₁.1.forest.graph.length < 2 ^ 32 → r₂.1.forest.graph.length < 2 ^ 32 →
        r₁.1.medial.indices = r₂.1.medial.indices ∧
        List.Forall₂ (fun a b => a.dot = b.dot ∧ a.origin = b.origin ∧
          SameTrees r₁.1.forest.graph r₂.1.forest.graph a.node b.node) r₁.1.medial.chart r₂.1.medial.chart ∧
        (steps ≠ [] → r₁.2 = true → ∃ N₁ N₂, Rec.finishedNode E₁ r₁.1 = pure N₁ ∧ Rec.finishedNode E₂ r₂.1 = pure N₂ ∧
          Option.Rel (SameTrees r₁.1.forest.graph r₂.1.forest.graph) N₁ N₂)) := by
  have hB₂ : Built c n w E₂.g := hg ▸ hB
  obtain ⟨root, rank, g0, hR⟩ := hB.ready
  obtain ⟨g, F₁, la, leo₁, so⟩ := E₁
  obtain ⟨g', F₂, la', leo₂, so'⟩ := E₂
  simp only at hF₁ hF₂ hg hla hso hleo₁ hleo₂
  subst hF₁ hF₂ hg hla hso hleo₁ hleo₂
  have hrun := new_rest (la := la) (sorter := so) hR.ok hR.ranked (by omega) (stepsOK_of hR htok hin) []
  obtain ⟨r0, hr0, hq⟩ := hrun
  have hrun' : Returns (Rec.new (treeEnv g la so) [] >>= Rec.session (treeEnv g la so) steps) (fun r => r = r0) :=
    ⟨r0, hr0, rfl⟩
  obtain ⟨r₁, h1, r0a, w1, ha, hrel1, hok1⟩ := sim_run (Simple.sim b₁.info) (hR.dots fun _ _ => trivial) (w := b₁.graph)
    (f := b₁) (f0 := []) ⟨rfl, rfl, hb₁⟩ (fun _ _ _ _ => trivial) hrun'
  obtain ⟨r₂, h2, r0b, w2, hb, hrel2, hok2⟩ := sim_run (Compact.sim b₂.info)
    (hR.dots fun d hd => Nat.lt_of_lt_of_le hd hr32) (w := b₂.graph)
    (f := b₂) (f0 := []) ⟨rfl, rfl, hb₂⟩
    (fun st hst p hp => ⟨Nat.lt_of_lt_of_le (htok st hst p hp).1 hs32, (htok st hst p hp).2⟩) hrun'
  rw [ha] at hrel1 hok1
  rw [hb] at hrel2 hok2
  refine ⟨r₁, r₂, h1, h2, hok1.trans hok2.symm, fun hl1 hl2 => ?_⟩
  have hf1 := hrel1.forest.1
  have hf2 := hrel2.forest.1
  have key : ∀ a b c, (Simple.sim b₁.info).N w1 a b → (Compact.sim b₂.info).N w2 c b →
      SameTrees r₁.1.forest.graph r₂.1.forest.graph a c := by
    intro a b c ha hc
    obtain ⟨ts, hd, hp⟩ := (show Simple.Rep _ a b from hf1 ▸ ha) hl1
    exact ⟨ts, b, hd, (show Compact.Rep _ c b from hf2 ▸ hc).2 hl2, hp⟩
  refine ⟨hrel1.medial.1.trans hrel2.medial.1.symm, ?_, ?_⟩
  · refine forall₂_comp ?_ hrel1.medial.2 hrel2.medial.2
    intro a b c ha hc
    exact ⟨ha.1.trans hc.1.symm, ha.2.1.trans hc.2.1.symm, key _ _ _ ha.2.2.2 hc.2.2.2⟩
  · intro hne hok
    obtain ⟨S, hrest, hSl, hS2, _⟩ := hq (hok1 ▸ hok)
    have hS2 := hS2 hne
    have hml0 : r0.1.medial.len = S.length := by rw [hrest.medial, Vec2d.len_eq]
    obtain ⟨S', last, hSe⟩ : ∃ S' last, S = S' ++ [last] :=
      ⟨S.dropLast, S.getLast (by intro h; simp [h] at hS2), (List.dropLast_concat_getLast _).symm⟩
    have hN0 : ∃ N0, Rec.finishedNode (FSim.env g la false so treeForest) r0.1 = pure N0 := by
      have hnm : (r0.1.earleme == maxUsize) = false := by
        rw [Rec.earleme, hml0, wrappingSub2, if_pos hS2]; simp only [maxUsize, beq_eq_false_iff_ne]; omega
      simp only [Rec.finishedNode, hnm, Bool.and_false, Bool.false_eq_true, if_false]
      rw [hrest.medial, hSe, Vec2d.last_eq, pure_bind]
      cases last.head? <;> exact ⟨_, rfl⟩
    obtain ⟨N0, hN0⟩ := hN0
    have hm1 : r₁.1.medial.len = S.length := by rw [← hml0]; unfold Vec2d.len; rw [hrel1.medial.1]
    have hm2 : r₂.1.medial.len = S.length := by rw [← hml0]; unfold Vec2d.len; rw [hrel2.medial.1]
    obtain ⟨N₁, e1, k1⟩ := (FSim.finishedNode_rel' (la := la) (leo := false) (so := so) (g := g) hrel1
      (by omega) (by omega)).returns hN0
    obtain ⟨N₂, e2, k2⟩ := (FSim.finishedNode_rel' (la := la) (leo := false) (so := so) (g := g) hrel2
      (by omega) (by omega)).returns hN0
    refine ⟨N₁, N₂, e1, e2, ?_⟩
    cases k1 with
    | none => cases k2; exact .none
    | some k1 => cases k2 with | some k2 => exact .some (key _ _ _ k1 k2)

/-! ### The example: E ::= E plus E | a on sof a plus a plus a -/
section
open Gearley.Example

def simpleEnv : Env Simple.Bocage Nat := { g := grammar, F := Simple.forest, sorter := sorter }
def compactEnv : Env Compact.Bocage Nat := { g := grammar, F := Compact.forest, sorter := sorter }

def forestSteps : List Step :=
  [(.keep, [(1, 20)]), (.keep, [(5, 21)]), (.keep, [(2, 22)]), (.keep, [(5, 23)]), (.keep, [(2, 24)]), (.keep, [(5, 25)])]

-- the hypotheses of C13, C14, C19 hold
example : TokensOK cfg.numSyms forestSteps := by unfold TokensOK; decide
theorem forestSteps_noHints : NoHints forestSteps := by
  intro st hst x
  simp only [forestSteps, List.mem_cons, List.not_mem_nil, or_false] at hst
  rcases hst with rfl | rfl | rfl | rfl | rfl | rfl <;> simp
example : HintsIn 6 forestSteps := fun st hst x hx => absurd hx (forestSteps_noHints st hst x)
example : Honest (fun t => t < 6 ∧ Terminal (rulesOf cfg) t) wrap.eof forestSteps :=
  fun _ st x hst hx => absurd hx (forestSteps_noHints st (List.mem_of_getElem? hst) x)
example : PlainInput (rulesOf cfg) (inputOf forestSteps) := by
  intro i
  match i with
  | 0 | 1 | 2 | 3 | 4 | 5 => exact ⟨by decide, by unfold Terminal; decide⟩
  | k + 6 => simp [inputOf, forestSteps]
example : RootRules cfg wrap := by unfold RootRules Terminal; decide

def simpleResult : M (List Simple.Node × Option Nat) := do
  let s ← Rec.new simpleEnv { graph := [], info := {} }
  let (s, _) ← Rec.sessionWith simpleEnv (Rec.completeAllFuel simpleEnv 50) forestSteps s
  let n ← Rec.finishedNode simpleEnv s
  pure (s.forest.graph, n)

def compactResult : M (List Nat × Option Nat) := do
  let s ← Rec.new compactEnv { graph := [], info := {} }
  let (s, _) ← Rec.sessionWith compactEnv (Rec.completeAllFuel compactEnv 50) forestSteps s
  let n ← Rec.finishedNode compactEnv s
  pure (s.forest.graph, n)

-- one ambiguous node with two alternatives, in both graphs
example : (do let (g, x) ← simpleResult; pure (g.drop 25, x) : M _) =
    pure ([.sum 4 2, .product 1 24, .product 1 21, .rule 0 25, .product 3 28], some 29) := by decide +kernel
example : (do let (g, x) ← compactResult; pure (g.drop 95, x) : M _) =
    pure ([0, 3, 1, 81, 3, 1, 92, 1, 4, 0, 95, 0, 3, 3, 103, 1], some 107) := by decide +kernel

-- the trees of an ambiguous node
example : Simple.Den [.leaf 5 7, .sum 4 2, .product 1 0, .product 2 0] 1 [.node 1 (.leaf 5 7), .node 2 (.leaf 5 7)] := by
  have hl : Simple.Den [.leaf 5 7, .sum 4 2, .product 1 0, .product 2 0] 0 [.leaf 5 7] := .leaf rfl
  refine .sum (k := 2) (ts := [[.node 1 (.leaf 5 7)], [.node 2 (.leaf 5 7)]]) rfl (by decide) rfl ?_ ?_
  · intro i hi
    match i with
    | 0 | 1 => exact ⟨_, _, rfl⟩
  intro i hi
  match i with
  | 0 => exact .product (ts := [.leaf 5 7]) rfl hl
  | 1 => exact .product (ts := [.leaf 5 7]) rfl hl
  | i + 2 => simp at hi
end

end Gearley.Props
