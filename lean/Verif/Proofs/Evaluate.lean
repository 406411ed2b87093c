import Verif.Proofs.CompactEval
import Verif.Proofs.Forest

/-!
# Evaluation of the finished node of a session
-/

namespace Gearley
open Gearley.Spec
variable {σ ν α : Type} {info : ForestInfo} {E : Evaluator α} {nv : Nat → List α} {nc : Nat → Nat}

/-! ### Fresh bocages -/

namespace Simple

theorem nullingFold_length {rs : List (Nat × Nat × Nat)} {G G' : List Node} (h : rs.foldlM nullingRule G = pure G') :
    G'.length = G.length + rs.length := by
  induction rs generalizing G with
  | nil => cases pure_inj_M h; rfl
  | cons r rs ih =>
    rw [List.foldlM_cons] at h
    obtain ⟨G1, h1, h⟩ := bind_eq_pure h
    have := ih h
    unfold nullingRule at h1
    simp only at h1
    unfold setM at h1
    split at h1
    · cases pure_inj_M h1
      rw [this]; simp; omega
    · exact absurd h1 panicM_ne_pure

theorem nullingGraph_lt {G : List Node} (h : nullingGraph info = pure G) : info.maxNullingSymbol.getD 0 < 2 ^ 20 ∧
    G.length = info.maxNullingSymbol.getD 0 + 1 + info.nullingIntermediate.length := by
  have hc : info.maxNullingSymbol.getD 0 < 2 ^ 20 := by
    by_cases hc : info.maxNullingSymbol.getD 0 < 2 ^ 20
    · exact hc
    · rw [nullingGraph_panic info hc] at h; exact absurd h panicM_ne_pure
  refine ⟨hc, ?_⟩
  unfold nullingGraph at h
  simp only [assertM, hc, decide_true, if_true, pure_bind] at h
  rw [nullingFold_length h]
  simp

theorem nullingGraph_nullingOK {G : List Node} (h : nullingGraph info = pure G) (hl : G.length < 2 ^ 32) :
    NullingOK (info.maxNullingSymbol.getD 0) info.nullingIntermediate G := by
  obtain ⟨h1, h2⟩ := nullingGraph_lt h
  obtain ⟨G', h3, h4⟩ := nullingGraph_ok info h1 (by omega)
  rw [h] at h3
  cases pure_inj_M h3
  exact h4

theorem new_eq {b : Bocage} (h : Bocage.new info = pure b) : nullingGraph info = pure b.graph ∧ b.info = info ∧ b.summandCount = 0 := by
  unfold Bocage.new at h
  obtain ⟨G, h1, h⟩ := bind_eq_pure h
  cases pure_inj_M h
  exact ⟨h1, rfl, rfl⟩

theorem tables {b : Bocage} {G : List Node} {k : Nat} (hb : Bocage.new info = pure b) (hp : b.graph <+: G) (hl : G.length < 2 ^ 32)
    (hN : NullEval info E nv nc) (he : info.eval.length < 2 ^ 32) (hn : info.nullingEliminated.length < 2 ^ 32)
    (hk : k ≤ info.nullingEliminated.length) : Tables info E nv nc G k := by
  obtain ⟨h1, _, _⟩ := new_eq hb
  have h2 := nullingGraph_nullingOK h1 (Nat.lt_of_le_of_lt hp.length_le hl)
  refine ⟨he, hn, hk, fun d s dir hs => ?_⟩
  have hle := info.elim_le (List.mem_of_getElem? hs)
  have := (nullingGraph_lt h1).1
  exact ⟨by omega, (ev_nulling hN rfl h2 s hle).mono hp⟩

end Simple

namespace Compact

theorem expandNulling_length {G : List Simple.Node} {a g : List Nat} (h : G.foldlM expandNulling a = pure g) :
    g.length = a.length + 9 * G.length := by
  induction G generalizing a with
  | nil => cases pure_inj_M h; rfl
  | cons x G ih =>
    rw [List.foldlM_cons] at h
    obtain ⟨g1, h1, h⟩ := bind_eq_pure h
    have := ih h
    have hx : g1.length = a.length + 9 := by
      cases x with
      | product d f | rule l r | nullingLeaf s =>
        cases pure_inj_M h1
        rw [pushExpanded, List.length_append, length_expanded (by simp [Node.words])]
      | sum _ _ | leaf _ _ => exact absurd h1 panicM_ne_pure
    rw [this, hx, List.length_cons]; omega

theorem new_eq {b : Bocage} (h : Bocage.new info = pure b) : b.info = info ∧ b.sumStart = none ∧
    ∃ G, Simple.nullingGraph info = pure G ∧ G.foldlM expandNulling [] = pure b.graph := by
  unfold Bocage.new at h
  obtain ⟨G, h1, h⟩ := bind_eq_pure h
  obtain ⟨g, h2, h⟩ := bind_eq_pure h
  cases pure_inj_M h
  exact ⟨rfl, rfl, G, h1, h2⟩

theorem tables {b : Bocage} {G : List Nat} {k : Nat} (hb : Bocage.new info = pure b) (hp : b.graph <+: G) (hl : G.length < 2 ^ 32)
    (hN : NullEval info E nv nc) (he : info.eval.length < 2 ^ 32) (hn : info.nullingEliminated.length < 2 ^ 32)
    (hk : k ≤ info.nullingEliminated.length) : Tables info E nv nc G k := by
  obtain ⟨_, _, G0, h1, h2⟩ := new_eq hb
  have hl0 := expandNulling_length h2
  have hl1 := hp.length_le
  simp only [List.length_nil, Nat.zero_add] at hl0
  have h3 := Simple.nullingGraph_nullingOK h1 (by omega)
  obtain ⟨hc, hlen⟩ := Simple.nullingGraph_lt h1
  obtain ⟨g, e1, _, _, e4⟩ := expand_fold hc G0 [] (by
    intro x hx
    obtain ⟨i, hi⟩ := List.mem_iff_getElem?.1 hx
    rcases h3.kinds i x hi with h | ⟨f, h, _⟩ | ⟨l, r, h, _⟩
    · exact .inl h
    · exact .inr (.inl ⟨f, h⟩)
    · exact .inr (.inr ⟨l, r, h⟩))
  rw [h2] at e1
  cases pure_inj_M e1
  simp only [List.length_nil, Nat.zero_add] at e4
  refine ⟨he, hn, hk, fun d s dir hs => ?_⟩
  have hle := info.elim_le (List.mem_of_getElem? hs)
  exact ⟨by omega, (ev_nulling hN rfl h3 (by omega) e4 s hle).mono hp⟩

end Compact

/-! ### The graph of a fresh bocage is kept -/

theorem session_grow {F : ForestOps σ ν} {g : DefaultGrammar} {la leo : Bool} {so : Sorter}
    (S : FSim False F F (fun _ => True) (fun _ _ => True)) {w : S.γ} {f : σ} {steps : List Step} {r : Rec σ ν × Bool}
    (h : S.Idle w f f) (e : (Rec.new (FSim.env g la leo so F) f >>= Rec.session (FSim.env g la leo so F) steps) = pure r) :
    ∃ w', S.le w w' ∧ S.Idle w' r.1.forest r.1.forest := by
  have hrel : RelM False (Rec.new (FSim.env g la leo so F) f >>= Rec.session (FSim.env g la leo so F) steps)
      (Rec.new (FSim.env g la leo so F) f >>= Rec.session (FSim.env g la leo so F) steps)
      (S.Ext (fun w a b => S.RIdle w a.1 b.1 ∧ a.2 = b.2) w) :=
    relM_bind (FSim.new_rel h) fun a b hab => FSim.session_rel (dotsOK_true g) hab steps fun _ _ _ _ => trivial
  obtain ⟨r', h1, w', h2, h3, _⟩ := hrel.returns e
  rw [e] at h1
  cases pure_inj_M h1
  exact ⟨w', h2, h3.forest⟩

/-! ### Single trees -/

namespace Simple

theorem den_node {G : List Node} {x d : Nat} {f : PTree} (h : Den G x [.node d f]) :
    ∃ f' : Nat, G[x]? = some (.product d f') ∧ Den G f' [f] := by
  generalize hts : [PTree.node d f] = ts at h
  cases h with
  | leaf h | nulling h => simp at hts
  | product h hd =>
    obtain ⟨t, rfl, ht⟩ := map_single hts.symm
    cases ht
    exact ⟨_, h, hd⟩
  | rule h _ _ =>
    obtain ⟨a, b, _, _, h⟩ := pairs_single hts.symm
    cases h
  | sum h hk hl hp hs =>
    have := flatten_single hts.symm fun x hx => by
      obtain ⟨i, hi, rfl⟩ := List.getElem_of_mem hx
      exact (hs i hi).ne_nil
    rw [this] at hl
    simp at hl; omega

theorem den_pairs {G : List Node} {x : Nat} {a b : PTree} (h : Den G x [.pair a b]) :
    ∃ l r : Nat, G[x]? = some (.rule l r) ∧ Den G l [a] ∧ Den G r [b] := by
  generalize hts : [PTree.pair a b] = ts at h
  cases h with
  | leaf h | nulling h => simp at hts
  | product h hd =>
    obtain ⟨t, rfl, ht⟩ := map_single hts.symm
    cases ht
  | rule h h1 h2 =>
    obtain ⟨a', b', rfl, rfl, h'⟩ := pairs_single hts.symm
    cases h'
    exact ⟨_, _, h, h1, h2⟩
  | sum h hk hl hp hs =>
    have := flatten_single hts.symm fun x hx => by
      obtain ⟨i, hi, rfl⟩ := List.getElem_of_mem hx
      exact (hs i hi).ne_nil
    rw [this] at hl
    simp at hl; omega

theorem den_leaf {G : List Node} {x s v : Nat} (h : Den G x [.leaf s v]) : G[x]? = some (.leaf s v) := by
  generalize hts : [PTree.leaf s v] = ts at h
  cases h with
  | leaf h => cases hts; exact h
  | nulling h => simp at hts
  | product h hd =>
    obtain ⟨t, rfl, ht⟩ := map_single hts.symm
    cases ht
  | rule h h1 h2 =>
    obtain ⟨a', b', _, _, h'⟩ := pairs_single hts.symm
    cases h'
  | sum h hk hl hp hs =>
    have := flatten_single hts.symm fun x hx => by
      obtain ⟨i, hi, rfl⟩ := List.getElem_of_mem hx
      exact (hs i hi).ne_nil
    rw [this] at hl
    simp at hl; omega

end Simple

namespace Compact

theorem den_chain_node {G : List Nat} {x d f : Nat} {t : PTree} (hx : get G x = pure (.summand d f))
    (h : DenAt G true x [t]) : ∃ u, t = .node d u ∧ Den G f [u] := by
  generalize hts : [t] = ts at h
  cases h with
  | endSum h => cases hts
  | @summand _ d' f' z ts us h1 h2 h3 h4 =>
    cases get_inj hx h1
    have hne := h3.ne_nil.resolve_right (by simp)
    rcases ts with _ | ⟨u, ts⟩
    · exact absurd rfl hne
    · simp only [List.map_cons, List.cons_append, List.cons.injEq] at hts
      obtain ⟨rfl, hts⟩ := hts
      have := hts.symm
      rw [List.append_eq_nil_iff, List.map_eq_nil_iff] at this
      obtain ⟨rfl, _⟩ := this
      exact ⟨u, rfl, h3⟩

theorem den_node {G : List Nat} {x d : Nat} {f : PTree} (h : Den G x [.node d f]) (hd : d ≠ nullAction) :
    ∃ f', get G x = pure (.summand d f') ∧ Den G f' [f] := by
  generalize hts : [PTree.node d f] = ts at h
  cases h with
  | leaf h | nulling h => simp at hts
  | product h _ =>
    obtain ⟨t, rfl, ht⟩ := Simple.map_single hts.symm
    cases ht
    exact absurd rfl hd
  | rule h _ _ =>
    obtain ⟨a, b, _, _, h⟩ := pairs_single hts.symm
    cases h
  | single h h1 =>
    subst hts
    obtain ⟨u, h2, h3⟩ := den_chain_node h h1
    cases h2
    exact ⟨_, h, h3⟩
  | beginSum h h0 h1 hl => subst hts; simp at hl

theorem den_pairs {G : List Nat} {x : Nat} {a b : PTree} (h : Den G x [.pair a b]) :
    ∃ l r : Nat, get G x = pure (.rule l r) ∧ Den G l [a] ∧ Den G r [b] := by
  generalize hts : [PTree.pair a b] = ts at h
  cases h with
  | leaf h | nulling h => simp at hts
  | product h _ =>
    obtain ⟨t, rfl, ht⟩ := Simple.map_single hts.symm
    cases ht
  | rule h h1 h2 =>
    obtain ⟨a', b', rfl, rfl, h'⟩ := pairs_single hts.symm
    cases h'
    exact ⟨_, _, h, h1, h2⟩
  | single h h1 =>
    subst hts
    obtain ⟨u, h2, h3⟩ := den_chain_node h h1
    cases h2
  | beginSum h h0 h1 hl => subst hts; simp at hl

theorem den_leaf {G : List Nat} {x s v : Nat} (h : Den G x [.leaf s v]) : get G x = pure (.leaf s v) := by
  generalize hts : [PTree.leaf s v] = ts at h
  cases h with
  | leaf h => cases hts; exact h
  | nulling h => simp at hts
  | product h _ =>
    obtain ⟨t, rfl, ht⟩ := Simple.map_single hts.symm
    cases ht
  | rule h h1 h2 =>
    obtain ⟨a', b', _, _, h'⟩ := pairs_single hts.symm
    cases h'
  | single h h1 =>
    subst hts
    obtain ⟨u, h2, h3⟩ := den_chain_node h h1
    cases h2
  | beginSum h h0 h1 hl => subst hts; simp at hl

end Compact

/-! ### Values of single trees -/

/-- The simple bocage: evaluation of a node that represents a single tree of the wrapping rule, twice. -/
theorem Simple.evaluate_tree {b : Bocage} {x k d v : Nat} {t : PTree} (hT : Tables b.info E nv nc b.graph k)
    (hd : Den b.graph x [.node d (.pair (.leaf b.info.sof v) t)]) (hc : Covered k t)
    (hl : b.graph.length + treeCost b.info nc t < 2 ^ 32) :
    ∃ b', b.evaluate E x = pure (b', treeVals b.info E nv t) ∧ (b.graph.length + 2 * treeCost b.info nc t < 2 ^ 32 →
      ∃ b'', b'.evaluate E x = pure (b'', treeVals b.info E nv t)) := by
  obtain ⟨f, h1, h2⟩ := den_node hd
  obtain ⟨l, r, h3, h4, h5⟩ := den_pairs h2
  obtain ⟨u, n, h6, h7, h8⟩ := ev_of_den hT h5 (by simpa using hc)
  simp only [List.map_cons, List.map_nil, List.sum_cons, List.sum_nil, Nat.add_zero] at h7
  obtain ⟨b', e1, e2, e3, e4⟩ := evaluate_run (evalRoot_eq h1 h3 (den_leaf h4)) h6 (by omega)
  rw [← h8 t rfl]
  refine ⟨b', e1, fun hl2 => ?_⟩
  obtain ⟨b'', f1, _⟩ := evaluate_run (evalRoot_eq (E := E) (b := b') (e3.fixed h1 ⟨_, _, h3⟩) (e3.other h3 (by simp))
    (v := v) (by rw [e2]; exact e3.other (den_leaf h4) (by simp))) (by rw [e2]; exact e3.ev h6) (by omega)
  exact ⟨b'', f1⟩

theorem Compact.evalRoot_eq {b : Bocage} {x d f l r v : Nat}
    (h1 : get b.graph x = pure (.summand d f) ∨ get b.graph x = pure .beginSum ∧ get b.graph (x + 1) = pure (.summand d f))
    (h3 : get b.graph f = pure (.rule l r)) (h4 : get b.graph l = pure (.leaf b.info.sof v)) (hl : b.graph.length < 2 ^ 32) :
    b.evalRoot x = (pure (.inl r) : M (Nat ⊕ List α)) := by
  have hs : b.checkSof l = pure () := by
    unfold Bocage.checkSof
    rw [h4, pure_bind]
    simp [assertM]
  unfold Bocage.evalRoot
  rcases h1 with h1 | ⟨h1, h1'⟩
  · rw [h1, pure_bind]
    simp only
    rw [h3, pure_bind]
    simp only
    rw [hs, pure_bind]
  · have := get_lt h1'
    rw [h1, pure_bind]
    simp only
    rw [u32_of_lt (by omega), h1', pure_bind]
    simp only
    rw [h3, pure_bind]
    simp only
    rw [hs, pure_bind]

/-- The compact bocage. -/
theorem Compact.evaluate_tree {b : Bocage} {x k d v : Nat} {t : PTree} (hT : Tables b.info E nv nc b.graph k)
    (hd : Den b.graph x [.node d (.pair (.leaf b.info.sof v) t)]) (hdn : d ≠ nullAction) (hc : Covered k t)
    (hl : b.graph.length + 9 * treeCost b.info nc t < 2 ^ 32) :
    ∃ b', b.evaluate E x = pure (b', treeVals b.info E nv t) ∧ b.graph <+: b'.graph ∧
      (b.graph.length + 18 * treeCost b.info nc t < 2 ^ 32 →
        ∃ b'', b'.evaluate E x = pure (b'', treeVals b.info E nv t)) := by
  obtain ⟨f, h1, h2⟩ := den_node hd hdn
  obtain ⟨l, r, h3, h4, h5⟩ := den_pairs h2
  obtain ⟨u, n, h6, h7, _, h8⟩ := ev_of_den hT h5 (by simpa using hc)
  simp only [List.map_cons, List.map_nil, List.sum_cons, List.sum_nil, Nat.add_zero] at h7
  obtain ⟨b', e1, e2, e3, e4⟩ := evaluate_run (evalRoot_eq (.inl h1) h3 (den_leaf h4) (by omega)) h6 (by omega)
  rw [← h8 t rfl]
  refine ⟨b', e1, e3, fun hl2 => ?_⟩
  obtain ⟨b'', f1, _⟩ := evaluate_run (E := E) (b := b') (r := r) (evalRoot_eq (v := v) (d := d) (f := f) (l := l)
    (.inl (get_prefix e3 h1)) (get_prefix e3 h3)
    (by rw [e2]; exact get_prefix e3 (den_leaf h4)) (by omega)) (by rw [e2]; exact h6.mono e3) (by omega)
  exact ⟨b'', f1⟩

/-! ### The empty input -/

theorem Simple.evaluate_empty {b : Bocage} {x d s v : Nat} (hd : Den b.graph x [.node d (.leaf s v)]) :
    b.evaluate E x = pure (b, E.nulling b.info.start []) := by
  obtain ⟨f, h1, h2⟩ := den_node hd
  have h3 := den_leaf h2
  unfold Bocage.evaluate Bocage.evaluateWith Bocage.evalRoot
  rw [indexM_eq h1, pure_bind]
  simp only
  rw [indexM_eq h3]
  rfl

theorem Compact.evaluate_empty {b : Bocage} {x d s v f : Nat} (h1 : get b.graph x = pure (.summand d f))
    (h3 : get b.graph f = pure (.leaf s v)) : b.evaluate E x = pure (b, []) := by
  unfold Bocage.evaluate Bocage.evaluateWith Bocage.evalRoot
  rw [h1, pure_bind]
  simp only
  rw [h3]
  rfl

/-! ### Ambiguous forests -/

/-- Trees of the wrapping rules. -/
def WrapTree (sof : Nat) : PTree → Prop
  | .node _ (.pair (.leaf s _) _) => s = sof
  | .node _ (.leaf s _) => s = sof
  | _ => False

theorem Simple.den_factor {b : Bocage} {f : Nat} {us : List PTree} (hd : Den b.graph f us)
    (hw : ∀ t ∈ us, WrapTree b.info.sof (.node d t)) :
    (∃ (l r v : Nat) (rs : List PTree), b.graph[f]? = some (.rule l r) ∧ b.graph[l]? = some (.leaf b.info.sof v) ∧
      Den b.graph r rs ∧ ∃ a, us = rs.map (.pair a)) ∨ ∃ s v : Nat, b.graph[f]? = some (.leaf s v) := by
  cases hd with
  | leaf h => exact .inr ⟨_, _, h⟩
  | nulling h => exact absurd (hw _ (List.mem_singleton_self _)) id
  | product h hd =>
    obtain ⟨t, ht⟩ := List.exists_mem_of_ne_nil _ hd.ne_nil
    exact absurd (hw _ (List.mem_map.2 ⟨t, ht, rfl⟩)) id
  | @rule _ l r ls rs h h1 h2 =>
    left
    obtain ⟨u, hu⟩ := List.exists_mem_of_ne_nil _ h2.ne_nil
    have hl : ∀ a ∈ ls, ∃ v, a = .leaf b.info.sof v := by
      intro a ha
      have := hw (.pair a u) (mem_pairs.2 ⟨a, ha, u, hu, rfl⟩)
      cases a with
      | leaf s v => cases this; exact ⟨v, rfl⟩
      | node | pair | nulling => exact absurd this id
    cases h1 with
    | @leaf _ s v h3 =>
      obtain ⟨v', e⟩ := hl _ (List.mem_singleton_self _)
      cases e
      exact ⟨l, r, v, rs, h, h3, h2, .leaf b.info.sof v, by simp [pairs]⟩
    | nulling h3 => obtain ⟨v', e⟩ := hl _ (List.mem_singleton_self _); cases e
    | product h3 h4 =>
      obtain ⟨t, ht⟩ := List.exists_mem_of_ne_nil _ h4.ne_nil
      obtain ⟨v', e⟩ := hl _ (List.mem_map.2 ⟨t, ht, rfl⟩); cases e
    | rule h3 h4 h5 =>
      obtain ⟨t, ht⟩ := List.exists_mem_of_ne_nil _ h4.ne_nil
      obtain ⟨t', ht'⟩ := List.exists_mem_of_ne_nil _ h5.ne_nil
      obtain ⟨v', e⟩ := hl _ (mem_pairs.2 ⟨t, ht, t', ht', rfl⟩); cases e
    | @sum _ nt k tss h3 h4 h5 h6 h7 =>
      obtain ⟨d', f', h8⟩ := h6 0 (by omega)
      have h9 := h7 0 (by omega)
      obtain ⟨t, ht⟩ := List.exists_mem_of_ne_nil _ h9.ne_nil
      obtain ⟨v', e⟩ := hl _ (List.mem_flatten.2 ⟨_, List.getElem_mem _, ht⟩)
      subst e
      generalize tss[0] = us' at h9 ht
      cases h9 with
      | leaf h | nulling h | rule h _ _ | sum h _ _ _ _ => rw [h8] at h; cases h
      | product h _ => simp at ht
  | @sum _ nt k tss h3 h4 h5 h6 h7 =>
    obtain ⟨d', f', h8⟩ := h6 0 (by omega)
    have h9 := h7 0 (by omega)
    obtain ⟨t, ht⟩ := List.exists_mem_of_ne_nil _ h9.ne_nil
    have hwt := hw t (List.mem_flatten.2 ⟨_, List.getElem_mem _, ht⟩)
    generalize tss[0] = us' at h9 ht
    cases h9 with
    | leaf h | nulling h | rule h _ _ | sum h _ _ _ _ => rw [h8] at h; cases h
    | product h _ =>
      obtain ⟨t', _, rfl⟩ := List.mem_map.1 ht
      exact absurd hwt id

/-- Whatever is represented: `evaluate` returns. -/
theorem Simple.evaluate_returns {b : Bocage} {x k : Nat} {ts : List PTree} (hT : Tables b.info E nv nc b.graph k)
    (hd : Den b.graph x ts) (hc : ∀ t ∈ ts, Covered k t) (hw : ∀ t ∈ ts, WrapTree b.info.sof t)
    (hl : b.graph.length + (ts.map (treeCost b.info nc)).sum < 2 ^ 32) : ∃ b' u, b.evaluate E x = pure (b', u) := by
  have whole : b.evalRoot E x = pure (.inl x) → ∃ b' u, b.evaluate E x = pure (b', u) := by
    intro hr
    obtain ⟨u, n, h1, h2, _⟩ := ev_of_den hT hd hc
    obtain ⟨b', h3, _⟩ := evaluate_run hr h1 (by omega)
    exact ⟨b', u, h3⟩
  cases hd with
  | leaf h | nulling h | rule h _ _ | sum h _ _ _ _ =>
    refine whole ?_
    unfold Bocage.evalRoot
    rw [indexM_eq h]; rfl
  | @product _ d f us h h1 =>
    rcases den_factor (d := d) h1 fun t ht => hw _ (List.mem_map.2 ⟨t, ht, rfl⟩) with ⟨l, r, v, rs, h2, h3, h4, a, rfl⟩ | ⟨s, v, h2⟩
    · obtain ⟨u, n, h5, h6, _⟩ := ev_of_den hT h4 fun t ht =>
        (hc (.node d (.pair a t)) (List.mem_map.2 ⟨_, List.mem_map.2 ⟨t, ht, rfl⟩, rfl⟩)).2.2
      have hle : (rs.map (treeCost b.info nc)).sum ≤ (((rs.map (PTree.pair a)).map (.node d)).map (treeCost b.info nc)).sum := by
        rw [List.map_map, List.map_map]
        exact sum_map_le fun t _ => by simp only [Function.comp, treeCost]; omega
      obtain ⟨b', h7, _⟩ := evaluate_run (evalRoot_eq h h2 h3) h5 (by omega)
      exact ⟨b', u, h7⟩
    · refine ⟨b, E.nulling b.info.start [], ?_⟩
      unfold Bocage.evaluate Bocage.evaluateWith Bocage.evalRoot
      rw [indexM_eq h, pure_bind]
      simp only
      rw [indexM_eq h2]
      rfl

theorem Compact.chain_node {G : List Nat} {x d f : Nat} {ts : List PTree} (hx : get G x = pure (.summand d f))
    (h : DenAt G true x ts) : ∃ us vs, ts = us.map (.node d) ++ vs ∧ Den G f us := by
  cases h with
  | endSum h => cases get_inj hx h
  | summand h1 h2 h3 h4 => cases get_inj hx h1; exact ⟨_, _, rfl, h3⟩

theorem Compact.den_nodes {G : List Nat} {x : Nat} {ts : List PTree} (hd : Den G x ts)
    (h : ∀ s v, get G x ≠ pure (.leaf s v)) (h' : ¬ IsRule G x) (h'' : ∀ s, get G x ≠ pure (.nullingLeaf s)) :
    ∃ d u, .node d u ∈ ts := by
  cases hd with
  | leaf h1 => exact absurd h1 (h _ _)
  | nulling h1 => exact absurd h1 (h'' _)
  | product _ hd =>
    obtain ⟨t, ht⟩ := List.exists_mem_of_ne_nil _ (hd.ne_nil.resolve_right (by simp))
    exact ⟨_, t, List.mem_map.2 ⟨t, ht, rfl⟩⟩
  | rule h1 _ _ => exact absurd ⟨_, _, h1⟩ h'
  | single h1 h2 =>
    obtain ⟨us, vs, rfl, h3⟩ := chain_node h1 h2
    obtain ⟨t, ht⟩ := List.exists_mem_of_ne_nil _ (h3.ne_nil.resolve_right (by simp))
    exact ⟨_, t, List.mem_append_left _ (List.mem_map.2 ⟨t, ht, rfl⟩)⟩
  | beginSum h0 h1 h2 _ =>
    obtain ⟨us, vs, rfl, h3⟩ := chain_node h1 h2
    obtain ⟨t, ht⟩ := List.exists_mem_of_ne_nil _ (h3.ne_nil.resolve_right (by simp))
    exact ⟨_, t, List.mem_append_left _ (List.mem_map.2 ⟨t, ht, rfl⟩)⟩

theorem Compact.den_factor {G : List Nat} {f sof : Nat} {us : List PTree} (hd : Den G f us)
    (hw : ∀ t ∈ us, ∃ v u, t = .pair (.leaf sof v) u) :
    ∃ (l r v : Nat) (rs : List PTree), get G f = pure (.rule l r) ∧ get G l = pure (.leaf sof v) ∧
      Den G r rs ∧ ∃ a, us = rs.map (.pair a) := by
  have hnode : ∀ d u, PTree.node d u ∉ us := by
    intro d u hu
    obtain ⟨_, _, e⟩ := hw _ hu
    cases e
  by_cases hr : IsRule G f
  · obtain ⟨l, r, hr⟩ := hr
    cases hd with
    | leaf h' | nulling h' | product h' _ | beginSum h' _ _ _ | single h' _ => cases get_inj hr h'
    | @rule _ l' r' ls rs h h1 h2 =>
      cases get_inj hr h
      obtain ⟨u, hu⟩ := List.exists_mem_of_ne_nil _ (h2.ne_nil.resolve_right (by simp))
      have hl : ∀ a ∈ ls, ∃ v, a = .leaf sof v := by
        intro a ha
        obtain ⟨v, _, e⟩ := hw (.pair a u) (mem_pairs.2 ⟨a, ha, u, hu, rfl⟩)
        cases e
        exact ⟨v, rfl⟩
      by_cases hlr : IsRule G l
      · obtain ⟨l', r', hlr⟩ := hlr
        cases h1 with
        | leaf h' | nulling h' | product h' _ | beginSum h' _ _ _ | single h' _ => cases get_inj hlr h'
        | rule h3 h4 h5 =>
          obtain ⟨t, ht⟩ := List.exists_mem_of_ne_nil _ (h4.ne_nil.resolve_right (by simp))
          obtain ⟨t', ht'⟩ := List.exists_mem_of_ne_nil _ (h5.ne_nil.resolve_right (by simp))
          obtain ⟨v', e⟩ := hl _ (mem_pairs.2 ⟨t, ht, t', ht', rfl⟩); cases e
      · by_cases hlf : ∃ s v, get G l = pure (.leaf s v)
        · obtain ⟨s, v, hlf⟩ := hlf
          cases h1 with
          | nulling h' | product h' _ | beginSum h' _ _ _ | single h' _ | rule h' _ _ => cases get_inj hlf h'
          | @leaf _ s v h3 =>
            cases get_inj hlf h3
            obtain ⟨v', e⟩ := hl _ (List.mem_singleton_self _)
            cases e
            exact ⟨l, r, v, rs, h, h3, h2, .leaf sof v, by simp [pairs]⟩
        · by_cases hln : ∃ s, get G l = pure (.nullingLeaf s)
          · obtain ⟨s, hln⟩ := hln
            cases h1 with
            | leaf h' | product h' _ | beginSum h' _ _ _ | single h' _ | rule h' _ _ => cases get_inj hln h'
            | nulling h3 => obtain ⟨v', e⟩ := hl _ (List.mem_singleton_self _); cases e
          · obtain ⟨d, u, hm⟩ := den_nodes h1 (fun s v h => hlf ⟨s, v, h⟩) hlr (fun s h => hln ⟨s, h⟩)
            obtain ⟨v', e⟩ := hl _ hm; cases e
  · exfalso
    by_cases hlf : ∃ s v, get G f = pure (.leaf s v)
    · obtain ⟨s, v, hlf⟩ := hlf
      cases hd with
      | nulling h' | product h' _ | beginSum h' _ _ _ | single h' _ | rule h' _ _ => cases get_inj hlf h'
      | leaf h3 => obtain ⟨v', _, e⟩ := hw _ (List.mem_singleton_self _); cases e
    · by_cases hln : ∃ s, get G f = pure (.nullingLeaf s)
      · obtain ⟨s, hln⟩ := hln
        cases hd with
        | leaf h' | product h' _ | beginSum h' _ _ _ | single h' _ | rule h' _ _ => cases get_inj hln h'
        | nulling h3 => obtain ⟨v', _, e⟩ := hw _ (List.mem_singleton_self _); cases e
      · obtain ⟨d, u, hm⟩ := den_nodes hd (fun s v h => hlf ⟨s, v, h⟩) hr (fun s h => hln ⟨s, h⟩)
        exact hnode d u hm

/-- Whatever is represented: `evaluate` returns. -/
theorem Compact.evaluate_returns {b : Bocage} {x k : Nat} {ts : List PTree} (hT : Tables b.info E nv nc b.graph k)
    (hd : Den b.graph x ts) (hc : ∀ t ∈ ts, Covered k t) (hw : ∀ t ∈ ts, ∃ d v u, t = .node d (.pair (.leaf b.info.sof v) u))
    (hk : k < 2 ^ 32)
    (hl : b.graph.length + 9 * (ts.map (treeCost b.info nc)).sum < 2 ^ 32) : ∃ b' u, b.evaluate E x = pure (b', u) := by
  have key : ∀ (d f : Nat) (us vs : List PTree), ts = us.map (.node d) ++ vs → Den b.graph f us →
      (get b.graph x = pure (.summand d f) ∨ get b.graph x = pure .beginSum ∧ get b.graph (x + 1) = pure (.summand d f)) →
      ∃ b' u, b.evaluate E x = pure (b', u) := by
    intro d f us vs ht h1 hx
    obtain ⟨l, r, v, rs, h2, h3, h4, a, rfl⟩ := den_factor (sof := b.info.sof) h1 fun t htm => by
      obtain ⟨d', v, u, e⟩ := hw (.node d t) (by rw [ht]; exact List.mem_append_left _ (List.mem_map.2 ⟨t, htm, rfl⟩))
      cases e
      exact ⟨v, u, rfl⟩
    obtain ⟨u, n, h5, h6, _⟩ := ev_of_den hT h4 fun t htm => by
      have := hc (.node d (.pair a t)) (by
        rw [ht]; exact List.mem_append_left _ (List.mem_map.2 ⟨_, List.mem_map.2 ⟨t, htm, rfl⟩, rfl⟩))
      exact this.2.2
    have hle : (rs.map (treeCost b.info nc)).sum ≤ (ts.map (treeCost b.info nc)).sum := by
      rw [ht, List.map_append, List.sum_append, List.map_map, List.map_map]
      refine Nat.le_trans ?_ (Nat.le_add_right _ _)
      exact Simple.sum_map_le fun t _ => by simp only [Function.comp, treeCost]; omega
    obtain ⟨b', h7, _⟩ := evaluate_run (evalRoot_eq hx h2 h3 (by omega)) h5 (by omega)
    exact ⟨b', u, h7⟩
  cases hd with
  | leaf h | nulling h => obtain ⟨_, _, _, e⟩ := hw _ (List.mem_singleton_self _); cases e
  | product h hd =>
    obtain ⟨t, ht⟩ := List.exists_mem_of_ne_nil _ (hd.ne_nil.resolve_right (by simp))
    have := (hc _ (List.mem_map.2 ⟨t, ht, rfl⟩)).1
    unfold nullAction at this
    omega
  | rule h h1 h2 =>
    obtain ⟨t, ht⟩ := List.exists_mem_of_ne_nil _ (h1.ne_nil.resolve_right (by simp))
    obtain ⟨t', ht'⟩ := List.exists_mem_of_ne_nil _ (h2.ne_nil.resolve_right (by simp))
    obtain ⟨_, _, _, e⟩ := hw _ (mem_pairs.2 ⟨t, ht, t', ht', rfl⟩)
    cases e
  | single h1 h2 =>
    obtain ⟨us, vs, e, h3⟩ := chain_node h1 h2
    exact key _ _ us vs e h3 (.inl h1)
  | beginSum h0 h1 h2 _ =>
    obtain ⟨us, vs, e, h3⟩ := chain_node h1 h2
    exact key _ _ us vs e h3 (.inr ⟨h0, h1⟩)

end Gearley
