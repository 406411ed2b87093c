import Verif.Proofs.EvalWork
import Verif.Props.Packed
import Verif.Props.Size

/-!
# The forest of an input with one tree is packed

If a handle represents just one tree, and there is just one tree for the symbol over the range, all nodes below the handle have
one alternative. So the forest is packed. Nothing is assumed about the order of rules with one symbol.
-/

namespace Gearley
open Gearley.Spec

theorem pairs_eq_one {ls rs : List PTree} {t : PTree} (h : pairs ls rs = [t]) : ∃ a b, ls = [a] ∧ rs = [b] ∧ t = .pair a b := by
  have hlen : ls.length * rs.length = 1 := by
    have := congrArg List.length h
    simpa [pairs, List.length_flatMap] using this
  have h1 : ls.length = 1 := Nat.eq_one_of_mul_eq_one_right hlen
  have h2 : rs.length = 1 := Nat.eq_one_of_mul_eq_one_left hlen
  obtain ⟨a, rfl⟩ := List.length_eq_one_iff.1 h1
  obtain ⟨b, rfl⟩ := List.length_eq_one_iff.1 h2
  simp [pairs] at h
  exact ⟨a, b, rfl, rfl, h.symm⟩

theorem map_eq_one {d : Nat} {ts : List PTree} {t : PTree} (h : ts.map (PTree.node d) = [t]) : ∃ f, ts = [f] ∧ t = .node d f := by
  have hlen : ts.length = 1 := by simpa using congrArg List.length h
  obtain ⟨f, rfl⟩ := List.length_eq_one_iff.1 hlen
  simp at h
  exact ⟨f, rfl, h.symm⟩

/-- A sum represents at least two trees. -/
theorem flatten_ne_one {ts : List (List PTree)} (h : 1 < ts.length) (hne : ∀ i (hi : i < ts.length), ts[i] ≠ []) (t : PTree) :
    ts.flatten ≠ [t] := by
  intro he
  rcases ts with _ | ⟨a, _ | ⟨b, ts⟩⟩
  · simp at h
  · simp at h
  · have h1 := List.length_pos_of_ne_nil (hne 0 (by simp))
    have h2 := List.length_pos_of_ne_nil (hne 1 (by simp))
    have := congrArg List.length he
    simp at this h1 h2
    omega

/-- What a handle with one tree refers to. -/
structure ReadsOne (V : Nat → View → Prop) (D : Nat → List PTree → Prop) : Prop where
  leaf : ∀ {h a v}, D h [.leaf a v] → V h (.leaf a v)
  node : ∀ {h d f}, d ≠ nullAction → D h [.node d f] → ∃ g, V h (.alts [(d, g)]) ∧ D g [f]
  pair : ∀ {h l r}, D h [.pair l r] → ∃ x y, V h (.rule x y) ∧ D x [l] ∧ D y [r]

theorem Simple.readsOne (G : List Simple.Node) : ReadsOne (Simple.HasView G) (Simple.Den G) where
  leaf {h a v} hd := by
    generalize he : [PTree.leaf a v] = ts at hd
    cases hd with
    | leaf hg => simp at he; obtain ⟨rfl, rfl⟩ := he; exact .leaf hg
    | nulling hg => simp at he
    | product _ _ => obtain ⟨_, _, h⟩ := map_eq_one he.symm; cases h
    | rule _ _ _ => obtain ⟨_, _, _, _, h⟩ := pairs_eq_one he.symm; cases h
    | sum _ hk hl _ hd => exact absurd he.symm (flatten_ne_one (by omega) (fun i hi => (hd i hi).ne_nil) _)
  node {h d f} hn hd := by
    generalize he : [PTree.node d f] = ts at hd
    cases hd with
    | leaf hg => simp at he
    | nulling hg => simp at he
    | product hg hf => obtain ⟨_, rfl, h⟩ := map_eq_one he.symm; cases h; exact ⟨_, .product hg, hf⟩
    | rule _ _ _ => obtain ⟨_, _, _, _, h⟩ := pairs_eq_one he.symm; cases h
    | sum _ hk hl _ hd => exact absurd he.symm (flatten_ne_one (by omega) (fun i hi => (hd i hi).ne_nil) _)
  pair {h l r} hd := by
    generalize he : [PTree.pair l r] = ts at hd
    cases hd with
    | leaf hg => simp at he
    | nulling hg => simp at he
    | product hg hf => obtain ⟨_, rfl, h⟩ := map_eq_one he.symm; cases h
    | rule hg h1 h2 => obtain ⟨_, _, rfl, rfl, h⟩ := pairs_eq_one he.symm; cases h; exact ⟨_, _, .rule hg, h1, h2⟩
    | sum _ hk hl _ hd => exact absurd he.symm (flatten_ne_one (by omega) (fun i hi => (hd i hi).ne_nil) _)

theorem Compact.chain_one {G : List Nat} {h : Nat} {t : PTree} (hd : Compact.DenAt G true h [t]) :
    ∃ d f g, t = .node d f ∧ Compact.Chain G h [(d, g)] ∧ Compact.Den G g [f] := by
  generalize he : [t] = ts at hd
  cases hd with
  | endSum => simp at he
  | @summand _ d g s ts us hg hs h1 h2 =>
    have hne : ts ≠ [] := by rcases h1.ne_nil with h | ⟨h, _⟩
                             · exact h
                             · cases h
    have hlen := congrArg List.length he
    have hpos := List.length_pos_of_ne_nil hne
    simp at hlen
    have hus : us = [] := List.length_eq_zero_iff.1 (by omega)
    subst hus
    rw [List.append_nil] at he
    obtain ⟨f, rfl, rfl⟩ := map_eq_one he.symm
    have hend : Compact.get G (h + s) = pure .endSum := by
      rcases h2.ne_nil with h | ⟨_, h⟩
      · exact absurd rfl h
      · exact h
    exact ⟨d, f, g, rfl, .summand hg hs (.done hend), h1⟩

theorem Compact.readsOne (G : List Nat) : ReadsOne (Compact.HasView G) (Compact.Den G) where
  leaf {h a v} hd := by
    generalize he : [PTree.leaf a v] = ts at hd
    cases hd with
    | leaf hg => simp at he; obtain ⟨rfl, rfl⟩ := he; exact .leaf hg
    | nulling hg => simp at he
    | product _ _ => obtain ⟨_, _, h⟩ := map_eq_one he.symm; cases h
    | rule _ _ _ => obtain ⟨_, _, _, _, h⟩ := pairs_eq_one he.symm; cases h
    | single _ h1 => subst he; obtain ⟨_, _, _, h, _⟩ := Compact.chain_one h1; cases h
    | beginSum _ _ _ hl => subst he; simp at hl
  node {h d f} hn hd := by
    generalize he : [PTree.node d f] = ts at hd
    cases hd with
    | leaf hg => simp at he
    | nulling hg => simp at he
    | product hg hf => obtain ⟨_, rfl, h⟩ := map_eq_one he.symm; cases h; exact absurd rfl hn
    | rule _ _ _ => obtain ⟨_, _, _, _, h⟩ := pairs_eq_one he.symm; cases h
    | single _ h1 =>
      subst he
      obtain ⟨_, _, g, h, hc, h2⟩ := Compact.chain_one h1
      cases h
      exact ⟨g, .single hc, h2⟩
    | beginSum _ _ _ hl => subst he; simp at hl
  pair {h l r} hd := by
    generalize he : [PTree.pair l r] = ts at hd
    cases hd with
    | leaf hg => simp at he
    | nulling hg => simp at he
    | product hg hf => obtain ⟨_, rfl, h⟩ := map_eq_one he.symm; cases h
    | rule hg h1 h2 => obtain ⟨_, _, rfl, rfl, h⟩ := pairs_eq_one he.symm; cases h; exact ⟨_, _, .rule hg, h1, h2⟩
    | single _ h1 => subst he; obtain ⟨_, _, _, h, _⟩ := Compact.chain_one h1; cases h
    | beginSum _ _ _ hl => subst he; simp at hl

/-- A handle with the only tree of a symbol over a range refers to a packed forest. -/
theorem packs_of_one {V : Nat → View → Prop} {D : Nat → List PTree → Prop} (hO : ReadsOne V D)
    (hV : ∀ h a b, V h a → V h b → a = b) {R : Rules} (hR : R.length ≤ nullAction) {inp : Input} {t : PTree} {A i j : Nat}
    (ht : TreeOf R inp t A i j) (hu : ∀ t', TreeOf R inp t' A i j → t' = t) {h : Nat} (hd : D h [t]) :
    Packs V R inp A i j h := by
  have hdn : ∀ {d r}, R[d]? = some r → d ≠ nullAction := by
    intro d r hr
    have := (List.getElem?_eq_some_iff.1 hr).1
    omega
  induction ht generalizing h with
  | leaf hm => exact .leaf (hO.leaf hd) hm
  | @unary d A B f i j hr hf ih =>
    obtain ⟨g, hv, hd'⟩ := hO.node (hdn hr) hd
    have hB := ih (fun t' ht' => by have := hu _ (.unary hr ht'); simpa using this) hd'
    refine .node [(d, j, g)] (by simpa using hv) (by simp) ?_ (by simp) ?_ ?_ ?_ ?_
    · intro d' m'
      simp only [List.map_cons, List.map_nil, List.mem_singleton, Prod.mk.injEq]
      constructor
      · rintro ⟨rfl, rfl⟩
        exact .inl ⟨B, hr, rfl, f, hf⟩
      · rintro (⟨B', hr', rfl, t', ht'⟩ | ⟨B', C', hr', ⟨l, hl⟩, ⟨r, hr''⟩⟩)
        · have := hu _ (.unary hr' ht')
          simp only [PTree.node.injEq] at this
          exact ⟨this.1, rfl⟩
        · have := hu _ (.binary hr' hl hr'')
          simp only [PTree.node.injEq] at this
          rw [this.1, hr] at hr'
          cases hr'
    · intro d' m' g' B' hm hr'
      simp only [List.mem_singleton, Prod.mk.injEq] at hm
      obtain ⟨rfl, rfl, rfl⟩ := hm
      rw [hr] at hr'
      cases hr'
      exact hB
    · intro d' m' g' B' C' hm hr'
      simp only [List.mem_singleton, Prod.mk.injEq] at hm
      rw [hm.1, hr] at hr'
      cases hr'
    · intro d' m' g' B' C' x y hm hr'
      simp only [List.mem_singleton, Prod.mk.injEq] at hm
      rw [hm.1, hr] at hr'
      cases hr'
    · intro d' m' g' B' C' x y hm hr'
      simp only [List.mem_singleton, Prod.mk.injEq] at hm
      rw [hm.1, hr] at hr'
      cases hr'
  | @binary d A B C l r i m j hr hl hr' ih1 ih2 =>
    obtain ⟨g, hv, hd'⟩ := hO.node (hdn hr) hd
    obtain ⟨x, y, hv', hx, hy⟩ := hO.pair hd'
    have hB := ih1 (fun t' ht' => by have := hu _ (.binary hr ht' hr'); simp at this; exact this) hx
    have hC := ih2 (fun t' ht' => by have := hu _ (.binary hr hl ht'); simp at this; exact this) hy
    refine .node [(d, m, g)] (by simpa using hv) (by simp) ?_ (by simp) ?_ ?_ ?_ ?_
    · intro d' m'
      simp only [List.map_cons, List.map_nil, List.mem_singleton, Prod.mk.injEq]
      constructor
      · rintro ⟨rfl, rfl⟩
        exact .inr ⟨B, C, hr, ⟨l, hl⟩, ⟨r, hr'⟩⟩
      · rintro (⟨B', hr2, rfl, t', ht'⟩ | ⟨B', C', hr2, ⟨l', hl'⟩, ⟨r', hr3⟩⟩)
        · have := hu _ (.unary hr2 ht')
          simp only [PTree.node.injEq] at this
          rw [this.1, hr] at hr2
          cases hr2
        · have := hu _ (.binary hr2 hl' hr3)
          simp only [PTree.node.injEq, PTree.pair.injEq] at this
          obtain ⟨rfl, rfl, rfl⟩ := this
          exact ⟨rfl, by have := hl.width; have := hl'.width; omega⟩
    · intro d' m' g' B' hm hr2
      simp only [List.mem_singleton, Prod.mk.injEq] at hm
      rw [hm.1, hr] at hr2
      cases hr2
    · intro d' m' g' B' C' hm hr2
      simp only [List.mem_singleton, Prod.mk.injEq] at hm
      exact ⟨x, y, hm.2.2 ▸ hv'⟩
    · intro d' m' g' B' C' x' y' hm hr2 hv2
      simp only [List.mem_singleton, Prod.mk.injEq] at hm
      obtain ⟨rfl, rfl, rfl⟩ := hm
      rw [hr] at hr2
      cases hr2
      cases hV _ _ _ hv' hv2
      exact hB
    · intro d' m' g' B' C' x' y' hm hr2 hv2
      simp only [List.mem_singleton, Prod.mk.injEq] at hm
      obtain ⟨rfl, rfl, rfl⟩ := hm
      rw [hr] at hr2
      cases hr2
      cases hV _ _ _ hv' hv2
      exact hC

/-! ### Rules with one symbol in the only tree -/

/-- Rules with one symbol at the top of a tree. -/
def spine : PTree → Nat
  | .node _ (.pair _ _) => 0
  | .node _ f => spine f + 1
  | _ => 0

/-- Number of nodes of a tree. -/
def Spec.PTree.nodes : PTree → Nat
  | .leaf _ _ => 1
  | .nulling _ => 1
  | .pair l r => l.nodes + r.nodes + 1
  | .node _ f => f.nodes + 1

/-- The symbols at the top of the only tree are different: otherwise there would be a tree with fewer nodes. -/
theorem spine_symbols {R : Rules} {inp : Input} {S : Nat} (hR : ∀ r ∈ R, r.lhs < S) (hi : ∀ i, ∀ p ∈ inp i, p.1 < S) {t : PTree}
    {A i j : Nat} (ht : TreeOf R inp t A i j) (hu : ∀ t', TreeOf R inp t' A i j → t' = t) :
    ∃ L : List Nat, L.length = spine t + 1 ∧ L.Nodup ∧ (∀ B ∈ L, B < S) ∧
      ∀ B ∈ L, ∃ t', TreeOf R inp t' B i j ∧ t'.nodes ≤ t.nodes := by
  induction ht with
  | @leaf A v i hm => exact ⟨[A], rfl, by simp, by simpa using hi i _ hm, by simpa using ⟨_, TreeOf.leaf hm, Nat.le_refl _⟩⟩
  | @unary d A B f i j hr hf ih =>
    obtain ⟨L, h1, h2, h3, h4⟩ := ih fun t' ht' => by have := hu _ (.unary hr ht'); simpa using this
    have hsp : spine (.node d f) = spine f + 1 := by
      cases f with
      | pair x y => exact absurd hf treeOf_pair
      | leaf | node | nulling => rfl
    refine ⟨A :: L, by rw [hsp, List.length_cons, h1], ?_, ?_, ?_⟩
    · refine List.nodup_cons.2 ⟨fun hA => ?_, h2⟩
      obtain ⟨t', k1, k2⟩ := h4 A hA
      have := hu t' k1
      subst this
      simp only [PTree.nodes] at k2
      omega
    · intro C hC
      rcases List.mem_cons.1 hC with rfl | hC
      · exact hR _ (List.mem_of_getElem? hr)
      · exact h3 C hC
    · intro C hC
      rcases List.mem_cons.1 hC with rfl | hC
      · exact ⟨_, .unary hr hf, Nat.le_refl _⟩
      · obtain ⟨t', k1, k2⟩ := h4 C hC
        exact ⟨t', k1, by simp only [PTree.nodes]; omega⟩
  | @binary d A B C l r i m j hr hl hr' ih1 ih2 =>
    exact ⟨[A], rfl, by simp, by simpa using hR _ (List.mem_of_getElem? hr), by
      simpa using ⟨_, TreeOf.binary hr hl hr', Nat.le_refl _⟩⟩

theorem spine_lt {R : Rules} {inp : Input} {S : Nat} (hR : ∀ r ∈ R, r.lhs < S) (hi : ∀ i, ∀ p ∈ inp i, p.1 < S) {t : PTree}
    {A i j : Nat} (ht : TreeOf R inp t A i j) (hu : ∀ t', TreeOf R inp t' A i j → t' = t) : spine t < S := by
  obtain ⟨L, h1, h2, h3, _⟩ := spine_symbols hR hi ht hu
  have := (h2.subperm fun B hB => List.mem_range.2 (h3 B hB) : L.Subperm (List.range S)).length_le
  simp only [List.length_range] at this
  omega

end Gearley

namespace Gearley.Props
open Gearley.Spec
variable {c : Cfg} {n : Nat} {w : WrappedRoot} {nullable : Prop} {steps : List Step} {g0 : Nat}

/-- An accepted input has a tree of the user's root. -/
theorem inner_tree {σ : Type} {E : Env σ Nat} (h : GoodParse E c n w nullable steps g0) (hlen : 1 < steps.length)
    (hacc : Accepts (rulesOf c) g0 steps) : ∃ t, TreeOf (rulesOf c) (inputOf steps) t w.innerRoot 1 steps.length := by
  obtain ⟨u, h1, h2, h3⟩ := hacc
  obtain ⟨t, ht⟩ := h3.tree 0 h2
  rw [Nat.zero_add, h1] at ht
  rcases h.tree_form ht with ⟨_, _, u, _, hu⟩ | ⟨_, _, _, h5, _⟩
  · exact ⟨u, hu⟩
  · omega

/-- One tree of the user's root is one tree of the whole input. -/
theorem one_root {σ : Type} {E : Env σ Nat} (h : GoodParse E c n w nullable steps g0) (hone : WrappedOnce (rulesOf c) w g0)
    (hlen : 1 < steps.length) {t : PTree} (hu : ∀ t', TreeOf (rulesOf c) (inputOf steps) t' w.innerRoot 1 steps.length → t' = t)
    {s s' : PTree} (hs : TreeOf (rulesOf c) (inputOf steps) s g0 0 steps.length)
    (hs' : TreeOf (rulesOf c) (inputOf steps) s' g0 0 steps.length) : s' = s := by
  have form : ∀ {s : PTree}, TreeOf (rulesOf c) (inputOf steps) s g0 0 steps.length → ∃ d v, s = .node d (.pair (.leaf w.sof v) t) ∧
      (w.sof, v) ∈ inputOf steps 0 ∧ (rulesOf c)[d]? = some (Rule.mk g0 w.sof (some w.innerRoot)) := by
    intro s hs
    obtain ⟨g1, ⟨h1, _⟩, h3, hn, h2⟩ := h.wrapping.rules
    have := h.root_eq h1
    subst this
    rcases h.tree_form hs with ⟨d, v, u, rfl, hu'⟩ | ⟨d, v, rfl, h5, _⟩
    · cases hu u hu'
      generalize hi : (0 : Nat) = i at hs ⊢
      generalize hj : steps.length = j at hs hu'
      cases hs with
      | unary hr hf => exact absurd hf treeOf_pair
      | binary hr hl hf =>
        rcases h2 _ (List.mem_of_getElem? hr) rfl with he | he
        · rw [← he]
          refine ⟨_, _, rfl, ?_, hr⟩
          generalize w.sof = a at hl
          cases hl with
          | leaf hm => exact hm
        · simp at he
    · omega
  obtain ⟨d, v, rfl, hv, hd⟩ := form hs
  obtain ⟨d', v', rfl, hv', hd'⟩ := form hs'
  rw [hone d d' hd hd', (Prod.mk.inj (List.inj_on_of_nodup_map (h.plain 0).1 hv hv' rfl)).2]

/-- The finished node of an input with one tree refers to a packed forest, for every order of rules with one symbol. -/
theorem packed_one_simple {E : Env Simple.Bocage Nat} {b : Simple.Bocage} (h : GoodParse E c n w nullable steps g0)
    (hF : E.F = Simple.forest) (hb : Simple.Bocage.new E.g.forestInfo = pure b) (hone : WrappedOnce (rulesOf c) w g0)
    (hacc : Accepts (rulesOf c) g0 steps) (hlen : 1 < steps.length) {t : PTree}
    (hu : ∀ t', TreeOf (rulesOf c) (inputOf steps) t' w.innerRoot 1 steps.length → t' = t) :
    ∃ r x, (Rec.new E b >>= Rec.session E steps) = pure r ∧ r.2 = true ∧ Rec.finishedNode E r.1 = pure (some x) ∧
      (r.1.forest.graph.length < 2 ^ 32 →
        Packs (Simple.HasView r.1.forest.graph) (rulesOf c) (inputOf steps) g0 0 steps.length x) := by
  obtain ⟨r, x, h1, h2, h3, hi, h4⟩ := finished_simple h hF hb hacc
  refine ⟨r, x, h1, h2, h3, fun hl => ?_⟩
  obtain ⟨⟨ts, hd, hn, hm⟩, _⟩ := h4 hl
  obtain ⟨s, hs⟩ := List.exists_mem_of_ne_nil _ hd.ne_nil
  have hs' := (hm s).1 hs
  have huniq : ∀ s', TreeOf (rulesOf c) (inputOf steps) s' g0 0 steps.length → s' = s := fun s' h' => one_root h hone hlen hu hs' h'
  rw [eq_single hn hs fun y hy => huniq y ((hm y).1 hy)] at hd
  refine packs_of_one (Simple.readsOne _) (fun _ _ _ => Simple.HasView.det) ?_ hs' huniq hd
  have := h.rules32
  simp only [rulesOf, List.length_map, nullAction]
  omega

theorem packed_one_compact {E : Env Compact.Bocage Nat} {b : Compact.Bocage} (h : GoodParse E c n w nullable steps g0)
    (hF : E.F = Compact.forest) (hb : Compact.Bocage.new E.g.forestInfo = pure b) (hone : WrappedOnce (rulesOf c) w g0)
    (hacc : Accepts (rulesOf c) g0 steps) (hlen : 1 < steps.length) {t : PTree}
    (hu : ∀ t', TreeOf (rulesOf c) (inputOf steps) t' w.innerRoot 1 steps.length → t' = t) :
    ∃ r x, (Rec.new E b >>= Rec.session E steps) = pure r ∧ r.2 = true ∧ Rec.finishedNode E r.1 = pure (some x) ∧
      (r.1.forest.graph.length < 2 ^ 32 →
        Packs (Compact.HasView r.1.forest.graph) (rulesOf c) (inputOf steps) g0 0 steps.length x) := by
  obtain ⟨r, x, h1, h2, h3, hi, h4⟩ := finished_compact h hF hb hacc
  refine ⟨r, x, h1, h2, h3, fun hl => ?_⟩
  obtain ⟨⟨ts, hd, hn, hm⟩, _⟩ := h4 hl
  obtain ⟨s, hs⟩ := List.exists_mem_of_ne_nil ts (by
    rcases hd.ne_nil with h | ⟨h, _⟩
    · exact h
    · cases h)
  have hs' := (hm s).1 hs
  have huniq : ∀ s', TreeOf (rulesOf c) (inputOf steps) s' g0 0 steps.length → s' = s := fun s' h' => one_root h hone hlen hu hs' h'
  rw [eq_single hn hs fun y hy => huniq y ((hm y).1 hy)] at hd
  refine packs_of_one (Compact.readsOne _) (fun _ _ _ => Compact.HasView.det) ?_ hs' huniq hd
  have := h.rules32
  simp only [rulesOf, List.length_map, nullAction]
  omega

end Gearley.Props
