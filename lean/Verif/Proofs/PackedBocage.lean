import Verif.Proofs.Packed

/-!
# Both bocages and the forest that watches the summands
-/

namespace Gearley
open Gearley.Spec

namespace Simple

theorem HasView.det {G : List Node} {h : Nat} {a b : View} (h1 : HasView G h a) (h2 : HasView G h b) : a = b := by
  cases h1 with
  | leaf h1 => cases h2 <;> simp_all
  | rule h1 => cases h2 <;> simp_all
  | product h1 => cases h2 <;> simp_all
  | @sum nt as h1 hk h3 =>
    cases h2 with
    | leaf h2 | rule h2 | product h2 => simp_all
    | @sum nt' as' h2 _ h4 =>
      rw [h1] at h2
      simp only [Option.some.injEq, Node.sum.injEq] at h2
      congr 1
      refine List.ext_getElem h2.2 fun i hi hi' => ?_
      have := (h3 i hi).symm.trans (h4 i hi')
      simp only [Option.some.injEq, Node.product.injEq] at this
      exact Prod.ext this.1 this.2

theorem HasView.mono {G G' : List Node} (hp : G <+: G') {h : Nat} {a : View} (h1 : HasView G h a) : HasView G' h a := by
  cases h1 with
  | leaf h => exact .leaf (getElem?_prefix hp h)
  | rule h => exact .rule (getElem?_prefix hp h)
  | product h => exact .product (getElem?_prefix hp h)
  | sum h hk hs => exact .sum (getElem?_prefix hp h) hk fun i hi => getElem?_prefix hp (hs i hi)

/-- Graph, and whether all sums so far had separate summands. -/
abbrev PWorld := List Node × Prop

def PRep (w : PWorld) (h : Nat) (ts : List PTree) : Prop :=
  w.1.length < 2 ^ 32 → w.2 → ∃ us, VDen (HasView w.1) h us ∧ us.Perm ts

def PLe (w w' : PWorld) : Prop := w.1 <+: w'.1 ∧ (w'.2 → w.2)

theorem PRep.mono {w w' : PWorld} (hp : PLe w w') {h : Nat} {ts : List PTree} (hd : PRep w h ts) : PRep w' h ts := by
  intro hl ho
  obtain ⟨us, hd, hp'⟩ := hd (Nat.lt_of_le_of_lt hp.1.length_le hl) (hp.2 ho)
  exact ⟨us, hd.mono fun _ _ => HasView.mono hp.1, hp'⟩

structure PSumming (info : ForestInfo) (w : PWorld) (k : Nat) (b : Bocage) (s : SepState) : Prop where
  info : b.info = info
  count : b.summandCount = k
  ok : s.2 = w.2
  ex : ∃ xs : List VSummand, xs.length = k ∧ b.graph = w.1 ++ xs.map Summand.node ∧
    (∀ x ∈ xs, PRep w x.2.1 x.2.2) ∧ s.1 = xs.map VSummand.sep

theorem prep_sum {w : PWorld} {G : List Node} {x : VSummand} {xs : List VSummand} (h0 : xs ≠ []) {lhs : Nat}
    (hG : w.1 ++ Node.sum lhs (xs.length + 1) :: (xs ++ [x]).map Summand.node = G)
    (hr : ∀ y ∈ x :: xs, PRep w y.2.1 y.2.2) (hl : G.length < 2 ^ 32) (ho : w.2)
    (hs : ((x :: xs).map VSummand.sep).Pairwise Sep) :
    ∃ us, VDen (HasView G) w.1.length us ∧ us.Perm ((x :: xs).flatMap VSummand.trees) := by
  have hp : w.1 <+: G := ⟨_, hG⟩
  have hperm : (xs ++ [x]).Perm (x :: xs) := List.perm_append_comm (l₁ := xs) (l₂ := [x])
  obtain ⟨us, h1, h2⟩ := vden_alts (V := HasView G) (h := w.1.length) (ys := xs ++ [x]) (by
      refine .sum (nt := lhs) ?_ ?_ ?_
      · rw [← hG]; simp
      · have := List.length_pos_iff.2 h0; simp; omega
      · intro i hi
        have hi' : i < (xs ++ [x]).length := by simpa using hi
        rw [← hG, List.getElem?_append_right (by omega), show w.1.length + 1 + i - w.1.length = i + 1 by omega,
          List.getElem?_cons_succ, List.getElem?_map, List.getElem?_eq_getElem hi', List.getElem_map]
        rfl)
    (by simp) (fun y hy => by
      obtain ⟨us, h1, h2⟩ := hr y (hperm.mem_iff.1 hy) (Nat.lt_of_le_of_lt hp.length_le hl) ho
      exact ⟨us, h1.mono fun _ _ => HasView.mono hp, h2⟩)
    ((hperm.map VSummand.sep).pairwise_iff (fun h => h.symm) |>.2 hs)
  exact ⟨us, h1, h2.trans (hperm.flatMap_right _)⟩

theorem summandTrees_map (xs : List VSummand) : summandTrees (xs.map VSummand.sep) = xs.flatMap VSummand.trees := by
  simp [summandTrees, List.flatMap_map]

theorem psum_spec {info : ForestInfo} {w : PWorld} {k : Nat} {b : Bocage} {s : SepState} {lhs : Nat}
    (h : PSumming info w k b s) (hk : 0 < k) :
    ∃ b' n, b.sum lhs = pure (b', n) ∧ w.1 <+: b'.graph ∧ b'.info = info ∧ b'.summandCount = 0 ∧
      PRep (b'.graph, s.2 ∧ s.1.Pairwise Sep) n (summandTrees s.1) := by
  obtain ⟨hi, hc, hok, xs, hx, hg, hr, ht⟩ := h
  rw [ht, summandTrees_map, hok]
  rcases xs with _ | ⟨x, _ | ⟨y, xs⟩⟩
  · simp at hx; omega
  · have hk1 : k = 1 := by simpa using hx.symm
    subst hk1
    unfold Bocage.sum
    rw [hc]
    refine ⟨_, _, rfl, ⟨_, hg.symm⟩, hi, rfl, ?_⟩
    intro hl ho
    have hl' : b.graph.length < 2 ^ 32 := hl
    have hlen : b.graph.length = w.1.length + 1 := by rw [hg]; simp
    rw [u32Pred_eq hl' (by omega)]
    refine vden_alts (ys := [x]) (.product (d := x.1) (f := x.2.1) ?_) (by simp) (fun z hz => ?_) (by simp)
    · show b.graph[_]? = _
      rw [hlen, hg]; simp [Summand.node]
    · rw [List.mem_singleton.1 hz]
      obtain ⟨us, h1, h2⟩ := hr x (by simp) (by omega) ho.1
      exact ⟨us, h1.mono fun _ _ => HasView.mono ⟨_, hg.symm⟩, h2⟩
  · have hk2 : k = xs.length + 2 := by simpa using hx.symm
    subst hk2
    have hlen : b.graph.length = w.1.length + (xs.length + 2) := by rw [hg]; simp
    have hidx : b.graph[w.1.length]? = some (Summand.node x) := by rw [hg]; simp
    have hsum : b.sum lhs = pure (
        { b with
          graph := w.1 ++ Node.sum lhs (u32 (xs.length + 2)) :: ((y :: xs) ++ [x]).map Summand.node
          summandCount := 0 }, u32 w.1.length) := by
      unfold Bocage.sum
      rw [hc]
      simp only
      rw [show subM b.graph.length (xs.length + 2) = pure w.1.length by
        unfold subM; rw [if_pos (by omega)]; congr 1; omega]
      simp only [pure_bind]
      rw [indexM_eq hidx, pure_bind]
      unfold setM
      rw [if_pos (by simp; omega), pure_bind, hg, sum_graph]
    refine ⟨_, _, hsum, ⟨_, rfl⟩, hi, rfl, ?_⟩
    intro hl ho
    simp only at hl
    have hxl : xs.length + 2 < 2 ^ 32 := by simp at hl; omega
    have hwl : w.1.length < 2 ^ 32 := by simp at hl; omega
    rw [u32_of_lt' hxl] at hl
    simp only
    rw [u32_of_lt' hwl, u32_of_lt' hxl]
    exact prep_sum (w := w) (x := x) (xs := y :: xs) (by simp) (lhs := lhs) rfl hr hl ho.1 ho.2

/-- The simple bocage and the forest that watches the summands. -/
def psim (info : ForestInfo) : FSim False forest sepForest (fun _ => True) (fun _ _ => True) where
  γ := PWorld
  le := PLe
  refl _ := ⟨List.prefix_rfl, id⟩
  trans h k := ⟨h.1.trans k.1, fun x => h.2 (k.2 x)⟩
  N := PRep
  mono h := PRep.mono h
  Idle w b s := b.graph = w.1 ∧ b.info = info ∧ b.summandCount = 0 ∧ s.2 = w.2
  Summing := PSumming info
  beginSum := by
    rintro ⟨w, o⟩ s t ⟨rfl, hi, hc, hok⟩
    exact relM_pures rfl rfl ⟨(s.graph, o), ⟨List.prefix_rfl, id⟩, hi, hc, hok, [], rfl, by simp, by simp, rfl⟩
  pushSummand := by
    rintro w k s t d o a b ⟨hi, hc, hok, xs, hx, hg, hr, ht⟩ - hn
    refine relM_pures rfl rfl ⟨w, ⟨List.prefix_rfl, id⟩, hi, by simp [Bocage.pushSummand, hc], hok, xs ++ [(d, a, b)],
      by simp [hx], ?_, ?_, ?_⟩
    · simp [Bocage.pushSummand, hg, Summand.node]
    · intro x hx'
      rcases List.mem_append.1 hx' with hx' | hx'
      · exact hr x hx'
      · rw [List.mem_singleton.1 hx']; exact hn
    · simp [ht]
  sum := by
    intro w k s t lhs o h hk
    obtain ⟨b', n, e, hp, hi, hc, hr⟩ := psum_spec (lhs := lhs) h hk
    show RelM False (s.sum lhs) _ _
    rw [e]
    exact relM_pures rfl rfl ⟨(b'.graph, t.2 ∧ t.1.Pairwise Sep), ⟨hp, fun x => h.ok ▸ x.1⟩, ⟨rfl, hi, hc, rfl⟩, hr⟩
  product := by
    rintro ⟨w, o⟩ s t a b c d ⟨rfl, hi, hc, hok⟩ ha hb
    have hp : s.graph <+: s.graph ++ [Node.rule a c] := ⟨_, rfl⟩
    have hle : PLe (s.graph, o) (s.graph ++ [Node.rule a c], o) := ⟨hp, id⟩
    refine relM_pures rfl rfl ⟨_, hle, ⟨rfl, hi, hc, hok⟩, ?_⟩
    intro hl ho
    obtain ⟨us, hu, hup⟩ := ha.mono hle hl ho
    obtain ⟨vs, hv, hvp⟩ := hb.mono hle hl ho
    refine ⟨pairs us vs, .rule (.rule ?_) hu hv, pairs_perm hup hvp⟩
    simp only [Bocage.product]
    rw [u32Pred_eq hl (by simp)]
    simp
  leaf := by
    rintro ⟨w, o⟩ s t sym pos val ⟨rfl, hi, hc, hok⟩ -
    have hp : s.graph <+: s.graph ++ [Node.leaf sym val] := ⟨_, rfl⟩
    have hle : PLe (s.graph, o) (s.graph ++ [Node.leaf sym val], o) := ⟨hp, id⟩
    refine relM_pures rfl rfl ⟨_, hle, ⟨rfl, hi, hc, hok⟩, ?_⟩
    intro hl ho
    refine ⟨_, .leaf (.leaf ?_), .refl _⟩
    simp only [Bocage.leaf] at hl ⊢
    rw [u32_of_lt' (by simp at hl; omega)]
    simp

end Simple

namespace Compact

theorem Chain.det {G : List Nat} {h : Nat} {a b : List (Nat × Nat)} (h1 : Chain G h a) (h2 : Chain G h b) : a = b := by
  induction h1 generalizing b with
  | done h =>
    cases h2 with
    | done => rfl
    | summand h' => cases get_inj h h'
  | summand h hs _ ih =>
    cases h2 with
    | done h' => cases get_inj h h'
    | summand h' hs' h2 =>
      cases get_inj h h'
      have := pure_inj_M (hs.symm.trans hs')
      subst this
      rw [ih h2]

theorem Chain.mono {G G' : List Nat} (hp : G <+: G') {h : Nat} {a : List (Nat × Nat)} (h1 : Chain G h a) : Chain G' h a := by
  induction h1 with
  | done h => exact .done (get_prefix hp h)
  | summand h hs _ ih => exact .summand (get_prefix hp h) (size_prefix hp hs) ih

theorem Chain.first {G : List Nat} {h d f : Nat} {a : List (Nat × Nat)} (h1 : Chain G h ((d, f) :: a)) :
    get G h = pure (.summand d f) := by
  cases h1 with
  | summand h _ _ => exact h

theorem HasView.det {G : List Nat} {h : Nat} {a b : View} (h1 : HasView G h a) (h2 : HasView G h b) : a = b := by
  cases h1 with
  | leaf h1 =>
    cases h2 with
    | leaf h2 => cases get_inj h1 h2; rfl
    | rule h2 | beginSum h2 _ _ => cases get_inj h1 h2
    | single h2 => cases get_inj h1 h2.first
  | rule h1 =>
    cases h2 with
    | rule h2 => cases get_inj h1 h2; rfl
    | leaf h2 | beginSum h2 _ _ => cases get_inj h1 h2
    | single h2 => cases get_inj h1 h2.first
  | single h1 =>
    cases h2 with
    | leaf h2 | rule h2 | beginSum h2 _ _ => cases get_inj h1.first h2
    | single h2 => rw [h1.det h2]
  | beginSum h1 _ h1' =>
    cases h2 with
    | leaf h2 | rule h2 => cases get_inj h1 h2
    | single h2 => cases get_inj h1 h2.first
    | beginSum h2 _ h2' => rw [h1'.det h2']

theorem HasView.mono {G G' : List Nat} (hp : G <+: G') {h : Nat} {a : View} (h1 : HasView G h a) : HasView G' h a := by
  cases h1 with
  | leaf h => exact .leaf (get_prefix hp h)
  | rule h => exact .rule (get_prefix hp h)
  | single h => exact .single (h.mono hp)
  | beginSum h hk hs => exact .beginSum (get_prefix hp h) hk (hs.mono hp)

/-- Graph, and whether all sums so far had separate summands. -/
abbrev PWorld := List Nat × Prop

def PRep (w : PWorld) (h : Nat) (ts : List PTree) : Prop :=
  h < 2 ^ 32 ∧ (w.1.length < 2 ^ 32 → w.2 → ∃ us, VDen (HasView w.1) h us ∧ us.Perm ts)

def PLe (w w' : PWorld) : Prop := w.1 <+: w'.1 ∧ (w'.2 → w.2)

theorem PRep.mono {w w' : PWorld} (hp : PLe w w') {h : Nat} {ts : List PTree} (hd : PRep w h ts) : PRep w' h ts := by
  refine ⟨hd.1, fun hl ho => ?_⟩
  obtain ⟨us, hd, hp'⟩ := hd.2 (Nat.lt_of_le_of_lt hp.1.length_le hl) (hp.2 ho)
  exact ⟨us, hd.mono fun _ _ => HasView.mono hp.1, hp'⟩

structure PSumming (info : ForestInfo) (w : PWorld) (k : Nat) (b : Bocage) (s : SepState) : Prop where
  info : b.info = info
  count : b.numSummands = k
  start : b.sumStart = some (len w.1)
  ok : s.2 = w.2
  ex : ∃ xs : List VSummand, xs.length = k ∧ b.graph = w.1 ++ encode .beginSum ++ xs.flatMap Summand.bytes ∧
    (∀ x ∈ xs, x.1 < 2 ^ 32 ∧ PRep w x.2.1 x.2.2) ∧ s.1 = xs.map VSummand.sep

theorem chain_encode : ∀ (xs : List VSummand) (a : List Nat), (∀ x ∈ xs, x.1 < 2 ^ 32 ∧ x.2.1 < 2 ^ 32) →
    Chain (a ++ xs.flatMap Summand.bytes ++ encode .endSum) a.length (xs.map VSummand.view)
  | [], a, _ => by
    refine .done ?_
    have := get_encode a (n := .endSum) trivial []
    simpa using this
  | x :: xs, a, h => by
    have hx := h x (by simp)
    have ih := chain_encode xs (a ++ Summand.bytes x) fun y hy => h y (by simp [hy])
    have e : a ++ (x :: xs).flatMap Summand.bytes ++ encode .endSum =
      a ++ Summand.bytes x ++ (xs.flatMap Summand.bytes ++ encode .endSum) := by simp
    rw [e, List.map_cons]
    refine .summand (s := (Summand.bytes x).length) (get_encode a (n := .summand x.1 x.2.1) ⟨hx.1, hx.2⟩ _) (size_encode a _ _) ?_
    rw [← List.append_assoc, ← List.length_append]; exact ih

theorem psum_spec {info : ForestInfo} {w : PWorld} {k : Nat} {b : Bocage} {s : SepState}
    (h : PSumming info w k b s) (hk0 : 0 < k) :
    ∃ b' n, b.sum = pure (b', n) ∧ w.1 <+: b'.graph ∧ b'.info = info ∧ b'.sumStart = none ∧
      PRep (b'.graph, s.2 ∧ s.1.Pairwise Sep) n (summandTrees s.1) := by
  obtain ⟨hi, hc, hs, hok, xs, hx, hg, hr, ht⟩ := h
  rw [ht, Simple.summandTrees_map, hok]
  have hp : w.1 <+: push b.graph .endSum := by
    rw [push, hg]; exact ⟨_, by rw [List.append_assoc, List.append_assoc]⟩
  have h1 : (w.1 ++ encode .beginSum).length = w.1.length + 1 := by simp [encode]
  have hch : Chain (push b.graph .endSum) (w.1.length + 1) (xs.map VSummand.view) := by
    rw [push, hg, ← h1]
    exact chain_encode xs (w.1 ++ encode .beginSum) fun x hx => ⟨(hr x hx).1, (hr x hx).2.1⟩
  have hlt : (push b.graph .endSum).length < 2 ^ 32 → w.1.length < 2 ^ 32 ∧ w.1.length + 1 < 2 ^ 32 := by
    intro hl
    refine ⟨Nat.lt_of_le_of_lt hp.length_le hl, ?_⟩
    rw [push, hg] at hl; simp [encode] at hl; omega
  have hne : xs ≠ [] := by rintro rfl; simp at hx; omega
  have hch' : (push b.graph .endSum).length < 2 ^ 32 → w.2 → ∀ y ∈ xs,
      ∃ us, VDen (HasView (push b.graph .endSum)) y.2.1 us ∧ us.Perm y.2.2 := by
    intro hl ho y hy
    obtain ⟨us, h1, h2⟩ := (hr y hy).2.2 (hlt hl).1 ho
    exact ⟨us, h1.mono fun _ _ => HasView.mono hp, h2⟩
  unfold Bocage.sum
  rw [hs, hc]
  simp only [unwrapM, pure_bind]
  by_cases hk : k = 1
  · rw [if_pos hk]
    refine ⟨_, _, rfl, hp, hi, rfl, u32_lt _, fun hl ho => ?_⟩
    obtain ⟨h2, h3⟩ := hlt hl
    rw [len, u32_of_lt h2, u32_of_lt h3]
    refine vden_alts ?_ hne (hch' hl ho.1) ho.2
    rcases xs with _ | ⟨x, _ | ⟨y, xs⟩⟩
    · exact absurd rfl hne
    · exact .single hch
    · simp at hx; omega
  · rw [if_neg hk]
    refine ⟨_, _, rfl, hp, hi, rfl, u32_lt _, fun hl ho => ?_⟩
    obtain ⟨h2, h3⟩ := hlt hl
    rw [len, u32_of_lt h2]
    refine vden_alts (.beginSum ?_ (by simp; omega) hch) hne (hch' hl ho.1) ho.2
    simp only [push, hg]
    rw [List.append_assoc, List.append_assoc, ← List.append_assoc w.1]
    exact get_encode w.1 (n := .beginSum) trivial _

/-- The compact bocage and the forest that watches the summands. -/
def psim (info : ForestInfo) : FSim False forest sepForest Dot32 Leaf32 where
  γ := PWorld
  le := PLe
  refl _ := ⟨List.prefix_rfl, id⟩
  trans h k := ⟨h.1.trans k.1, fun x => h.2 (k.2 x)⟩
  N := PRep
  mono h := PRep.mono h
  Idle w b s := b.graph = w.1 ∧ b.info = info ∧ b.sumStart = none ∧ s.2 = w.2
  Summing := PSumming info
  beginSum := by
    rintro ⟨w, o⟩ s t ⟨rfl, hi, hc, hok⟩
    exact relM_pures rfl rfl ⟨(s.graph, o), ⟨List.prefix_rfl, id⟩, hi, rfl, rfl, hok, [], rfl,
      by simp [Bocage.beginSum, push], by simp, rfl⟩
  pushSummand := by
    rintro w k s t d o a b ⟨hi, hc, hs, hok, xs, hx, hg, hr, ht⟩ hd hn
    refine relM_pures rfl rfl ⟨w, ⟨List.prefix_rfl, id⟩, hi, by simp [Bocage.pushSummand, hc], hs, hok, xs ++ [(d, a, b)],
      by simp [hx], ?_, ?_, ?_⟩
    · simp [Bocage.pushSummand, push, hg, Summand.bytes]
    · intro x hx'
      rcases List.mem_append.1 hx' with hx' | hx'
      · exact hr x hx'
      · rw [List.mem_singleton.1 hx']; exact ⟨hd, hn⟩
    · simp [ht]
  sum := by
    intro w k s t lhs o h hk
    obtain ⟨b', n, e, hp, hi, hc, hr⟩ := psum_spec h hk
    show RelM False s.sum _ _
    rw [e]
    exact relM_pures rfl rfl ⟨(b'.graph, t.2 ∧ t.1.Pairwise Sep), ⟨hp, fun x => h.ok ▸ x.1⟩, ⟨rfl, hi, hc, rfl⟩, hr⟩
  product := by
    rintro ⟨w, o⟩ s t a b c d ⟨rfl, hi, hc, hok⟩ ha hb
    have hp : s.graph <+: push s.graph (.rule a c) := ⟨_, rfl⟩
    have hle : PLe (s.graph, o) (push s.graph (.rule a c), o) := ⟨hp, id⟩
    refine relM_pures rfl rfl ⟨_, hle, ⟨rfl, hi, hc, hok⟩, u32_lt _, fun hl ho => ?_⟩
    have hl' := Nat.lt_of_le_of_lt hp.length_le hl
    obtain ⟨us, hu, hup⟩ := (ha.mono hle).2 hl ho
    obtain ⟨vs, hv, hvp⟩ := (hb.mono hle).2 hl ho
    refine ⟨pairs us vs, .rule (.rule (l := a) (r := c) ?_) hu hv, pairs_perm hup hvp⟩
    simp only [Bocage.product, push, len]
    rw [u32_of_lt hl']
    have := get_encode s.graph (n := .rule a c) ⟨ha.1, hb.1⟩ []
    rwa [List.append_nil] at this
  leaf := by
    rintro ⟨w, o⟩ s t sym pos val ⟨rfl, hi, hc, hok⟩ ho
    have hp : s.graph <+: push s.graph (.leaf sym val) := ⟨_, rfl⟩
    have hle : PLe (s.graph, o) (push s.graph (.leaf sym val), o) := ⟨hp, id⟩
    refine relM_pures rfl rfl ⟨_, hle, ⟨rfl, hi, hc, hok⟩, u32_lt _, fun hl _ => ?_⟩
    have hl' := Nat.lt_of_le_of_lt hp.length_le hl
    refine ⟨_, .leaf (.leaf ?_), .refl _⟩
    simp only [Bocage.leaf, push, len]
    rw [u32_of_lt hl']
    have := get_encode s.graph (n := .leaf sym val) ho []
    rwa [List.append_nil] at this

end Compact
end Gearley
