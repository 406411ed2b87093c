import Verif.Spec.Denote
import Verif.Proofs.Transfer
import Mathlib.Data.List.Basic
import Mathlib.Data.List.Perm.Basic
import Mathlib.Data.List.Flatten

/-!
# The simple bocage represents the trees of the specification forest
-/

namespace Gearley
open Gearley.Spec

theorem pairs_perm {a b c d : List PTree} (h : a.Perm b) (k : c.Perm d) : (pairs a c).Perm (pairs b d) := by
  unfold pairs
  exact (h.flatMap_right _).trans (List.Perm.flatMap_left _ fun x _ => k.map _)

theorem u32_of_lt' {x : Nat} (h : x < 2 ^ 32) : u32 x = x := Nat.mod_eq_of_lt h

theorem u32Pred_eq {x : Nat} (h : x < 2 ^ 32) (h0 : 0 < x) : u32Pred x = x - 1 := by
  unfold u32Pred
  rw [u32_of_lt' h]
  unfold u32
  omega

namespace Simple

theorem getElem?_prefix {α} {w w' : List α} (h : w <+: w') {i : Nat} {a : α} (hi : w[i]? = some a) : w'[i]? = some a := by
  obtain ⟨c, rfl⟩ := h
  rw [List.getElem?_append_left (List.getElem?_eq_some_iff.1 hi).1]; exact hi

theorem Den.mono {G G' : List Node} (hp : G <+: G') {h : Nat} {ts : List PTree} (hd : Den G h ts) : Den G' h ts := by
  induction hd with
  | leaf h => exact .leaf (getElem?_prefix hp h)
  | nulling h => exact .nulling (getElem?_prefix hp h)
  | product h _ ih => exact .product (getElem?_prefix hp h) ih
  | rule h _ _ ih1 ih2 => exact .rule (getElem?_prefix hp h) ih1 ih2
  | sum h hk hl hd _ ih =>
    exact .sum (getElem?_prefix hp h) hk hl (fun i hi => let ⟨d, f, e⟩ := hd i hi; ⟨d, f, getElem?_prefix hp e⟩) ih

theorem Den.det {G : List Node} {h : Nat} {ts us : List PTree} (h1 : Den G h ts) (h2 : Den G h us) : ts = us := by
  induction h1 generalizing us with
  | leaf h => cases h2 <;> simp_all
  | nulling h => cases h2 <;> simp_all
  | product h _ ih =>
    cases h2 with
    | product h' h2 => rw [h] at h'; cases h'; rw [ih h2]
    | _ => simp_all
  | rule h _ _ ih1 ih2 =>
    cases h2 with
    | rule h' h2 h3 => rw [h] at h'; cases h'; rw [ih1 h2, ih2 h3]
    | _ => simp_all
  | sum h hk hl _ _ ih =>
    cases h2 with
    | sum h' hk' hl' _ h2 =>
      rw [h] at h'; cases h'
      congr 1
      exact List.ext_getElem (hl.trans hl'.symm) fun i hi hi' => ih i hi (h2 i hi')
    | _ => simp_all

theorem pairs_ne_nil {a b : List PTree} (ha : a ≠ []) (hb : b ≠ []) : pairs a b ≠ [] := by
  rcases a with _ | ⟨x, a⟩
  · exact absurd rfl ha
  rcases b with _ | ⟨y, b⟩
  · exact absurd rfl hb
  simp [pairs]

theorem Den.ne_nil {G : List Node} {h : Nat} {ts : List PTree} (hd : Den G h ts) : ts ≠ [] := by
  induction hd with
  | leaf => simp
  | nulling => simp
  | product _ _ ih => simpa using ih
  | rule _ _ _ ih1 ih2 => exact pairs_ne_nil ih1 ih2
  | @sum h nt k ts _ hk hl _ _ ih =>
    have h0 : 0 < ts.length := by omega
    intro e
    rw [List.flatten_eq_nil_iff] at e
    exact ih 0 h0 (e _ (List.getElem_mem h0))

/-- A handle of a graph below the 32-bit limit represents these trees, in some order. -/
def Rep (G : List Node) (h : Nat) (ts : List PTree) : Prop :=
  G.length < 2 ^ 32 → ∃ us, Den G h us ∧ us.Perm ts

theorem Rep.mono {G G' : List Node} (hp : G <+: G') {h : Nat} {ts : List PTree} (hd : Rep G h ts) : Rep G' h ts := by
  intro hl
  obtain ⟨us, hd, hp'⟩ := hd (Nat.lt_of_le_of_lt hp.length_le hl)
  exact ⟨us, hd.mono hp, hp'⟩

/-- A pushed summand: rule number, handle and the trees of the handle. -/
abbrev Summand := Nat × Nat × List PTree

def Summand.node (x : Summand) : Node := .product x.1 x.2.1
def Summand.trees (x : Summand) : List PTree := x.2.2.map (.node x.1)

structure Summing (info : ForestInfo) (w : List Node) (k : Nat) (b : Bocage) (t : List PTree) : Prop where
  info : b.info = info
  count : b.summandCount = k
  ex : ∃ xs : List Summand, xs.length = k ∧ b.graph = w ++ xs.map Summand.node ∧
    (∀ x ∈ xs, Rep w x.2.1 x.2.2) ∧ t = xs.flatMap Summand.trees

theorem rep_product {w G : List Node} {x : Summand} {h : Nat} (hr : Rep w x.2.1 x.2.2) (hp : w <+: G)
    (hh : G[h]? = some x.node) (hl : G.length < 2 ^ 32) : ∃ us, Den G h us ∧ us.Perm x.trees := by
  obtain ⟨us, hd, hp'⟩ := hr.mono hp hl
  exact ⟨_, .product hh hd, hp'.map _⟩

/-- The graph after `sum` of two or more summands. -/
theorem sum_graph {w : List Node} {x : Summand} {xs : List Summand} {s : Node} :
    (w ++ (x :: xs).map Summand.node ++ [x.node]).set w.length s = w ++ s :: (xs ++ [x]).map Summand.node := by
  simp

theorem rep_sum {w : List Node} {x : Summand} {xs : List Summand} (h0 : xs ≠ []) {lhs : Nat}
    (hr : ∀ y ∈ x :: xs, Rep w y.2.1 y.2.2)
    (hl : (w ++ Node.sum lhs (xs.length + 1) :: (xs ++ [x]).map Summand.node).length < 2 ^ 32) :
    ∃ us, Den (w ++ Node.sum lhs (xs.length + 1) :: (xs ++ [x]).map Summand.node) w.length us ∧
      us.Perm ((x :: xs).flatMap Summand.trees) := by
  generalize hG : w ++ Node.sum lhs (xs.length + 1) :: (xs ++ [x]).map Summand.node = G at *
  have hp : w <+: G := ⟨_, hG⟩
  have hget : ∀ i (hi : i < (xs ++ [x]).length), G[w.length + 1 + i]? = some (xs ++ [x])[i].node := by
    intro i hi
    rw [← hG, List.getElem?_append_right (by omega), show w.length + 1 + i - w.length = i + 1 by omega,
      List.getElem?_cons_succ, List.getElem?_map, List.getElem?_eq_getElem hi]
    rfl
  have key : ∀ i (hi : i < (xs ++ [x]).length), ∃ us, Den G (w.length + 1 + i) us ∧ us.Perm (xs ++ [x])[i].trees := by
    intro i hi
    refine rep_product (hr _ ?_) hp (hget i hi) hl
    · have := List.getElem_mem hi
      rcases List.mem_append.1 this with h | h
      · exact List.mem_cons_of_mem _ h
      · rw [List.mem_singleton.1 h]; exact List.mem_cons_self
  have key' : ∃ us : List (List PTree), us.length = (xs ++ [x]).length ∧
      ∀ i (hi : i < us.length) (hi' : i < (xs ++ [x]).length), Den G (w.length + 1 + i) us[i] ∧
        us[i].Perm (xs ++ [x])[i].trees := by
    refine ⟨List.ofFn fun i : Fin (xs ++ [x]).length => (key i.1 i.2).choose, by simp, ?_⟩
    intro i hi hi'
    simp only [List.getElem_ofFn]
    exact (key i hi').choose_spec
  obtain ⟨us, hul, hus⟩ := key'
  refine ⟨us.flatten, .sum (k := xs.length + 1) (nt := lhs) ?_ ?_ ?_ ?_ ?_, ?_⟩
  · rw [← hG]; simp
  · have := List.length_pos_iff.2 h0; omega
  · rw [hul]; simp
  · intro i hi; exact ⟨_, _, hget i (by simp; omega)⟩
  · intro i hi; exact (hus i hi (hul ▸ hi)).1
  · have h1 : us.flatten.Perm ((xs ++ [x]).map Summand.trees).flatten := by
      refine List.Perm.flatten_congr ?_
      rw [List.forall₂_iff_get]
      refine ⟨by simp [hul], fun i hi hi' => ?_⟩
      have := (hus i hi (hul ▸ hi)).2
      simp only [List.get_eq_getElem, List.getElem_map]
      exact this
    refine h1.trans ?_
    rw [← List.flatMap_def]
    exact (List.perm_append_comm (l₁ := xs) (l₂ := [x])).flatMap_right _

theorem sum_spec {info : ForestInfo} {w : List Node} {k : Nat} {b : Bocage} {t : List PTree} {lhs : Nat}
    (h : Summing info w k b t) (hk : 0 < k) :
    ∃ b' n, b.sum lhs = pure (b', n) ∧ w <+: b'.graph ∧ b'.info = info ∧ b'.summandCount = 0 ∧ Rep b'.graph n t := by
  obtain ⟨hi, hc, xs, hx, hg, hr, ht⟩ := h
  rcases xs with _ | ⟨x, _ | ⟨y, xs⟩⟩
  · simp at hx; omega
  · have hk1 : k = 1 := by simpa using hx.symm
    subst hk1
    unfold Bocage.sum
    rw [hc]
    refine ⟨_, _, rfl, ⟨_, hg.symm⟩, hi, rfl, ?_⟩
    intro hl
    have hl' : b.graph.length < 2 ^ 32 := hl
    have hlen : b.graph.length = w.length + 1 := by rw [hg]; simp
    rw [u32Pred_eq hl' (by omega), ht]
    simp only [List.flatMap_cons, List.flatMap_nil, List.append_nil]
    refine rep_product (hr x (by simp)) ⟨_, hg.symm⟩ ?_ hl'
    rw [hlen, hg]; simp
  · have hk2 : k = xs.length + 2 := by simpa using hx.symm
    subst hk2
    have hlen : b.graph.length = w.length + (xs.length + 2) := by rw [hg]; simp
    have hidx : b.graph[w.length]? = some x.node := by rw [hg]; simp
    have hsum : b.sum lhs = pure (
        { b with
          graph := w ++ Node.sum lhs (u32 (xs.length + 2)) :: ((y :: xs) ++ [x]).map Summand.node
          summandCount := 0 }, u32 w.length) := by
      unfold Bocage.sum
      rw [hc]
      simp only
      rw [show subM b.graph.length (xs.length + 2) = pure w.length by
        unfold subM; rw [if_pos (by omega)]; congr 1; omega]
      simp only [pure_bind]
      rw [indexM_eq hidx, pure_bind]
      unfold setM
      rw [if_pos (by simp; omega), pure_bind, hg, sum_graph]
    refine ⟨_, _, hsum, ⟨_, rfl⟩, hi, rfl, ?_⟩
    intro hl
    simp only at hl
    have hxl : xs.length + 2 < 2 ^ 32 := by simp at hl; omega
    have hwl : w.length < 2 ^ 32 := by simp at hl; omega
    rw [u32_of_lt' hxl] at hl
    simp only
    rw [u32_of_lt' hwl, u32_of_lt' hxl, ht]
    exact rep_sum (x := x) (xs := y :: xs) (by simp) (lhs := lhs) hr hl

/-- The simple bocage behaves like the specification forest. -/
def sim (info : ForestInfo) : FSim False forest treeForest (fun _ => True) (fun _ _ => True) where
  γ := List Node
  le := (· <+: ·)
  refl _ := List.prefix_rfl
  trans := List.IsPrefix.trans
  N := Rep
  mono h := Rep.mono h
  Idle w b _ := b.graph = w ∧ b.info = info ∧ b.summandCount = 0
  Summing := Summing info
  beginSum := by
    rintro w s t ⟨rfl, hi, hc⟩
    exact relM_pure ⟨_, List.prefix_rfl, hi, hc, [], rfl, by simp, by simp, rfl⟩
  pushSummand := by
    rintro w k s t d o a b ⟨hi, hc, xs, hx, hg, hr, ht⟩ - hn
    refine relM_pure ⟨w, List.prefix_rfl, hi, by simp [Bocage.pushSummand, hc], xs ++ [(d, a, b)], by simp [hx], ?_, ?_, ?_⟩
    · simp [Bocage.pushSummand, hg, Summand.node]
    · intro x hx'
      rcases List.mem_append.1 hx' with hx' | hx'
      · exact hr x hx'
      · rw [List.mem_singleton.1 hx']; exact hn
    · simp [ht, Summand.trees]
  sum := by
    intro w k s t lhs o h hk
    obtain ⟨b', n, e, hp, hi, hc, hr⟩ := sum_spec (lhs := lhs) h hk
    show RelM False (s.sum lhs) _ _
    rw [e]
    exact relM_pure ⟨b'.graph, hp, ⟨rfl, hi, hc⟩, hr⟩
  product := by
    rintro w s t a b c d ⟨rfl, hi, hc⟩ ha hb
    refine relM_pure ⟨_, ⟨_, rfl⟩, ⟨rfl, hi, hc⟩, ?_⟩
    intro hl
    have hp : s.graph <+: s.graph ++ [Node.rule a c] := ⟨_, rfl⟩
    obtain ⟨us, hu, hup⟩ := ha.mono hp hl
    obtain ⟨vs, hv, hvp⟩ := hb.mono hp hl
    refine ⟨pairs us vs, .rule ?_ hu hv, pairs_perm hup hvp⟩
    simp only [Bocage.product]
    rw [u32Pred_eq hl (by simp)]
    simp
  leaf := by
    rintro w s t sym pos val ⟨rfl, hi, hc⟩ -
    refine relM_pure ⟨_, ⟨_, rfl⟩, ⟨rfl, hi, hc⟩, ?_⟩
    intro hl
    refine ⟨_, .leaf ?_, .refl _⟩
    simp only [Bocage.leaf] at hl ⊢
    rw [u32_of_lt' (by simp at hl; omega)]
    simp

end Simple
end Gearley
