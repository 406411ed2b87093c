import Verif.Proofs.CompactGraph
import Verif.Proofs.SimpleBocage

/-!
# The compact bocage represents the trees of the specification forest
-/

namespace Gearley.Compact
open Gearley.Spec

theorem get_prefix {G G' : List Nat} (hp : G <+: G') {i : Nat} {n : Node} (h : get G i = pure n) : get G' i = pure n := by
  obtain ⟨c, rfl⟩ := hp; exact get_append h c

theorem size_prefix {G G' : List Nat} (hp : G <+: G') {i s : Nat} (h : getNodeSize G i = pure s) :
    getNodeSize G' i = pure s := by
  obtain ⟨c, rfl⟩ := hp; exact size_append h c

theorem DenAt.mono {G G' : List Nat} (hp : G <+: G') {c : Bool} {h : Nat} {ts : List PTree} (hd : DenAt G c h ts) :
    DenAt G' c h ts := by
  induction hd with
  | leaf h => exact .leaf (get_prefix hp h)
  | nulling h => exact .nulling (get_prefix hp h)
  | product h _ ih => exact .product (get_prefix hp h) ih
  | rule h _ _ ih1 ih2 => exact .rule (get_prefix hp h) ih1 ih2
  | single h _ ih => exact .single (get_prefix hp h) ih
  | beginSum h h1 _ h2 ih => exact .beginSum (get_prefix hp h) (get_prefix hp h1) ih h2
  | endSum h => exact .endSum (get_prefix hp h)
  | summand h hs _ _ ih1 ih2 => exact .summand (get_prefix hp h) (size_prefix hp hs) ih1 ih2

theorem get_inj {G : List Nat} {h : Nat} {n m : Node} (h1 : get G h = pure n) (h2 : get G h = pure m) : n = m :=
  pure_inj_M (h1.symm.trans h2)

theorem DenAt.det {G : List Nat} {c : Bool} {h : Nat} {ts us : List PTree} (h1 : DenAt G c h ts) (h2 : DenAt G c h us) :
    ts = us := by
  induction h1 generalizing us with
  | leaf h =>
    cases h2 with
    | leaf h' => cases get_inj h h'; rfl
    | nulling h' | product h' _ | rule h' _ _ | beginSum h' _ _ _ | single h' _ => cases get_inj h h'
  | nulling h =>
    cases h2 with
    | nulling h' => cases get_inj h h'; rfl
    | leaf h' | product h' _ | rule h' _ _ | beginSum h' _ _ _ | single h' _ => cases get_inj h h'
  | product h _ ih =>
    cases h2 with
    | product h' h2 => cases get_inj h h'; rw [ih h2]
    | leaf h' | nulling h' | rule h' _ _ | beginSum h' _ _ _ | single h' _ => cases get_inj h h'
  | rule h _ _ ih1 ih2 =>
    cases h2 with
    | rule h' h2 h3 => cases get_inj h h'; rw [ih1 h2, ih2 h3]
    | leaf h' | nulling h' | product h' _ | beginSum h' _ _ _ | single h' _ => cases get_inj h h'
  | beginSum h _ _ _ ih =>
    cases h2 with
    | beginSum h' _ h2 _ => exact ih h2
    | leaf h' | nulling h' | product h' _ | rule h' _ _ | single h' _ => cases get_inj h h'
  | single h _ ih =>
    cases h2 with
    | single h' h2 => exact ih h2
    | leaf h' | nulling h' | product h' _ | rule h' _ _ | beginSum h' _ _ _ => cases get_inj h h'
  | endSum h =>
    cases h2 with
    | endSum h' => rfl
    | summand h' _ _ _ => cases get_inj h h'
  | summand h hs _ _ ih1 ih2 =>
    cases h2 with
    | summand h' hs' h2 h3 =>
      cases get_inj h h'
      have := pure_inj_M (hs.symm.trans hs')
      subst this
      rw [ih1 h2, ih2 h3]
    | endSum h' => cases get_inj h h'

theorem DenAt.ne_nil {G : List Nat} {c : Bool} {h : Nat} {ts : List PTree} (hd : DenAt G c h ts) :
    ts ≠ [] ∨ c = true ∧ get G h = pure .endSum := by
  induction hd with
  | leaf => simp
  | nulling => simp
  | product _ _ ih => simpa using ih
  | rule _ _ _ ih1 ih2 => exact .inl (Simple.pairs_ne_nil (ih1.resolve_right (by simp)) (ih2.resolve_right (by simp)))
  | single h _ ih =>
    rcases ih with ih | ⟨_, ih⟩
    · exact .inl ih
    · cases get_inj h ih
  | beginSum _ h _ _ ih =>
    rcases ih with ih | ⟨_, ih⟩
    · exact .inl ih
    · cases get_inj h ih
  | endSum h => exact .inr ⟨rfl, h⟩
  | summand _ _ _ _ ih1 _ =>
    have := ih1.resolve_right (by simp)
    exact .inl (by simp [this])

/-- A handle of a graph below the 32-bit limit represents these trees. -/
def Rep (G : List Nat) (h : Nat) (ts : List PTree) : Prop :=
  h < 2 ^ 32 ∧ (G.length < 2 ^ 32 → Den G h ts)

theorem Rep.mono {G G' : List Nat} (hp : G <+: G') {h : Nat} {ts : List PTree} (hd : Rep G h ts) : Rep G' h ts :=
  ⟨hd.1, fun hl => (hd.2 (Nat.lt_of_le_of_lt hp.length_le hl)).mono hp⟩

/-- A pushed summand: rule number, handle and the trees of the handle. -/
abbrev Summand := Nat × Nat × List PTree

def Summand.bytes (x : Summand) : List Nat := encode (.summand x.1 x.2.1)
def Summand.trees (x : Summand) : List PTree := x.2.2.map (.node x.1)

structure Summing (info : ForestInfo) (w : List Nat) (k : Nat) (b : Bocage) (t : List PTree) : Prop where
  info : b.info = info
  count : b.numSummands = k
  start : b.sumStart = some (len w)
  ex : ∃ xs : List Summand, xs.length = k ∧ b.graph = w ++ encode .beginSum ++ xs.flatMap Summand.bytes ∧
    (∀ x ∈ xs, x.1 < 2 ^ 32 ∧ Rep w x.2.1 x.2.2) ∧ t = xs.flatMap Summand.trees

/-- A sequence of summands followed by an end mark. -/
theorem den_chain {w : List Nat} (hw : w.length < 2 ^ 32) : ∀ (xs : List Summand) (a : List Nat), w <+: a →
    (∀ x ∈ xs, x.1 < 2 ^ 32 ∧ Rep w x.2.1 x.2.2) →
    DenAt (a ++ xs.flatMap Summand.bytes ++ encode .endSum) true a.length (xs.flatMap Summand.trees)
  | [], a, _, _ => by
    refine .endSum ?_
    have := get_encode a (n := .endSum) trivial []
    simpa using this
  | x :: xs, a, ha, h => by
    have hx := h x (by simp)
    have ih := den_chain hw xs (a ++ x.bytes) (ha.trans ⟨_, rfl⟩) fun y hy => h y (by simp [hy])
    have e : a ++ (x :: xs).flatMap Summand.bytes ++ encode .endSum =
      a ++ x.bytes ++ (xs.flatMap Summand.bytes ++ encode .endSum) := by simp
    rw [e, List.flatMap_cons]
    refine .summand (s := x.bytes.length) (get_encode a (n := .summand x.1 x.2.1) ⟨hx.1, hx.2.1⟩ _) (size_encode a _ _)
      ((hx.2.2 hw).mono ?_) ?_
    · exact ha.trans ⟨_, by rw [List.append_assoc]⟩
    · rw [← List.append_assoc, ← List.length_append]; exact ih

theorem trees_length {w : List Nat} (hw : w.length < 2 ^ 32) (xs : List Summand) (h : ∀ x ∈ xs, Rep w x.2.1 x.2.2) :
    xs.length ≤ (xs.flatMap Summand.trees).length := by
  induction xs with
  | nil => simp
  | cons x xs ih =>
    have := ih fun y hy => h y (by simp [hy])
    have hx := ((h x (by simp)).2 hw).ne_nil.resolve_right (by simp)
    have : 0 < x.trees.length := by
      rw [Summand.trees, List.length_map]
      exact List.length_pos_of_ne_nil hx
    rw [List.flatMap_cons, List.length_append, List.length_cons]
    omega

theorem sum_spec {info : ForestInfo} {w : List Nat} {k : Nat} {b : Bocage} {t : List PTree}
    (h : Summing info w k b t) (hk0 : 0 < k) :
    ∃ b' n, b.sum = pure (b', n) ∧ w <+: b'.graph ∧ b'.info = info ∧ b'.sumStart = none ∧ Rep b'.graph n t := by
  obtain ⟨hi, hc, hs, xs, hx, hg, hr, ht⟩ := h
  have hp : w <+: push b.graph .endSum := by
    rw [push, hg]; exact ⟨_, by rw [List.append_assoc, List.append_assoc]⟩
  have hd : (push b.graph .endSum).length < 2 ^ 32 → w.length < 2 ^ 32 ∧ w.length + 1 < 2 ^ 32 ∧
      DenAt (push b.graph .endSum) true (w.length + 1) t ∧
      ∃ d f, get (push b.graph .endSum) (w.length + 1) = pure (.summand d f) := by
    intro hl
    have hw : w.length < 2 ^ 32 := Nat.lt_of_le_of_lt hp.length_le hl
    have h1 : (w ++ encode .beginSum).length = w.length + 1 := by simp [encode]
    refine ⟨hw, ?_, ?_, ?_⟩
    · rw [push, hg] at hl; simp [encode] at hl; omega
    · rw [push, hg, ht, ← h1]
      exact den_chain hw xs (w ++ encode .beginSum) ⟨_, rfl⟩ hr
    · rcases xs with _ | ⟨x, xs⟩
      · simp at hx; omega
      · refine ⟨x.1, x.2.1, ?_⟩
        have e : w ++ encode .beginSum ++ (x :: xs).flatMap Summand.bytes ++ encode .endSum =
          w ++ encode .beginSum ++ encode (.summand x.1 x.2.1) ++ (xs.flatMap Summand.bytes ++ encode .endSum) := by
          simp [Summand.bytes]
        rw [push, hg, ← h1, e]
        exact get_encode _ (n := .summand x.1 x.2.1) ⟨(hr x (by simp)).1, (hr x (by simp)).2.1⟩ _
  unfold Bocage.sum
  rw [hs, hc]
  simp only [unwrapM, pure_bind]
  by_cases hk : k = 1
  · rw [if_pos hk]
    refine ⟨_, _, rfl, hp, hi, rfl, u32_lt _, fun hl => ?_⟩
    obtain ⟨h1, h2, h3, d, f, h4⟩ := hd hl
    rw [len, u32_of_lt h1, u32_of_lt h2]
    exact .single h4 h3
  · rw [if_neg hk]
    refine ⟨_, _, rfl, hp, hi, rfl, u32_lt _, fun hl => ?_⟩
    obtain ⟨h1, h2, h3, d, f, h4⟩ := hd hl
    rw [len, u32_of_lt h1]
    refine .beginSum ?_ h4 h3 ?_
    swap
    · have := trees_length h1 xs fun x hx => (hr x hx).2
      rw [ht]; omega
    simp only [push, hg]
    rw [List.append_assoc, List.append_assoc, ← List.append_assoc w]
    exact get_encode w (n := .beginSum) trivial _

/-- Every number that the compact bocage stores fits in 32 bits. -/
abbrev Dot32 (d : Nat) : Prop := d < 2 ^ 32
abbrev Leaf32 (s v : Nat) : Prop := s < 2 ^ 32 ∧ v < 2 ^ 32

/-- The compact bocage behaves like the specification forest. -/
def sim (info : ForestInfo) : FSim False forest treeForest Dot32 Leaf32 where
  γ := List Nat
  le := (· <+: ·)
  refl _ := List.prefix_rfl
  trans := List.IsPrefix.trans
  N := Rep
  mono h := Rep.mono h
  Idle w b _ := b.graph = w ∧ b.info = info ∧ b.sumStart = none
  Summing := Summing info
  beginSum := by
    rintro w s t ⟨rfl, hi, hc⟩
    exact relM_pure ⟨s.graph, List.prefix_rfl, hi, rfl, rfl, [], rfl, by simp [Bocage.beginSum, push], by simp, rfl⟩
  pushSummand := by
    rintro w k s t d o a b ⟨hi, hc, hs, xs, hx, hg, hr, ht⟩ hd hn
    refine relM_pure ⟨w, List.prefix_rfl, hi, by simp [Bocage.pushSummand, hc], hs, xs ++ [(d, a, b)], by simp [hx], ?_, ?_, ?_⟩
    · simp [Bocage.pushSummand, push, hg, Summand.bytes]
    · intro x hx'
      rcases List.mem_append.1 hx' with hx' | hx'
      · exact hr x hx'
      · rw [List.mem_singleton.1 hx']; exact ⟨hd, hn⟩
    · simp [ht, Summand.trees]
  sum := by
    intro w k s t lhs o h hk
    obtain ⟨b', n, e, hp, hi, hc, hr⟩ := sum_spec h hk
    show RelM False s.sum _ _
    rw [e]
    exact relM_pure ⟨b'.graph, hp, ⟨rfl, hi, hc⟩, hr⟩
  product := by
    rintro w s t a b c d ⟨rfl, hi, hc⟩ ha hb
    have hp : s.graph <+: push s.graph (.rule a c) := ⟨_, rfl⟩
    refine relM_pure ⟨_, hp, ⟨rfl, hi, hc⟩, u32_lt _, fun hl => ?_⟩
    have hl' := Nat.lt_of_le_of_lt hp.length_le hl
    refine .rule (l := a) (r := c) ?_ ((ha.2 hl').mono hp) ((hb.2 hl').mono hp)
    simp only [Bocage.product, push, len]
    rw [u32_of_lt hl']
    have := get_encode s.graph (n := .rule a c) ⟨ha.1, hb.1⟩ []
    rwa [List.append_nil] at this
  leaf := by
    rintro w s t sym pos val ⟨rfl, hi, hc⟩ ho
    have hp : s.graph <+: push s.graph (.leaf sym val) := ⟨_, rfl⟩
    refine relM_pure ⟨_, hp, ⟨rfl, hi, hc⟩, u32_lt _, fun hl => ?_⟩
    have hl' := Nat.lt_of_le_of_lt hp.length_le hl
    refine .leaf ?_
    simp only [Bocage.leaf, push, len]
    rw [u32_of_lt hl']
    have := get_encode s.graph (n := .leaf sym val) ho []
    rwa [List.append_nil] at this

end Gearley.Compact
