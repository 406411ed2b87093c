import Verif.Proofs.CompactBocage

/-!
# The nulling nodes of a fresh bocage
-/

namespace Gearley
open Gearley.Spec

theorem le_max?_getD {l : List Nat} {a : Nat} (h : a ∈ l) : a ≤ l.max?.getD 0 := by
  cases hm : l.max? with
  | none => rw [List.max?_eq_none_iff] at hm; subst hm; simp at h
  | some m => exact (List.max?_eq_some_iff.1 hm).2 a h

theorem ForestInfo.rule_le (info : ForestInfo) : ∀ r ∈ info.nullingIntermediate,
    r.1 ≤ info.maxNullingSymbol.getD 0 ∧ r.2.1 ≤ info.maxNullingSymbol.getD 0 ∧ r.2.2 ≤ info.maxNullingSymbol.getD 0 := by
  intro r hr
  have : ∀ x ∈ [r.1, r.2.1, r.2.2], x ≤ info.maxNullingSymbol.getD 0 := by
    intro x hx
    refine le_max?_getD ?_
    refine List.mem_append.2 (.inr ?_)
    exact List.mem_flatMap.2 ⟨r, hr, hx⟩
  exact ⟨this _ (by simp), this _ (by simp), this _ (by simp)⟩

theorem ForestInfo.elim_le (info : ForestInfo) {s : Nat} {dir : Bool} (h : some (s, dir) ∈ info.nullingEliminated) :
    s ≤ info.maxNullingSymbol.getD 0 := by
  refine le_max?_getD (List.mem_append.2 (.inl (List.mem_map.2 ⟨(s, dir), ?_, rfl⟩)))
  exact List.mem_filterMap.2 ⟨_, h, rfl⟩

namespace Simple

/-- The graph after the intermediate rules `rs`. -/
structure NullingOK (count : Nat) (rs : List (Nat × Nat × Nat)) (G : List Node) : Prop where
  len : G.length = count + 1 + rs.length
  rule : ∀ i a, rs[i]? = some a → G[count + 1 + i]? = some (.rule a.2.1 a.2.2)
  leaf : ∀ s : Nat, s ≤ count → rs.reverse.find? (fun r => r.1 = s) = none → G[s]? = some (.nullingLeaf s)
  product : ∀ (s : Nat) r, s ≤ count → rs.reverse.find? (fun r => r.1 = s) = some r →
    ∃ i, rs[i]? = some r ∧ G[s]? = some (.product nullAction (count + 1 + i))
  kinds : ∀ (i : Nat) x, G[i]? = some x → (∃ s, x = .nullingLeaf s ∧ s ≤ count) ∨ (∃ f, x = .product nullAction f ∧ f < G.length) ∨
    ∃ l r, x = .rule l r ∧ l ≤ count ∧ r ≤ count

theorem nullingRule_ok {count : Nat} {rs : List (Nat × Nat × Nat)} {G : List Node} {r : Nat × Nat × Nat}
    (h : NullingOK count rs G) (hr : r.1 ≤ count ∧ r.2.1 ≤ count ∧ r.2.2 ≤ count) (hc : count < 2 ^ 20)
    (hl : count + 1 + rs.length + 1 < 2 ^ 32) :
    ∃ G', Simple.nullingRule G r = pure G' ∧ NullingOK count (rs ++ [r]) G' := by
  obtain ⟨s0, a, b⟩ := r
  simp only at hr
  obtain ⟨hr0, hr1, hr2⟩ := hr
  unfold Simple.nullingRule
  simp only
  rw [u32_of_lt' (by omega), u32_of_lt' (by omega), u32_of_lt' (by omega),
    u32Pred_eq (by simp [h.len]; omega) (by simp)]
  unfold setM
  have hlen := h.len
  rw [if_pos (by simp [hlen]; omega)]
  refine ⟨_, rfl, ?_⟩
  have hs : (G ++ [Node.rule a b]).set s0 (.product nullAction ((G ++ [Node.rule a b]).length - 1)) =
      G.set s0 (.product nullAction (count + 1 + rs.length)) ++ [Node.rule a b] := by
    rw [List.set_append_left _ _ (by omega)]
    simp [hlen]
  rw [hs]
  have hset : ∀ i : Nat, i ≠ s0 → i < G.length →
      (G.set s0 (.product nullAction (count + 1 + rs.length)) ++ [Node.rule a b])[i]? = G[i]? := by
    intro i hi hi'
    rw [List.getElem?_append_left (by simpa using hi'), List.getElem?_set, if_neg (Ne.symm hi)]
  have hat : (G.set s0 (.product nullAction (count + 1 + rs.length)) ++ [Node.rule a b])[s0]? =
      some (.product nullAction (count + 1 + rs.length)) := by
    rw [List.getElem?_append_left (by simp; omega), List.getElem?_set_self (by omega)]
  refine ⟨by simp [hlen]; omega, ?_, ?_, ?_, ?_⟩
  · intro i x hx
    by_cases hi : i < rs.length
    · rw [List.getElem?_append_left hi] at hx
      rw [hset _ (by omega) (by omega)]
      exact h.rule i x hx
    · have hi' := (List.getElem?_eq_some_iff.1 hx).1
      simp at hi'
      have : i = rs.length := by omega
      subst this
      simp at hx
      subst hx
      rw [List.getElem?_append_right (by simp [hlen])]
      simp [hlen]
  · intro s hs hf
    simp only [List.reverse_append, List.reverse_cons, List.reverse_nil, List.nil_append, List.cons_append,
      List.find?_cons] at hf
    by_cases he : s0 = s
    · simp [he] at hf
    · simp only [he, decide_false] at hf
      rw [hset _ (Ne.symm he) (by omega)]
      exact h.leaf s hs hf
  · intro s r hs hf
    simp only [List.reverse_append, List.reverse_cons, List.reverse_nil, List.nil_append, List.cons_append,
      List.find?_cons] at hf
    by_cases he : s0 = s
    · subst he
      simp only [decide_true, Option.some.injEq] at hf
      subst hf
      exact ⟨rs.length, by simp, hat⟩
    · simp only [he, decide_false] at hf
      obtain ⟨i, h1, h2⟩ := h.product s r hs hf
      refine ⟨i, ?_, ?_⟩
      · rw [List.getElem?_append_left (List.getElem?_eq_some_iff.1 h1).1]; exact h1
      · rw [hset _ (Ne.symm he) (by omega)]; exact h2
  · intro i x hx
    by_cases hi : i = s0
    · subst hi
      rw [hat] at hx
      cases hx
      exact .inr (.inl ⟨_, rfl, by simp [hlen]⟩)
    · by_cases hi' : i < G.length
      · rw [hset _ hi hi'] at hx
        rcases h.kinds i x hx with h | ⟨f, h, hf⟩ | h
        · exact .inl h
        · exact .inr (.inl ⟨f, h, by simp; omega⟩)
        · exact .inr (.inr h)
      · have := (List.getElem?_eq_some_iff.1 hx).1
        simp at this
        have : i = (G.set s0 (.product nullAction (count + 1 + rs.length))).length := by simp; omega
        subst this
        rw [List.getElem?_append_right (Nat.le_refl _)] at hx
        simp at hx
        subst hx
        exact .inr (.inr ⟨a, b, rfl, hr1, hr2⟩)

theorem nullingGraph_ok (info : ForestInfo) (hc : info.maxNullingSymbol.getD 0 < 2 ^ 20)
    (hl : info.maxNullingSymbol.getD 0 + 1 + info.nullingIntermediate.length < 2 ^ 32) :
    ∃ G, nullingGraph info = pure G ∧ NullingOK (info.maxNullingSymbol.getD 0) info.nullingIntermediate G := by
  unfold nullingGraph
  generalize hcount : info.maxNullingSymbol.getD 0 = count at *
  simp only [assertM, hc, decide_true, if_true, pure_bind]
  have hle := info.rule_le
  rw [hcount] at hle
  have key : ∀ (rest done : List (Nat × Nat × Nat)) (G : List Node), NullingOK count done G →
      (∀ r ∈ rest, r.1 ≤ count ∧ r.2.1 ≤ count ∧ r.2.2 ≤ count) → count + 1 + (done ++ rest).length < 2 ^ 32 →
      ∃ G', rest.foldlM Simple.nullingRule G = pure G' ∧ NullingOK count (done ++ rest) G' := by
    intro rest
    induction rest with
    | nil => intro done G h _ _; exact ⟨G, rfl, by simpa using h⟩
    | cons r rest ih =>
      intro done G h hr hl
      obtain ⟨G1, h1, h2⟩ := nullingRule_ok h (hr r (by simp)) hc (by simp at hl; omega)
      obtain ⟨G2, h3, h4⟩ := ih (done ++ [r]) G1 h2 (fun x hx => hr x (by simp [hx])) (by simpa using hl)
      refine ⟨G2, ?_, by simpa using h4⟩
      rw [List.foldlM_cons, h1, pure_bind, h3]
  obtain ⟨G, h1, h2⟩ := key info.nullingIntermediate [] ((List.range (count + 1)).map .nullingLeaf)
    ⟨by simp, by simp, by
      intro s hs _
      simp [List.getElem?_range (show s < count + 1 by omega)], by simp, by
      intro i x hx
      simp only [List.getElem?_map, Option.map_eq_some_iff] at hx
      obtain ⟨s, hs, rfl⟩ := hx
      have := List.mem_range.1 (List.mem_of_getElem? hs)
      exact .inl ⟨s, rfl, by omega⟩⟩ hle (by simpa using hl)
  exact ⟨G, h1, by simpa using h2⟩

theorem nullingGraph_panic (info : ForestInfo) (hc : ¬ info.maxNullingSymbol.getD 0 < 2 ^ 20) :
    nullingGraph info = panicM .assert := by
  unfold nullingGraph
  simp only [assertM, hc, decide_false]
  rfl

end Simple

namespace Compact

/-- A nulling node in the compact graph. -/
def convert : Simple.Node → Node
  | .product action factors => .product action (mul9 factors)
  | .rule left right => .rule (mul9 left) (mul9 right)
  | .nullingLeaf s => .nullingLeaf s
  | _ => .endSum

theorem length_expanded {n : Node} (h : n.words ≠ none) : (encodeExpanded n).length = 9 := by
  cases n <;> simp_all [Node.words, encodeExpanded, leBytes_length]

theorem expand_fold {count : Nat} (hc : count < 2 ^ 20) : ∀ (G : List Simple.Node) (a : List Nat),
    (∀ x ∈ G, (∃ s, x = .nullingLeaf s ∧ s ≤ count) ∨ (∃ f, x = .product nullAction f) ∨ ∃ l r, x = .rule l r) →
    ∃ g, G.foldlM expandNulling a = pure g ∧ a <+: g ∧ g.length = a.length + 9 * G.length ∧
      ∀ i x, G[i]? = some x → get g (a.length + 9 * i) = pure (convert x)
  | [], a, _ => ⟨a, rfl, List.prefix_rfl, by simp, by simp⟩
  | x :: G, a, h => by
    have hx : expandNulling a x = pure (a ++ encodeExpanded (convert x)) ∧ (convert x).Fits ∧ (convert x).words ≠ none := by
      rcases h x (by simp) with ⟨s, rfl, hs⟩ | ⟨f, rfl⟩ | ⟨l, r, rfl⟩
      · exact ⟨rfl, by simp only [convert, Node.Fits]; omega, by simp [convert, Node.words]⟩
      · exact ⟨rfl, ⟨by decide, u32_lt _⟩, by simp [convert, Node.words]⟩
      · exact ⟨rfl, ⟨u32_lt _, u32_lt _⟩, by simp [convert, Node.words]⟩
    obtain ⟨h1, h2, h3⟩ := hx
    have h4 := length_expanded h3
    obtain ⟨g, e1, e2, e3, e4⟩ := expand_fold hc G (a ++ encodeExpanded (convert x)) fun y hy => h y (by simp [hy])
    refine ⟨g, ?_, ?_, ?_, ?_⟩
    · rw [List.foldlM_cons, h1, pure_bind, e1]
    · exact List.IsPrefix.trans ⟨_, rfl⟩ e2
    · rw [e3]; simp [h4]; omega
    · intro i y hy
      cases i with
      | zero =>
        simp only [List.getElem?_cons_zero, Option.some.injEq] at hy
        subst hy
        refine get_prefix e2 ?_
        have := get_encodeExpanded a h2 []
        rw [List.append_nil] at this
        exact this
      | succ i =>
        rw [List.getElem?_cons_succ] at hy
        have := e4 i y hy
        rw [List.length_append, h4] at this
        rw [show a.length + 9 * (i + 1) = a.length + 9 + 9 * i by omega]
        exact this

end Compact
end Gearley
