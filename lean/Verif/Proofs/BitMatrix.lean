import Verif.Model.BitMatrix
import Verif.Proofs.Effects
import Mathlib.Logic.Relation

/-! # Bit matrices: bits of the results, Warshall's algorithm -/

namespace Gearley

/-- Fold with an invariant about the processed prefix. -/
theorem foldlM_returns {α β} {f : β → α → M β} {l : List α} {b : β} (I : List α → β → Prop) (h0 : I [] b)
    (hs : ∀ p a s b, l = p ++ a :: s → I p b → Returns (f b a) (I (p ++ [a]))) : Returns (l.foldlM f b) (I l) := by
  suffices H : ∀ (s p : List α) (b : β), l = p ++ s → I p b → Returns (s.foldlM f b) (I l) from H l [] b rfl h0
  intro s
  induction s with
  | nil => intro p b hl hI; rw [List.foldlM_nil]; exact returns_pure (by rw [hl, List.append_nil]; exact hI)
  | cons a s ih =>
    intro p b hl hI
    rw [List.foldlM_cons]
    refine returns_bind ((hs p a s b hl hI).mono fun b' hb' => ih (p ++ [a]) b' (by simp [hl]) hb')

theorem mapM_returns {α β} {f : α → M β} {l : List α} (g : α → β) (h : ∀ a ∈ l, f a = pure (g a)) :
    l.mapM f = pure (l.map g) := by
  induction l with
  | nil => rfl
  | cons a l ih =>
    rw [List.mapM_cons, h a (by simp), pure_bind, ih fun b hb => h b (by simp [hb])]
    rfl

namespace BitMatrix

/-- Bit `x` of row `o` is set. -/
def has (m : BitMatrix) (o x : Nat) : Prop := m.rows[o]?.bind (·[x]?) = some true

/-- All rows have the width of the matrix. -/
def Dim (m : BitMatrix) (n : Nat) : Prop := m.rows.length = n ∧ ∀ r ∈ m.rows, r.length = m.width

theorem new_dim (n w : Nat) : (new n w).Dim n := by
  refine ⟨by simp [new], ?_⟩
  intro r hr
  simp only [new, List.mem_replicate] at hr
  rw [hr.2]; simp [new]

theorem new_has (n w o x : Nat) : ¬ (new n w).has o x := by
  simp only [has, new]
  intro h
  rw [Option.bind_eq_some_iff] at h
  obtain ⟨r, hr, hx⟩ := h
  have := List.mem_of_getElem? hr
  rw [List.mem_replicate] at this
  rw [this.2] at hx
  have := List.mem_of_getElem? hx
  rw [List.mem_replicate] at this
  simp at this

theorem has_iff {m : BitMatrix} {o x : Nat} : m.has o x ↔ ∃ r, m.rows[o]? = some r ∧ r[x]? = some true := by
  simp [has, Option.bind_eq_some_iff]

theorem set_returns {m : BitMatrix} {n i j : Nat} (hm : m.Dim n) (hi : i < n) (hj : j < m.width) :
    Returns (m.set i j true) fun m' => m'.Dim n ∧ m'.width = m.width ∧
      ∀ o x, m'.has o x ↔ (o = i ∧ x = j) ∨ m.has o x := by
  have hi' : i < m.rows.length := by rw [hm.1]; exact hi
  have hr : m.rows[i].length = m.width := hm.2 _ (List.getElem_mem hi')
  simp only [set, indexM_lt hi', pure_bind, setM_eq (show j < m.rows[i].length by omega)]
  refine returns_pure ⟨⟨by simp [hm.1], ?_⟩, rfl, ?_⟩
  · intro r hr'
    rcases List.mem_or_eq_of_mem_set hr' with h | h
    · exact hm.2 r h
    · rw [h]; simp [hr]
  · intro o x
    simp only [has_iff]
    by_cases ho : o = i
    · subst ho
      simp only [List.getElem?_set_self hi', Option.some.injEq, exists_eq_left', List.getElem?_eq_getElem hi']
      by_cases hx : x = j
      · subst hx; simp [hr, hj]
      · rw [List.getElem?_set_ne (Ne.symm hx)]; simp [hx]
    · rw [List.getElem?_set_ne (Ne.symm ho)]; simp [ho]

theorem tcStep_length (rows : List (List Bool)) (k : Nat) : (tcStep rows k).length = rows.length := by
  unfold tcStep; split <;> simp

theorem tcStep_width {rows : List (List Bool)} {w k : Nat} (h : ∀ r ∈ rows, r.length = w) :
    ∀ r ∈ tcStep rows k, r.length = w := by
  unfold tcStep
  split
  · exact h
  · next rk hk =>
    intro r hr
    rw [List.mem_map] at hr
    obtain ⟨r0, h0, rfl⟩ := hr
    split
    · simp [orRow, h r0 h0, h rk (List.mem_of_getElem? hk)]
    · exact h r0 h0

theorem tcStep_has {rows : List (List Bool)} {w k : Nat} (h : ∀ r ∈ rows, r.length = w) (i j : Nat) :
    has ⟨w, tcStep rows k⟩ i j ↔ has ⟨w, rows⟩ i j ∨ (has ⟨w, rows⟩ i k ∧ has ⟨w, rows⟩ k j) := by
  simp only [has_iff]
  unfold tcStep
  split
  · next hk => simp [hk]
  · next rk hk =>
    rw [List.getElem?_map]
    have hl := h rk (List.mem_of_getElem? hk)
    cases hi : rows[i]? with
    | none => simp
    | some r =>
      have hr := h r (List.mem_of_getElem? hi)
      simp only [Option.map_some, Option.some.injEq, exists_eq_left', hk]
      split
      · next hb =>
        simp only [hb, true_and, orRow, List.getElem?_zipWith]
        by_cases hj : j < w
        · rw [List.getElem?_eq_getElem (by omega), List.getElem?_eq_getElem (by omega)]
          simp
        · rw [List.getElem?_eq_none (by omega), List.getElem?_eq_none (by omega)]
          simp
      · next hb => simp [hb]

/-- Warshall: after all rounds the bits are the transitive closure. -/
theorem tc_rounds {rows : List (List Bool)} {w : Nat} (h : ∀ r ∈ rows, r.length = w) (m : Nat) :
    (((List.range m).foldl tcStep rows).length = rows.length ∧
      ∀ r ∈ (List.range m).foldl tcStep rows, r.length = w) ∧
    (∀ i j, has ⟨w, rows⟩ i j → has ⟨w, (List.range m).foldl tcStep rows⟩ i j) ∧
    (∀ i j, has ⟨w, (List.range m).foldl tcStep rows⟩ i j → Relation.TransGen (has ⟨w, rows⟩) i j) ∧
    (∀ i k j, k < m → has ⟨w, (List.range m).foldl tcStep rows⟩ i k → has ⟨w, (List.range m).foldl tcStep rows⟩ k j →
      has ⟨w, (List.range m).foldl tcStep rows⟩ i j) := by
  induction m with
  | zero => exact ⟨⟨rfl, h⟩, fun i j h => h, fun i j h => .single h, fun i k j hk => by omega⟩
  | succ m ih =>
    obtain ⟨⟨hl, hw⟩, h1, h2, h3⟩ := ih
    rw [List.range_succ, List.foldl_append]
    simp only [List.foldl_cons, List.foldl_nil]
    generalize (List.range m).foldl tcStep rows = rows' at *
    refine ⟨⟨by rw [tcStep_length, hl], tcStep_width hw⟩, ?_, ?_, ?_⟩
    · intro i j hb; exact (tcStep_has hw i j).2 (.inl (h1 i j hb))
    · intro i j hb
      rcases (tcStep_has hw i j).1 hb with hb | ⟨ha, hb⟩
      · exact h2 i j hb
      · exact (h2 _ _ ha).trans (h2 _ _ hb)
    · intro i k j hk ha hb
      rw [tcStep_has hw] at ha hb ⊢
      by_cases hkm : k = m
      · subst hkm
        have ha' : has ⟨w, rows'⟩ i k := ha.elim id And.left
        have hb' : has ⟨w, rows'⟩ k j := hb.elim id And.right
        exact .inr ⟨ha', hb'⟩
      · have hk' : k < m := by omega
        rcases ha with ha | ⟨ha, ha'⟩ <;> rcases hb with hb | ⟨hb, hb'⟩
        · exact .inl (h3 i k j hk' ha hb)
        · exact .inr ⟨h3 i k m hk' ha hb, hb'⟩
        · exact .inr ⟨ha, h3 m k j hk' ha' hb⟩
        · exact .inr ⟨ha, hb'⟩

theorem has_lt {m : BitMatrix} {n i j : Nat} (hm : m.Dim n) (h : m.has i j) : i < n ∧ j < m.width := by
  obtain ⟨r, hr, hj⟩ := has_iff.1 h
  obtain ⟨hi, _⟩ := List.getElem?_eq_some_iff.1 hr
  obtain ⟨hj', _⟩ := List.getElem?_eq_some_iff.1 hj
  rw [hm.2 r (List.mem_of_getElem? hr)] at hj'
  rw [hm.1] at hi
  exact ⟨hi, hj'⟩

theorem transitiveClosure_spec {m : BitMatrix} {n : Nat} (hm : m.Dim n) (hw : m.width ≤ n) :
    m.transitiveClosure.Dim n ∧ m.transitiveClosure.width = m.width ∧
    ∀ i j, m.transitiveClosure.has i j ↔ Relation.TransGen m.has i j := by
  obtain ⟨⟨hl, hw'⟩, h1, h2, h3⟩ := tc_rounds hm.2 m.rows.length
  refine ⟨⟨by simpa [transitiveClosure, hl] using hm.1, hw'⟩, rfl, fun i j => ⟨h2 i j, ?_⟩⟩
  intro h
  induction h with
  | single h => exact h1 _ _ h
  | @tail b c _ h ih =>
    have := has_lt hm h
    exact h3 i b c (by rw [hm.1]; exact this.1) ih (h1 _ _ h)

theorem reflexiveClosure_spec {m : BitMatrix} {n : Nat} (hm : m.Dim n) :
    m.reflexiveClosure.Dim n ∧ m.reflexiveClosure.width = m.width ∧
    ∀ i j, m.reflexiveClosure.has i j ↔ (i = j ∧ i < n ∧ i < m.width) ∨ m.has i j := by
  refine ⟨⟨by simpa [reflexiveClosure] using hm.1, ?_⟩, rfl, ?_⟩
  · intro r hr
    simp only [reflexiveClosure, List.mem_mapIdx] at hr
    obtain ⟨i, hi, rfl⟩ := hr
    simpa [reflexiveClosure] using hm.2 _ (List.getElem_mem hi)
  · intro i j
    simp only [has_iff, reflexiveClosure, List.getElem?_mapIdx]
    cases hi : m.rows[i]? with
    | none =>
      have : n ≤ i := by rw [← hm.1]; simpa using hi
      simp; omega
    | some r =>
      have hr := hm.2 r (List.mem_of_getElem? hi)
      obtain ⟨hi', _⟩ := List.getElem?_eq_some_iff.1 hi
      rw [hm.1] at hi'
      simp only [Option.map_some, Option.some.injEq, exists_eq_left']
      by_cases hj : i = j
      · subst hj
        by_cases hw : i < m.width
        · simp [hr, hw, hi']
        · simp [hr, hw]
      · rw [List.getElem?_set_ne hj]; simp [hj]

end BitMatrix
end Gearley
