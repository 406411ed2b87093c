import Verif.Proofs.Derivation

/-! # Predictions and viable prefixes -/

namespace Gearley.Spec
variable {R : Rules} {inp : Input} {start n : Nat}

theorem Pred.viable {p X} (h : Pred R start inp p X) :
    ∃ w v, Picks inp 0 w ∧ w.length = p ∧ Derives R start (w ++ X :: v) := by
  induction h with
  | start => exact ⟨[], [], trivial, rfl, .refl _⟩
  | @corner p A B _ hc ih =>
    obtain ⟨w, v, h1, h2, h3⟩ := ih
    obtain ⟨r, hr, rfl, rfl⟩ := hc
    cases hr1 : r.rhs1 with
    | none =>
      have := h3.replace (Derives.single hr hr1)
      exact ⟨w, v, h1, h2, by simpa using this⟩
    | some C =>
      have := h3.replace (Derives.two hr hr1)
      exact ⟨w, C :: v, h1, h2, by simpa using this⟩
  | @medial d A B C q p t hr _ ht ih =>
    obtain ⟨w, v, h1, h2, h3⟩ := ih
    obtain ⟨u, hu1, hu2, hu3⟩ := ht.derives
    have h4 := h3.replace (Derives.two (mem_of_getElem? hr) rfl)
    have h5 : Derives R start (w ++ B :: (C :: v)) := by simpa using h4
    have h6 := h5.replace hu1
    refine ⟨w ++ u, v, picks_append.2 ⟨h1, ?_⟩, by simp; omega, by simpa using h6⟩
    rw [h2, Nat.zero_add]; exact hu2

theorem Derives.pred {A u} (h : Derives R A u) : ∀ α X γ q, u = α ++ X :: γ → Pred R start inp q A → Picks inp q α →
    Pred R start inp (q + α.length) X := by
  induction h with
  | refl A =>
    intro α X γ q he hp _
    cases α with
    | nil =>
      simp only [List.nil_append, List.cons.injEq] at he
      rw [← he.1]; exact hp
    | cons x α => simp at he
  | unary hr h1 _ ih =>
    intro α X γ q he hp hpi
    exact ih α X γ q he (.corner hp ⟨_, hr, rfl, rfl⟩) hpi
  | @binary r C u v hr h1 hu hv ih1 ih2 =>
    intro α X γ q he hp hpi
    have hright : ∀ a', α = u ++ a' → v = a' ++ X :: γ → Pred R start inp (q + α.length) X := by
      intro a' ha hv'
      subst ha
      obtain ⟨hpi1, hpi2⟩ := picks_append.1 hpi
      obtain ⟨t, ht⟩ := hu.tree q hpi1
      obtain ⟨d, hd⟩ := List.mem_iff_getElem?.1 hr
      have hC : Pred R start inp (q + u.length) C := .medial (d := d) (A := r.lhs) (B := r.rhs0) (by
        rw [hd]; obtain ⟨_, _, _⟩ := r; simp_all) hp ht
      have := ih2 a' X γ _ hv' hC hpi2
      simpa [Nat.add_assoc] using this
    rcases List.append_eq_append_iff.1 he with ⟨a', h2, h3⟩ | ⟨c', h2, h3⟩
    · exact hright a' h2 h3
    · cases c' with
      | nil =>
        simp only [List.append_nil] at h2
        simp only [List.nil_append] at h3
        exact hright [] (by simp [h2]) (by simp [h3])
      | cons x c' =>
        simp only [List.cons_append, List.cons.injEq] at h3
        obtain ⟨rfl, rfl⟩ := h3
        exact ih1 α X c' q h2 (.corner hp ⟨_, hr, rfl, rfl⟩) hpi

/-- A symbol is predicted exactly if it can follow the tokens read so far in a sentential form. -/
theorem pred_iff {p X} : Pred R start inp p X ↔
    ∃ w v, Picks inp 0 w ∧ w.length = p ∧ Derives R start (w ++ X :: v) := by
  constructor
  · exact Pred.viable
  · rintro ⟨w, v, h1, h2, h3⟩
    have := h3.pred w X v 0 rfl (.start (inp := inp)) h1
    rw [← h2]; simpa using this

/-- A predicted symbol that matches input makes the input a viable prefix. -/
theorem Pred.prefix {a X t e} (h : Pred R start inp a X) (ht : TreeOf R inp t X a e) :
    ∃ w v, Picks inp 0 w ∧ w.length = e ∧ Derives R start (w ++ v) := by
  obtain ⟨w, v, h1, h2, h3⟩ := h.viable
  obtain ⟨u, hu1, hu2, hu3⟩ := ht.derives
  have := h3.replace hu1
  refine ⟨w ++ u, v, picks_append.2 ⟨h1, ?_⟩, by simp; omega, this⟩
  rw [h2, Nat.zero_add]; exact hu2

theorem Picks.congr {inp' : Input} {i : Nat} {w : List Nat} (h : Picks inp i w)
    (he : ∀ p, i ≤ p → p < i + w.length → inp p = inp' p) : Picks inp' i w := by
  induction w generalizing i with
  | nil => trivial
  | cons a w ih =>
    obtain ⟨⟨v, hv⟩, h2⟩ := h
    refine ⟨⟨v, by rw [← he i (by omega) (by simp)]; exact hv⟩, ih h2 fun p h1 h2 => he p (by omega) (by simp; omega)⟩

end Gearley.Spec
