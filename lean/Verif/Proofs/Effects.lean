import Verif.Model.Effects

/-!
# Reasoning about `M`

`Returns x Q`: the computation `x` terminates without panic and its value satisfies `Q`
(total correctness).
-/

namespace Gearley

/-- Total correctness: `x` returns a value satisfying `Q`. -/
def Returns {α} (x : M α) (Q : α → Prop) : Prop := ∃ a, x = pure a ∧ Q a

theorem Returns.mono {α} {x : M α} {Q R : α → Prop} (h : Returns x Q) (hqr : ∀ a, Q a → R a) :
    Returns x R := by
  obtain ⟨a, ha, hq⟩ := h
  exact ⟨a, ha, hqr a hq⟩

theorem returns_pure {α} {a : α} {Q : α → Prop} (h : Q a) : Returns (pure a) Q := ⟨a, rfl, h⟩

theorem pure_inj_M {α} {a b : α} (h : (pure a : M α) = pure b) : a = b := by
  have : (some (Except.ok a) : Option (Except Panic α)) = some (Except.ok b) := h
  injection this with h1
  injection h1

@[simp] theorem pure_inj_M_iff {α} {a b : α} : ((pure a : M α) = pure b) ↔ a = b :=
  ⟨pure_inj_M, fun h => by rw [h]⟩

@[simp] theorem returns_pure_iff {α} {a : α} {Q : α → Prop} : Returns (pure a) Q ↔ Q a := by
  constructor
  · rintro ⟨b, hb, hq⟩
    rw [pure_inj_M hb]; exact hq
  · exact returns_pure

theorem returns_bind {α β} {x : M α} {f : α → M β} {Q : β → Prop}
    (h : Returns x (fun a => Returns (f a) Q)) : Returns (x >>= f) Q := by
  obtain ⟨a, rfl, b, hb, hq⟩ := h
  exact ⟨b, by rw [pure_bind, hb], hq⟩

theorem bind_cases {α β} (x : M α) (f : α → M β) :
    (∃ a, x = pure a ∧ (x >>= f) = f a) ∨ (∃ p, x = panicM p ∧ (x >>= f) = panicM p) ∨
      (x = diverge ∧ (x >>= f) = diverge) := by
  match x with
  | some (.ok a) => exact Or.inl ⟨a, rfl, rfl⟩
  | some (.error p) => exact Or.inr (Or.inl ⟨p, rfl, rfl⟩)
  | none => exact Or.inr (Or.inr ⟨rfl, rfl⟩)

theorem bind_eq_pure {α β} {x : M α} {f : α → M β} {b : β} (h : (x >>= f) = pure b) :
    ∃ a, x = pure a ∧ f a = pure b := by
  rcases bind_cases x f with ⟨a, ha, hf⟩ | ⟨p, _, hp⟩ | ⟨_, hn⟩
  · exact ⟨a, ha, by rw [← hf, h]⟩
  · rw [h] at hp
    exact absurd (show (some (Except.ok b) : Option (Except Panic β)) = some (Except.error p) from hp)
      (by simp)
  · rw [h] at hn
    exact absurd (show (some (Except.ok b) : Option (Except Panic β)) = none from hn) (by simp)

theorem panicM_ne_pure {α} {p : Panic} {a : α} : (panicM p : M α) ≠ pure a := fun h =>
  absurd (show (some (Except.error p) : Option (Except Panic α)) = some (Except.ok a) from h) (by simp)

theorem diverge_ne_pure {α} {a : α} : (diverge : M α) ≠ pure a := fun h =>
  absurd (show (none : Option (Except Panic α)) = some (Except.ok a) from h) (by simp)

theorem panicM_inj {α} {p q : Panic} (h : (panicM p : M α) = panicM q) : p = q := by
  have : (some (Except.error p) : Option (Except Panic α)) = some (Except.error q) := h
  injection this with h1
  injection h1

@[simp] theorem panicM_bind {α β} {p : Panic} {f : α → M β} : (panicM p >>= f) = panicM p := rfl

theorem returns_bind_iff {α β} {x : M α} {f : α → M β} {Q : β → Prop} :
    Returns (x >>= f) Q ↔ Returns x (fun a => Returns (f a) Q) := by
  constructor
  · rintro ⟨b, hb, hq⟩
    obtain ⟨a, ha, hf⟩ := bind_eq_pure hb
    exact ⟨a, ha, b, hf, hq⟩
  · exact returns_bind

theorem Returns.exists_eq {α} {x : M α} {Q : α → Prop} (h : Returns x Q) : ∃ a, x = pure a :=
  ⟨_, h.choose_spec.1⟩

theorem Returns.of_eq {α} {x : M α} {a : α} {Q : α → Prop} (h : Returns x Q) (he : x = pure a) : Q a := by
  obtain ⟨b, hb, hq⟩ := h
  rw [hb] at he
  rw [← pure_inj_M he]; exact hq

/-! ### Primitive operations -/

theorem unwrapM_some {α} {a : α} : unwrapM (some a) = pure a := rfl

theorem indexM_eq {α} {l : List α} {i : Nat} {a : α} (h : l[i]? = some a) : indexM l i = pure a := by
  simp [indexM, h]

theorem indexM_lt {α} {l : List α} {i : Nat} (h : i < l.length) : indexM l i = pure l[i] :=
  indexM_eq (by simp [h])

theorem indexM_pure {α} {l : List α} {i : Nat} {a : α} (h : indexM l i = pure a) : l[i]? = some a := by
  unfold indexM at h
  split at h
  · next b hb => rw [pure_inj_M h] at hb; exact hb
  · exact absurd h panicM_ne_pure

theorem indexM_panic {α} {l : List α} {i : Nat} (h : l.length ≤ i) : indexM l i = panicM .index := by
  simp [indexM, h]

theorem sliceFromM_eq {α} {l : List α} {a : Nat} (h : a ≤ l.length) :
    sliceFromM l a = pure (l.drop a) := by simp [sliceFromM, h]

theorem sliceM_eq {α} {l : List α} {a b : Nat} (h : a ≤ b) (h' : b ≤ l.length) :
    sliceM l a b = pure ((l.take b).drop a) := by simp [sliceM, h, h']

theorem setM_eq {α} {l : List α} {i : Nat} {x : α} (h : i < l.length) :
    setM l i x = pure (l.set i x) := by simp [setM, h]

theorem subM_eq {a b : Nat} (h : b ≤ a) : subM a b = pure (a - b) := by simp [subM, h]

theorem assertM_true {c : Bool} (h : c = true) : assertM c = pure () := by simp [assertM, h]

/-! ### Loops -/

theorem loop_eq {α β} (f : α → M (α ⊕ β)) (a : α) :
    loop f a = (f a >>= fun r => match r with | .inl a' => loop f a' | .inr b => pure b) := by
  rw [loop]
  rfl

theorem loop_inl {α β} {f : α → M (α ⊕ β)} {a a' : α} (h : f a = pure (.inl a')) :
    loop f a = loop f a' := by
  rw [loop_eq, h, pure_bind]

theorem loop_inr {α β} {f : α → M (α ⊕ β)} {a : α} {b : β} (h : f a = pure (.inr b)) :
    loop f a = pure b := by
  rw [loop_eq, h, pure_bind]

/-- Total correctness rule for loops: an invariant and a decreasing measure. -/
theorem loop_returns {α β} {f : α → M (α ⊕ β)} (Inv : α → Prop) (m : α → Nat) (Q : β → Prop)
    (step : ∀ a, Inv a → Returns (f a) (fun r => match r with
      | .inl a' => Inv a' ∧ m a' < m a
      | .inr b => Q b)) (a : α) (h : Inv a) : Returns (loop f a) Q := by
  generalize hn : m a = n
  induction n using Nat.strongRecOn generalizing a with
  | _ n ih =>
    obtain ⟨r, hr, hq⟩ := step a h
    cases r with
    | inl a' =>
      rw [loop_inl hr]
      exact ih (m a') (by rw [← hn]; exact hq.2) a' hq.1 rfl
    | inr b =>
      rw [loop_inr hr]
      exact returns_pure hq

/-- A fuelled run that returns is a run. -/
theorem loop_of_loopFuel {α β} {f : α → M (α ⊕ β)} {n : Nat} {a : α} {b : β}
    (h : loopFuel f n a = pure b) : loop f a = pure b := by
  induction n generalizing a with
  | zero => exact absurd h diverge_ne_pure
  | succ n ih =>
    obtain ⟨r, hr, hq⟩ := bind_eq_pure (show (f a >>= _) = pure b from h)
    cases r with
    | inl a' => rw [loop_inl hr]; exact ih hq
    | inr b' => rw [loop_inr hr]; exact hq

theorem loop_of_loopFuel_panic {α β} {f : α → M (α ⊕ β)} {n : Nat} {a : α} {p : Panic}
    (h : loopFuel f n a = panicM p) : loop f a = panicM p := by
  induction n generalizing a with
  | zero => exact absurd (show (none : Option (Except Panic β)) = some (.error p) from h) (by simp)
  | succ n ih =>
    have h' : (f a >>= _) = (panicM p : M β) := h
    rw [loop_eq]
    rcases hfa : f a with _ | (p' | r)
    · rw [hfa] at h'
      exact absurd (show (none : Option (Except Panic β)) = some (.error p) from h') (by simp)
    · rw [hfa] at h'; exact h'
    · rw [hfa] at h'
      cases r with
      | inl a' => exact ih h'
      | inr b' => exact h'

open Lean.Order in
theorem admissible_diverge {α} (p : Prop) :
    admissible (fun (y : M α) => p → y = diverge) := by
  intro c hc h hp
  have h1 : CCPO.csup hc ⊑ (diverge : M α) := by
    apply csup_le
    intro y hy
    rw [h y hy hp]
    exact PartialOrder.rel_refl
  generalize CCPO.csup hc = z at h1
  have h2 : @FlatOrder.rel (Option (Except Panic α)) none z none := h1
  cases h2 with
  | bot => rfl
  | refl => rfl

/-- A loop that has a step from every state of an invariant never returns. -/
theorem loop_diverges {α β} {f : α → M (α ⊕ β)} (Inv : α → Prop)
    (step : ∀ a, Inv a → ∃ a', f a = pure (.inl a') ∧ Inv a') (a : α) (h : Inv a) :
    loop f a = diverge := by
  have := loop.fixpoint_induct (α := α) (β := β) f
    (motive := fun g => ∀ a, Inv a → g a = diverge)
    (Lean.Order.admissible_pi_apply (P := fun a (y : M β) => Inv a → y = diverge)
      (fun a => admissible_diverge (Inv a)))
    (by
      intro g hg a ha
      obtain ⟨a', hf, hi⟩ := step a ha
      simp only [hf, pure_bind]
      exact hg a' hi)
  exact this a h

/-! ### Computations that may diverge -/

/-- `x` returns a value satisfying `Q`; if `lax` holds it may also diverge, but it does not panic. -/
def Ends (lax : Prop) {α} (x : M α) (Q : α → Prop) : Prop := Returns x Q ∨ (lax ∧ x = diverge)

theorem Ends.mono {lax : Prop} {α} {x : M α} {Q R : α → Prop} (h : Ends lax x Q) (hqr : ∀ a, Q a → R a) : Ends lax x R :=
  h.imp (·.mono hqr) id

theorem Returns.ends {lax : Prop} {α} {x : M α} {Q : α → Prop} (h : Returns x Q) : Ends lax x Q := .inl h

theorem Ends.returns {α} {x : M α} {Q : α → Prop} (h : Ends False x Q) : Returns x Q := h.resolve_right fun h => h.1

theorem ends_pure {lax : Prop} {α} {a : α} {Q : α → Prop} (h : Q a) : Ends lax (pure a) Q := .inl (returns_pure h)

theorem ends_bind {lax : Prop} {α β} {x : M α} {f : α → M β} {Q : β → Prop}
    (h : Ends lax x (fun a => Ends lax (f a) Q)) : Ends lax (x >>= f) Q := by
  rcases h with ⟨a, rfl, h⟩ | ⟨hl, rfl⟩
  · rw [pure_bind]; exact h
  · exact .inr ⟨hl, rfl⟩

theorem Ends.returns_of {lax : Prop} {α} {x : M α} {a : α} {Q : α → Prop} (h : Ends lax x Q) (he : x = pure a) : Returns x Q := by
  rcases h with h | ⟨_, h⟩
  · exact h
  · rw [h] at he; exact absurd he diverge_ne_pure

theorem Ends.of_eq {lax : Prop} {α} {x : M α} {a : α} {Q : α → Prop} (h : Ends lax x Q) (he : x = pure a) : Q a := by
  rcases h with h | ⟨_, h⟩
  · exact h.of_eq he
  · rw [h] at he; exact absurd he diverge_ne_pure

/-- Partial correctness rule for loops: an invariant. -/
theorem loop_ends {α β} {f : α → M (α ⊕ β)} (Inv : α → Prop) (Q : β → Prop)
    (step : ∀ a, Inv a → Returns (f a) (fun r => match r with
      | .inl a' => Inv a'
      | .inr b => Q b)) (a : α) (h : Inv a) : Ends True (loop f a) Q := by
  have := loop.fixpoint_induct (α := α) (β := β) f
    (motive := fun g => ∀ a, Inv a → Ends True (g a) Q)
    (Lean.Order.admissible_pi_apply (P := fun a (y : M β) => Inv a → Ends True y Q)
      (fun a => Lean.Order.admissible_flatOrder (α := Option (Except Panic β)) (b := none) _
        fun _ => .inr ⟨trivial, rfl⟩))
    (by
      intro g hg a ha
      obtain ⟨r, hr, hq⟩ := step a ha
      simp only [hr, pure_bind]
      cases r with
      | inl a' => exact hg a' hq
      | inr b => exact ends_pure hq)
  exact this a h

end Gearley
