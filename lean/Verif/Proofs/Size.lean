import Verif.Spec.Counting
import Verif.Model.CompactBocage
import Verif.Model.Drivers
import Verif.Proofs.Transfer

/-!
# A counted run and the plain run; the size of a forest grows with the operations
-/

namespace Gearley
open Gearley.Spec
variable {σ ν : Type}

/-- The counted state goes with the plain one, and the measure is bounded. -/
def Counted (m : σ → Nat) (K m0 : Nat) (s : σ × Nat) (t : σ) : Prop := s.1 = t ∧ m t ≤ m0 + K * s.2

theorem relM_counted {α β : Type} {x : M α} {f : α → β} {Q : β → α → Prop} (h : ∀ a, x = pure a → Q (f a) a) :
    RelM False (x >>= fun a => pure (f a)) x Q := by
  have : RelM False (x >>= fun a => pure (f a)) (x >>= fun a => pure a) Q :=
    relM_bind_same fun a ha => relM_pure (h a ha)
  rwa [bind_pure] at this

/-- A counted run step by step. -/
def sizeSim {F : ForestOps σ ν} {m : σ → Nat} {K : Nat} (hg : Grows F m K) (m0 : Nat) :
    FSim False (counting F) F (fun _ => True) (fun _ _ => True) where
  γ := Unit
  le _ _ := True
  refl _ := trivial
  trans _ _ := trivial
  N _ a b := a = b
  mono _ h := h
  Idle _ := Counted m K m0
  Summing _ _ := Counted m K m0
  beginSum := by
    rintro _ ⟨s, i⟩ t ⟨rfl, h⟩
    refine relM_counted (f := fun f => (f, i + 1)) fun a ha => ⟨(), trivial, rfl, ?_⟩
    have := hg.beginSum ha
    rw [Nat.mul_succ]; simp only at h this; omega
  pushSummand := by
    rintro _ k ⟨s, i⟩ t d o a b ⟨rfl, h⟩ - rfl
    refine relM_counted (f := fun f => (f, i + 1)) fun a ha => ⟨(), trivial, rfl, ?_⟩
    have := hg.pushSummand ha
    rw [Nat.mul_succ]; simp only at h this; omega
  sum := by
    rintro _ k ⟨s, i⟩ t lhs o ⟨rfl, h⟩ -
    refine relM_counted (f := fun r : σ × ν => ((r.1, i + 1), r.2)) fun a ha => ⟨(), trivial, ⟨rfl, ?_⟩, rfl⟩
    have := hg.sum ha
    rw [Nat.mul_succ]; simp only at h this; omega
  product := by
    rintro _ ⟨s, i⟩ t a b c d ⟨rfl, h⟩ rfl rfl
    refine relM_counted (f := fun r : σ × ν => ((r.1, i + 1), r.2)) fun a ha => ⟨(), trivial, ⟨rfl, ?_⟩, rfl⟩
    have := hg.product ha
    rw [Nat.mul_succ]; simp only at h this; omega
  leaf := by
    rintro _ ⟨s, i⟩ t sym pos val ⟨rfl, h⟩ -
    refine relM_counted (f := fun r : σ × ν => ((r.1, i + 1), r.2)) fun a ha => ⟨(), trivial, ⟨rfl, ?_⟩, rfl⟩
    have := hg.leaf ha
    rw [Nat.mul_succ]; simp only at h this; omega

/-- Without a bound on anything. -/
theorem Grows.zero (F : ForestOps σ ν) : Grows F (fun _ => 0) 0 :=
  ⟨fun _ => Nat.le_refl _, fun _ => Nat.le_refl _, fun _ => Nat.le_refl _, fun _ => Nat.le_refl _, fun _ => Nat.le_refl _⟩

theorem dotsOK_true (g : DefaultGrammar) : DotsOK g fun _ => True :=
  ⟨fun _ _ _ _ _ => trivial, fun _ _ _ _ _ => trivial, fun _ _ _ _ _ => trivial⟩

namespace FSim

variable {σ₁ ν₁ σ₂ ν₂ : Type} {lax : Prop} {F₁ : ForestOps σ₁ ν₁} {F₂ : ForestOps σ₂ ν₂} {okDot : Nat → Prop}
  {okLeaf : Nat → Nat → Prop} {S : FSim lax F₁ F₂ okDot okLeaf} {g : DefaultGrammar} {la leo : Bool} {so : Sorter}

local notation "E₁" => env g la leo so F₁
local notation "E₂" => env g la leo so F₂

/-- `parse` with related forests, if nulling nodes are related too. -/
theorem parse_rel (hd : DotsOK g okDot) (hl : ∀ x v, okLeaf x v)
    (hnull : ∀ {w s t} sym, S.Idle w s t → RelM lax (F₁.nulling s sym) (F₂.nulling t sym) (S.N w)) {w : S.γ}
    {s : Rec σ₁ ν₁} {t : Rec σ₂ ν₂} (h : S.RIdle w s t) (toks : List Nat) :
    RelM lax (Rec.parse E₁ s toks) (Rec.parse E₂ t toks) (S.Ext (fun w a b => S.RIdle w a.1 b.1 ∧ a.2 = b.2) w) := by
  have loopRel : ∀ (toks : List Nat) (i : Nat) {w : S.γ} {s : Rec σ₁ ν₁} {t : Rec σ₂ ν₂}, S.RIdle w s t →
      RelM lax (Rec.parseLoop E₁ (Rec.completeAll E₁) i toks s) (Rec.parseLoop E₂ (Rec.completeAll E₂) i toks t)
        (S.Ext (fun w a b => S.RIdle w a.1 b.1 ∧ a.2 = b.2) w) := by
    intro toks
    induction toks with
    | nil =>
      intro i w s t h
      unfold Rec.parseLoop Rec.isFinished
      refine relM_bind (relM_bind (finishedNode_rel h fun sym _ => hnull sym h.forest) fun a b hab =>
        relM_pure (Q := Eq) ?_) ?_
      · cases hab <;> rfl
      · rintro a _ rfl
        exact relM_pure (Ext.here ⟨h, rfl⟩)
    | cons x rest ih =>
      intro i w s t h
      unfold Rec.parseLoop
      dsimp only
      refine relM_bind (Q := S.RIdle w) ?_ fun s t h => ?_
      · cases rest with
        | nil => exact relM_pure (clear_rel (begin_rel h))
        | cons y _ => exact relM_bind_same fun y _ => relM_pure (set_rel (begin_rel h) y)
      · refine relM_bind_same fun x' _ => relM_then (scan_rel hd h (hl _ _)) fun w1 s t _ h => ?_
        refine relM_then (endEarleme_rel hd h) ?_
        rintro w2 ⟨s, b⟩ ⟨t, _⟩ _ ⟨h, rfl⟩
        cases b
        · exact relM_pure (Ext.here ⟨h, rfl⟩)
        · exact ih (i + 1) h
  unfold Rec.parse Rec.parseWith Rec.readSof
  refine relM_then (Q := fun w (a : Rec σ₁ ν₁ × Bool) (b : Rec σ₂ ν₂ × Bool) => S.RIdle w a.1 b.1 ∧ a.2 = b.2) ?_ ?_
  · exact relM_then (scan_rel hd (begin_rel h) (hl _ _)) fun w1 s t _ h => endEarleme_rel hd h
  · rintro w1 ⟨s, b⟩ ⟨t, _⟩ _ ⟨h, rfl⟩
    cases b
    · exact relM_pure (Ext.here ⟨h, rfl⟩)
    · exact loopRel toks 0 h

end FSim

/-! ### The forests of the repository -/

/-- Every operation of the simple bocage adds at most one node. -/
theorem Simple.grows : Grows Simple.forest (fun b => b.graph.length) 1 where
  beginSum h := by
    have := pure_inj_M h; subst this; exact Nat.le_succ _
  pushSummand h := by
    have := pure_inj_M h; subst this; simp [Simple.Bocage.pushSummand]
  sum {s r lhs o} h := by
    have h : s.sum lhs = pure r := h
    unfold Simple.Bocage.sum at h
    split at h
    · exact absurd h panicM_ne_pure
    · have := pure_inj_M h; subst this; exact Nat.le_succ _
    · obtain ⟨i, _, h⟩ := bind_eq_pure h
      obtain ⟨x, _, h⟩ := bind_eq_pure h
      obtain ⟨g, hg, h⟩ := bind_eq_pure h
      have := pure_inj_M h; subst this
      unfold setM at hg
      split at hg
      · have := pure_inj_M hg; subst this; simp
      · exact absurd hg panicM_ne_pure
  product h := by
    have := pure_inj_M h; subst this; simp [Simple.Bocage.product]
  leaf h := by
    have := pure_inj_M h; subst this; simp [Simple.Bocage.leaf]

theorem Compact.encode_length_le (n : Compact.Node) : (Compact.encode n).length ≤ 9 := by
  unfold Compact.encode
  split
  · simp
  · simp
  · split
    · simp
    · simp [Compact.leBytes]; omega

/-- Every operation of the compact bocage adds at most nine bytes. -/
theorem Compact.grows : Grows Compact.forest (fun b => b.graph.length) 9 where
  beginSum h := by
    have := pure_inj_M h; subst this; simp [Compact.Bocage.beginSum, Compact.push, Compact.encode]
  pushSummand h := by
    have := pure_inj_M h; subst this
    have := Compact.encode_length_le
    simp [Compact.Bocage.pushSummand, Compact.push, this]
  sum {s r lhs o} h := by
    have h : s.sum = pure r := h
    unfold Compact.Bocage.sum at h
    obtain ⟨i, _, h⟩ := bind_eq_pure h
    dsimp only at h
    split at h
    all_goals have := pure_inj_M h; subst this; simp [Compact.push, Compact.encode]
  product h := by
    have := pure_inj_M h; subst this
    have := Compact.encode_length_le
    simp [Compact.Bocage.product, Compact.push, this]
  leaf h := by
    have := pure_inj_M h; subst this
    have := Compact.encode_length_le
    simp [Compact.Bocage.leaf, Compact.push, this]

end Gearley
