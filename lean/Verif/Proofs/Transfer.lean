import Verif.Proofs.Sim
import Verif.Proofs.Language
import Verif.Spec.SafeForest

/-! # From the specification forest to other forests -/

namespace Gearley
open Gearley.Spec
variable {σ ν : Type}

theorem relM_pures {lax : Prop} {α β} {x : M α} {y : M β} {a : α} {b : β} {Q : α → β → Prop} (hx : x = pure a)
    (hy : y = pure b) (h : Q a b) : RelM lax x y Q := by rw [hx, hy]; exact relM_pure h

/-- Two computations about which nothing is known unless both return. -/
theorem relM_any {α β} {x : M α} {y : M β} {Q : α → β → Prop} (h : ∀ a b, x = pure a → y = pure b → Q a b) :
    RelM True x y Q := by
  rcases hx : x with _ | (p | a)
  · exact .inr (.inr (.inr ⟨trivial, .inl fun a h => diverge_ne_pure h⟩))
  · exact .inr (.inr (.inr ⟨trivial, .inl fun a h => panicM_ne_pure h⟩))
  · rcases hy : y with _ | (p | b)
    · exact .inr (.inr (.inr ⟨trivial, .inr fun a h => diverge_ne_pure h⟩))
    · exact .inr (.inr (.inr ⟨trivial, .inr fun a h => panicM_ne_pure h⟩))
    · exact .inl ⟨a, b, rfl, rfl, h a b hx hy⟩

/-- A safe forest simulates the specification forest as far as recognition is concerned. -/
def SafeForest.sim {F : ForestOps σ ν} {okDot : Nat → Prop} {okLeaf : Nat → Nat → Prop} (S : SafeForest F okDot okLeaf) :
    FSim False F treeForest okDot okLeaf where
  γ := S.γ
  le := S.le
  refl := S.refl
  trans := S.trans
  N w a _ := S.Valid w a
  mono := S.mono
  Idle w s _ := S.Idle w s
  Summing w k s _ := S.Summing w k s
  beginSum h := by obtain ⟨s', h1, h2⟩ := S.beginSum h; exact relM_pures h1 rfl h2
  pushSummand h hd hn := by obtain ⟨s', h1, h2⟩ := S.pushSummand h hd hn; exact relM_pures h1 rfl h2
  sum h hk := by obtain ⟨s', n, h1, h2⟩ := S.sum h hk; exact relM_pures h1 rfl h2
  product h h1 h2 := by obtain ⟨s', n, h3, h4⟩ := S.product h h1 h2; exact relM_pures h3 rfl h4
  leaf h hl := by obtain ⟨s', n, h3, h4⟩ := S.leaf h hl; exact relM_pures h3 rfl h4

/-- Any two forests, as long as neither panics. -/
def laxSim {σ₁ ν₁ σ₂ ν₂ : Type} (F₁ : ForestOps σ₁ ν₁) (F₂ : ForestOps σ₂ ν₂) :
    FSim True F₁ F₂ (fun _ => True) (fun _ _ => True) where
  γ := Unit
  le _ _ := True
  refl _ := trivial
  trans _ _ := trivial
  N _ _ _ := True
  mono _ _ := trivial
  Idle _ _ _ := True
  Summing _ _ _ _ := True
  beginSum _ := relM_any fun _ _ _ _ => ⟨(), trivial, trivial⟩
  pushSummand _ _ _ := relM_any fun _ _ _ _ => ⟨(), trivial, trivial⟩
  sum _ _ := relM_any fun _ _ _ _ => ⟨(), trivial, trivial, trivial⟩
  product _ _ _ := relM_any fun _ _ _ _ => ⟨(), trivial, trivial, trivial⟩
  leaf _ _ := relM_any fun _ _ _ _ => ⟨(), trivial, trivial, trivial⟩

section
variable {F : ForestOps σ ν} {okDot : Nat → Prop} {okLeaf : Nat → Nat → Prop}
  {g : DefaultGrammar} {R : Rules} {root : Nat → Nat} {T : Nat → Prop} {rank : Nat → Nat} {g0 : Nat}
  {la : Bool} {so : Sorter}

/-- A session with any related forest has the outcome of the session with the specification forest. -/
theorem sim_rel (S : FSim False F treeForest okDot okLeaf) (hd : DotsOK g okDot) {w : S.γ} {f : σ} {f0 : List PTree}
    (hI : S.Idle w f f0) {steps : List Step} (hl : ∀ st ∈ steps, ∀ p ∈ st.2, okLeaf p.1 p.2) :
    RelM False (Rec.new (FSim.env g la false so F) f >>= Rec.session (FSim.env g la false so F) steps)
      (Rec.new (treeEnv g la so) f0 >>= Rec.session (treeEnv g la so) steps)
      (S.Ext (fun w a b => S.RIdle w a.1 b.1 ∧ a.2 = b.2) w) :=
  relM_bind (FSim.new_rel hI) fun _ _ hab => FSim.session_rel hd hab steps hl

theorem sim_run' {lax : Prop} (S : FSim False F treeForest okDot okLeaf) (hd : DotsOK g okDot) {w : S.γ} {f : σ} {f0 : List PTree}
    (hI : S.Idle w f f0) {steps : List Step} (hl : ∀ st ∈ steps, ∀ p ∈ st.2, okLeaf p.1 p.2)
    {Q : Rec (List PTree) (List PTree) × Bool → Prop}
    (h : Ends lax (Rec.new (treeEnv g la so) f0 >>= Rec.session (treeEnv g la so) steps) Q) :
    Ends lax (Rec.new (FSim.env g la false so F) f >>= Rec.session (FSim.env g la false so F) steps) fun r =>
      ∃ r0 w', Q r0 ∧ S.RIdle w' r.1 r0.1 ∧ r.2 = r0.2 := by
  have hrel : RelM False (Rec.new (FSim.env g la false so F) f >>= Rec.session (FSim.env g la false so F) steps)
      (Rec.new (FSim.env g la false so treeForest) f0 >>= Rec.session (FSim.env g la false so treeForest) steps)
      (S.Ext (fun w a b => S.RIdle w a.1 b.1 ∧ a.2 = b.2) w) :=
    relM_bind (FSim.new_rel hI) fun a b hab => FSim.session_rel hd hab steps hl
  rcases h with ⟨r0, hr, hq⟩ | ⟨hlax, hr⟩
  · obtain ⟨r, h1, w', _, h2, h3⟩ := hrel.returns hr
    exact .inl ⟨r, h1, r0, w', hq, h2, h3⟩
  · exact .inr ⟨hlax, hrel.diverges hr⟩

theorem sim_run (S : FSim False F treeForest okDot okLeaf) (hd : DotsOK g okDot) {w : S.γ} {f : σ} {f0 : List PTree}
    (hI : S.Idle w f f0) {steps : List Step} (hl : ∀ st ∈ steps, ∀ p ∈ st.2, okLeaf p.1 p.2)
    {Q : Rec (List PTree) (List PTree) × Bool → Prop}
    (h : Returns (Rec.new (treeEnv g la so) f0 >>= Rec.session (treeEnv g la so) steps) Q) :
    Returns (Rec.new (FSim.env g la false so F) f >>= Rec.session (FSim.env g la false so F) steps) fun r =>
      ∃ r0 w', Q r0 ∧ S.RIdle w' r.1 r0.1 ∧ r.2 = r0.2 := (sim_run' S hd hI hl h.ends).returns

/-- Acceptance with any related forest, and the trees represented by the finished node. With `lax` the session may diverge. -/
theorem sim_accept' {lax : Prop} (S : FSim False F treeForest okDot okLeaf) (hd : DotsOK g okDot) {w : S.γ} {f : σ} {f0 : List PTree}
    (hI : S.Idle w f f0)
    (hg : GrammarOK g R root) (hT : LookaheadOK g R T)
    (hg0 : R[g.dotBeforeEof]? = some ⟨g.startSym, g0, some g.eofSym⟩) {steps : List Step} (hne : steps ≠ [])
    (hlen : steps.length < 2 ^ 64 - 1) (hok : StepsOK g steps) (hl : ∀ st ∈ steps, ∀ p ∈ st.2, okLeaf p.1 p.2)
    (hh : la = true → Honest T g.eofSym steps)
    (hterm : lax ∨ ∀ k, k < steps.length → SettlesAt R (extendBy steps [g.eofSym]) (Pred R g.startSym (extendBy steps [g.eofSym])) k) :
    Ends lax (Rec.new (FSim.env g la false so F) f >>= Rec.session (FSim.env g la false so F) steps) fun r =>
      (∃ w' r0, S.RIdle w' r.1 r0) ∧
      (r.2 = true → Returns (Rec.finishedNode (FSim.env g la false so F) r.1) fun N =>
        (N.isSome = true ↔ Accepts R g0 steps) ∧
        ∀ n, N = some n → ∃ w' N' r0, S.N w' n N' ∧ S.RIdle w' r.1 r0 ∧
          (∀ t ∈ N', TreeOf R (inputOf steps) t g0 0 steps.length) ∧
          (Distinct (inputOf steps) → N'.Nodup) ∧
          (TermToks R (inputOf steps) → EC.Late R g0 → ∀ t, TreeOf R (inputOf steps) t g0 0 steps.length → t ∈ N')) ∧
      (r.2 = true → 2 ≤ r.1.medial.len ∧ r.1.medial.len < 2 ^ 64) ∧
      (r.2 = false → ¬ Accepts R g0 steps) := by
  refine (sim_run' S hd hI hl (new_accept' hg hT hg0 hne hlen hok hh hterm f0)).mono ?_
  rintro ⟨s, ok⟩ ⟨⟨s0, ok0⟩, w', ⟨h1, h2, h3⟩, hrel, hok'⟩
  simp only at hrel hok' h1 h2 h3 ⊢
  subst hok'
  have hml := hrel.medial.len
  refine ⟨⟨w', s0, hrel⟩, fun ht => ?_, fun ht => by rw [hml]; exact h2 ht, h3⟩
  obtain ⟨N0, hN0, ha, hb⟩ := h1 ht
  have h2 := h2 ht
  obtain ⟨N, hN, hNN⟩ := (FSim.finishedNode_rel' (la := la) (leo := false) (so := so) (g := g) hrel
    (by rw [hml]; exact h2.1) (by rw [hml]; exact h2.2)).returns hN0
  refine ⟨N, hN, ?_, ?_⟩
  · rw [← ha]; cases hNN <;> simp
  · rintro n rfl
    cases hNN with
    | some hn => exact ⟨w', _, s0, hn, hrel, hb _ rfl⟩

/-- Acceptance with any related forest, and the trees represented by the finished node. -/
theorem sim_accept (S : FSim False F treeForest okDot okLeaf) (hd : DotsOK g okDot) {w : S.γ} {f : σ} {f0 : List PTree}
    (hI : S.Idle w f f0)
    (hg : GrammarOK g R root) (hT : LookaheadOK g R T) (hrank : EC.Ranked R rank)
    (hg0 : R[g.dotBeforeEof]? = some ⟨g.startSym, g0, some g.eofSym⟩) {steps : List Step} (hne : steps ≠ [])
    (hlen : steps.length < 2 ^ 64 - 1) (hok : StepsOK g steps) (hl : ∀ st ∈ steps, ∀ p ∈ st.2, okLeaf p.1 p.2)
    (hh : la = true → Honest T g.eofSym steps) :
    Returns (Rec.new (FSim.env g la false so F) f >>= Rec.session (FSim.env g la false so F) steps) fun r =>
      (∃ w' r0, S.RIdle w' r.1 r0) ∧
      (r.2 = true → Returns (Rec.finishedNode (FSim.env g la false so F) r.1) fun N =>
        (N.isSome = true ↔ Accepts R g0 steps) ∧
        ∀ n, N = some n → ∃ w' N' r0, S.N w' n N' ∧ S.RIdle w' r.1 r0 ∧
          (∀ t ∈ N', TreeOf R (inputOf steps) t g0 0 steps.length) ∧
          (Distinct (inputOf steps) → N'.Nodup) ∧
          (TermToks R (inputOf steps) → EC.Late R g0 → ∀ t, TreeOf R (inputOf steps) t g0 0 steps.length → t ∈ N')) ∧
      (r.2 = true → 2 ≤ r.1.medial.len ∧ r.1.medial.len < 2 ^ 64) ∧
      (r.2 = false → ¬ Accepts R g0 steps) :=
  (sim_accept' S hd hI hg hT hg0 hne hlen hok hl hh (.inr fun _ _ => hrank.settlesAt _ _ _)).returns

/-- Whatever hints are set: a session that gets through has read a viable prefix. -/
theorem session_sound' {lax : Prop} (hg : GrammarOK g R root) (hterm : lax ∨ ∃ rank, EC.Ranked R rank) {steps : List Step}
    (hlen : steps.length < 2 ^ 64) (hok : StepsOK g steps) (f : List PTree) :
    Ends lax (Rec.new (treeEnv g la so) f >>= Rec.session (treeEnv g la so) steps) fun r =>
      r.2 = true → Viable R g.startSym steps := by
  have hT : LookaheadOK g R (fun _ => False) := ⟨fun _ _ _ _ h => h.elim, fun _ _ _ _ _ h => h.elim⟩
  have hP := pred_predOK (R := R) g.startSym (extendBy steps [])
  refine ends_bind ((new_spec (n := 0) (H := False) hg hP f).ends.mono ?_)
  rintro s ⟨hs, hl⟩
  refine (session_inv' (lax := lax) hg hT hP steps s 0 _ _ hs (by omega) hok (extendBy_in _ _) (fun h => h.elim)
    (hterm.imp id fun ⟨_, h⟩ _ _ => h.settlesAt _ _ _)).mono ?_
  rintro ⟨s', ok⟩ ⟨hr, _⟩ hok1
  simp only [Nat.zero_add] at hr hok1
  rcases hr with ⟨_, h2⟩ | ⟨h1, _⟩
  · rcases h2 with ⟨rfl, _⟩ | ⟨_, S', loc', h3, _, _, X, a, t, h4, h5⟩
    · exact ⟨[], [g.startSym], rfl, trivial, .refl _⟩
    · obtain ⟨w, v, e1, e2, e3⟩ := h4.prefix h5
      exact ⟨w, v, e2, (extendBy_picks (by omega)).1 e1, e3⟩
  · rw [hok1] at h1; simp at h1

theorem session_sound (hg : GrammarOK g R root) (hrank : EC.Ranked R rank) {steps : List Step}
    (hlen : steps.length < 2 ^ 64) (hok : StepsOK g steps) (f : List PTree) :
    Returns (Rec.new (treeEnv g la so) f >>= Rec.session (treeEnv g la so) steps) fun r =>
      r.2 = true → Viable R g.startSym steps :=
  (session_sound' (lax := False) hg (.inr ⟨_, hrank⟩) hlen hok f).returns

/-- If the hints agree with some continuation `v` that leads to a sentential form, the session gets through. -/
theorem session_through' {lax : Prop} (hg : GrammarOK g R root) (hT : LookaheadOK g R T) (hterm : lax ∨ ∃ rank, EC.Ranked R rank)
    {steps : List Step}
    (hne : steps ≠ []) (hlen : steps.length < 2 ^ 64) (hok : StepsOK g steps)
    (hstart : ∀ st ∈ steps, ∀ t ∈ st.2, t.1 ≠ g.startSym) {u v : List Nat} (hu : u.length = steps.length)
    (hp : Picks (inputOf steps) 0 u) (hd : Derives R g.startSym (u ++ v))
    (hh : la = true → HintsOK (extendBy steps v) (steps.length + v.length) T 0 none steps) (f : List PTree) :
    Ends lax (Rec.new (treeEnv g la so) f >>= Rec.session (treeEnv g la so) steps) fun r => r.2 = true := by
  have hP := pred_predOK (R := R) g.startSym (extendBy steps v)
  refine ends_bind ((new_spec (n := steps.length + v.length) (H := True) hg hP f).ends.mono ?_)
  rintro s ⟨hs, hl⟩
  refine (session_inv' (lax := lax) hg hT hP steps s 0 _ _ hs (by omega) hok (extendBy_in _ _) (fun _ hla => by
      rw [hl]; exact hh hla) (hterm.imp id fun ⟨_, h⟩ _ _ => h.settlesAt _ _ _)).mono ?_
  rintro ⟨s', ok⟩ ⟨hr, _⟩
  simp only [Nat.zero_add] at hr ⊢
  rcases hr with ⟨h1, _⟩ | ⟨h1, i, hi, hf⟩
  · exact h1
  · exfalso
    have hpick : Picks (extendBy steps v) 0 (u ++ v) := by
      refine picks_append.2 ⟨(extendBy_picks (by omega)).2 hp, ?_⟩
      rw [Nat.zero_add, hu]; exact extendBy_tail _ _
    obtain ⟨t, ht⟩ := hd.tree 0 hpick
    rw [Nat.zero_add, List.length_append, hu] at ht
    obtain ⟨a, x, rfl⟩ := hf.tree trivial (by omega) t ht
    have hl0 : 0 < steps.length := List.length_pos_iff.2 hne
    generalize hnn : steps.length + v.length = nn at ht
    cases ht with
    | leaf hm =>
      rw [extendBy_lt hl0, inputOf_eq (List.getElem?_eq_getElem hl0)] at hm
      exact hstart _ (List.getElem_mem hl0) _ hm rfl

theorem session_through (hg : GrammarOK g R root) (hT : LookaheadOK g R T) (hrank : EC.Ranked R rank) {steps : List Step}
    (hne : steps ≠ []) (hlen : steps.length < 2 ^ 64) (hok : StepsOK g steps)
    (hstart : ∀ st ∈ steps, ∀ t ∈ st.2, t.1 ≠ g.startSym) {u v : List Nat} (hu : u.length = steps.length)
    (hp : Picks (inputOf steps) 0 u) (hd : Derives R g.startSym (u ++ v))
    (hh : la = true → HintsOK (extendBy steps v) (steps.length + v.length) T 0 none steps) (f : List PTree) :
    Returns (Rec.new (treeEnv g la so) f >>= Rec.session (treeEnv g la so) steps) fun r => r.2 = true :=
  (session_through' (lax := False) hg hT (.inr ⟨_, hrank⟩) hne hlen hok hstart hu hp hd hh f).returns

end
end Gearley
