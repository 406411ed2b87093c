import Mathlib.Data.Finset.Card
import Mathlib.Data.Finset.Filter
import Mathlib.Data.Finset.Dedup
import Mathlib.Data.Set.Finite.Basic
import Mathlib.Data.Finset.Lattice.Fold
import Verif.Proofs.Exact

/-! # One-symbol cycles and termination -/

namespace Gearley
open Gearley.Spec

section
variable {R : Rules} {inp inp' : Input} {start : Nat}

theorem _root_.Gearley.Spec.Pred.congr {p X} (h : Pred R start inp p X) (he : ∀ q, q < p → inp q = inp' q) : Pred R start inp' p X := by
  induction h with
  | start => exact .start
  | corner _ hc ih => exact .corner (ih he) hc
  | medial hr _ ht ih =>
    exact .medial hr (ih fun q hq => he q (Nat.lt_trans hq ht.lt)) (ht.congr fun q _ h2 => he q h2)

/-- Following one-symbol rules upwards makes trees grow. -/
theorem UnaryStep.tree {A B t i j} (h : Relation.TransGen (UnaryStep R) A B) (ht : TreeOf R inp t A i j) :
    ∃ t', TreeOf R inp t' B i j ∧ sizeOf t < sizeOf t' := by
  have step : ∀ {A B t}, UnaryStep R A B → TreeOf R inp t A i j → ∃ t', TreeOf R inp t' B i j ∧ sizeOf t < sizeOf t' := by
    rintro A B t ⟨⟨l, b, o⟩, hr, rfl, h1, rfl⟩ ht
    obtain ⟨d, hd⟩ := List.getElem?_of_mem hr
    simp only at h1; subst h1
    exact ⟨_, .unary hd ht, by simp⟩
  induction h with
  | single h => exact step h ht
  | tail _ h ih =>
    obtain ⟨t', h1, h2⟩ := ih
    obtain ⟨t'', h3, h4⟩ := step h h1
    exact ⟨t'', h3, by omega⟩

/-- A symbol on a cycle has trees of any size. -/
theorem OnCycle.trees {A t i j} (h : OnCycle R A) (ht : TreeOf R inp t A i j) (m : Nat) :
    ∃ t', TreeOf R inp t' A i j ∧ m ≤ sizeOf t' := by
  induction m with
  | zero => exact ⟨t, ht, by omega⟩
  | succ m ih =>
    obtain ⟨t1, h1, h2⟩ := ih
    obtain ⟨t2, h3, h4⟩ := UnaryStep.tree h h1
    exact ⟨t2, h3, by omega⟩

open Classical in
/-- Away from cycles, the number of symbols above a symbol decreases along one-symbol rules. -/
theorem rank_off_cycles (R : Rules) : ∃ rank : Nat → Nat,
    ∀ r ∈ R, r.rhs1 = none → ¬ OnCycle R r.lhs → rank r.lhs < rank r.rhs0 := by
  refine ⟨fun X => ((R.map (·.lhs)).toFinset.filter fun Y => Relation.TransGen (UnaryStep R) X Y).card, ?_⟩
  intro r hr h1 hn
  have hstep : UnaryStep R r.rhs0 r.lhs := ⟨r, hr, rfl, h1, rfl⟩
  refine Finset.card_lt_card ⟨?_, ?_⟩
  · intro Y hY
    simp only [Finset.mem_filter] at hY ⊢
    exact ⟨hY.1, .head hstep hY.2⟩
  · intro hsub
    have : r.lhs ∈ (R.map (·.lhs)).toFinset.filter fun Y => Relation.TransGen (UnaryStep R) r.rhs0 Y := by
      simp only [Finset.mem_filter, List.mem_toFinset, List.mem_map]
      exact ⟨⟨r, hr, rfl⟩, .single hstep⟩
    have := hsub this
    simp only [Finset.mem_filter] at this
    exact hn this.2

end

section
variable {g : DefaultGrammar} {R : Rules} {root : Nat → Nat} {la : Bool} {so : Sorter}

theorem Completes.congr {start : Nat} {inp inp' : Input} {k A} (h : Completes R start inp k A)
    (he : ∀ q, q < k → inp q = inp' q) : Completes R start inp' k A := by
  obtain ⟨a, t, h1, h2⟩ := h
  exact ⟨a, t, h1.congr fun q hq => he q (Nat.lt_trans hq h2.lt), h2.congr fun q _ h => he q h⟩

/-- A session that completes no symbol on a cycle returns. -/
theorem session_settles (hg : GrammarOK g R root) {steps : List Step}
    (hlen : steps.length < 2 ^ 64) (hok : StepsOK g steps)
    (hno : ∀ k A, k ≤ steps.length → Completes R g.startSym (inputOf steps) k A → ¬ OnCycle R A) (f : List PTree) :
    Returns (Rec.new (treeEnv g la so) f >>= Rec.session (treeEnv g la so) steps) fun _ => True := by
  have hT : LookaheadOK g R (fun _ => False) := ⟨fun _ _ _ _ h => h.elim, fun _ _ _ _ _ h => h.elim⟩
  have hP := pred_predOK (R := R) g.startSym (extendBy steps [])
  refine returns_bind ((new_spec (n := 0) (H := False) hg hP f).mono ?_)
  rintro s ⟨hs, hl⟩
  refine (session_inv' hg hT hP steps s 0 _ _ hs (by omega) hok (extendBy_in _ _) (fun h => h.elim) (lax := False)
    (.inr fun k hk => ?_)).returns.mono fun _ _ => trivial
  obtain ⟨rank, hr⟩ := rank_off_cycles R
  refine ⟨rank, fun r hr1 h1 ⟨a, t, h2, h3⟩ => hr r hr1 h1 (hno (k + 1) r.lhs (by omega) ?_)⟩
  rw [Nat.zero_add] at h3
  exact Completes.congr ⟨a, t, h2, h3⟩ fun q hq => extendBy_lt (by omega)

/-- A session never panics, whatever cycles there are. -/
theorem session_no_panic (hg : GrammarOK g R root) {steps : List Step}
    (hlen : steps.length < 2 ^ 64) (hok : StepsOK g steps) (f : List PTree) :
    Ends True (Rec.new (treeEnv g la so) f >>= Rec.session (treeEnv g la so) steps) fun _ => True := by
  have hT : LookaheadOK g R (fun _ => False) := ⟨fun _ _ _ _ h => h.elim, fun _ _ _ _ _ h => h.elim⟩
  have hP := pred_predOK (R := R) g.startSym (extendBy steps [])
  refine ends_bind ((new_spec (n := 0) (H := False) hg hP f).ends.mono ?_)
  rintro s ⟨hs, hl⟩
  exact (session_inv' hg hT hP steps s 0 _ _ hs (by omega) hok (extendBy_in _ _) (fun h => h.elim) (lax := True)
    (.inl trivial)).mono fun _ _ => trivial

/-- A symbol on a cycle has infinitely many trees if it has one. -/
theorem OnCycle.infinite {inp : Input} {A t i j} (h : OnCycle R A) (ht : TreeOf R inp t A i j) : {t | TreeOf R inp t A i j}.Infinite := by
  intro hf
  obtain ⟨m, hm⟩ : ∃ m, ∀ t ∈ {t | TreeOf R inp t A i j}, sizeOf t < m := by
    refine ⟨hf.toFinset.sup sizeOf + 1, fun t ht => ?_⟩
    have := Finset.le_sup (f := sizeOf) (hf.mem_toFinset.2 ht)
    omega
  obtain ⟨t', h1, h2⟩ := OnCycle.trees h ht m
  have := hm t' h1
  omega

/-- A session diverges if, in a sentential form that begins with its input and continues as the hints say, a symbol has
infinitely many trees up to the last position. -/
theorem session_infinite (hg : GrammarOK g R root) {T : Nat → Prop} (hT : LookaheadOK g R T) {steps : List Step} (hne : steps ≠ [])
    (hlen : steps.length < 2 ^ 64) (hok : StepsOK g steps)
    (hstart : ∀ st ∈ steps, ∀ t ∈ st.2, t.1 ≠ g.startSym) {w v : List Nat} {A : Nat} (hw1 : Picks (inputOf steps) 0 w)
    (hw3 : Derives R g.startSym (w ++ A :: v)) (hinf : {t | TreeOf R (inputOf steps) t A w.length steps.length}.Infinite)
    (hh : la = true → HintsOK (extendBy steps v) (steps.length + v.length) T 0 none steps) (f : List PTree) :
    (Rec.new (treeEnv g la so) f >>= Rec.session (treeEnv g la so) steps) = diverge := by
  obtain ⟨t, hta⟩ := hinf.nonempty
  have hP := pred_predOK (R := R) g.startSym (extendBy steps v)
  have hal : w.length < steps.length := hta.lt
  have hpw : Picks (extendBy steps v) 0 w := (extendBy_picks (by omega)).2 hw1
  have hpv := extendBy_tail steps v
  have hta' : ∀ t, TreeOf R (inputOf steps) t A w.length steps.length → TreeOf R (extendBy steps v) t A w.length steps.length :=
    fun t => (extendBy_tree (Nat.le_refl _)).2
  have hctx : Ctx R g.startSym (extendBy steps v) (steps.length + v.length) A w.length steps.length := by
    have := Derives.ctx' hw3 w A v 0 steps.length rfl hpw hpv (start := g.startSym) (n := steps.length + v.length) .root
    rwa [Nat.zero_add] at this
  have hends : Ends True (Rec.new (treeEnv g la so) f >>= Rec.session (treeEnv g la so) steps) fun _ => False := by
    refine ends_bind ((new_spec (n := steps.length + v.length) (H := True) hg hP f).ends.mono ?_)
    rintro s ⟨hs, hl⟩
    refine (session_inv' hg hT hP steps s 0 _ _ hs (by omega) hok (extendBy_in _ _) (fun _ hla => by
      rw [hl]; exact hh hla) (lax := True) (.inl trivial)).mono ?_
    rintro r ⟨hr, hfin⟩
    cases hr2 : r.2 with
    | true =>
      have hl0 : 0 < steps.length := List.length_pos_iff.2 hne
      obtain ⟨Fd, hFd⟩ := hfin hr2 trivial (steps.length - 1) (by omega)
      have hlen1 : 0 + (steps.length - 1) + 1 = steps.length := by omega
      rw [hlen1] at hFd
      refine hinf (((Fd.map fun z => z.2.2).finite_toSet).subset fun t' h1 => ?_)
      obtain ⟨o, ho⟩ := hFd A _ t' (hta' _ h1) hctx
      exact Multiset.mem_map.2 ⟨_, ho, rfl⟩
    | false =>
      rw [hr2] at hr
      simp only [Bool.false_eq_true, false_and, true_and, false_or] at hr
      obtain ⟨i, hi, hf⟩ := hr
      obtain ⟨u, hu1, hu2, hu3⟩ := hta.derives
      have hd := hw3.replace hu1
      have hpick : Picks (extendBy steps v) 0 (w ++ u ++ v) := by
        refine picks_append.2 ⟨picks_append.2 ⟨hpw, ?_⟩, ?_⟩
        · rw [Nat.zero_add]
          refine hu2.congr fun p h1 h2 => ?_
          rw [extendBy_lt (by omega)]
        · have : 0 + (w ++ u).length = steps.length := by simp; omega
          rw [this]; exact hpv
      obtain ⟨t, ht⟩ := hd.tree 0 hpick
      have hl : 0 + (w ++ u ++ v).length = steps.length + v.length := by simp; omega
      rw [hl] at ht
      obtain ⟨x, y, rfl⟩ := hf.tree trivial (by omega) t ht
      have hl0 : 0 < steps.length := List.length_pos_iff.2 hne
      generalize hnn : steps.length + v.length = nn at ht
      cases ht with
      | leaf hm =>
        rw [extendBy_lt hl0, inputOf_eq (List.getElem?_eq_getElem hl0)] at hm
        exact hstart _ (List.getElem_mem hl0) _ hm rfl
  rcases hends with ⟨_, _, h⟩ | ⟨_, h⟩
  · exact h.elim
  · exact h

/-- A session without hints that completes a symbol on a cycle at its last position diverges. -/
theorem session_cycle (hg : GrammarOK g R root) {steps : List Step} (hne : steps ≠ [])
    (hlen : steps.length < 2 ^ 64) (hok : StepsOK g steps) (hn : la = true → NoHints steps)
    (hstart : ∀ st ∈ steps, ∀ t ∈ st.2, t.1 ≠ g.startSym) {A : Nat}
    (hA : Completes R g.startSym (inputOf steps) steps.length A) (hcyc : OnCycle R A) (f : List PTree) :
    (Rec.new (treeEnv g la so) f >>= Rec.session (treeEnv g la so) steps) = diverge := by
  obtain ⟨a, t, hPa, hta⟩ := hA
  obtain ⟨w, v, hw1, hw2, hw3⟩ := hPa.viable
  subst hw2
  exact session_infinite (T := fun _ => False) hg ⟨fun _ _ _ _ h => h.elim, fun _ _ _ _ _ h => h.elim⟩ hne hlen hok hstart hw1 hw3
    (OnCycle.infinite hcyc hta) (fun hla => (hn hla).hintsOK) f

end

theorem Rec.sessionWith_append {σ ν : Type} {E : Env σ ν} {ca : Rec σ ν → M (Rec σ ν)} (pre post : List Step) (s : Rec σ ν) :
    Rec.sessionWith E ca (pre ++ post) s = (Rec.sessionWith E ca pre s >>= fun r =>
      if r.2 then Rec.sessionWith E ca post r.1 else pure (r.1, false)) := by
  induction pre generalizing s with
  | nil => simp [Rec.sessionWith]
  | cons st pre ih =>
    obtain ⟨h, toks⟩ := st
    simp only [List.cons_append, Rec.sessionWith, LawfulMonad.bind_assoc]
    congr 1
    funext ⟨s', ok⟩
    cases ok
    · simp
    · simp [ih]

end Gearley
