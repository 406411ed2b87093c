import Verif.Proofs.Parse

/-! # The chart holds exactly the Earley items -/

namespace Gearley
open Gearley.Spec

/-- A symbol in a derivable form, whose neighbours are matched with the input, is in context. -/
theorem Derives.ctx' {R : Rules} {start n : Nat} {inp : Input} {A u} (h : Derives R A u) :
    ∀ α X γ i k, u = α ++ X :: γ → Picks inp i α → Picks inp k γ → Ctx R start inp n A i (k + γ.length) →
      Ctx R start inp n X (i + α.length) k := by
  induction h with
  | refl A =>
    intro α X γ i k he hp hq hc
    cases α with
    | nil => simp only [List.nil_append, List.cons.injEq] at he; obtain ⟨rfl, rfl⟩ := he; simpa using hc
    | cons a α => simp at he
  | @unary r u hr h1 h2 ih =>
    intro α X γ i k he hp hq hc
    obtain ⟨d, hd⟩ := List.getElem?_of_mem hr
    obtain ⟨l, b, o⟩ := r
    simp only at h1; subst h1
    exact ih α X γ i k he hp hq (.unary hd hc)
  | @binary r C u v hr h1 h2 h3 ih1 ih2 =>
    intro α X γ i k he hp hq hc
    obtain ⟨d, hd⟩ := List.getElem?_of_mem hr
    obtain ⟨l, b, o⟩ := r
    simp only at h1; subst h1
    have hright : ∀ a', α = u ++ a' → v = a' ++ X :: γ → Ctx R start inp n X (i + α.length) k := by
      rintro a' rfl rfl
      obtain ⟨hp1, hp2⟩ := picks_append.1 hp
      obtain ⟨t1, ht1⟩ := h2.tree i hp1
      have := ih2 a' X γ (i + u.length) k rfl hp2 hq (.right hd hc ht1)
      rw [List.length_append, ← Nat.add_assoc]
      exact this
    rcases List.append_eq_append_iff.1 he with ⟨a', h4, h5⟩ | ⟨c', h4, h5⟩
    · exact hright a' h4 h5
    · cases c' with
      | nil =>
        simp only [List.append_nil] at h4
        simp only [List.nil_append] at h5
        exact hright [] (by simp [h4]) (by simp [h5])
      | cons x c' =>
        simp only [List.cons_append, List.cons.injEq] at h5
        obtain ⟨rfl, rfl⟩ := h5
        obtain ⟨hq1, hq2⟩ := picks_append.1 hq
        obtain ⟨t2, ht2⟩ := h3.tree (k + c'.length) hq2
        refine ih1 α X c' i k h4 hp hq1 (.left hd ?_ ht2)
        have : k + c'.length + v.length = k + (c' ++ v).length := by simp; omega
        rw [this]
        exact hc

section
variable {g : DefaultGrammar} {R : Rules} {root : Nat → Nat}

/-- Invariants for several inputs that agree on what is read are kept with the same correspondence of positions. -/
theorem session_family {ι : Type} (i0 : ι) (hg : GrammarOK g R root) {T : Nat → Prop} (hT : LookaheadOK g R T)
    {rank : Nat → Nat} (hrank : EC.Ranked R rank) {W : ι → Input} {n : ι → Nat} {P : ι → Nat → Nat → Prop}
    {St : Nat → Prop} (hP : ∀ i, PredOK R g.startSym (W i) (P i) St) {la sorter} :
    ∀ (steps : List (Rec.HintOp × List (Nat × Nat))) (s : TRec) (e : Nat) (S loc),
    (∀ i, InvAt g R (W i) (n i) True (P i) St s e S loc) →
    e + steps.length < 2 ^ 64 → StepsOK g steps → (∀ i, StepsIn (W i) e steps) →
    (∀ i, la = true → HintsOK (W i) (n i) T e s.lookahead steps) →
    Returns (Rec.session (treeEnv g la sorter) steps s) fun r =>
      r.2 = true → ∃ S' loc', ∀ i, InvAt g R (W i) (n i) True (P i) St r.1 (e + steps.length) S' loc' := by
  intro steps
  induction steps with
  | nil =>
    intro s e S loc h _ _ _ _
    exact returns_pure fun _ => ⟨S, loc, h⟩
  | cons st rest ih =>
    intro s e S loc h hlen hok hin hh
    obtain ⟨op, toks⟩ := st
    have htoks : ∀ i, W i e = toks := fun i => by simpa using hin i 0 (op, toks) (by simp)
    have hok0 := hok (op, toks) (by simp)
    simp only [List.length_cons] at hlen
    rw [Rec.session, Rec.sessionWith]
    have hpos := fun i => ((h i).hint op hok0.1).position hg hT hrank (hP i) (by omega) (by rw [htoks]; exact hok0.2)
      (la := la) (sorter := sorter) (by
      intro hH hla
      rw [applyHint_lookahead]
      exact (hh i hla).1)
    simp only [htoks] at hpos
    obtain ⟨⟨s1, ok⟩, heq, _⟩ := hpos i0
    have hpos' := fun i => (hpos i).of_eq heq
    unfold Rec.position at heq
    rw [heq, pure_bind]
    cases ok with
    | false => exact returns_pure fun h => by simp at h
    | true =>
      simp only [if_true]
      have hl1 : s1.lookahead = none := by
        rcases hpos' i0 with ⟨_, h2, _⟩ | ⟨h1, _⟩
        · exact h2
        · simp at h1
      obtain ⟨keep, cur', hk1, hkl, hinv0⟩ : ∃ keep cur', 1 ≤ keep ∧ keep ≤ S.length ∧
          InvAt g R (W i0) (n i0) True (P i0) St s1 (e + 1) (S.take keep ++ [cur']) (nextLoc loc keep e) := by
        rcases hpos' i0 with ⟨_, _, h3, _⟩ | ⟨h1, _⟩
        · exact h3
        · simp at h1
      have hinv : ∀ i, InvAt g R (W i) (n i) True (P i) St s1 (e + 1) (S.take keep ++ [cur']) (nextLoc loc keep e) := by
        intro i
        rcases hpos' i with ⟨_, _, ⟨keep', cur'', hk1', hkl', hinv'⟩, _⟩ | ⟨h1, _⟩
        · have heqS := Vec2d.ofSets_injective (hinv'.rest.medial.symm.trans hinv0.rest.medial)
          have hkk : keep' = keep := by
            have := congrArg List.length heqS
            simp at this
            omega
          subst hkk
          rw [heqS] at hinv'
          exact hinv'
        · simp at h1
      have hadd : e + 1 + rest.length = e + ((op, toks) :: rest).length := by simp; omega
      have := ih s1 (e + 1) _ _ hinv (by omega) (fun x hx => hok x (by simp [hx])) ?_ ?_
      · rw [hadd] at this
        exact this
      · intro i j st hst
        have := hin i (j + 1) st (by simpa using hst)
        rw [← this]; congr 1; omega
      · intro i hla; rw [hl1]; exact (hh i hla).2

theorem Pred.congr {start : Nat} {inp inp' : Input} {p X : Nat} (h : Pred R start inp p X)
    (he : ∀ q, q < p → inp q = inp' q) : Pred R start inp' p X := by
  obtain ⟨w, v, h1, h2, h3⟩ := pred_iff.1 h
  exact pred_iff.2 ⟨w, v, h1.congr fun q _ hq => he q (by omega), h2, h3⟩

/-- After a session without hints that got through, the last set holds exactly the Earley items. -/
theorem new_items (hg : GrammarOK g R root) {rank : Nat → Nat} (hrank : EC.Ranked R rank) {steps : List Step} {la sorter}
    (hlen : steps.length < 2 ^ 64) (hok : StepsOK g steps) (hn : la = true → NoHints steps) (f : List PTree) :
    Returns (Rec.new (treeEnv g la sorter) f >>= Rec.session (treeEnv g la sorter) steps) fun r =>
      r.2 = true → ∃ (S : List (List TItem)) (loc : List Nat) (last : List TItem), r.1.medial = Vec2d.ofSets S ∧ S.getLast? = some last ∧
        loc.length = S.length ∧ loc[0]? = some 0 ∧ loc.getLast? = some steps.length ∧ loc.Pairwise (· < ·) ∧
        (∀ it ∈ last, it.origin < S.length) ∧
        (∀ d a, (∃ it ∈ last, it.dot = d ∧ loc[it.origin]? = some a) ↔
          EarleyItem R g.startSym (inputOf steps) d a steps.length) ∧
        (TermToks R (inputOf steps) → EC.Ordered R → (last.map dotOrigin).Nodup) := by
  have hT : LookaheadOK g R (fun _ => False) := ⟨fun _ _ _ _ h => h.elim, fun _ _ _ _ _ h => h.elim⟩
  obtain ⟨s0, hnew, hs0⟩ := new_spec (n := steps.length) (H := True) (la := la) (sorter := sorter) hg
    (pred_predOK (R := R) g.startSym (extendBy steps [])) f
  have hs : ∀ v : List Nat, InvAt g R (extendBy steps v) (steps.length + v.length) True
      (Pred R g.startSym (extendBy steps v)) (fun _ => False) s0 0 [[]] [0] := fun v =>
    ((new_spec (n := steps.length + v.length) (H := True) (la := la) (sorter := sorter) hg
      (pred_predOK (R := R) g.startSym (extendBy steps v)) f).of_eq hnew).1
  rw [hnew, pure_bind]
  refine (session_family (ι := List Nat) [] hg hT hrank (fun v => pred_predOK g.startSym (extendBy steps v)) steps s0 0 _ _
    hs (by omega) hok (fun v => extendBy_in _ _) fun v hla => by rw [hs0.2]; exact (hn hla).hintsOK).mono ?_
  rintro ⟨s, ok⟩ h hok1
  obtain ⟨S, loc, hinv⟩ := h hok1
  simp only [Nat.zero_add] at hinv
  have h0 := hinv []
  obtain ⟨S', last, hSe⟩ : ∃ S' last, S = S' ++ [last] := by
    have := h0.rest.pos
    exact ⟨S.dropLast, S.getLast (by intro h; simp [h] at this), (List.dropLast_concat_getLast _).symm⟩
  have hlastS : S[S.length - 1]? = some last := by rw [hSe]; simp
  have hmem : last ∈ S := List.mem_of_getElem? hlastS
  refine ⟨S, loc, last, h0.rest.medial, ?_, h0.sound.locLen, h0.sound.loc0, ?_, h0.sound.mono, ?_, ?_, ?_⟩
  · rw [hSe]; simp
  · rw [List.getLast?_eq_getElem?, h0.sound.locLen]; exact h0.sound.last
  · intro it hit
    have := h0.rest.origin _ last hlastS it hit
    omega
  · intro d a
    constructor
    · rintro ⟨it, hit, rfl, ha⟩
      obtain ⟨t, ts, hte⟩ := List.exists_cons_of_ne_nil (h0.rest.node last hmem it hit)
      obtain ⟨A, B, C, a', b, e1, e2, e3, e4, e5⟩ := h0.sound.fact _ last hlastS (it.dot, it.origin, t)
        (mem_facts.2 ⟨it, hit, rfl, rfl, by rw [hte]; simp⟩)
      simp only at e1 e2 e4
      rw [ha] at e2
      simp only [Option.some.injEq] at e2
      subst e2
      rw [h0.sound.last] at e3
      simp only [Option.some.injEq] at e3
      subst e3
      have hle := e4.lt
      exact ⟨A, B, C, t, e1, Pred.congr e5 fun q hq => extendBy_lt (by omega), (extendBy_tree (Nat.le_refl _)).1 e4⟩
    · rintro ⟨A, B, C, t, e1, e2, e3⟩
      obtain ⟨w, v, hw1, hw2, hw3⟩ := pred_iff.1 e2
      have hlt := e3.lt
      have hi := hinv (C :: v)
      obtain ⟨hfull, _⟩ := hi.full trivial
      have hpw : Picks (extendBy steps (C :: v)) 0 w := (extendBy_picks (by omega)).2 hw1
      obtain ⟨⟨x, hx⟩, htail⟩ := extendBy_tail steps (C :: v)
      have hctx := Derives.ctx' hw3 (start := g.startSym) (n := steps.length + (C :: v).length) (inp := extendBy steps (C :: v))
        w A v 0 (steps.length + 1) rfl hpw htail (by
          rw [show steps.length + 1 + v.length = steps.length + (C :: v).length by simp; omega]; exact .root)
      rw [Nat.zero_add, hw2] at hctx
      obtain ⟨o, ho, hf⟩ := hfull.item _ last _ hlastS hi.sound.last d a t
        ⟨A, B, C, steps.length + 1, .leaf C x, e1, hctx, (extendBy_tree (Nat.le_refl _)).2 e3, .leaf hx⟩
      obtain ⟨it, hit, f1, f2, _⟩ := mem_facts.1 hf
      simp only at f1 f2
      exact ⟨it, hit, f1.symm, by rw [← f2]; exact ho⟩
  · intro htt hord
    rw [List.nodup_iff_count_le_one]
    rintro ⟨d, o⟩
    by_cases hx : (d, o) ∈ last.map dotOrigin
    · obtain ⟨it, hit, he⟩ := List.mem_map.1 hx
      obtain ⟨A, B, C, hR⟩ := h0.rest.binary last hmem it hit
      simp only [dotOrigin, Prod.mk.injEq] at he
      refine h0.ordered hord (extendBy_term htt (by simp)) last hmem d o ⟨B, ?_⟩
      simp [rhs0Of, ← he.1, hR]
    · rw [List.count_eq_zero.2 hx]; omega

end
end Gearley
