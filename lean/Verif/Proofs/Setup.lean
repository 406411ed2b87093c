import Verif.Spec.Setup
import Verif.Proofs.Drivers
import Verif.Proofs.Tables

/-! # From the preconditions to the invariants -/

namespace Gearley
open Gearley.Spec Gearley.Build
variable {σ ν : Type}

/-! ### FIRST and FOLLOW -/

theorem _root_.Gearley.Spec.FirstClosed.first {R : Rules} {first : List (Nat × List Nat)} (h : FirstClosed R first) {C : Nat} {w : List Nat}
    (hd : Derives R C w) : ∀ t u, w = t :: u → Terminal R t → t ≠ C → ∃ p ∈ first, p.1 = C ∧ t ∈ p.2 := by
  have step : ∀ r ∈ R, ∀ t, Terminal R t → (t ≠ r.rhs0 → ∃ p ∈ first, p.1 = r.rhs0 ∧ t ∈ p.2) →
      ∃ p ∈ first, p.1 = r.lhs ∧ t ∈ p.2 := by
    intro r hr t ht hq
    obtain ⟨p, hp, h1, h2, h3⟩ := h r hr
    by_cases he : t = r.rhs0
    · subst he; exact ⟨p, hp, h1, h2 ht⟩
    · obtain ⟨q, hq1, hq2, hq3⟩ := hq he
      exact ⟨p, hp, h1, h3 q hq1 hq2 t hq3⟩
  induction hd with
  | refl A =>
    intro t u he _ hne
    simp only [List.cons.injEq] at he
    exact absurd he.1.symm hne
  | @unary r w hr _ _ ih =>
    intro t u he ht _
    exact step r hr t ht fun hne => ih t u he ht hne
  | @binary r C w1 w2 hr _ h1 _ ih1 _ =>
    intro t u he ht _
    refine step r hr t ht fun hne => ?_
    cases w1 with
    | nil => exact absurd rfl h1.ne_nil
    | cons a w1 =>
      simp only [List.cons_append, List.cons.injEq] at he
      obtain ⟨rfl, _⟩ := he
      exact ih1 a w1 rfl ht hne

theorem _root_.Gearley.Spec.FirstClosed.ok {R : Rules} {first : List (Nat × List Nat)} (h : FirstClosed R first) (n : Nat) :
    FirstSetsOK R n first := fun C t u _ _ ht hne hd => h.first hd t u rfl ht hne

/-- Splitting a list at two adjacent elements. -/
theorem split_two {α} {u v x y : List α} {a b : α} (h : u ++ v = x ++ a :: b :: y) :
    (∃ y', u = x ++ a :: b :: y') ∨ (u = x ++ [a] ∧ v = b :: y) ∨ (∃ x', v = x' ++ a :: b :: y) := by
  rcases List.append_eq_append_iff.1 h with ⟨z, rfl, h2⟩ | ⟨z, h1, h2⟩
  · exact .inr (.inr ⟨z, h2⟩)
  · cases z with
    | nil => simp only [List.nil_append] at h2; exact .inr (.inr ⟨[], by simpa using h2.symm⟩)
    | cons a' z =>
      simp only [List.cons_append, List.cons.injEq] at h2
      obtain ⟨rfl, h2⟩ := h2
      cases z with
      | nil => exact .inr (.inl ⟨h1, by simpa using h2.symm⟩)
      | cons b' z =>
        simp only [List.cons_append, List.cons.injEq] at h2
        obtain ⟨rfl, h2⟩ := h2
        exact .inl ⟨z, h1⟩

theorem split_last {α} {u v x : List α} {a : α} (h : u ++ v = x ++ [a]) (hv : v ≠ []) : ∃ x', v = x' ++ [a] := by
  obtain ⟨y, b, rfl⟩ : ∃ y b, v = y ++ [b] := ⟨v.dropLast, v.getLast hv, (List.dropLast_append_getLast hv).symm⟩
  rw [← List.append_assoc] at h
  have := List.append_inj_right' h rfl
  simp only [List.cons.injEq, and_true] at this
  exact ⟨y, by rw [this]⟩

theorem _root_.Gearley.Spec.FollowClosed.follow {R : Rules} {first follow : List (Nat × List Nat)} (h1 : FirstClosed R first)
    (h2 : FollowClosed R first follow) {X : Nat} {w : List Nat} (hd : Derives R X w) :
    (∀ α A t β, w = α ++ A :: t :: β → Terminal R t → ∃ p ∈ follow, p.1 = A ∧ t ∈ p.2) ∧
    (∀ α A s, w = α ++ [A] → (∃ p ∈ follow, p.1 = X ∧ s ∈ p.2) → ∃ p ∈ follow, p.1 = A ∧ s ∈ p.2) := by
  induction hd with
  | refl B =>
    refine ⟨fun α A t β he _ => ?_, fun α A s he hs => ?_⟩
    · have := congrArg List.length he
      simp at this
      omega
    · cases α with
      | nil => simp only [List.nil_append, List.cons.injEq, and_true] at he; subst he; exact hs
      | cons a α => simp at he
  | @unary r w hr hn hd ih =>
    refine ⟨ih.1, fun α A s he hs => ih.2 α A s he ?_⟩
    have := h2 r hr
    rw [hn] at this
    obtain ⟨p, hp, hp1, hp2⟩ := this
    obtain ⟨q, hq, hq1, hq2⟩ := hs
    exact ⟨p, hp, hp1, hp2 q hq hq1 s hq2⟩
  | @binary r C w1 w2 hr hn hd1 hd2 ih1 ih2 =>
    have := h2 r hr
    rw [hn] at this
    obtain ⟨⟨p, hp, hp1, hp2, hp3⟩, p', hp', hp1', hp2'⟩ := this
    refine ⟨fun α A t β he ht => ?_, fun α A s he hs => ?_⟩
    · rcases split_two he with ⟨y, hy⟩ | ⟨hu, hv⟩ | ⟨x, hx⟩
      · exact ih1.1 α A t y hy ht
      · refine ih1.2 α A t hu ⟨p, hp, hp1, ?_⟩
        by_cases hC : t = C
        · rw [hC] at ht ⊢; exact hp2 ht
        · obtain ⟨q, hq, hq1, hq2⟩ := h1.first hd2 t β hv ht hC
          exact hp3 q hq hq1 t hq2
      · exact ih2.1 x A t β hx ht
    · obtain ⟨x, hx⟩ := split_last he hd2.ne_nil
      refine ih2.2 x A s hx ⟨p', hp', hp1', ?_⟩
      obtain ⟨q, hq, hq1, hq2⟩ := hs
      exact hp2' q hq hq1 s hq2

theorem _root_.Gearley.Spec.FollowClosed.ok {R : Rules} {first follow : List (Nat × List Nat)} (h1 : FirstClosed R first)
    (h2 : FollowClosed R first follow) (n start : Nat) : FollowSetsOK R n start follow :=
  fun A t α β _ _ ht hd => (FollowClosed.follow h1 h2 hd).1 α A t β rfl ht

/-! ### Building -/

theorem nulling_of_built {c : Cfg} {maps : Mapping} {nulling : Cfg} {first follow : List (Nat × List Nat)}
    {g : DefaultGrammar} (h : fromProcessed c maps nulling first follow = pure g) :
    ∃ ni, nullingIntermediate maps nulling = pure ni := by
  unfold fromProcessed fromProcessedWith at h
  obtain ⟨_, _, h⟩ := bind_eq_pure h
  obtain ⟨_, _, h⟩ := bind_eq_pure h
  obtain ⟨_, _, h⟩ := bind_eq_pure h
  obtain ⟨_, _, h⟩ := bind_eq_pure h
  obtain ⟨_, _, h⟩ := bind_eq_pure h
  obtain ⟨_, _, h⟩ := bind_eq_pure h
  obtain ⟨_, _, h⟩ := bind_eq_pure h
  obtain ⟨_, _, h⟩ := bind_eq_pure h
  obtain ⟨_, _, h⟩ := bind_eq_pure h
  obtain ⟨_, _, h⟩ := bind_eq_pure h
  obtain ⟨_, _, h⟩ := bind_eq_pure h
  obtain ⟨_, _, h⟩ := bind_eq_pure h
  obtain ⟨ni, hni, _⟩ := bind_eq_pure h
  exact ⟨ni, hni⟩

theorem built_ok {c : Cfg} {n : Nat} {w : WrappedRoot} {depth : Nat → Nat} (hc : ProcessedOK c n w depth) {maps : Mapping}
    {nulling : Cfg} {first follow : List (Nat × List Nat)} {g : DefaultGrammar}
    (h : fromProcessed c maps nulling first follow = pure g) :
    ∃ root, BuiltOK c n w maps nulling first follow g root := by
  obtain ⟨g', root, h1, h2⟩ := fromProcessed_ok hc (first := first) (follow := follow) (nulling_of_built h)
  rw [h] at h1
  have := pure_inj_M h1
  subst this
  exact ⟨root, h2⟩

theorem BuiltOK.dots {c : Cfg} {n : Nat} {w : WrappedRoot} {maps : Mapping}
    {nulling : Cfg} {first follow : List (Nat × List Nat)} {g : DefaultGrammar} {root : Nat → Nat}
    (h : BuiltOK c n w maps nulling first follow g root) {okDot : Nat → Prop} (hd : ∀ d, d < c.rules.length → okDot d)
    (hn : n ≤ c.numSyms) : DotsOK g okDot := by
  have lt : ∀ d r, (rulesOf c)[d]? = some r → d < c.rules.length := by
    intro d r hr
    have := (List.getElem?_eq_some_iff.1 hr).1
    simpa [rulesOf] using this
  have gens : ∀ sym e, g.genCompletion sym = pure e →
      e.1.toList = binTrans (rulesOf c) root sym ∧ e.2.toList = unTrans (rulesOf c) root sym := by
    intro sym e he
    obtain ⟨h1, h2⟩ := h.genRange sym e he
    obtain ⟨b, u, hbu, hb, hu⟩ := h.ok.gens sym (by rw [h.syms]; exact h1) (by rw [h.syms, h.gensyms]; omega)
    rw [he] at hbu
    have := pure_inj_M hbu
    subst this
    exact ⟨hb, hu⟩
  constructor
  · intro sym ts hts t ht
    have hlt := h.compRange sym ts hts
    rw [h.ok.comps sym (by rw [h.syms]; exact hlt)] at hts
    have := pure_inj_M hts
    subst this
    rcases List.mem_append.1 ht with ht | ht
    · obtain ⟨r, hr, _⟩ := mem_binTrans.1 ht; exact hd _ (lt _ _ hr)
    · obtain ⟨r, hr, _⟩ := mem_unTrans.1 ht; exact hd _ (lt _ _ hr)
  · intro sym e t he ht
    have : t ∈ e.1.toList := by simp [ht]
    rw [(gens sym e he).1] at this
    obtain ⟨r, hr, _⟩ := mem_binTrans.1 this; exact hd _ (lt _ _ hr)
  · intro sym e t he ht
    have : t ∈ e.2.toList := by simp [ht]
    rw [(gens sym e he).2] at this
    obtain ⟨r, hr, _⟩ := mem_unTrans.1 this; exact hd _ (lt _ _ hr)

/-- Everything the invariants need, except termination. -/
structure Ready0 (c : Cfg) (n : Nat) (w : WrappedRoot) (g : DefaultGrammar) (root : Nat → Nat) (g0 : Nat) : Prop where
  ok : GrammarOK g (rulesOf c) root
  look : LookaheadOK g (rulesOf c) (fun t => t < n ∧ Terminal (rulesOf c) t)
  rule : (rulesOf c)[g.dotBeforeEof]? = some ⟨g.startSym, g0, some g.eofSym⟩
  dots : ∀ {okDot : Nat → Prop}, (∀ d, d < c.rules.length → okDot d) → DotsOK g okDot
  syms : g.syms = n
  all : g.syms + g.gensyms = c.numSyms
  start : g.startSym = w.root
  sof : g.sofSym = w.sof
  eof : g.eofSym = w.eof

/-- Everything the invariants need. -/
structure Ready (c : Cfg) (n : Nat) (w : WrappedRoot) (g : DefaultGrammar) (root rank : Nat → Nat) (g0 : Nat) : Prop
    extends Ready0 c n w g root g0 where
  ranked : EC.Ranked (rulesOf c) rank

theorem _root_.Gearley.Spec.Prepared.ready0 {c : Cfg} {n : Nat} {w : WrappedRoot} {g : DefaultGrammar}
    (h : Prepared c n w g) : ∃ root g0, Ready0 c n w g root g0 := by
  obtain ⟨depth, hc⟩ := h.processed
  obtain ⟨maps, nulling, first, follow, hb, hf1, hf2⟩ := h.tables
  obtain ⟨root, hB⟩ := built_ok hc hb
  obtain ⟨g0, hg0⟩ := hB.ok.startRule
  refine ⟨root, g0, hB.ok, ?_, hg0, fun hd => hB.dots hd hc.syms_le, hB.syms, ?_, hB.startSym, hB.sofSym, hB.eofSym⟩
  · have := hB.lookahead hf1 hf2
    rw [hB.syms] at this
    exact this
  · rw [hB.syms, hB.gensyms]
    have := hc.syms_le
    omega

theorem _root_.Gearley.Spec.Built.ready {c : Cfg} {n : Nat} {w : WrappedRoot} {g : DefaultGrammar} (h : Built c n w g) :
    ∃ root rank g0, Ready c n w g root rank g0 := by
  obtain ⟨root, g0, h0⟩ := h.toPrepared.ready0
  obtain ⟨rank, hr⟩ := h.acyclic
  exact ⟨root, rank, g0, h0, hr⟩

section
variable {c : Cfg} {n : Nat} {w : WrappedRoot} {g : DefaultGrammar} {root rank : Nat → Nat} {g0 : Nat}

/-- The start symbol derives nothing that ends in the end marker but what its rule says. -/
theorem GrammarOK.wrapped {R : Rules} (hg : GrammarOK g R root)
    (hg0 : R[g.dotBeforeEof]? = some ⟨g.startSym, g0, some g.eofSym⟩) {v : List Nat} :
    Derives R g.startSym (v ++ [g.eofSym]) ↔ Derives R g0 v := by
  have key : ∀ A x, Derives R A x → ∀ α β, x = α ++ g.eofSym :: β →
      A = g.eofSym ∨ (A = g.startSym ∧ β = [] ∧ Derives R g0 α) := by
    intro A x hd
    induction hd with
    | refl A =>
      intro α β he
      cases α with
      | nil => simp only [List.nil_append, List.cons.injEq] at he; exact .inl he.1
      | cons a α => simp at he
    | @unary r u hr _ hd ih =>
      intro α β he
      rcases ih α β he with h | ⟨h, _⟩
      · exact absurd h (hg.eofNot0 r hr)
      · exact absurd h (hg.startNot0 r hr)
    | @binary r C u x hr hC h1 h2 ih1 ih2 =>
      intro α β he
      rcases List.append_eq_append_iff.1 he with ⟨z, rfl, hx⟩ | ⟨z, hu, hx⟩
      · rcases ih2 z β hx with h | ⟨h, _⟩
        · obtain ⟨d, hd⟩ := List.getElem?_of_mem hr
          rw [h] at hC
          have := hg.eofOnce d r hd hC
          rw [this, hg0] at hd
          have hr' := Option.some.inj hd
          subst hr'
          have h2' := h2
          rw [h] at h2'
          have hx' : x = [g.eofSym] := by
            generalize hq : g.eofSym = q at h2'
            cases h2' with
            | refl => rfl
            | unary hr2 _ _ => exact absurd hq.symm (hg.eofTerm _ hr2)
            | binary hr2 _ _ _ => exact absurd hq.symm (hg.eofTerm _ hr2)
          rw [hx'] at hx
          cases z with
          | nil =>
            simp only [List.nil_append, List.cons.injEq, true_and] at hx
            exact .inr ⟨rfl, hx.symm, by simpa using h1⟩
          | cons a z => simp at hx
        · rw [h] at hC; exact absurd hC (hg.startNot1 r hr)
      · cases z with
        | nil =>
          simp only [List.nil_append] at hx
          rw [List.append_nil] at hu
          rcases ih2 [] β (by simpa using hx.symm) with h | ⟨h, _⟩
          · obtain ⟨d, hd⟩ := List.getElem?_of_mem hr
            rw [h] at hC
            have := hg.eofOnce d r hd hC
            rw [this, hg0] at hd
            have hr' := Option.some.inj hd
            subst hr'
            have h2' := h2
            rw [h] at h2'
            have hx' : x = [g.eofSym] := by
              generalize hq : g.eofSym = q at h2'
              cases h2' with
              | refl => rfl
              | unary hr2 _ _ => exact absurd hq.symm (hg.eofTerm _ hr2)
              | binary hr2 _ _ _ => exact absurd hq.symm (hg.eofTerm _ hr2)
            rw [hx'] at hx
            simp only [List.cons.injEq, true_and] at hx
            exact .inr ⟨rfl, hx, by rw [← hu]; exact h1⟩
          · rw [h] at hC; exact absurd hC (hg.startNot1 r hr)
        | cons b z =>
          simp only [List.cons_append, List.cons.injEq] at hx
          obtain ⟨rfl, _⟩ := hx
          rcases ih1 α z hu with h | ⟨h, _⟩
          · exact absurd h (hg.eofNot0 r hr)
          · exact absurd h (hg.startNot0 r hr)
  constructor
  · intro h
    rcases key _ _ h v [] rfl with h' | ⟨_, _, h'⟩
    · exact absurd h' (hg.eofTerm _ (List.mem_of_getElem? hg0))
    · exact h'
  · intro h
    exact .binary (r := ⟨g.startSym, g0, some g.eofSym⟩) (List.mem_of_getElem? hg0) rfl h (.refl _)

theorem Ready0.accepts (h : Ready0 c n w g root g0) {steps : List Step} :
    Accepts (rulesOf c) g0 steps ↔ ∃ u, u.length = steps.length ∧ Picks (inputOf steps) 0 u ∧
      Derives (rulesOf c) w.root (u ++ [w.eof]) := by
  unfold Accepts
  rw [← h.start, ← h.eof]
  simp only [h.ok.wrapped h.rule]

end
end Gearley
