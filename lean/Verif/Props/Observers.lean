import Verif.Props.Chart
import Verif.Props.Independence
import Verif.Examples.Nullable
import Verif.Examples.Empty

/-!
# C27, C28, C29: what a client can ask in between
-/

namespace Gearley.Spec

/-- `A` derives the empty string. -/
inductive Nulls (rules : List CfgRule) : Nat → Prop
  | rule {r : CfgRule} : r ∈ rules → (∀ s ∈ r.rhs, Nulls rules s) → Nulls rules r.lhs

end Gearley.Spec

namespace Gearley.Props
open Gearley.Spec
variable {σ ν : Type} {c : Cfg} {n : Nat} {w : WrappedRoot} {E : Env σ ν} {f : σ}

/-! ### C27 -/

/-- Before any token, `is_finished` tells whether there is any rule in the grammar of nulling rules. -/
theorem C27_fresh {depth : Nat → Nat} {maps : Mapping} {nulling : Cfg} {first follow : List (Nat × List Nat)}
    (hc : ProcessedOK c n w depth) (hb : fromProcessed c maps nulling first follow = pure E.g)
    (hmap : maps.toExternal = [] ∨ w.innerRoot < maps.toExternal.length) (hnull : ∀ A, ∃ x, E.F.nulling f A = pure x) :
    ∃ s b, Rec.new E f = pure s ∧ Rec.isFinished E s = pure b ∧ (b = true ↔ nulling.rules ≠ []) := by
  obtain ⟨root, hB⟩ := built_ok hc hb
  have hst : E.g.startSym < n := by rw [hB.startSym]; exact hc.start_lt
  obtain ⟨row, hrow, hlen, _⟩ := hB.ok.predRow E.g.startSym (by rw [hB.syms]; exact hst)
  obtain ⟨s, hs, h1, h2⟩ : ∃ s, Rec.new E f = pure s ∧ s.medial = Vec2d.new ∧ s.forest = f := by
    have h0 : (BitMatrix.new 8 E.g.syms).row 0 = pure (List.replicate E.g.syms false) := rfl
    have h1 : indexM (List.replicate E.g.syms false) E.g.startSym = pure false := by
      refine indexM_eq ?_
      rw [List.getElem?_replicate, if_pos (by rw [hB.syms]; exact hst)]
    refine ⟨{ forest := f, predicted := ⟨E.g.syms, (BitMatrix.new 8 E.g.syms).rows.set 0
      (BitMatrix.orRow (List.replicate E.g.syms false) row)⟩, medial := Vec2d.new, complete := [] }, ?_, rfl, rfl⟩
    unfold Rec.new Rec.predictIn predictRow
    rw [h0, pure_bind, hrow, pure_bind, h1, pure_bind]
    rfl
  have hearl : s.earleme = maxUsize := by
    unfold Rec.earleme; rw [h1]; rfl
  have htr := hB.trivial
  by_cases hz : nulling.rules = []
  · refine ⟨s, false, hs, ?_, by simp [hz]⟩
    unfold Rec.isFinished Rec.finishedNode
    rw [htr, hz, h1]
    rfl
  · have hext : ∃ x, E.g.externalizedStartSym = pure x := by
      unfold DefaultGrammar.externalizedStartSym DefaultGrammar.toExternal
      rw [hB.maps, hB.inner]
      rcases hmap with h | h
      · rw [if_pos h]; exact ⟨_, rfl⟩
      · split
        · exact ⟨_, rfl⟩
        · rw [indexM_lt h]; exact ⟨_, rfl⟩
    obtain ⟨x, hx⟩ := hext
    obtain ⟨y, hy⟩ := hnull x
    refine ⟨s, true, hs, ?_, by simp [hz]⟩
    unfold Rec.isFinished Rec.finishedNode
    have hcond : (E.g.hasTrivialDerivation && s.earleme == maxUsize) = true := by
      rw [htr, hearl]
      cases hr : nulling.rules with
      | nil => exact absurd hr hz
      | cons _ _ => rfl
    rw [if_pos hcond, hx, pure_bind, h2, hy]
    rfl

/-- C27 (partial). If the root derives the empty string, `is_finished` is true on a fresh recognizer; if there is no rule for
the empty string at all, it is false. Missing: false when the root does not derive the empty string but another symbol does, see `C27_not_the_root`. -/
theorem C27_partial {depth : Nat → Nat} {maps : Mapping} {nulling : Cfg} {first follow : List (Nat × List Nat)}
    (hc : ProcessedOK c n w depth) (hb : fromProcessed c maps nulling first follow = pure E.g)
    (hmap : maps.toExternal = [] ∨ w.innerRoot < maps.toExternal.length) (hnull : ∀ A, ∃ x, E.F.nulling f A = pure x) :
    ∃ s b, Rec.new E f = pure s ∧ Rec.isFinished E s = pure b ∧
      (Nulls nulling.rules w.innerRoot → b = true) ∧ (nulling.rules = [] → b = false) := by
  obtain ⟨s, b, h1, h2, h3⟩ := C27_fresh hc hb hmap hnull
  refine ⟨s, b, h1, h2, ?_, ?_⟩
  · intro hn
    refine h3.2 fun he => ?_
    generalize w.innerRoot = A at hn
    obtain ⟨h, _⟩ := hn
    rw [he] at h
    simp at h
  · intro he
    cases b with
    | false => rfl
    | true => exact absurd he (h3.1 rfl)


theorem not_nulls_of_no_rule {rules : List CfgRule} {A : Nat} (h : ∀ r ∈ rules, r.lhs ≠ A) : ¬ Nulls rules A := by
  rintro ⟨h1, _⟩
  exact h _ h1 rfl

/-- The environment of the grammar `S ::= a X`, `X ::= x | ε`. -/
def nullableEnv : Env Unit Unit := { g := Example.Nullable.grammar, F := nullForest, sorter := Example.sorter }

/-- The other direction fails: with `S ::= a X`, `X ::= x | ε`, a fresh recognizer is finished although the root `S` does not
derive the empty string. -/
theorem C27_not_the_root : ¬ Nulls Example.Nullable.nulling.rules Example.Nullable.wrap.innerRoot ∧
    ∃ s, Rec.new nullableEnv () = pure s ∧ Rec.isFinished nullableEnv s = pure true := by
  refine ⟨not_nulls_of_no_rule (by decide), ?_⟩
  obtain ⟨s, b, h1, h2, h3⟩ := C27_fresh (E := nullableEnv) (f := ()) Example.Nullable.processed Example.Nullable.grammar_eq
    (.inl rfl) fun _ => ⟨(), rfl⟩
  cases h3.2 (by decide)
  exact ⟨s, h1, h2⟩

-- a root that derives the empty string
example : Nulls Example.Empty.nulling.rules Example.Empty.wrap.innerRoot :=
  .rule (r := { lhs := 4, rhs := [], origin := some 1, dots := Example.dots3 }) (by decide) (by simp)

/-! ### C28 -/

theorem mapM_forall₂ {α β : Type} {f : α → M β} {l : List α} {m : List β} (h : l.mapM f = pure m) :
    List.Forall₂ (fun a b => f a = pure b) l m := by
  induction l generalizing m with
  | nil => cases pure_inj_M h; exact .nil
  | cons a l ih =>
    rw [List.mapM_cons] at h
    obtain ⟨b, hb, h⟩ := bind_eq_pure h
    obtain ⟨bs, hbs, h⟩ := bind_eq_pure h
    cases pure_inj_M h
    exact .cons hb (ih hbs)

theorem forall₂_imp_mem {α β : Type} {R S : α → β → Prop} {l : List α} {m : List β} (h : List.Forall₂ R l m)
    (hi : ∀ a ∈ l, ∀ b, R a b → S a b) : List.Forall₂ S l m := by
  induction h with
  | nil => exact .nil
  | cons h _ ih => exact .cons (hi _ (by simp) _ h) (ih fun a ha => hi a (by simp [ha]))

theorem mapM_panic {α β : Type} {f : α → M β} {p : Panic} {l : List α} (h : ∀ a ∈ l, (∃ b, f a = pure b) ∨ f a = panicM p)
    (hp : ∃ a ∈ l, f a = panicM p) : l.mapM f = panicM p := by
  induction l with
  | nil => simp at hp
  | cons a l ih =>
    rw [List.mapM_cons]
    rcases h a (by simp) with ⟨b, hb⟩ | hb
    · rw [hb, pure_bind, ih (fun x hx => h x (by simp [hx]))]
      · rfl
      · obtain ⟨x, hx, hxp⟩ := hp
        rcases List.mem_cons.1 hx with rfl | hx
        · exact absurd (hb.symm.trans hxp).symm panicM_ne_pure
        · exact ⟨x, hx, hxp⟩
    · rw [hb]; rfl

theorem mapM_of_forall {α β : Type} {f : α → M β} {l : List α} (h : ∀ a ∈ l, ∃ b, f a = pure b) : ∃ m, l.mapM f = pure m := by
  induction l with
  | nil => exact ⟨[], rfl⟩
  | cons a l ih =>
    obtain ⟨b, hb⟩ := h a (by simp)
    obtain ⟨m, hm⟩ := ih fun x hx => h x (by simp [hx])
    exact ⟨b :: m, by rw [List.mapM_cons, hb, pure_bind, hm]; rfl⟩

/-- What a client sees after a session that got through: predicted symbols and items of the current set. -/
theorem session_view (hB : Built c n w E.g) (hleo : E.leo = false)
    (hF : SafeStart E.F f c.rules.length c.numSyms) {steps : List Step} (htok : TokensOK c.numSyms steps)
    (hin : HintsIn n steps) (hlen : steps.length + 1 < 2 ^ 64) :
    ∃ r, (Rec.new E f >>= Rec.session E steps) = pure r ∧ (r.2 = true →
      ∃ syms items, r.1.beginEarleme.predictedSymbols = pure syms ∧ r.1.beginEarleme.medialItems = pure items ∧
        (∀ A ∈ syms, A < n) ∧ ∀ it ∈ items, ∃ A B C, (rulesOf c)[it.dot]? = some ⟨A, B, some C⟩) := by
  obtain ⟨root, rank, g0, hR⟩ := hB.ready
  obtain ⟨r, h, r0, hq, hr0, hpred, hml, hmed, _⟩ := safe_run hleo hR hF htok fun f0 =>
    new_rest (la := E.lookahead) (sorter := E.sorter) hR.ok hR.ranked (by omega) (stepsOK_of hR htok hin) f0
  refine ⟨r, h, fun ht => ?_⟩
  obtain ⟨S, hrest, hSl, _, _⟩ := hq (hr0 ▸ ht)
  have hpos := hrest.pos
  obtain ⟨S', last, hSe⟩ : ∃ S' last, S = S' ++ [last] :=
    ⟨S.dropLast, S.getLast (by intro h; simp [h] at hpos), (List.dropLast_concat_getLast _).symm⟩
  have hmlen : r.1.medial.len = S.length := by rw [hml, hrest.medial, Vec2d.len_eq]
  have hearl : r.1.beginEarleme.earleme = S.length - 1 := by
    have : r.1.beginEarleme.medial.len = S.length + 1 := by
      rw [← hmlen]; simp [Rec.beginEarleme, Vec2d.nextSet, Vec2d.len]
    rw [Rec.earleme, this, wrappingSub2, if_pos (by omega)]
    omega
  have htree : r0.1.medial.nextSet.index (S.length - 1) = pure last := by
    rw [hrest.medial, Vec2d.nextSet_eq]
    refine Vec2d.index_eq _ _ _ (by simp; omega) ?_
    subst hSe
    simp
  obtain ⟨items, h9, h10⟩ := (hmed.nextSet.index (lax := False) (S.length - 1)).returns htree
  have hrows := hrest.rows
  have hlt : S.length - 1 < r.1.predicted.rows.length := by rw [hpred]; omega
  refine ⟨_, items, predictedSymbols_eq.2 ⟨r.1.predicted.rows[S.length - 1], ?_, rfl⟩, ?_, ?_, ?_⟩
  · rw [hearl]; exact List.getElem?_eq_getElem hlt
  · unfold Rec.medialItems; rw [hearl]; exact h9
  · intro A hA
    rw [mem_bits] at hA
    obtain ⟨hA, _⟩ := List.getElem?_eq_some_iff.1 hA
    have := hrest.rowLen r.1.predicted.rows[S.length - 1] (by rw [← hpred]; exact List.getElem_mem hlt)
    rw [hR.syms] at this
    omega
  · intro it hit
    obtain ⟨it', hit', hii⟩ := forall₂_mem h10 hit
    rw [hii.1]
    exact hrest.binary last (by rw [hSe]; simp) it' hit'

/-- C28, `trace`. After any session that got through and `begin_earleme`, `trace` yields one entry for every predicted symbol,
with the current set as origin and the dotted rule recorded for the prediction of that symbol; then one entry for every item
of the current set, with the item's origin and the dotted rule recorded for the item's rule with the dot after the first
symbol. -/
theorem C28_trace (hB : Built c n w E.g) (hleo : E.leo = false)
    (hF : SafeStart E.F f c.rules.length c.numSyms) {steps : List Step} (htok : TokensOK c.numSyms steps)
    (hin : HintsIn n steps) (hlen : steps.length + 1 < 2 ^ 64) :
    ∃ r, (Rec.new E f >>= Rec.session E steps) = pure r ∧ (r.2 = true →
      ∃ syms items a b, r.1.beginEarleme.predictedSymbols = pure syms ∧ r.1.beginEarleme.medialItems = pure items ∧
        Rec.trace E r.1.beginEarleme = pure (a ++ b) ∧
        List.Forall₂ (fun sym x => x.2 = r.1.beginEarleme.earleme ∧ ∃ d, StartDot c.rules sym d ∧ x.1 = d.trace) syms a ∧
        List.Forall₂ (fun it x => x.2 = it.origin ∧ ∃ rule d, c.rules[it.dot]? = some rule ∧ rule.dots[1]? = some d ∧
          x.1 = d.trace) items b) := by
  obtain ⟨r, h, hv⟩ := session_view hB hleo hF htok hin hlen
  obtain ⟨depth, hc⟩ := hB.processed
  obtain ⟨maps, nulling, first, follow, hb, _⟩ := hB.tables
  obtain ⟨root, hO⟩ := built_ok hc hb
  refine ⟨r, h, fun ht => ?_⟩
  obtain ⟨syms, items, h1, h2, h3, h4⟩ := hv ht
  have hsyms := hc.syms_le
  have hA : ∀ A ∈ syms, ∃ d, StartDot c.rules A d ∧ indexM E.g.trace.1 A = pure d.trace := by
    intro A hA
    obtain ⟨d, h5, _, h6⟩ := hO.ev0 A (by have := h3 A hA; omega)
    exact ⟨d, h5, indexM_eq h6⟩
  have hI : ∀ it ∈ items, ∃ rule d, c.rules[it.dot]? = some rule ∧ rule.dots[1]? = some d ∧
      indexM E.g.trace.2.1 it.dot = pure d.trace := by
    intro it hit
    obtain ⟨A, B, C, h5⟩ := h4 it hit
    rw [rulesOf_getElem?] at h5
    obtain ⟨rule, h6, _⟩ := Option.map_eq_some_iff.1 h5
    obtain ⟨d, h7, _, h8⟩ := hO.ev1 _ _ h6
    exact ⟨rule, d, h6, h7, indexM_eq h8⟩
  obtain ⟨a, ha⟩ := mapM_of_forall (l := syms) (f := fun sym => do
    let t ← indexM E.g.trace.1 sym
    pure (t, r.1.beginEarleme.earleme)) fun A hA' => by
      obtain ⟨d, _, h6⟩ := hA A hA'
      exact ⟨_, by rw [h6, pure_bind]⟩
  obtain ⟨b, hb'⟩ := mapM_of_forall (l := items) (f := fun item => do
    let t ← indexM E.g.trace.2.1 item.dot
    pure (t, item.origin)) fun it hit => by
      obtain ⟨_, d, _, _, h6⟩ := hI it hit
      exact ⟨_, by rw [h6, pure_bind]⟩
  refine ⟨syms, items, a, b, h1, h2, ?_, ?_, ?_⟩
  · unfold Rec.trace
    simp only [h1, h2, pure_bind]
    rw [ha, pure_bind, hb', pure_bind]
  · refine forall₂_imp_mem (mapM_forall₂ ha) fun A hA' x hx => ?_
    obtain ⟨d, h5, h6⟩ := hA A hA'
    rw [h6, pure_bind] at hx
    cases pure_inj_M hx
    exact ⟨rfl, d, h5, rfl⟩
  · refine forall₂_imp_mem (mapM_forall₂ hb') fun it hit x hx => ?_
    obtain ⟨rule, d, h5, h6, h7⟩ := hI it hit
    rw [h7, pure_bind] at hx
    cases pure_inj_M hx
    exact ⟨rfl, rule, d, h5, h6, rfl⟩

/-- C28, `events`, as it is. What `events` yields for a predicted symbol number `A` is the event of the *rule* number `A`,
with the dot after the first symbol; for an item it is the event of the item's rule with the dot after the second symbol. If
there is no rule number `A`, it panics. -/
theorem C28_events_shifted (hB : Built c n w E.g) (hleo : E.leo = false)
    (hF : SafeStart E.F f c.rules.length c.numSyms) {steps : List Step} (htok : TokensOK c.numSyms steps)
    (hin : HintsIn n steps) (hlen : steps.length + 1 < 2 ^ 64) :
    ∃ r, (Rec.new E f >>= Rec.session E steps) = pure r ∧ (r.2 = true →
      ∃ syms items, r.1.beginEarleme.predictedSymbols = pure syms ∧ r.1.beginEarleme.medialItems = pure items ∧
        ((∃ A ∈ syms, c.rules.length ≤ A) → Rec.events E r.1.beginEarleme = panicM .index) ∧
        ((∀ A ∈ syms, A < c.rules.length) → ∃ a b, Rec.events E r.1.beginEarleme = pure (a ++ b) ∧
          List.Forall₂ (fun A x => ∃ rule d, c.rules[A]? = some rule ∧ rule.dots[1]? = some d ∧ x = d.event) syms a ∧
          List.Forall₂ (fun it x => ∃ rule d, c.rules[it.dot]? = some rule ∧ rule.dots[2]? = some d ∧
            x = d.event) items b)) := by
  obtain ⟨r, h, hv⟩ := session_view hB hleo hF htok hin hlen
  obtain ⟨depth, hc⟩ := hB.processed
  obtain ⟨maps, nulling, first, follow, hb, _⟩ := hB.tables
  obtain ⟨root, hO⟩ := built_ok hc hb
  refine ⟨r, h, fun ht => ?_⟩
  obtain ⟨syms, items, h1, h2, h3, h4⟩ := hv ht
  have hA : ∀ A, A < c.rules.length → ∃ rule d, c.rules[A]? = some rule ∧ rule.dots[1]? = some d ∧
      indexM E.g.events.1 A = pure d.event := by
    intro A hA
    obtain ⟨d, h5, h6, _⟩ := hO.ev1 A _ (List.getElem?_eq_getElem hA)
    exact ⟨_, d, List.getElem?_eq_getElem hA, h5, indexM_eq h6⟩
  have hI : ∀ it ∈ items, ∃ rule d, c.rules[it.dot]? = some rule ∧ rule.dots[2]? = some d ∧
      indexM E.g.events.2 it.dot = pure d.event := by
    intro it hit
    obtain ⟨A, B, C, h5⟩ := h4 it hit
    rw [rulesOf_getElem?] at h5
    obtain ⟨rule, h6, _⟩ := Option.map_eq_some_iff.1 h5
    obtain ⟨d, h7, h8, _⟩ := hO.ev2 _ _ h6
    exact ⟨rule, d, h6, h7, indexM_eq h8⟩
  refine ⟨syms, items, h1, h2, ?_, ?_⟩
  · rintro ⟨A, hA1, hA2⟩
    have hlen1 : E.g.events.1.length = c.rules.length := hO.lens.2.2
    have hout : ∀ A, c.rules.length ≤ A → indexM E.g.events.1 A = panicM .index := fun A h => by
      unfold indexM
      rw [List.getElem?_eq_none (by omega)]
    unfold Rec.events
    simp only [h1, h2, pure_bind]
    rw [mapM_panic (l := syms) (p := .index) (fun A hA' => ?_) ⟨A, hA1, hout A hA2⟩]
    · rfl
    · by_cases hlt : A < c.rules.length
      · obtain ⟨_, d, _, _, h6⟩ := hA A hlt
        exact .inl ⟨_, h6⟩
      · exact .inr (hout A (by omega))
  · intro hall
    obtain ⟨a, ha⟩ := mapM_of_forall (l := syms) (f := fun sym => indexM E.g.events.1 sym) fun A hA' => by
      obtain ⟨_, d, _, _, h6⟩ := hA A (hall A hA')
      exact ⟨_, h6⟩
    obtain ⟨b, hb'⟩ := mapM_of_forall (l := items) (f := fun item => indexM E.g.events.2 item.dot) fun it hit => by
      obtain ⟨_, d, _, _, h6⟩ := hI it hit
      exact ⟨_, h6⟩
    refine ⟨a, b, ?_, ?_, ?_⟩
    · unfold Rec.events
      simp only [h1, h2, pure_bind]
      rw [ha, pure_bind, hb', pure_bind]
    · refine forall₂_imp_mem (mapM_forall₂ ha) fun A hA' x hx => ?_
      obtain ⟨rule, d, h5, h6, h7⟩ := hA A (hall A hA')
      rw [h7] at hx
      cases pure_inj_M hx
      exact ⟨rule, d, h5, h6, rfl⟩
    · refine forall₂_imp_mem (mapM_forall₂ hb') fun it hit x hx => ?_
      obtain ⟨rule, d, h5, h6, h7⟩ := hI it hit
      rw [h7] at hx
      cases pure_inj_M hx
      exact ⟨rule, d, h5, h6, rfl⟩

/-- The events are wrong already at the start of the grammar `E ::= E plus E | a`: sof (1) and the root (3) are predicted;
no event is attached to the prediction of sof, and event 10 to that of the root, but the events 21 and 41 of two other rules
are reported. -/
theorem C28_events_wrong : ∃ s, Rec.new Example.env () = pure s ∧ s.beginEarleme.predictedSymbols = pure [1, 3] ∧
    s.beginEarleme.medialItems.map List.length = pure 0 ∧ Rec.events Example.env s.beginEarleme = pure [(21, 0), (41, 0)] ∧
    StartDot Example.cfg.rules 1 ⟨(0, 0), (0, 0)⟩ ∧ StartDot Example.cfg.rules 3 ⟨(10, 0), (10, 0)⟩ := by
  have h : (do
      let s ← Rec.new Example.env ()
      pure (decide (s.beginEarleme.predictedSymbols = pure [1, 3]) &&
        decide (s.beginEarleme.medialItems.map List.length = pure 0) &&
        decide (Rec.events Example.env s.beginEarleme = pure [(21, 0), (41, 0)])) : M Bool) = pure true := by decide +kernel
  obtain ⟨s, h1, h2⟩ := bind_eq_pure h
  have h2 := pure_inj_M h2
  simp only [Bool.and_eq_true, decide_eq_true_eq] at h2
  refine ⟨s, h1, h2.1.1, h2.1.2, h2.2, .inr ⟨by decide, rfl⟩, .inl ⟨[], _, _, rfl, rfl, by decide, rfl⟩⟩

/-- After sof, `events` panics: `a` (5) is predicted and there are five rules. -/
theorem C28_events_panic : ∃ s o, (Rec.new Example.env () >>= Rec.calls Example.env
    [.beginEarleme, .scan 1 0, .endEarleme, .beginEarleme]) = pure (s, o) ∧ Rec.events Example.env s = panicM .index := by
  have h : (do
      let s ← Rec.new Example.env ()
      let r ← Rec.callsWith Example.env (Rec.completeAllFuel Example.env 50) [.beginEarleme, .scan 1 0, .endEarleme, .beginEarleme] s
      pure (decide (Rec.events Example.env r.1 = panicM .index)) : M Bool) = pure true := by decide +kernel
  obtain ⟨s, h1, h2⟩ := bind_eq_pure h
  obtain ⟨r, h2, h3⟩ := bind_eq_pure h2
  refine ⟨r.1, r.2, ?_, by simpa using pure_inj_M h3⟩
  rw [h1, pure_bind]
  exact Rec.calls_below 50 _ _ _ h2

/-! ### C29 -/

/-- C29, what `expected_terminals` yields, exactly: the symbols that come after the dot in an item `A ::= B . x`, where `A`
is expected at some earlier position and `B` matches from there up to the end of the input read. -/
theorem C29_exact (hB : Built c n w E.g) (hleo : E.leo = false)
    (hF : SafeStart E.F f c.rules.length c.numSyms) {steps : List Step} (htok : TokensOK c.numSyms steps)
    (hno : NoHints steps) (hlen : steps.length + 1 < 2 ^ 64) :
    ∃ r, (Rec.new E f >>= Rec.session E steps) = pure r ∧ (r.2 = true →
      ∃ l, Rec.expectedTerminals E r.1.beginEarleme = pure l ∧ ∀ x, x ∈ l ↔
        ∃ d a A B, EarleyItem (rulesOf c) w.root (inputOf steps) d a steps.length ∧
          (rulesOf c)[d]? = some ⟨A, B, some x⟩) := by
  obtain ⟨r, h, hv⟩ := C12_items_exact hB hleo hF htok hno hlen
  refine ⟨r, h, fun ht => ?_⟩
  obtain ⟨loc, items, h1, h2, _, _, _, h3, h4⟩ := hv ht
  obtain ⟨root, rank, g0, hR⟩ := hB.ready
  have hitem : ∀ it ∈ items, ∃ a A B C, EarleyItem (rulesOf c) w.root (inputOf steps) it.dot a steps.length ∧
      (rulesOf c)[it.dot]? = some ⟨A, B, some C⟩ ∧
      (E.g.getRhs1 it.dot >>= fun r => unwrapM r) = pure C := by
    intro it hit
    have hlt := h3 it hit
    obtain ⟨A, B, C, t, h5, h6, h7⟩ := (h4 it.dot loc[it.origin]).1 ⟨it, hit, rfl, List.getElem?_eq_getElem hlt⟩
    refine ⟨_, A, B, C, ⟨A, B, C, t, h5, h6, h7⟩, h5, ?_⟩
    rw [hR.ok.getRhs1 _ _ h5, pure_bind]
    rfl
  obtain ⟨l, hl⟩ := mapM_of_forall (l := items) (f := fun item => do
    let r ← E.g.getRhs1 item.dot
    unwrapM r) fun it hit => by
      obtain ⟨_, _, _, C, _, _, h5⟩ := hitem it hit
      exact ⟨C, h5⟩
  have hf := mapM_forall₂ hl
  refine ⟨l, by unfold Rec.expectedTerminals; rw [h1, pure_bind]; exact hl, fun x => ?_⟩
  constructor
  · intro hx
    obtain ⟨it, hit, he⟩ := forall₂_mem' hf hx
    obtain ⟨a, A, B, C, h5, h6, h7⟩ := hitem it hit
    cases pure_inj_M (h7.symm.trans he)
    exact ⟨_, a, A, B, h5, h6⟩
  · rintro ⟨d, a, A, B, h5, h6⟩
    obtain ⟨it, hit, rfl, _⟩ := (h4 d a).2 h5
    obtain ⟨x', hx', he⟩ := forall₂_mem hf hit
    obtain ⟨_, A', B', C, _, h7, h8⟩ := hitem it hit
    rw [h6] at h7
    cases h7
    cases pure_inj_M (h8.symm.trans he)
    exact hx'

/-- C29, first half: whatever `expected_terminals` yields can come next. -/
theorem C29_sound (hB : Built c n w E.g) (hleo : E.leo = false)
    (hF : SafeStart E.F f c.rules.length c.numSyms) {steps : List Step} (htok : TokensOK c.numSyms steps)
    (hno : NoHints steps) (hlen : steps.length + 1 < 2 ^ 64) :
    ∃ r, (Rec.new E f >>= Rec.session E steps) = pure r ∧ (r.2 = true →
      ∃ l, Rec.expectedTerminals E r.1.beginEarleme = pure l ∧ ∀ x ∈ l,
        ∃ u v, u.length = steps.length ∧ Picks (inputOf steps) 0 u ∧ Derives (rulesOf c) w.root (u ++ x :: v)) := by
  obtain ⟨r, h, hv⟩ := C29_exact hB hleo hF htok hno hlen
  refine ⟨r, h, fun ht => ?_⟩
  obtain ⟨l, h1, h2⟩ := hv ht
  refine ⟨l, h1, fun x hx => ?_⟩
  obtain ⟨d, a, A, B, ⟨A', B', C', t, h5, h6, h7⟩, h8⟩ := (h2 x).1 hx
  rw [h8] at h5
  cases h5
  obtain ⟨u, v, h9, h10, h11⟩ := (Pred.medial h8 h6 h7).viable
  exact ⟨u, v, h10, h9, h11⟩

theorem Pred.from_item {R : Rules} {start : Nat} {inp : Input} {p X : Nat} (h : Pred R start inp p X) (hp : p ≠ 0) :
    ∃ d a A B y v, EarleyItem R start inp d a p ∧ R[d]? = some ⟨A, B, some y⟩ ∧ Derives R y (X :: v) := by
  induction h with
  | start => exact absurd rfl hp
  | corner _ hc ih =>
    obtain ⟨d, a, A, B, y, v, h1, h2, h3⟩ := ih hp
    obtain ⟨r, hr, rfl, rfl⟩ := hc
    cases hr1 : r.rhs1 with
    | none => exact ⟨d, a, A, B, y, v, h1, h2, by simpa using (show Derives R y ([] ++ r.lhs :: v) from h3).replace (Derives.single hr hr1)⟩
    | some C =>
      exact ⟨d, a, A, B, y, C :: v, h1, h2, by simpa using (show Derives R y ([] ++ r.lhs :: v) from h3).replace (Derives.two hr hr1)⟩
  | @medial d A B C q p t h1 h2 h3 => exact ⟨d, q, A, B, C, [], ⟨A, B, C, t, h1, h2, h3⟩, h1, .refl _⟩

/-- C29, second half (partial). After at least one token, every symbol that can come next begins a phrase of a symbol
that `expected_terminals` yields. Missing: the terminal itself need not be among them, see `C29_missing`. -/
theorem C29_complete_partial (hB : Built c n w E.g) (hleo : E.leo = false)
    (hF : SafeStart E.F f c.rules.length c.numSyms) {steps : List Step} (htok : TokensOK c.numSyms steps)
    (hno : NoHints steps) (hlen : steps.length + 1 < 2 ^ 64) (hne : steps ≠ []) :
    ∃ r, (Rec.new E f >>= Rec.session E steps) = pure r ∧ (r.2 = true →
      ∃ l, Rec.expectedTerminals E r.1.beginEarleme = pure l ∧
        ∀ x u v, u.length = steps.length → Picks (inputOf steps) 0 u → Derives (rulesOf c) w.root (u ++ x :: v) →
          ∃ y ∈ l, ∃ v', Derives (rulesOf c) y (x :: v')) := by
  obtain ⟨r, h, hv⟩ := C29_exact hB hleo hF htok hno hlen
  refine ⟨r, h, fun ht => ?_⟩
  obtain ⟨l, h1, h2⟩ := hv ht
  refine ⟨l, h1, fun x u v hu hp hd => ?_⟩
  obtain ⟨d, a, A, B, y, v', h3, h4, h5⟩ := Pred.from_item (pred_iff.2 ⟨u, v, hp, hu, hd⟩)
    (fun h0 => hne (List.length_eq_zero_iff.1 h0))
  exact ⟨y, (h2 y).2 ⟨d, a, A, B, h3, h4⟩, v', h5⟩

/-- The terminal that can be scanned is not among them: after sof in the grammar `E ::= E plus E | a`, only `E` (4) is
reported, which is not a terminal, and `a` (5) is accepted. -/
theorem C29_missing : (∃ s, (Rec.new Example.env () >>= Rec.calls Example.env [.beginEarleme, .scan 1 0, .endEarleme,
    .beginEarleme, .expectedTerminals, .scan 5 0, .endEarleme]) = pure (s, [.unit, .unit, .bool true, .unit, .nums [4], .unit,
    .bool true])) ∧ ¬ Terminal (rulesOf Example.cfg) 4 ∧ Terminal (rulesOf Example.cfg) 5 :=
  ⟨observations_real (by decide +kernel), by unfold Terminal; decide, by unfold Terminal; decide⟩

-- the hypotheses on the steps are met by `chartSteps`, see Props/Chart.lean; here with a hint as well (C28)
example : TokensOK Example.cfg.numSyms [(.keep, [(1, 0)]), (.set 2, [(5, 0)])] ∧
    HintsIn 6 [(.keep, [(1, 0)]), (.set 2, [(5, 0)])] := by
  refine ⟨by unfold TokensOK; decide, ?_⟩
  intro st hst x hx
  simp only [List.mem_cons, List.not_mem_nil, or_false] at hst
  rcases hst with rfl | rfl <;> simp at hx
  omega
-- after sof and `a`, `plus` and eof are expected; the trace has the items `root ::= g0 . eof` and `7 ::= E . plus`
example : ∃ s, (Rec.new Example.env () >>= Rec.calls Example.env [.beginEarleme, .scan 1 0, .endEarleme, .beginEarleme,
    .scan 5 0, .endEarleme, .beginEarleme, .expectedTerminals, .trace]) = pure (s, [.unit, .unit, .bool true, .unit, .unit,
    .bool true, .unit, .nums [0, 2], .traces [((0, 0), 2), ((0, 0), 2), ((10, 1), 0), ((50, 1), 1)]]) :=
  observations_real (by decide +kernel)

end Gearley.Props
