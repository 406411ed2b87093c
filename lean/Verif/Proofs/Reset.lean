import Verif.Proofs.Manual
import Verif.Proofs.Parse

/-! # A recognizer after arbitrary calls and a `reset` -/

namespace Gearley
open Gearley.Spec
variable {σ ν : Type} {E : Env σ ν} {R : Rules} {root : Nat → Nat}

/-- What every history leaves behind: rows of predictions that are closed and do not predict the start symbol, except the
first. -/
structure Kept (g : DefaultGrammar) (R : Rules) (pm : BitMatrix) : Prop extends PredMatrix g R pm where
  later : ∀ k X, 1 ≤ k → pm.bit k X = true → X ≠ g.startSym

theorem kept_grow {g : DefaultGrammar} {pm : BitMatrix} (h : Kept g R pm) : Kept g R (pm.grow 1 false) := by
  have hmem : ∀ row ∈ (pm.grow 1 false).rows, row ∈ pm.rows ∨ row = List.replicate g.syms false := by
    intro row hrow
    simp only [BitMatrix.grow, List.mem_append, List.mem_replicate, h.width] at hrow
    exact hrow.imp id fun h => h.2
  refine ⟨⟨?_, h.width, ?_, ?_⟩, ?_⟩
  · simp [BitMatrix.grow]
  · intro row hrow
    rcases hmem row hrow with h1 | rfl
    · exact h.rowLen row h1
    · simp
  · intro row hrow
    rcases hmem row hrow with h1 | rfl
    · exact h.closed row h1
    · exact rowClosed_zero _ _
  · intro k X hk hb
    rw [BitMatrix.bit_iff] at hb
    obtain ⟨row, h1, h2⟩ := hb
    simp only [BitMatrix.grow] at h1
    rcases Nat.lt_or_ge k pm.rows.length with hlt | hge
    · rw [List.getElem?_append_left hlt] at h1
      exact h.later k X hk (BitMatrix.bit_iff.2 ⟨row, h1, h2⟩)
    · rw [List.getElem?_append_right hge] at h1
      have := List.mem_of_getElem? h1
      simp only [List.mem_replicate] at this
      rw [this.2] at h2
      exact absurd h2 (replicate_false_get _ _)

theorem kept_truncate {g : DefaultGrammar} {pm : BitMatrix} (h : Kept g R pm) {k : Nat} (hk : 0 < k) :
    Kept g R (pm.truncate k) := by
  refine ⟨⟨?_, h.width, fun row hrow => h.rowLen row (List.mem_of_mem_take hrow),
    fun row hrow => h.closed row (List.mem_of_mem_take hrow)⟩, ?_⟩
  · have := h.pos
    simp only [BitMatrix.truncate, List.length_take]
    omega
  · intro i X hi hb
    rw [BitMatrix.bit_iff] at hb
    obtain ⟨row, h1, h2⟩ := hb
    simp only [BitMatrix.truncate, List.getElem?_take] at h1
    split at h1
    · exact h.later i X hi (BitMatrix.bit_iff.2 ⟨row, h1, h2⟩)
    · simp at h1

theorem kept_set {g : DefaultGrammar} {pm : BitMatrix} (h : Kept g R pm) {i : Nat} (hi : 1 ≤ i) {row : List Bool}
    (h1 : row.length = g.syms) (h2 : RowClosed R g.syms row) (h3 : row[g.startSym]? ≠ some true) :
    Kept g R { pm with rows := pm.rows.set i row } := by
  refine ⟨⟨by simpa using h.pos, h.width, ?_, ?_⟩, ?_⟩
  · intro r hr
    rcases List.mem_or_eq_of_mem_set hr with hr | rfl
    · exact h.rowLen r hr
    · exact h1
  · intro r hr
    rcases List.mem_or_eq_of_mem_set hr with hr | rfl
    · exact h.closed r hr
    · exact h2
  · intro k X hk hb
    rw [BitMatrix.bit_iff] at hb
    obtain ⟨r, e1, e2⟩ := hb
    by_cases hki : k = i
    · subst hki
      have hlt : k < pm.rows.length := by
        have := (List.getElem?_eq_some_iff.1 e1).1
        simpa using this
      rw [List.getElem?_set_self hlt] at e1
      cases e1
      rintro rfl
      exact h3 e2
    · simp only at e1
      rw [List.getElem?_set_ne (fun h => hki h.symm)] at e1
      exact h.later k X hk (BitMatrix.bit_iff.2 ⟨r, e1, e2⟩)

namespace Rec

/-- The second symbol of every rule comes from the rules. -/
def SecondOK (g : DefaultGrammar) (R : Rules) : Prop := ∀ d x, g.getRhs1 d = pure (some x) → ∃ r ∈ R, r.rhs1 = some x

theorem predictionPass_kept (hg : GrammarOK E.g R root) (hS : SecondOK E.g R) {s : Rec σ ν} (hs : Kept E.g R s.predicted) :
    Gives (predictionPass E s) fun s => Kept E.g R s.predicted := by
  have hgr := kept_grow hs
  unfold predictionPass
  refine Gives.any.bind fun last _ => ?_
  refine Gives.bind (P := fun i => 1 ≤ i) ?_ fun i hi => ?_
  · intro i h
    unfold succM at h
    split at h
    · rw [← pure_inj_M h]; omega
    · exact absurd h panicM_ne_pure
  refine Gives.bind (P := fun row => row.length = E.g.syms ∧ RowClosed R E.g.syms row ∧ row[E.g.startSym]? ≠ some true) ?_ ?_
  · intro row hrow
    have hrow := indexM_pure hrow
    have hm := List.mem_of_getElem? hrow
    refine ⟨hgr.rowLen row hm, hgr.closed row hm, fun h => ?_⟩
    exact hgr.later i _ hi (BitMatrix.bit_iff.2 ⟨row, hrow, h⟩) rfl
  rintro row hrow
  refine Gives.bind (P := fun row => row.length = E.g.syms ∧ RowClosed R E.g.syms row ∧ row[E.g.startSym]? ≠ some true)
    (Gives.foldlM ?_ last hrow) ?_
  · rintro row it ⟨h1, h2, h3⟩
    intro row' h
    obtain ⟨r1, hr1, h'⟩ := bind_eq_pure h
    obtain ⟨x, hx, h''⟩ := bind_eq_pure h'
    obtain ⟨src, hsrc, hfin⟩ := bind_eq_pure h''
    clear h h' h''
    cases r1 with
    | none => exact absurd hx panicM_ne_pure
    | some y =>
      cases pure_inj_M hx
      obtain ⟨r, hr, hry⟩ := hS _ _ hr1
      have hlt := hg.rhs1_lt r hr _ hry
      obtain ⟨e1, e2, e3⟩ := (predictRow_spec hg h1 h2 hlt hsrc).of_eq hfin
      refine ⟨e1, e2, fun h => ?_⟩
      rcases (e3 _ hg.start_lt).1 h with h | h
      · exact h3 h
      · rcases Relation.ReflTransGen.cases_tail h with h | ⟨_, _, ⟨r', hr', _, h0⟩⟩
        · exact hg.startNot1 r hr (by rw [hry, h])
        · exact hg.startNot0 r' hr' h0
  · rintro row ⟨h1, h2, h3⟩
    exact .pure (kept_set hgr hi h1 h2 h3)

theorem advance_kept (hg : GrammarOK E.g R root) (hS : SecondOK E.g R) {s : Rec σ ν} (hs : Kept E.g R s.predicted) :
    Gives (advanceAfterCompletion E s) fun s => Kept E.g R s.predicted := by
  unfold advanceAfterCompletion
  refine Gives.bind (P := fun s : Rec σ ν => Kept E.g R s.predicted) (Gives.any.bind fun _ _ => .pure hs) fun s hs => ?_
  refine Gives.bind (P := fun s : Rec σ ν => Kept E.g R s.predicted) ?_ fun s hs => ?_
  · unfold removeUnreachable
    refine Gives.any.bind fun l _ => ?_
    dsimp only
    split <;> split
    · exact Gives.any.bind fun _ _ => Gives.any.bind fun _ _ => Gives.any.bind fun _ _ =>
        .pure (kept_truncate hs (by omega))
    · exact .pure hs
    · exact Gives.any.bind fun _ _ => Gives.any.bind fun _ _ => Gives.any.bind fun _ _ =>
        .pure (kept_truncate hs (by omega))
    · exact .pure hs
  · split
    · exact .panic
    · exact predictionPass_kept hg hS hs

/-- The state of `reset` in any forest. -/
theorem reset_eq (hg : GrammarOK E.g R root) {s : Rec σ ν} (hs : Kept E.g R s.predicted) :
    ∃ pm, Rec.reset E s = pure { s with medial := Vec2d.new, complete := [], predicted := pm } ∧
      PredMatrix E.g R pm ∧ (∀ X, pm.bit 0 X = true ↔ X < E.g.syms ∧ Relation.ReflTransGen (Corner R) E.g.startSym X) ∧
      Kept E.g R pm := by
  obtain ⟨src, row', e0, e1, e2, e3, e4⟩ := predict_start hg hs.pos hs.width hs.rowLen hs.closed
    (row0 := clearRow (s.predicted.rows[0]'hs.pos)) (by simp [clearRow, hs.rowLen _ (List.getElem_mem hs.pos)])
    (fun i => clearRow_get _ _)
  refine ⟨⟨s.predicted.width, s.predicted.rows.set 0 row'⟩, ?_, e2, e3, e2, ?_⟩
  · simp only [Rec.reset, BitMatrix.row, indexM_lt hs.pos, pure_bind, e0, e1]
    rfl
  · intro k X hk hb
    rw [e4 k X hk] at hb
    exact hs.later k X hk hb

theorem call_kept (hg : GrammarOK E.g R root) (hS : SecondOK E.g R) {s : Rec σ ν} (hs : Kept E.g R s.predicted) (c : Call) :
    Gives (call E s c) fun p => Kept E.g R p.1.predicted := by
  cases c with
  | beginEarleme => exact .pure hs
  | setHint x => exact .pure hs
  | clearHint => exact .pure hs
  | scan t v =>
    refine (scan_fix (E := E) (s := s) ⟨rfl, rfl⟩ t v).bind fun s' hs' => .pure ?_
    show Kept E.g R s'.predicted
    rw [hs'.2]; exact hs
  | endEarleme =>
    refine Gives.bind (P := fun p : Rec σ ν × Bool => Kept E.g R p.1.predicted) ?_ fun p hp => .pure hp
    unfold endEarlemeWith
    refine Gives.any.bind fun b _ => ?_
    cases b with
    | true => exact .pure hs
    | false =>
      refine Gives.bind (P := fun s : Rec σ ν => Kept E.g R s.predicted) ?_ fun s hs => (advance_kept hg hS hs).bind fun s hs => .pure hs
      rw [completeAll_manual (entire := fun _ => true) (.inr fun _ => rfl)]
      refine (manualAll_fix (E := E) (s := s) ⟨rfl, rfl⟩).bind fun s' hs' => .pure ?_
      show Kept E.g R s'.predicted
      rw [hs'.2]; exact hs
  | reset =>
    obtain ⟨pm, h1, _, _, h2⟩ := reset_eq hg hs
    show Gives (Rec.reset E s >>= fun s => pure (s, Obs.unit)) _
    rw [h1, pure_bind]
    exact .pure h2
  | isFinished => exact Gives.any.bind fun _ _ => .pure hs
  | isExhausted => exact Gives.any.bind fun _ _ => .pure hs
  | earleme => exact .pure hs
  | predictedSymbols => exact Gives.any.bind fun _ _ => .pure hs
  | medialItems => exact Gives.any.bind fun _ _ => .pure hs
  | trace => exact Gives.any.bind fun _ _ => .pure hs
  | events => exact Gives.any.bind fun _ _ => .pure hs
  | expectedTerminals => exact Gives.any.bind fun _ _ => .pure hs

theorem calls_kept (hg : GrammarOK E.g R root) (hS : SecondOK E.g R) (cs : List Call) {s : Rec σ ν}
    (hs : Kept E.g R s.predicted) : Gives (calls E cs s) fun p => Kept E.g R p.1.predicted := by
  induction cs generalizing s with
  | nil => exact .pure hs
  | cons c cs ih => exact (call_kept hg hS hs c).bind fun p hp => (ih hp).bind fun q hq => .pure hq

theorem new_kept (hg : GrammarOK E.g R root) (f : σ) : Gives (Rec.new E f) fun s => Kept E.g R s.predicted := by
  have hrows : (BitMatrix.new 8 E.g.syms).rows = List.replicate 8 (List.replicate E.g.syms false) := rfl
  have hlen : 0 < (BitMatrix.new 8 E.g.syms).rows.length := by rw [hrows]; simp
  have h0 : (BitMatrix.new 8 E.g.syms).rows[0] = List.replicate E.g.syms false := by simp [hrows]
  have hall : ∀ row ∈ (BitMatrix.new 8 E.g.syms).rows, row = List.replicate E.g.syms false := by
    intro row hrow; rw [hrows] at hrow; exact (List.mem_replicate.1 hrow).2
  obtain ⟨src, row', e0, e1, e2, e3, e4⟩ := predict_start hg (pm := BitMatrix.new 8 E.g.syms) hlen rfl
    (fun row hrow => by rw [hall row hrow]; simp) (fun row hrow => by rw [hall row hrow]; exact rowClosed_zero _ _)
    (row0 := List.replicate E.g.syms false) (by simp) (fun i => replicate_false_get _ _)
  have : Rec.new E f = pure ⟨f, none, ⟨(BitMatrix.new 8 E.g.syms).width,
      (BitMatrix.new 8 E.g.syms).rows.set 0 row'⟩, Vec2d.new, []⟩ := by
    simp only [Rec.new, Rec.predictIn, BitMatrix.row, indexM_lt hlen, h0, pure_bind, e0, e1]
  rw [this]
  refine .pure ⟨e2, ?_⟩
  intro k X hk hbit
  rw [e4 k X hk, BitMatrix.bit_iff] at hbit
  obtain ⟨row, h1, h2⟩ := hbit
  rw [hall row (List.mem_of_getElem? h1)] at h2
  exact absurd h2 (replicate_false_get _ _)

end Rec

section
variable {c : Cfg} {n : Nat} {w : WrappedRoot} {rank : Nat → Nat} {g0 : Nat}

/-- A pending hint does not matter: there is none, or the client sets or clears the hint first. -/
def NoPending (hint : Option Nat) (steps : List Step) : Prop :=
  hint = none ∨ ∀ st rest, steps = st :: rest → st.1 ≠ .keep

theorem honest_pending {T : Nat → Prop} {eof : Nat} {steps : List Step} (h : Honest T eof steps) {l : Option Nat}
    (hl : NoPending l steps) : HintsOK (extendBy steps [eof]) (steps.length + 1) T 0 l steps := by
  cases steps with
  | nil => trivial
  | cons st rest =>
    obtain ⟨op, toks⟩ := st
    have := h.hintsOK
    refine ⟨?_, this.2⟩
    have h1 := this.1
    cases op with
    | keep =>
      rcases hl with rfl | hl
      · exact h1
      · exact absurd rfl (hl _ _ rfl)
    | set x => exact h1
    | clear => exact h1

theorem nohints_pending {W : Input} {m : Nat} {T : Nat → Prop} {steps : List Step} (h : NoHints steps) {l : Option Nat}
    (hl : NoPending l steps) : HintsOK W m T 0 l steps := by
  cases steps with
  | nil => trivial
  | cons st rest =>
    obtain ⟨op, toks⟩ := st
    have := h.hintsOK (W := W) (n := m) (T := T)
    refine ⟨?_, this.2⟩
    have h1 := this.1
    cases op with
    | keep =>
      rcases hl with rfl | hl
      · exact h1
      · exact absurd rfl (hl _ _ rfl)
    | set x => exact h1
    | clear => exact h1

/-- The specification state that corresponds to a state after `reset`. -/
def blank (hint : Option Nat) (pm : BitMatrix) : TRec :=
  { forest := [], lookahead := hint, predicted := pm, medial := Vec2d.new, complete := [] }

theorem blank_inv {g : DefaultGrammar} (hg : GrammarOK g R root) {W : Input} {m : Nat} {H : Prop} {hint : Option Nat}
    {pm : BitMatrix} (hpm : Kept g R pm) (hhint : ∀ h, hint = some h → h < g.syms)
    (h0 : ∀ X, pm.bit 0 X = true ↔ X < g.syms ∧ Relation.ReflTransGen (Corner R) g.startSym X) :
    InvAt g R W m H (AnyPred g.startSym) (fun X => X ≠ g.startSym) (blank hint pm) 0 [[]] [0] :=
  inv_start hg (any_predOK hg W) (by show Vec2d.new = _; rw [Vec2d.new_eq]) rfl hpm.toPredMatrix hhint h0 hpm.later

/-- A session after a reset, with a safe forest. -/
theorem reset_session (hleo : E.leo = false) (hR : Ready c n w E.g root rank g0) {s : Rec σ ν}
    (hF : SafeStart E.F s.forest c.rules.length c.numSyms) (hs : Kept E.g (rulesOf c) s.predicted)
    (hhint : ∀ h, s.lookahead = some h → h < n) :
    ∃ s0, Rec.reset E s = pure s0 ∧ ∀ steps, TokensOK c.numSyms steps → HintsIn n steps → NoPending s.lookahead steps →
      (steps ≠ [] → steps.length < 2 ^ 64 - 1 →
        (E.lookahead = true → Honest (fun t => t < n ∧ Terminal (rulesOf c) t) w.eof steps) →
        Returns (Rec.session E steps s0) fun r =>
          (r.2 = true → Returns (Rec.isFinished E r.1) fun b => b = true ↔ Accepts (rulesOf c) g0 steps) ∧
          (r.2 = false → ¬ Accepts (rulesOf c) g0 steps)) ∧
      (steps.length < 2 ^ 64 → (E.lookahead = true → NoHints steps) → (∀ st ∈ steps, ∀ t ∈ st.2, t.1 ≠ w.root) →
        Viable (rulesOf c) w.root steps → Returns (Rec.session E steps s0) fun r => r.2 = true) := by
  obtain ⟨okDot, okLeaf, S, w0, hI, hd, hl⟩ := hF
  obtain ⟨pm, hreset, hpm, h0, hkept⟩ := Rec.reset_eq hR.ok hs
  refine ⟨_, hreset, ?_⟩
  intro steps htok hin hpend
  have hok := stepsOK_of hR htok hin
  have hhint' : ∀ h, s.lookahead = some h → h < E.g.syms := fun h hh => by rw [hR.syms]; exact hhint h hh
  have hrel0 : S.sim.RIdle w0 { s with medial := Vec2d.new, complete := [], predicted := pm } (blank s.lookahead pm) :=
    ⟨rfl, rfl, ⟨rfl, .nil⟩, .nil, hI⟩
  have hrel : RelM False (Rec.session E steps { s with medial := Vec2d.new, complete := [], predicted := pm })
      (Rec.session (treeEnv E.g E.lookahead E.sorter) steps (blank s.lookahead pm))
      (S.sim.Ext (fun w a b => S.sim.RIdle w a.1 b.1 ∧ a.2 = b.2) w0) := by
    have := FSim.session_rel (g := E.g) (la := E.lookahead) (leo := false) (so := E.sorter) (hR.dots hd) hrel0 steps
      (fun st hst p hp => hl p.1 p.2 (htok st hst p hp).1 (htok st hst p hp).2)
    rw [env_eta hleo] at this
    exact this
  refine ⟨fun hne hlen hh => ?_, fun hlen hno hstart hv => ?_⟩
  · obtain ⟨⟨r0, ok0⟩, h1, h2, h3, h4⟩ := session_accept (la := E.lookahead) (sorter := E.sorter) hR.ok hR.look hR.ranked hR.rule hne hlen hok
      (any_predOK hR.ok _) (fun p hp => hp rfl)
      (blank_inv (W := extendBy steps [E.g.eofSym]) (m := steps.length + 1) (H := True) hR.ok hkept hhint' h0)
      (fun hla => honest_pending (by rw [hR.eof]; exact hh hla) hpend)
    obtain ⟨⟨r, ok⟩, e1, w', _, e2, e3⟩ := hrel.returns h1
    simp only at e2 e3 h2 h3 h4
    subst e3
    refine ⟨_, e1, fun ht => ?_, h4⟩
    have hml := e2.medial.len
    have h3 := h3 ht
    obtain ⟨N0, hN0, ha, _⟩ := h2 ht
    obtain ⟨N, hN, hNN⟩ := (FSim.finishedNode_rel' (la := E.lookahead) (leo := false) (so := E.sorter) (g := E.g) e2
      (by rw [hml]; exact h3.1) (by rw [hml]; exact h3.2)).returns hN0
    rw [env_eta hleo] at hN
    unfold Rec.isFinished
    rw [hN, pure_bind]
    refine returns_pure ?_
    rw [← ha]; cases hNN <;> simp
  · obtain ⟨u, v, hu, hp, hder⟩ := hv
    rw [← hR.start] at hder hstart
    have hT : LookaheadOK E.g (rulesOf c) (fun _ => False) := ⟨fun _ _ _ _ h => h.elim, fun _ _ _ _ _ h => h.elim⟩
    obtain ⟨⟨r0, ok0⟩, h1, h2⟩ := session_inv (la := E.lookahead) (sorter := E.sorter) hR.ok hT hR.ranked
      (any_predOK hR.ok (extendBy steps v)) steps _ 0 _ _
      (blank_inv (W := extendBy steps v) (m := steps.length + v.length) (H := True) hR.ok hkept hhint' h0)
      (by omega) hok (extendBy_in _ _) (fun _ hla => nohints_pending (hno hla) hpend)
    have hok0 : ok0 = true := by
      rcases h2 with ⟨h2, _⟩ | ⟨_, i, hi, hf⟩
      · exact h2
      exfalso
      have hl0 : 0 < steps.length := by omega
      have hpick : Picks (extendBy steps v) 0 (u ++ v) := by
        refine picks_append.2 ⟨(extendBy_picks (by omega)).2 hp, ?_⟩
        rw [Nat.zero_add, hu]; exact extendBy_tail _ _
      obtain ⟨t, ht⟩ := hder.tree 0 hpick
      rw [Nat.zero_add, List.length_append, hu] at ht
      obtain ⟨a, x, rfl⟩ := hf.tree trivial (by omega) t ht
      generalize hnn : steps.length + v.length = nn at ht
      cases ht with
      | leaf hm =>
        rw [extendBy_lt hl0, inputOf_eq (List.getElem?_eq_getElem hl0)] at hm
        exact hstart _ (List.getElem_mem hl0) _ hm rfl
    subst hok0
    obtain ⟨⟨r, ok⟩, e1, w', _, e2, e3⟩ := hrel.returns h1
    exact ⟨_, e1, e3⟩

theorem secondOK_of (hB : Prepared c n w E.g) : Rec.SecondOK E.g (rulesOf c) := by
  obtain ⟨depth, hc⟩ := hB.processed
  obtain ⟨maps, nulling, first, follow, hb, _⟩ := hB.tables
  obtain ⟨root, hO⟩ := built_ok hc hb
  intro d x h
  unfold DefaultGrammar.getRhs1 at h
  have h := indexM_pure h
  rw [hO.column1, List.getElem?_map] at h
  cases hr : c.rules[d]? with
  | none => rw [hr] at h; simp at h
  | some r =>
    rw [hr] at h
    simp only [Option.map_some, Option.some.injEq] at h
    have hm : r ∈ c.rules := List.mem_of_getElem? hr
    have : (rulesOf c)[d]? = some (ruleOf r) := by simp [rulesOf, hr]
    exact ⟨_, List.mem_of_getElem? this, h⟩

end
end Gearley
