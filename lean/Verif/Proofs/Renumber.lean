import Verif.Spec.Binarized
import Verif.Props.Remap
import Verif.Proofs.Tables
import Mathlib.Data.List.Nodup

/-!
# Renumbering the symbols of a grammar
-/

namespace Gearley.Spec
open Gearley Build

theorem Derives.rename {R R' : Rules} {f : Nat → Nat} (hR : ∀ r ∈ R, r.rename f ∈ R') {A : Nat} {u : List Nat}
    (h : Derives R A u) : Derives R' (f A) (u.map f) := by
  induction h with
  | refl A => exact .refl _
  | unary hr hn _ ih => exact .unary (r := _) (hR _ hr) (by simp [Rule.rename, hn]) ih
  | binary hr hn _ _ ih1 ih2 =>
    rw [List.map_append]
    exact .binary (hR _ hr) (by simp [Rule.rename, hn]) ih1 ih2

section
variable {ext : List Nat} {c c' : Cfg}

/-- The old number of a symbol. -/
def oldNumber (ext : List Nat) (i : Nat) : Nat := ext[i]?.getD 0

theorem newNumber_lt {s : Nat} (h : s ∈ ext) : newNumber ext s < ext.length := List.idxOf_lt_length_of_mem h

theorem newNumber_get {s : Nat} (h : s ∈ ext) : ext[newNumber ext s]? = some s := by
  rw [List.getElem?_eq_getElem (newNumber_lt h)]
  exact congrArg some (List.getElem_idxOf (newNumber_lt h))

theorem old_new {s : Nat} (h : s ∈ ext) : oldNumber ext (newNumber ext s) = s := by
  unfold oldNumber
  rw [newNumber_get h]; rfl

theorem newNumber_inj {s t : Nat} (hs : s ∈ ext) (ht : t ∈ ext) : newNumber ext s = newNumber ext t ↔ s = t :=
  ⟨fun h => by rw [← old_new hs, h, old_new ht], fun h => by rw [h]⟩

theorem new_of_get (hd : ext.Nodup) {i s : Nat} (h : ext[i]? = some s) : newNumber ext s = i := by
  obtain ⟨hi, rfl⟩ := List.getElem?_eq_some_iff.1 h
  exact hd.idxOf_getElem i hi

/-- The symbols of all rules have new numbers. -/
def Covers (ext : List Nat) (c : Cfg) : Prop := ∀ r ∈ c.rules, r.lhs ∈ ext ∧ ∀ s ∈ r.rhs, s ∈ ext

theorem getElem?_mem_rhs {r : CfgRule} {k s : Nat} (h : r.rhs[k]? = some s) : s ∈ r.rhs := List.mem_of_getElem? h

/-- `rhs[k]` after renumbering. -/
theorem renumber_rhs (hc : Covers ext c) {r : CfgRule} (hr : r ∈ c.rules) {A : Nat} (hA : A ∈ ext) (k : Nat) :
    (renumberRule ext r).rhs[k]? = some (newNumber ext A) ↔ r.rhs[k]? = some A := by
  unfold renumberRule
  rw [List.getElem?_map]
  cases h : r.rhs[k]? with
  | none => simp
  | some s =>
    simp only [Option.map_some, Option.some.injEq]
    exact newNumber_inj ((hc r hr).2 s (getElem?_mem_rhs h)) hA

theorem renumber_mem_drop (hc : Covers ext c) {r : CfgRule} (hr : r ∈ c.rules) {A : Nat} (hA : A ∈ ext) (k : Nat) :
    newNumber ext A ∈ (renumberRule ext r).rhs.drop k ↔ A ∈ r.rhs.drop k := by
  unfold renumberRule
  rw [← List.map_drop, List.mem_map]
  constructor
  · rintro ⟨s, hs, he⟩
    rwa [← (newNumber_inj ((hc r hr).2 s (List.mem_of_mem_drop hs)) hA).1 he]
  · exact fun h => ⟨A, h, rfl⟩

theorem renumber_rhs_eq (hc : Covers ext c) {r : CfgRule} (hr : r ∈ c.rules) {A : Nat} (hA : A ∈ ext) :
    (renumberRule ext r).rhs = [newNumber ext A] ↔ r.rhs = [A] := by
  unfold renumberRule
  constructor
  · intro h
    rcases hrhs : r.rhs with _ | ⟨s, _ | ⟨t, l⟩⟩
    · simp [hrhs] at h
    · simp only [hrhs, List.map_cons, List.map_nil, List.cons.injEq, and_true] at h
      rw [(newNumber_inj ((hc r hr).2 s (by simp [hrhs])) hA).1 h]
    · simp [hrhs] at h
  · intro h; simp [h]

/-- The renumbered grammar has the renumbered rules, in some order. -/
structure Renumbered (ext : List Nat) (c c' : Cfg) : Prop where
  nodup : ext.Nodup
  covers : Covers ext c
  rules : c'.rules.Perm (c.rules.map (renumberRule ext))
  numSyms : c'.numSyms = ext.length

theorem Renumbered.mem (h : Renumbered ext c c') {r' : CfgRule} : r' ∈ c'.rules ↔ ∃ r ∈ c.rules, renumberRule ext r = r' := by
  rw [h.rules.mem_iff, List.mem_map]

theorem Renumbered.countP (h : Renumbered ext c c') (p q : CfgRule → Prop) [DecidablePred p] [DecidablePred q]
    (hpq : ∀ r ∈ c.rules, p (renumberRule ext r) ↔ q r) : (c'.rules.countP fun r => p r) = c.rules.countP fun r => q r := by
  rw [h.rules.countP_eq, List.countP_map]
  refine List.countP_congr fun r hr => ?_
  simp only [Function.comp_apply, decide_eq_true_eq]
  exact hpq r hr

theorem Renumbered.generated (h : Renumbered ext c c') {A : Nat} (hA : A ∈ ext) :
    Generated c' (newNumber ext A) ↔ Generated c A := by
  have hlhs : ∀ r ∈ c.rules, (renumberRule ext r).lhs = newNumber ext A ↔ r.lhs = A := fun r hr =>
    newNumber_inj (h.covers r hr).1 hA
  have hlen : ∀ r : CfgRule, (renumberRule ext r).rhs.length = r.rhs.length := fun r => by simp [renumberRule]
  have hself : ∀ r ∈ c.rules, (renumberRule ext r).rhs[0]? ≠ some (renumberRule ext r).lhs ↔ r.rhs[0]? ≠ some r.lhs :=
    fun r hr => not_congr (renumber_rhs h.covers hr (h.covers r hr).1 0)
  unfold Generated
  rw [h.countP (fun r => r.rhs.length = 2 ∧ r.rhs[0]? ≠ some r.lhs ∧ r.lhs = newNumber ext A)
      (fun r => r.rhs.length = 2 ∧ r.rhs[0]? ≠ some r.lhs ∧ r.lhs = A)
      (fun r hr => by rw [hlen, hself r hr, hlhs r hr]),
    h.countP (fun r => r.rhs.length = 2 ∧ r.rhs[0]? ≠ some r.lhs ∧ r.rhs[0]? = some (newNumber ext A))
      (fun r => r.rhs.length = 2 ∧ r.rhs[0]? ≠ some r.lhs ∧ r.rhs[0]? = some A)
      (fun r hr => by rw [hlen, hself r hr, renumber_rhs h.covers hr hA 0])]
  refine and_congr_right fun _ => and_congr_right fun _ => and_congr ?_ ?_
  · constructor
    · intro k r hr hm
      exact k _ (h.mem.2 ⟨r, hr, rfl⟩) ((renumber_mem_drop h.covers hr hA 1).2 hm)
    · intro k r' hr' hm
      obtain ⟨r, hr, rfl⟩ := h.mem.1 hr'
      exact k r hr ((renumber_mem_drop h.covers hr hA 1).1 hm)
  · constructor
    · rintro ⟨r', hr', h1, h2⟩
      obtain ⟨r, hr, rfl⟩ := h.mem.1 hr'
      exact ⟨r, hr, (hlhs r hr).1 h1, h2⟩
    · rintro ⟨r, hr, h1, h2⟩
      exact ⟨_, h.mem.2 ⟨r, hr, rfl⟩, (hlhs r hr).2 h1, h2⟩

theorem ruleOf_renumber {r : CfgRule} (h : r.rhs ≠ []) : ruleOf (renumberRule ext r) = (ruleOf r).rename (newNumber ext) := by
  unfold ruleOf Rule.rename renumberRule
  rcases hr : r.rhs with _ | ⟨s, l⟩
  · exact absurd hr h
  · simp

theorem Renumbered.rulesOf_perm (h : Renumbered ext c c') (hne : ∀ r ∈ c.rules, r.rhs ≠ []) :
    (rulesOf c').Perm ((rulesOf c).map (Rule.rename (newNumber ext))) := by
  unfold rulesOf
  refine (h.rules.map ruleOf).trans ?_
  rw [List.map_map, List.map_map]
  refine List.Perm.of_eq (List.map_congr_left fun r hr => ?_)
  exact ruleOf_renumber (hne r hr)

theorem Renumbered.derives (h : Renumbered ext c c') (hne : ∀ r ∈ c.rules, r.rhs ≠ []) {A : Nat} {u : List Nat} (hA : A ∈ ext)
    (hu : ∀ s ∈ u, s ∈ ext) :
    Derives (rulesOf c') (newNumber ext A) (u.map (newNumber ext)) ↔ Derives (rulesOf c) A u := by
  have hp := h.rulesOf_perm hne
  constructor
  · intro hd
    have := hd.rename (R' := rulesOf c) (f := oldNumber ext) fun r' hr' => by
      obtain ⟨r, hr, rfl⟩ := List.mem_map.1 (hp.mem_iff.1 hr')
      have hc : r.lhs ∈ ext ∧ r.rhs0 ∈ ext ∧ ∀ s, r.rhs1 = some s → s ∈ ext := by
        obtain ⟨q, hq, rfl⟩ := List.mem_map.1 hr
        obtain ⟨h1, h2⟩ := h.covers q hq
        refine ⟨h1, ?_, fun s hs => h2 s (List.mem_of_getElem? hs)⟩
        have := hne q hq
        cases hqr : q.rhs with
        | nil => exact absurd hqr this
        | cons s l => exact h2 _ (by simp [ruleOf, hqr])
      have : (r.rename (newNumber ext)).rename (oldNumber ext) = r := by
        obtain ⟨l, r0, r1⟩ := r
        simp only [Rule.rename, old_new hc.1, old_new hc.2.1]
        cases r1 with
        | none => rfl
        | some s => simp only [Option.map_some, old_new (hc.2.2 s rfl)]
      rw [this]
      exact hr
    rw [old_new hA, List.map_map] at this
    have e : u.map (oldNumber ext ∘ newNumber ext) = u := by
      conv => rhs; rw [← List.map_id u]
      exact List.map_congr_left fun s hs => old_new (hu s hs)
    rwa [e] at this
  · intro hd
    exact hd.rename fun r hr => hp.mem_iff.2 (List.mem_map_of_mem hr)

theorem Renumbered.terminal (h : Renumbered ext c c') {A : Nat} (hA : A ∈ ext) :
    Terminal (rulesOf c') (newNumber ext A) ↔ Terminal (rulesOf c) A := by
  unfold Terminal rulesOf
  simp only [List.forall_mem_map]
  constructor
  · intro k r hr e
    exact k _ (h.mem.2 ⟨r, hr, rfl⟩) (by show newNumber ext r.lhs = _; rw [show r.lhs = A from e])
  · intro k r' hr' e
    obtain ⟨r, hr, rfl⟩ := h.mem.1 hr'
    exact k r hr ((newNumber_inj (h.covers r hr).1 hA).1 e)

end

/-- In a list where the elements with a property come last. -/
theorem split_index {l : List Nat} {P : Nat → Prop} [DecidablePred P] (h : l.Pairwise fun a b => P a → P b) {i a : Nat}
    (hi : l[i]? = some a) : P a ↔ (l.countP fun a => ¬ P a) ≤ i := by
  induction l generalizing i with
  | nil => simp at hi
  | cons b l ih =>
    rw [List.pairwise_cons] at h
    cases i with
    | zero =>
      simp only [List.getElem?_cons_zero, Option.some.injEq] at hi
      subst hi
      by_cases hb : P b
      · have : (l.countP fun a => ¬ P a) = 0 := by
          rw [List.countP_eq_zero]
          intro a ha
          simp [h.1 a ha hb]
        rw [List.countP_cons, this]
        simp [hb]
      · rw [List.countP_cons]; simp [hb]
    | succ i =>
      simp only [List.getElem?_cons_succ] at hi
      by_cases hb : P b
      · have hPa := h.1 a (List.mem_of_getElem? hi) hb
        have := (ih h.2 hi).1 hPa
        rw [List.countP_cons]
        simp only [hb, not_true_eq_false, decide_false, Bool.false_eq_true, if_false, Nat.add_zero]
        exact ⟨fun _ => by omega, fun _ => hPa⟩
      · rw [List.countP_cons, ih h.2 hi]
        simp [hb]

/-- What `remap_symbols` returns. -/
structure Remapped (c : Cfg) (w : WrappedRoot) (ext : List Nat) : Prop where
  nodup : ext.Nodup
  covers : Covers ext c
  lt : ∀ s ∈ ext, s < c.numSyms
  head : ext.head? = some w.eof
  blocks : ext.Pairwise fun a b => Generated c a → Generated c b

theorem BinarizedOK.eof_lt {c : Cfg} {w : WrappedRoot} (h : BinarizedOK c w) : w.eof < c.numSyms := by
  obtain ⟨r, hr, _, he⟩ := h.startRule
  exact h.rhs_lt r hr _ (List.mem_of_getElem? he)

theorem BinarizedOK.notGen {c : Cfg} {A : Nat} (h : ∀ r ∈ c.rules, r.lhs ≠ A) : ¬ Generated c A := by
  rintro ⟨_, _, _, r, hr, e, _⟩
  exact h r hr e

theorem BinarizedOK.syms {c : Cfg} {w : WrappedRoot} (h : BinarizedOK c w) : SymsOK c w.eof :=
  ⟨h.lhs_lt, h.rhs_lt, ⟨w, h.root, rfl⟩, h.eof_lt, BinarizedOK.notGen h.eofTerm⟩

theorem BinarizedOK.numbered {c : Cfg} {w : WrappedRoot} (h : BinarizedOK c w) : Props.Numbered c w.eof :=
  ⟨h.fresh, fun r hr s hs => ⟨h.eofTerm r hr, fun e => h.eofNot0 r hr (by rw [hs, e]; rfl)⟩⟩

theorem remapSymbols_ok {X : CfgCrate} (hX : CrateOK X) {c : Cfg} {w : WrappedRoot} (hc : BinarizedOK c w) :
    ∃ ext, remapSymbols X c = pure (renumber ext c, mappingOf ext c.numSyms) ∧ Remapped c w ext := by
  obtain ⟨m, h1, h2, h3, h4⟩ := Props.C34_order hc.syms hc.numbered
  obtain ⟨m', h1', hd, hw, hh⟩ := Props.symbolOrder_returns hc.syms
  cases pure_inj_M (h1.symm.trans h1')
  have hret : ∀ a b, a < c.numSyms → b < c.numSyms → ∃ o, compareSyms m a b = pure o := by
    intro a b ha hb
    obtain ⟨e1, e2, e3⟩ := Props.compareSyms_eq hd hw ha hb
    by_cases h : m.has a b
    · exact ⟨_, e1 h⟩
    · by_cases h' : m.has b a
      · exact ⟨_, e2 h h'⟩
      · exact ⟨_, e3 h h'⟩
  obtain ⟨l, hl, hp, hadj⟩ := hX.reorder _ _ hret h4
  obtain ⟨b1, b2⟩ := Props.C34_blocks hc.syms hc.numbered h1 hp hadj
  have hin : ∀ s, s ∈ l ↔ s < c.numSyms := fun s => by rw [hp.mem_iff, List.mem_range]
  have huse : X.used c w.eof = true := by
    obtain ⟨r, hr, _, he⟩ := hc.startRule
    exact (hX.used c r hr).2 _ (List.mem_of_getElem? he)
  refine ⟨l.filter (X.used c), ?_, ?_, ?_, ?_, ?_, ?_⟩
  · unfold remapSymbols
    rw [h1, pure_bind, hl, pure_bind]
  · exact (hp.nodup_iff.2 List.nodup_range).filter _
  · intro r hr
    exact ⟨List.mem_filter.2 ⟨(hin _).2 (hc.lhs_lt r hr), (hX.used c r hr).1⟩,
      fun s hs => List.mem_filter.2 ⟨(hin _).2 (hc.rhs_lt r hr s hs), (hX.used c r hr).2 s hs⟩⟩
  · exact fun s hs => (hin s).1 (List.mem_filter.1 hs).1
  · cases l with
    | nil => cases b1
    | cons x l =>
      cases b1
      rw [List.filter_cons_of_pos huse]
      rfl
  · exact b2.sublist List.filter_sublist

theorem Remapped.renumbered {X : CfgCrate} (hX : CrateOK X) {c : Cfg} {w : WrappedRoot} {ext : List Nat} (h : Remapped c w ext) :
    Renumbered ext c (sortRulesByLhs X (renumber ext c)) :=
  ⟨h.nodup, h.covers, hX.sortPerm _, rfl⟩

/-- The number of ordinary symbols that are kept. -/
def ordinaries (ext : List Nat) (c : Cfg) : Nat := ext.countP fun a => ¬ Generated c a

theorem Remapped.new_lt {c : Cfg} {w : WrappedRoot} {ext : List Nat} (h : Remapped c w ext) {A : Nat} (hA : A ∈ ext) :
    newNumber ext A < ordinaries ext c ↔ ¬ Generated c A := by
  rw [split_index h.blocks (newNumber_get hA)]
  unfold ordinaries
  omega

theorem remap_processed {X : CfgCrate} (hX : CrateOK X) {c : Cfg} {w : WrappedRoot} (hc : BinarizedOK c w) {ext : List Nat}
    (h : Remapped c w ext) : ∃ depth, ProcessedOK (sortRulesByLhs X (renumber ext c)) (ordinaries ext c) (renumberRoot ext w) depth := by
  have hR := h.renumbered hX
  obtain ⟨depth, hdep⟩ := hc.nested
  obtain ⟨r0, hr0, hs1, hs2⟩ := hc.startRule
  have hroot : w.root ∈ ext := hs1 ▸ (h.covers r0 hr0).1
  have heof : w.eof ∈ ext := (h.covers r0 hr0).2 _ (List.mem_of_getElem? hs2)
  have heof0 : newNumber ext w.eof = 0 := by
    have := h.head
    cases hx : ext with
    | nil => simp [hx] at this
    | cons x l =>
      rw [hx] at this
      cases this
      simp [newNumber]
  have hinj := fun {r : CfgRule} (hr : r ∈ c.rules) => (h.covers r hr)
  have hback : ∀ A', A' < ext.length → ∃ A ∈ ext, newNumber ext A = A' := fun A' hA' =>
    ⟨ext[A'], List.getElem_mem hA', new_of_get h.nodup (List.getElem?_eq_getElem hA')⟩
  have hgen : ∀ A ∈ ext, (Generated c A ↔ ordinaries ext c ≤ newNumber ext A) := fun A hA => by
    have := h.new_lt hA
    constructor
    · intro hg; by_contra hlt; exact this.1 (by omega) hg
    · intro hle; by_contra hg; have := this.2 hg; omega
  refine ⟨fun i => depth (oldNumber ext i), ?_⟩
  constructor
  case len =>
    intro r' hr'
    obtain ⟨r, hr, rfl⟩ := hR.mem.1 hr'
    simpa [renumberRule] using hc.len r hr
  case lhs_lt =>
    intro r' hr'
    obtain ⟨r, hr, rfl⟩ := hR.mem.1 hr'
    exact newNumber_lt (hinj hr).1
  case rhs_lt =>
    intro r' hr' s' hs'
    obtain ⟨r, hr, rfl⟩ := hR.mem.1 hr'
    obtain ⟨s, hs, rfl⟩ := List.mem_map.1 hs'
    exact newNumber_lt ((hinj hr).2 s hs)
  case sorted => exact hX.sorted _
  case syms_le => exact List.countP_le_length
  case gen =>
    intro A' hA'
    obtain ⟨A, hA, rfl⟩ := hback A' hA'
    rw [hR.generated hA, hgen A hA]
  case genLhs =>
    intro r1' hr1' r2' hr2' he hg
    obtain ⟨r1, hr1, rfl⟩ := hR.mem.1 hr1'
    obtain ⟨r2, hr2, rfl⟩ := hR.mem.1 hr2'
    have hne : r1.rhs ≠ [] := by rintro h; have := hc.len r1 hr1; simp [h] at this
    obtain ⟨A, hA⟩ : ∃ A, r1.rhs[0]? = some A := by
      cases h : r1.rhs with
      | nil => exact absurd h hne
      | cons a l => exact ⟨a, rfl⟩
    have hAe := (hinj hr1).2 A (List.mem_of_getElem? hA)
    have h1 := (renumber_rhs h.covers hr1 hAe 0).2 hA
    have h2 := (renumber_rhs h.covers hr2 hAe 0).1 (he ▸ h1)
    rw [hc.genLhs r1 hr1 r2 hr2 A hA h2 ((hgen A hAe).2 (hg _ h1)) |> fun e => show (renumberRule ext r1).lhs = (renumberRule ext r2).lhs
      from congrArg (newNumber ext) e]
  case genUnary =>
    intro A' hle hlt
    obtain ⟨A, hA, rfl⟩ := hback A' hlt
    rw [hR.countP (fun r => r.rhs = [newNumber ext A]) (fun r => r.rhs = [A]) (fun r hr => renumber_rhs_eq h.covers hr hA)]
    exact hc.genUnary A ((hgen A hA).2 hle)
  case depth =>
    intro r' hr' A' hA' hle
    obtain ⟨r, hr, rfl⟩ := hR.mem.1 hr'
    have hA' : (r.rhs.map (newNumber ext))[0]? = some A' := hA'
    rw [List.getElem?_map, Option.map_eq_some_iff] at hA'
    obtain ⟨A, hA, rfl⟩ := hA'
    have hAe := (hinj hr).2 A (List.mem_of_getElem? hA)
    show depth (oldNumber ext (newNumber ext r.lhs)) < depth (oldNumber ext (newNumber ext A))
    rw [old_new (hinj hr).1, old_new hAe]
    exact hdep r hr A hA ((hgen A hAe).2 hle)
  case dots =>
    intro r' hr'
    obtain ⟨r, hr, rfl⟩ := hR.mem.1 hr'
    exact hc.dots r hr
  case numRoots => exact hc.numRoots
  case root =>
    show (c.wrappedRoots.map (renumberRoot ext)).head? = _
    rw [hc.root]; rfl
  case start_lt =>
    refine (h.new_lt hroot).2 fun hg => ?_
    obtain ⟨_, hcount, _⟩ := hg
    have : 0 < c.rules.countP fun r => decide (r.rhs.length = 2 ∧ r.rhs[0]? ≠ some r.lhs ∧ r.rhs[0]? = some w.root) := by omega
    obtain ⟨r, hr, hp⟩ := List.countP_pos_iff.1 this
    simp only [decide_eq_true_eq] at hp
    exact hc.startNot r hr (List.mem_of_getElem? hp.2.2)
  case eof_lt => exact (h.new_lt heof).2 (BinarizedOK.notGen hc.eofTerm)
  case startRule =>
    refine ⟨_, hR.mem.2 ⟨r0, hr0, rfl⟩, ?_, (renumber_rhs h.covers hr0 heof 1).2 hs2⟩
    show newNumber ext r0.lhs = newNumber ext w.root
    rw [hs1]
  case eofOnce =>
    exact (hR.countP (fun r => r.rhs[1]? = some (newNumber ext w.eof)) _ fun r hr => renumber_rhs h.covers hr heof 1).trans hc.eofOnce
  case eofNot0 =>
    intro r' hr' he
    obtain ⟨r, hr, rfl⟩ := hR.mem.1 hr'
    exact hc.eofNot0 r hr ((renumber_rhs h.covers hr heof 0).1 he)
  case eofTerm =>
    intro r' hr' he
    obtain ⟨r, hr, rfl⟩ := hR.mem.1 hr'
    exact hc.eofTerm r hr ((newNumber_inj (hinj hr).1 heof).1 he)
  case eofMin =>
    intro r' _ s _
    show newNumber ext w.eof ≤ s
    omega
  case startNot =>
    intro r' hr' he
    obtain ⟨r, hr, rfl⟩ := hR.mem.1 hr'
    exact hc.startNot r hr ((renumber_mem_drop h.covers hr hroot 0).1 he)

end Gearley.Spec
