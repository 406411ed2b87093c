import Verif.Spec.Follow
import Verif.Proofs.Derivation
import Verif.Proofs.Renumber
import Verif.Proofs.Setup
import Verif.Props.FromGrammar

/-!
# The textbook rules give exactly what can follow
-/

namespace Gearley.Spec
open Build
variable {R : Rules}

theorem FirstIn.derives {C t : Nat} (h : FirstIn R C t) : ∃ β, Derives R C (t :: β) := by
  induction h with
  | self => exact ⟨[], .refl _⟩
  | @rule r t hr _ ih =>
    obtain ⟨β, hd⟩ := ih
    cases h1 : r.rhs1 with
    | none => exact ⟨β, .unary hr h1 hd⟩
    | some D => exact ⟨β ++ [D], .binary hr h1 hd (.refl D)⟩

theorem FirstIn.of_derives {C : Nat} {u : List Nat} (h : Derives R C u) : ∀ t β, u = t :: β → FirstIn R C t := by
  induction h with
  | refl => intro t β e; cases e; exact .self _
  | unary hr _ _ ih => exact fun t β e => .rule hr (ih t β e)
  | @binary r C u v hr h1 hu _ ih _ =>
    intro t β e
    cases u with
    | nil => exact absurd rfl (Derives.ne_nil hu)
    | cons x u =>
      simp only [List.cons_append, List.cons.injEq] at e
      exact .rule hr (ih t u (by rw [e.1]))

theorem FollowIn.derives {start A t : Nat} (hR : Reached R start) (h : FollowIn R A t) : ∃ α β, Derives R start (α ++ A :: t :: β) := by
  induction h with
  | @inside r C t hr h1 hf =>
    obtain ⟨α, β, hd⟩ := hR r hr
    obtain ⟨β', hd'⟩ := hf.derives
    have := Derives.subst (Derives.binary hr h1 (.refl r.rhs0) hd') hd α β rfl
    exact ⟨α, β' ++ β, by simpa using this⟩
  | @last r C t hr h1 _ ih =>
    obtain ⟨α, β, hd⟩ := ih
    have := Derives.subst (Derives.binary hr h1 (.refl r.rhs0) (.refl C)) hd α (t :: β) rfl
    exact ⟨α ++ [r.rhs0], β, by simpa using this⟩
  | @unary r t hr h1 _ ih =>
    obtain ⟨α, β, hd⟩ := ih
    have := Derives.subst (Derives.unary hr h1 (.refl r.rhs0)) hd α (t :: β) rfl
    exact ⟨α, β, by simpa using this⟩

theorem FollowIn.last_of {B t : Nat} {u : List Nat} (h : Derives R B u) : ∀ α A, u = α ++ [A] → FollowIn R B t → FollowIn R A t := by
  induction h with
  | refl B =>
    intro α A e hf
    cases α with
    | nil => cases e; exact hf
    | cons x α => simp at e
  | unary hr h1 _ ih => exact fun α A e hf => ih α A e (.unary hr h1 hf)
  | @binary r C u v hr h1 _ hv _ ih =>
    intro α A e hf
    rcases List.eq_nil_or_concat v with rfl | ⟨v', x, rfl⟩
    · exact absurd rfl (Derives.ne_nil hv)
    · rw [List.concat_eq_append, ← List.append_assoc] at e
      obtain ⟨_, e⟩ := List.append_inj' e rfl
      simp only [List.cons.injEq, and_true] at e
      exact ih v' A (by rw [e, List.concat_eq_append]) (.last hr h1 hf)

theorem FollowIn.of_derives {X : Nat} {u : List Nat} (h : Derives R X u) : ∀ α A t β, u = α ++ A :: t :: β → FollowIn R A t := by
  induction h with
  | refl X =>
    intro α A t β e
    have := congrArg List.length e
    simp at this
    omega
  | unary _ _ _ ih => exact ih
  | @binary r C u v hr h1 hu hv ih1 ih2 =>
    intro α A t β e
    rcases List.append_eq_append_iff.1 e with ⟨a, h2, h3⟩ | ⟨a, h2, h3⟩
    · exact ih2 a A t β h3
    · cases a with
      | nil => exact ih2 [] A t β (by simpa using h3.symm)
      | cons x a =>
        simp only [List.cons_append, List.cons.injEq] at h3
        obtain ⟨rfl, h3⟩ := h3
        cases a with
        | nil =>
          simp only [List.nil_append] at h3
          exact FollowIn.last_of hu α A h2 (.inside hr h1 (FirstIn.of_derives hv t β h3.symm))
        | cons y a =>
          simp only [List.cons_append, List.cons.injEq] at h3
          obtain ⟨rfl, _⟩ := h3
          exact ih1 α A t a h2

theorem FirstIn.rename {R' : Rules} {f : Nat → Nat} (hR : ∀ r ∈ R, r.rename f ∈ R') {C t : Nat} (h : FirstIn R C t) : FirstIn R' (f C) (f t) := by
  induction h with
  | self => exact .self _
  | rule hr _ ih => exact .rule (hR _ hr) ih

theorem FollowIn.rename {R' : Rules} {f : Nat → Nat} (hR : ∀ r ∈ R, r.rename f ∈ R') {A t : Nat} (h : FollowIn R A t) : FollowIn R' (f A) (f t) := by
  induction h with
  | inside hr h1 hf => exact .inside (hR _ hr) (by simp [Rule.rename, h1]) (hf.rename hR)
  | last hr h1 _ ih => exact .last (hR _ hr) (by simp [Rule.rename, h1]) ih
  | unary hr h1 _ ih => exact .unary (hR _ hr) (by simp [Rule.rename, h1]) ih

/-- The tables of a parser made with a crate that uses the textbook rules. -/
theorem textbook_tables {X : CfgCrate} {c nulling : Cfg} {w : WrappedRoot} {g : DefaultGrammar} (hX : CrateOK X) (ht : Textbook X)
    (hc : BinarizedOK c w) (hg : fromBinarized X c nulling = pure g) {A t x y : Nat} (hA : Props.Occurs c A) (hto : Props.Occurs c t)
    (hx : g.toInternal A = pure (some x)) (hy : g.toInternal t = pure (some y)) (hf : g.lrSets.has (x * 2 + 1) y) : FollowIn (rulesOf c) A t := by
  obtain ⟨ext, h1, h2⟩ := remapSymbols_ok hX hc
  obtain ⟨depth, hP⟩ := remap_processed hX hc h2
  have hR := h2.renumbered hX
  have hocc : ∀ s, Props.Occurs c s → s ∈ ext := by
    rintro s ⟨r, hr, rfl | hs⟩
    · exact (h2.covers r hr).1
    · exact (h2.covers r hr).2 s hs
  unfold fromBinarized at hg
  rw [h1, pure_bind] at hg
  obtain ⟨_, _, hg⟩ := bind_eq_pure hg
  have hg : fromProcessed (sortRulesByLhs X (renumber ext c)) (mappingOf ext c.numSyms) nulling
    (X.firstSets (sortRulesByLhs X (renumber ext c))) (X.followSets (sortRulesByLhs X (renumber ext c))) = pure g := hg
  obtain ⟨root, hB⟩ := built_ok hP hg
  have num : ∀ {s z}, Props.Occurs c s → g.toInternal s = pure (some z) → z = newNumber ext s := by
    intro s z hs hz
    unfold DefaultGrammar.toInternal at hz
    rw [hB.maps, Props.toInternal_mapping (hocc s hs) (h2.lt s (hocc s hs)), pure_inj_M_iff, Option.some.injEq] at hz
    exact hz.symm
  cases num hA hx
  cases num hto hy
  have hrow : newNumber ext A < ordinaries ext c ∧ newNumber ext t < ordinaries ext c := by
    unfold BitMatrix.has at hf
    cases hr : g.lrSets.rows[newNumber ext A * 2 + 1]? with
    | none => rw [hr] at hf; cases hf
    | some row =>
      rw [hr, Option.bind_some] at hf
      have h3 := (List.getElem?_eq_some_iff.1 hr).1
      have h4 := (List.getElem?_eq_some_iff.1 hf).1
      rw [hB.ok.lrLen, hB.syms] at h3
      rw [hB.ok.lrRow row (List.mem_of_getElem? hr), hB.syms] at h4
      exact ⟨by omega, h4⟩
  obtain ⟨p, hp, h3, h4⟩ := (hB.followRow _ _ hrow.1 hrow.2).1 hf
  have h5 := ht _ p hp _ h4
  rw [h3] at h5
  have hne : ∀ r ∈ c.rules, r.rhs ≠ [] := by
    rintro r hr h; have := hc.len r hr; simp [h] at this
  have h6 := h5.rename (f := oldNumber ext) (R' := rulesOf c) (by
    intro r' hr'
    obtain ⟨r, hr, rfl⟩ := List.mem_map.1 ((hR.rulesOf_perm hne).mem_iff.1 hr')
    obtain ⟨q, hq, rfl⟩ := List.mem_map.1 hr
    have hcov := h2.covers q hq
    have : ((ruleOf q).rename (newNumber ext)).rename (oldNumber ext) = ruleOf q := by
      match hqr : q.rhs, hne q hq with
      | [x], _ =>
        rw [hqr] at hcov
        simp only [ruleOf, Rule.rename, hqr, List.headD_cons]
        rw [old_new hcov.1, old_new (hcov.2 x (by simp))]
        rfl
      | x :: y :: l, _ =>
        rw [hqr] at hcov
        simp [ruleOf, Rule.rename, hqr, old_new hcov.1, old_new (hcov.2 x (by simp)), old_new (hcov.2 y (by simp))]
    rw [this]
    exact hr)
  rwa [old_new (hocc A hA), old_new (hocc t hto)] at h6

open Classical in
/-- A crate that computes FOLLOW sets by the textbook rules. -/
noncomputable def textbookCrate : CfgCrate :=
  { Props.plainCrate with
    followSets := fun c => (List.range c.numSyms).map fun s => (s, (List.range c.numSyms).filter fun t => FollowIn (rulesOf c) s t) }

theorem textbookCrate_ok : CrateOK textbookCrate where
  reorder := Props.plainCrate_ok.reorder
  used := Props.plainCrate_ok.used
  sortPerm := Props.plainCrate_ok.sortPerm
  sorted := Props.plainCrate_ok.sorted
  first := Props.plainCrate_ok.first
  follow c w _ A t α β hA ht _ hd :=
    ⟨_, List.mem_map_of_mem (List.mem_range.2 hA), rfl, List.mem_filter.2 ⟨List.mem_range.2 ht, by
      simpa using FollowIn.of_derives hd α A t β rfl⟩⟩

theorem textbookCrate_exact : Textbook textbookCrate := by
  intro c p hp t ht
  obtain ⟨s, _, rfl⟩ := List.mem_map.1 hp
  simpa using (List.mem_filter.1 ht).2

end Gearley.Spec
