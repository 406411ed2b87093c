import Verif.Model.Api
import Verif.Proofs.Transfer
import Verif.Examples.Sums

/-!
# C08: forests do not influence recognition
-/

namespace Gearley.Props
open Gearley.Spec
variable {σ₁ ν₁ σ₂ ν₂ : Type}

section
variable {F₁ : ForestOps σ₁ ν₁} {F₂ : ForestOps σ₂ ν₂} {g : DefaultGrammar} {la leo : Bool} {so : Sorter}
local notation "E₁" => FSim.env g la leo so F₁
local notation "E₂" => FSim.env g la leo so F₂
local notation "S" => laxSim F₁ F₂

theorem medialItems_rel {s : Rec σ₁ ν₁} {t : Rec σ₂ ν₂} (h : (S).RIdle () s t) :
    RelM True s.medialItems t.medialItems fun l m =>
      l.map (fun it => (it.dot, it.origin)) = m.map fun it => (it.dot, it.origin) := by
  unfold Rec.medialItems
  rw [h.earleme]
  refine (h.medial.index _).mono ?_
  intro l m hl
  induction hl with
  | nil => rfl
  | cons hab _ ih => simp only [List.map_cons, hab.1, hab.2.1, ih]

theorem mapM_congr_rel {α₁ α₂ β : Type} {l : List α₁} {m : List α₂} {k₁ : α₁ → Nat × Nat} {k₂ : α₂ → Nat × Nat}
    (h : l.map k₁ = m.map k₂) (f : Nat × Nat → M β) : (l.mapM fun a => f (k₁ a)) = m.mapM fun a => f (k₂ a) := by
  have h1 : ∀ l : List α₁, (l.mapM fun a => f (k₁ a)) = (l.map k₁).mapM f := by
    intro l
    induction l with
    | nil => rfl
    | cons a l ih => simp only [List.mapM_cons, List.map_cons, ih]
  have h2 : ∀ l : List α₂, (l.mapM fun a => f (k₂ a)) = (l.map k₂).mapM f := by
    intro l
    induction l with
    | nil => rfl
    | cons a l ih => simp only [List.mapM_cons, List.map_cons, ih]
  rw [h1, h2, h]

theorem call_rel {s : Rec σ₁ ν₁} {t : Rec σ₂ ν₂} (h : (S).RIdle () s t) (c : Call) :
    RelM True (Rec.call E₁ s c) (Rec.call E₂ t c) fun a b => (S).RIdle () a.1 b.1 ∧ a.2 = b.2 := by
  have hd : DotsOK g fun _ => True := ⟨fun _ _ _ _ _ => trivial, fun _ _ _ _ _ => trivial, fun _ _ _ _ _ => trivial⟩
  cases c with
  | beginEarleme => exact relM_pure ⟨FSim.begin_rel h, rfl⟩
  | setHint x => exact relM_pure ⟨FSim.set_rel h x, rfl⟩
  | clearHint => exact relM_pure ⟨FSim.clear_rel h, rfl⟩
  | scan x v =>
    refine relM_bind (FSim.scan_rel hd h trivial) ?_
    rintro a b ⟨_, _, hab⟩
    exact relM_pure ⟨hab, rfl⟩
  | endEarleme =>
    refine relM_bind (FSim.endEarleme_rel hd h) ?_
    rintro ⟨a, x⟩ ⟨b, y⟩ ⟨_, _, hab, hxy⟩
    refine relM_pure ⟨hab, ?_⟩
    simp only at hxy ⊢
    rw [hxy]
  | reset =>
    refine relM_bind (FSim.reset_rel h) fun a b hab => relM_pure ⟨hab, rfl⟩
  | isFinished =>
    refine relM_bind (Q := Eq) ?_ fun a b hab => relM_pure ⟨h, by rw [hab]⟩
    refine relM_bind (FSim.finishedNode_rel h fun sym _ => relM_any fun _ _ _ _ => trivial) fun a b hab => relM_pure ?_
    cases hab <;> rfl
  | isExhausted =>
    exact relM_bind (FSim.isExhausted_rel h) fun a b hab => relM_pure ⟨h, by rw [hab]⟩
  | earleme => exact relM_pure ⟨h, by rw [h.earleme]⟩
  | predictedSymbols =>
    simp only [Rec.call, Rec.callWith, Rec.predictedSymbols, h.predicted, h.earleme]
    exact relM_bind_same fun l _ => relM_pure ⟨h, rfl⟩
  | medialItems =>
    exact relM_bind (medialItems_rel h) fun l m hlm => relM_pure ⟨h, by rw [hlm]⟩
  | trace =>
    refine relM_bind (Q := Eq) ?_ fun a b hab => relM_pure ⟨h, by rw [hab]⟩
    simp only [Rec.trace, Rec.predictedSymbols, h.predicted, h.earleme]
    refine relM_bind_same fun _ _ => relM_bind_same fun _ _ => ?_
    refine relM_bind (medialItems_rel h) fun l m hlm => ?_
    rw [mapM_congr_rel hlm fun p => do
      let x ← indexM g.trace.2.1 p.1
      pure (x, p.2)]
    exact relM_bind_same fun _ _ => relM_pure rfl
  | events =>
    refine relM_bind (Q := Eq) ?_ fun a b hab => relM_pure ⟨h, by rw [hab]⟩
    simp only [Rec.events, Rec.predictedSymbols, h.predicted, h.earleme]
    refine relM_bind_same fun _ _ => relM_bind_same fun _ _ => ?_
    refine relM_bind (medialItems_rel h) fun l m hlm => ?_
    rw [mapM_congr_rel hlm fun p => indexM g.events.2 p.1]
    exact relM_bind_same fun _ _ => relM_pure rfl
  | expectedTerminals =>
    refine relM_bind (Q := Eq) ?_ fun a b hab => relM_pure ⟨h, by rw [hab]⟩
    unfold Rec.expectedTerminals
    refine relM_bind (medialItems_rel h) fun l m hlm => ?_
    rw [mapM_congr_rel hlm fun p => do
      let r ← g.getRhs1 p.1
      unwrapM r]
    exact relM_same.mono fun _ _ h => h.1

theorem calls_rel (cs : List Call) {s : Rec σ₁ ν₁} {t : Rec σ₂ ν₂} (h : (S).RIdle () s t) :
    RelM True (Rec.calls E₁ cs s) (Rec.calls E₂ cs t) fun a b => (S).RIdle () a.1 b.1 ∧ a.2 = b.2 := by
  induction cs generalizing s t with
  | nil => exact relM_pure ⟨h, rfl⟩
  | cons c cs ih =>
    refine relM_bind (call_rel h c) ?_
    rintro ⟨a, x⟩ ⟨b, y⟩ ⟨hab, hxy⟩
    simp only at hab hxy
    subst hxy
    refine relM_bind (ih hab) ?_
    rintro ⟨a, xs⟩ ⟨b, ys⟩ ⟨hab, hxy⟩
    simp only at hab hxy
    subst hxy
    exact relM_pure ⟨hab, rfl⟩

end

/-- C08. Whatever forests are plugged in and whatever calls are made: as long as neither forest panics, all observations
agree. The grammar, the policy constants and the sort are the same. -/
theorem C08_forest_irrelevant {E₁ : Env σ₁ ν₁} {E₂ : Env σ₂ ν₂} (hg : E₁.g = E₂.g) (hla : E₁.lookahead = E₂.lookahead)
    (hleo : E₁.leo = E₂.leo) (hso : E₁.sorter = E₂.sorter) (f₁ : σ₁) (f₂ : σ₂) (cs : List Call)
    {s₁ : Rec σ₁ ν₁} {s₂ : Rec σ₂ ν₂} {o₁ o₂ : List Obs} (h₁ : (Rec.new E₁ f₁ >>= Rec.calls E₁ cs) = pure (s₁, o₁))
    (h₂ : (Rec.new E₂ f₂ >>= Rec.calls E₂ cs) = pure (s₂, o₂)) : o₁ = o₂ := by
  obtain ⟨g, F₁, la, leo, so⟩ := E₁
  obtain ⟨_, F₂, _, _, _⟩ := E₂
  simp only at hg hla hleo hso
  subst hg hla hleo hso
  have := relM_bind (FSim.new_rel (S := laxSim F₁ F₂) (g := g) (la := la) (leo := leo) (so := so) (f₁ := f₁) (f₂ := f₂)
    (w := ()) trivial) fun a b hab => calls_rel (g := g) (la := la) (leo := leo) (so := so) cs hab
  rcases this with ⟨a, b, ha, hb, _, hab⟩ | ⟨p, ha, _⟩ | ⟨ha, _⟩ | ⟨_, ha | hb⟩
  · rw [h₁] at ha
    rw [h₂] at hb
    have ha := pure_inj_M ha
    have hb := pure_inj_M hb
    subst ha hb
    exact hab
  · rw [h₁] at ha; exact absurd ha.symm panicM_ne_pure
  · rw [h₁] at ha; exact absurd ha.symm diverge_ne_pure
  · exact absurd h₁ (ha _)
  · exact absurd h₂ (hb _)

section
open Gearley.Example

/-- Two tokens read, with queries in between and after. -/
def exampleCalls : List Call := [.beginEarleme, .predictedSymbols, .scan 1 0, .endEarleme, .beginEarleme, .setHint 2,
  .scan 5 7, .endEarleme, .isFinished, .beginEarleme, .medialItems, .predictedSymbols, .expectedTerminals, .isExhausted,
  .earleme, .reset]

/-- What they let the client see. -/
def exampleObs : List Obs := [.unit, .nums [1, 3], .unit, .bool true, .unit, .unit, .unit, .bool true, .bool true,
  .unit, .pairs [(0, 0), (4, 1)], .nums [0, 2], .nums [0, 2], .bool true, .num 2, .unit]

/-- The observations of a call sequence on a fresh recognizer, computed with fuel. -/
def observations {σ ν : Type} (E : Env σ ν) (f : σ) (cs : List Call) : M (List Obs) := do
  let s ← Rec.new E f
  let r ← Rec.callsWith E (Rec.completeAllFuel E 50) cs s
  pure r.2

theorem observations_real {σ ν : Type} {E : Env σ ν} {f : σ} {cs : List Call} {o : List Obs}
    (h : observations E f cs = pure o) : ∃ s, (Rec.new E f >>= Rec.calls E cs) = pure (s, o) := by
  obtain ⟨s0, h1, h2⟩ := bind_eq_pure h
  obtain ⟨⟨s, o'⟩, h3, h4⟩ := bind_eq_pure h2
  have := pure_inj_M h4
  subst this
  exact ⟨s, by rw [h1, pure_bind]; exact Rec.calls_below 50 cs s0 _ h3⟩

-- both premises of C08 hold for the null forest and for the forest of trees
example : ∃ s, (Rec.new env () >>= Rec.calls env exampleCalls) = pure (s, exampleObs) :=
  observations_real (by decide +kernel)
example : ∃ s, (Rec.new { env with F := treeForest } [] >>= Rec.calls { env with F := treeForest } exampleCalls)
    = pure (s, exampleObs) := observations_real (by decide +kernel)

end

end Gearley.Props
