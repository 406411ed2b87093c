import Verif.Model.Manual
import Verif.Proofs.RelM
import Verif.Proofs.Below
import Verif.Proofs.Earleme

/-! # Completion by hand -/

namespace Gearley
open Gearley.Spec
variable {σ ν : Type} {E : Env σ ν}

/-! ### What leaves the hint alone -/

/-- If `x` returns, its result has property `Q`. -/
def Gives {α} (x : M α) (Q : α → Prop) : Prop := ∀ a, x = pure a → Q a

theorem Gives.pure {α} {a : α} {Q : α → Prop} (h : Q a) : Gives (Pure.pure a) Q := fun _ he => pure_inj_M he ▸ h

theorem Gives.panic {α} {p : Panic} {Q : α → Prop} : Gives (panicM p) Q := fun _ he => absurd he panicM_ne_pure

theorem Gives.bind {α β} {x : M α} {f : α → M β} {P : α → Prop} {Q : β → Prop} (hx : Gives x P)
    (hf : ∀ a, P a → Gives (f a) Q) : Gives (x >>= f) Q := by
  intro b hb
  obtain ⟨a, h1, h2⟩ := bind_eq_pure hb
  exact hf a (hx a h1) b h2

theorem Gives.any {α} {x : M α} : Gives x fun _ => True := fun _ _ => trivial

theorem bind_congr_gives {α β} {x : M α} {f g : α → M β} {P : α → Prop} (hx : Gives x P) (h : ∀ a, P a → f a = g a) :
    (x >>= f) = (x >>= g) := by
  rcases bind_cases x f with ⟨a, ha, hf⟩ | ⟨p, ha, hf⟩ | ⟨ha, hf⟩
  · rw [ha, pure_bind, pure_bind]
    exact h a (hx a ha)
  · rw [ha, panicM_bind, panicM_bind]
  · rw [ha]; rfl

theorem Gives.foldlM {α β} {f : β → α → M β} {I : β → Prop} (step : ∀ b a, I b → Gives (f b a) I) (l : List α) {b : β}
    (h : I b) : Gives (l.foldlM f b) I := by
  induction l generalizing b with
  | nil => exact .pure h
  | cons a l ih =>
    rw [List.foldlM_cons]
    exact (step b a h).bind fun b' hb' => ih hb'

namespace Rec

/-- The hint is `h` and the predictions are `m`. -/
def Fix (h : Option Nat) (m : BitMatrix) (s : Rec σ ν) : Prop := s.lookahead = h ∧ s.predicted = m

theorem completeGenerated_fix {h : Option Nat} {m : BitMatrix} {s : Rec σ ν} (hs : Fix h m s) (o A : Nat) (x : ν) :
    Gives (completeGenerated E s o A x) (Fix h m) := by
  unfold completeGenerated
  refine Gives.any.bind fun p _ => ?_
  obtain ⟨b, u⟩ := p
  refine Gives.bind (P := Fix h m) ?_ fun s hs => ?_
  · cases u with
    | none => exact .pure hs
    | some t =>
      refine Gives.any.bind fun w _ => ?_
      cases w with
      | false => exact .pure hs
      | true => exact Gives.any.bind fun l _ => .pure hs
  · cases b with
    | none => exact .pure hs
    | some t =>
      refine Gives.any.bind fun w _ => ?_
      cases w with
      | false => exact .pure hs
      | true => exact .pure hs

theorem completeMedialItem_fix {h : Option Nat} {m : BitMatrix} {s : Rec σ ν} (hs : Fix h m s) (x : ν) (it : Item ν) :
    Gives (completeMedialItem E x s it) (Fix h m) := by
  unfold completeMedialItem
  refine Gives.any.bind fun u _ => ?_
  split
  · exact Gives.any.bind fun p _ => Gives.any.bind fun l _ => .pure hs
  · exact .pure hs

theorem completePrediction_fix {h : Option Nat} {m : BitMatrix} {p : Rec σ ν × Nat} (hs : Fix h m p.1) (o : Nat) (x : ν) (t : PT) :
    Gives (completePrediction E o x p t) fun q => Fix h m q.1 := by
  unfold completePrediction
  refine Gives.any.bind fun w _ => Gives.any.bind fun u _ => ?_
  split
  · exact .pure hs
  · exact .pure hs

theorem completeSym_fix {h : Option Nat} {m : BitMatrix} {s : Rec σ ν} (hs : Fix h m s) (o A : Nat) (x : ν) :
    Gives (completeSym E s o A x) (Fix h m) := by
  unfold completeSym
  split
  · exact completeGenerated_fix hs o A x
  refine Gives.any.bind fun w _ => ?_
  split
  · split
    · exact .panic
    · refine Gives.bind (P := Fix h m) ?_ fun s hs => ?_
      · unfold completeMedialItems
        exact Gives.any.bind fun set _ => Gives.any.bind fun items _ =>
          Gives.foldlM (fun b a hb => completeMedialItem_fix hb x a) items hs
      · unfold completePredictions
        refine Gives.any.bind fun last _ => Gives.any.bind fun comps _ => ?_
        refine Gives.bind (P := fun q => Fix h m q.1)
          (Gives.foldlM (fun b a hb => completePrediction_fix hb o x a) comps hs) ?_
        rintro ⟨s, k⟩ hs
        exact Gives.any.bind fun _ _ => Gives.any.bind fun _ _ => Gives.any.bind fun _ _ => Gives.any.bind fun _ _ => .pure hs
  · exact .pure hs

theorem scan_fix {h : Option Nat} {m : BitMatrix} {s : Rec σ ν} (hs : Fix h m s) (t v : Nat) : Gives (scan E s t v) (Fix h m) := by
  unfold scan
  exact Gives.any.bind fun _ _ => Gives.any.bind fun p _ => completeSym_fix (s := { s with forest := p.1 }) hs _ _ _

theorem scanAll_fix {h : Option Nat} {m : BitMatrix} {s : Rec σ ν} (hs : Fix h m s) (toks : List (Nat × Nat)) :
    Gives (scanAll E s toks) (Fix h m) :=
  Gives.foldlM (fun _ _ hb => scan_fix hb _ _) toks hs

theorem nextSummand_fix {h : Option Nat} {m : BitMatrix} {s : Rec σ ν} (hs : Fix h m s) (o A : Nat) :
    Gives (nextSummand E s o A) fun p => Fix h m p.1 := by
  unfold nextSummand
  split
  · refine Gives.any.bind fun l _ => ?_
    split
    · exact Gives.any.bind fun _ _ => .pure hs
    · exact .pure hs
  · exact .pure hs

theorem summandLoop_fix {h : Option Nat} {m : BitMatrix} (o A n : Nat) {s : Rec σ ν} (hs : Fix h m s) :
    Gives (summandLoop E o A n s) (Fix h m) := by
  induction n generalizing s with
  | zero => exact .pure hs
  | succ n ih =>
    refine (nextSummand_fix hs o A).bind ?_
    rintro ⟨s, _ | it⟩ hs
    · exact .pure hs
    · exact Gives.bind (P := Fix h m) (Gives.any.bind fun f _ => .pure hs) fun s hs => ih hs

theorem completeSum_fix {h : Option Nat} {m : BitMatrix} {s : Rec σ ν} (hs : Fix h m s) (o A : Nat) :
    Gives (completeSum E s o A) fun p => Fix h m p.1 := by
  unfold completeSum
  refine Gives.any.bind fun p _ => ?_
  exact (completeSym_fix (s := { s with forest := p.1 }) hs o A p.2).bind fun s hs => .pure hs

theorem manualSum_fix {h : Option Nat} {m : BitMatrix} {s : Rec σ ν} (hs : Fix h m s) (o A : Nat) :
    Gives (manualSum E s o A) (Fix h m) :=
  (summandLoop_fix o A _ hs).bind fun _ hs => (completeSum_fix hs o A).bind fun _ hs => .pure hs

theorem completeEntireSum_fix {h : Option Nat} {m : BitMatrix} {s : Rec σ ν} (hs : Fix h m s) (o A : Nat) :
    Gives (completeEntireSum E s o A) (Fix h m) := by
  unfold completeEntireSum
  exact Gives.any.bind fun f _ => manualSum_fix (s := { s with forest := f }) hs o A

/-- The hint is `h`. -/
def Hint (h : Option Nat) (s : Rec σ ν) : Prop := s.lookahead = h

theorem advance_hint {h : Option Nat} {s : Rec σ ν} (hs : Hint h s) : Gives (advanceAfterCompletion E s) (Hint h) := by
  unfold advanceAfterCompletion
  refine Gives.bind (P := Hint h) (Gives.any.bind fun _ _ => .pure hs) fun s hs => ?_
  refine Gives.bind (P := Hint h) ?_ fun s hs => ?_
  · unfold removeUnreachable
    refine Gives.any.bind fun l _ => ?_
    dsimp only
    split <;> split
    · exact Gives.any.bind fun _ _ => Gives.any.bind fun _ _ => Gives.any.bind fun _ _ => .pure hs
    · exact .pure hs
    · exact Gives.any.bind fun _ _ => Gives.any.bind fun _ _ => Gives.any.bind fun _ _ => .pure hs
    · exact .pure hs
  · split
    · exact .panic
    · unfold predictionPass
      exact Gives.any.bind fun _ _ => Gives.any.bind fun _ _ => Gives.any.bind fun _ _ => Gives.any.bind fun _ _ => .pure hs

/-! ### By hand and automatically -/

theorem completeEntireSum_eq (hb : ∀ f, E.F.beginSum f = pure f) (s : Rec σ ν) (o A : Nat) :
    completeEntireSum E s o A = manualSum E s o A := by
  unfold completeEntireSum
  rw [hb, pure_bind]
  rfl

/-- The two passes differ in that only one clears the hint. -/
theorem completeAll_manual {entire : Rec σ ν → Bool} (hb : (∀ f, E.F.beginSum f = pure f) ∨ ∀ s, entire s = true)
    (s : Rec σ ν) : completeAll E s = (manualAll E entire s >>= fun s' => pure s'.clearHint) := by
  have hsum : ∀ s o A, (if entire s then completeEntireSum E s o A else manualSum E s o A) = completeEntireSum E s o A := by
    intro s o A
    rcases hb with hb | hb
    · rw [completeEntireSum_eq hb, ite_self]
    · rw [if_pos (hb s)]
  have hrel : RelM False (completeAll E s) (manualAll E entire s) fun a b => a = b.clearHint := by
    refine relM_loop (I := Eq) ?_ rfl
    rintro a _ rfl
    unfold completeStep manualStep
    refine relM_bind_same fun x _ => ?_
    rcases x with _ | ⟨o, A⟩
    · exact relM_pure rfl
    · simp only [hsum]
      exact relM_bind_same fun x _ => relM_pure rfl
  rcases hrel with ⟨_, b, h1, h2, rfl⟩ | ⟨p, h1, h2⟩ | ⟨h1, h2⟩ | ⟨h, _⟩
  · rw [h1, h2]; rfl
  · rw [h1, h2]; rfl
  · rw [h1, h2]; rfl
  · exact h.elim

/-- The pass by hand leaves the hint and the predictions alone. -/
theorem manualAll_fix {entire : Rec σ ν → Bool} {h : Option Nat} {m : BitMatrix} {s : Rec σ ν} (hs : Fix h m s) :
    Gives (manualAll E entire s) (Fix h m) := by
  intro r hr
  rcases loop_fuel (f := manualStep E entire) s with hd | ⟨n, hn⟩
  · unfold manualAll at hr; rw [hd] at hr; exact absurd hr diverge_ne_pure
  replace hr : loopFuel (manualStep E entire) n s = pure r := hn.trans hr
  clear hn
  induction n generalizing s with
  | zero => exact absurd hr diverge_ne_pure
  | succ n ih =>
    have hstep : Gives (manualStep E entire s) fun x => match x with | .inl s => Fix h m s | .inr s => Fix h m s := by
      unfold manualStep
      refine Gives.any.bind fun x _ => ?_
      rcases x with _ | ⟨o, A⟩
      · exact .pure hs
      · refine Gives.bind (P := Fix h m) ?_ fun s hs => .pure hs
        split
        · exact completeEntireSum_fix hs o A
        · exact manualSum_fix hs o A
    obtain ⟨x, hx, hr⟩ := bind_eq_pure hr
    have := hstep x hx
    rcases x with s' | s'
    · exact ih this hr
    · exact pure_inj_M hr ▸ this

theorem endEarleme_manual {entire : Rec σ ν → Bool} (hb : (∀ f, E.F.beginSum f = pure f) ∨ ∀ s, entire s = true)
    {s : Rec σ ν} (hs : s.lookahead = none) : manualEarleme E entire s = endEarleme E s := by
  have : completeAll E s = manualAll E entire s := by
    rw [completeAll_manual hb]
    rcases bind_cases (manualAll E entire s) (fun s' => (pure s'.clearHint : M (Rec σ ν))) with ⟨a, ha, hf⟩ | ⟨p, ha, hf⟩ | ⟨ha, hf⟩
    · rw [hf, ha]
      have : a.clearHint = a := by
        have := (manualAll_fix ⟨hs, rfl⟩ a ha).1
        obtain ⟨_, _, _, _, _⟩ := a
        cases this
        rfl
      rw [this]
    · rw [hf, ha]
    · rw [hf, ha]
  unfold manualEarleme endEarleme endEarlemeWith
  rw [this]

theorem endEarleme_hint {s : Rec σ ν} (hs : s.lookahead = none) : Gives (endEarleme E s) fun r => r.1.lookahead = none := by
  unfold endEarleme endEarlemeWith
  refine Gives.any.bind fun b _ => ?_
  cases b with
  | true => exact .pure hs
  | false =>
    refine Gives.bind (P := Hint none) ?_ fun s hs => (advance_hint hs).bind fun s hs => .pure hs
    rw [completeAll_manual (entire := fun _ => true) (.inr fun _ => rfl)]
    exact Gives.any.bind fun s _ => .pure rfl

/-! ### Skipping a group -/

/-- The loop of `skip_entire_sum` takes items of the group until one of another group comes. -/
theorem skip_loop {R : Rules} {root : Nat → Nat} (hg : GrammarOK E.g R root)
    (o A : Nat) (fuel : Nat) (s : Rec σ ν) (hh : Heap.IsHeap s.complete) (hfuel : s.complete.length ≤ fuel)
    (hr : ∀ it ∈ s.complete, ∃ r, R[it.dot]? = some r) :
    Returns (skipEntireSum E o A fuel s) fun s' => ∃ G, s' = { s with complete := s'.complete } ∧ Heap.IsHeap s'.complete ∧
      s.complete.Perm (G ++ s'.complete) ∧ (∀ it ∈ G, it.origin = o ∧ lhsOf R it.dot = A) ∧
      (∀ top, Heap.peek s'.complete = some top → ¬ (top.origin = o ∧ lhsOf R top.dot = A)) := by
  induction fuel generalizing s with
  | zero =>
    have hnil : s.complete = [] := by simpa using hfuel
    refine returns_pure ⟨[], by simp, hh, by simp, by simp, ?_⟩
    simp [hnil, Heap.peek]
  | succ fuel ih =>
    simp only [skipEntireSum, nextSummand]
    cases hp : Heap.peek s.complete with
    | none =>
      simp only [pure_bind]
      exact returns_pure ⟨[], by simp, hh, by simp, by simp, by simp [hp]⟩
    | some top =>
      have hmem : top ∈ s.complete := List.mem_of_getElem? hp
      obtain ⟨r, hrr⟩ := hr top hmem
      have hlhs : E.g.getLhs top.dot = pure r.lhs := hg.getLhs _ _ hrr
      simp only [hlhs, pure_bind]
      by_cases hk : o = top.origin ∧ A = r.lhs
      · rw [if_pos hk]
        obtain ⟨tl, htl⟩ : ∃ tl, s.complete = top :: tl := by
          cases hc : s.complete with
          | nil => rw [hc] at hmem; simp at hmem
          | cons a tl => rw [hc] at hp; simp [Heap.peek] at hp; exact ⟨tl, by rw [hp]⟩
        have hpop : Returns (Heap.pop s.complete) (fun r => r.2 = some top ∧ s.complete.Perm (top :: r.1) ∧
            Heap.IsHeap r.1) := by
          rw [htl] at hh ⊢
          exact Heap.pop_spec (top :: tl) hh
        simp only [LawfulMonad.bind_assoc, pure_bind]
        refine returns_bind (hpop.mono ?_)
        rintro ⟨h1, x⟩ ⟨hx, hperm, hheap⟩
        simp only at hx hperm hheap
        have hlen : h1.length ≤ fuel := by
          have := hperm.length_eq
          simp at this; omega
        refine (ih { s with complete := h1 } hheap hlen (fun it hit => hr it (hperm.mem_iff.2 (by simp [hit])))).mono ?_
        rintro s' ⟨G, e1, e2, e3, e4, e5⟩
        refine ⟨top :: G, e1, e2, hperm.trans (by simpa using e3), ?_, e5⟩
        intro it hit
        rcases List.mem_cons.1 hit with rfl | h
        · exact ⟨hk.1.symm, by rw [lhsOf_eq hrr]; exact hk.2.symm⟩
        · exact e4 it h
      · rw [if_neg hk]
        simp only [pure_bind]
        refine returns_pure ⟨[], by simp, hh, by simp, by simp, ?_⟩
        intro t ht h
        rw [hp] at ht
        cases ht
        rw [lhsOf_eq hrr] at h
        exact hk ⟨h.1.symm, h.2.symm⟩

/-- Skipping the group of the first item removes exactly the group. -/
theorem skip_group {R : Rules} {root : Nat → Nat} (hg : GrammarOK E.g R root) (s : Rec σ ν) (hh : Heap.IsHeap s.complete)
    (hr : ∀ it ∈ s.complete, ∃ r, R[it.dot]? = some r) {o A : Nat} (hnext : nextSum E s = pure (some (o, A))) :
    Returns (skipEntireSum E o A s.complete.length s) fun s' => s' = { s with complete := s'.complete } ∧
      Heap.IsHeap s'.complete ∧
      s'.complete.Perm (s.complete.filter fun it => !decide (it.origin = o ∧ (R[it.dot]?).map (·.lhs) = some A)) ∧
      s'.complete.length < s.complete.length := by
  obtain ⟨top, htop, rt, hrt, ho, hA⟩ : ∃ top, Heap.peek s.complete = some top ∧ ∃ r, R[top.dot]? = some r ∧
      top.origin = o ∧ r.lhs = A := by
    unfold nextSum at hnext
    split at hnext
    · next top htop =>
      obtain ⟨r, hrr⟩ := hr top (List.mem_of_getElem? htop)
      rw [hg.getLhs _ _ hrr, pure_bind] at hnext
      have := pure_inj_M hnext
      simp only [Option.some.injEq, Prod.mk.injEq] at this
      exact ⟨top, htop, r, hrr, this.1, this.2⟩
    · exact absurd (pure_inj_M hnext) (by simp)
  have hmax : ∀ {l : List (Item ν)}, Heap.IsHeap l → ∀ {t}, Heap.peek l = some t → ∀ it ∈ l, it.le t = true := by
    intro l hl t ht it hit
    obtain ⟨i, hi, rfl⟩ := List.getElem_of_mem hit
    have : l[0]'(by omega) = t := by
      simp only [Heap.peek] at ht
      rw [List.getElem?_eq_getElem (by omega)] at ht
      simpa using ht
    rw [← this]
    exact hl.root_max i hi
  refine (skip_loop hg o A _ s hh (le_refl _) hr).mono ?_
  rintro s' ⟨G, e1, e2, e3, e4, e5⟩
  have hin : ∀ it ∈ s'.complete, it ∈ s.complete := fun it h => e3.mem_iff.2 (by simp [h])
  have hGin : ∀ it ∈ G, it ∈ s.complete := fun it h => e3.mem_iff.2 (by simp [h])
  -- no item of the group is left
  have hout : ∀ it ∈ s'.complete, ¬ (it.origin = o ∧ (R[it.dot]?).map (·.lhs) = some A) := by
    rintro it hit ⟨h1, h2⟩
    cases hp : Heap.peek s'.complete with
    | none =>
      have : s'.complete = [] := by simpa [Heap.peek] using hp
      rw [this] at hit
      simp at hit
    | some t =>
      have ht : t ∈ s'.complete := List.mem_of_getElem? hp
      obtain ⟨r1, hr1⟩ := hr it (hin it hit)
      obtain ⟨r2, hr2⟩ := hr t (hin t ht)
      have a1 := (Item.le_iff _ _).1 (hmax e2 hp it hit)
      have a2 := (Item.le_iff _ _).1 (hmax hh htop t (hin t ht))
      rw [hr1] at h2
      simp only [Option.map_some, Option.some.injEq] at h2
      have hoo : t.origin = o := by omega
      refine e5 t hp ⟨hoo, ?_⟩
      rw [lhsOf_eq hr2]
      have b1 := lhs_mono hg hr1 hr2 (by omega)
      have b2 := lhs_mono hg hr2 hrt (by omega)
      omega
  refine ⟨e1, e2, ?_, ?_⟩
  · have hf := e3.filter fun it => !decide (it.origin = o ∧ (R[it.dot]?).map (·.lhs) = some A)
    rw [List.filter_append] at hf
    have hG0 : G.filter (fun it => !decide (it.origin = o ∧ (R[it.dot]?).map (·.lhs) = some A)) = [] := by
      rw [List.filter_eq_nil_iff]
      intro it hit
      obtain ⟨r1, hr1⟩ := hr it (hGin it hit)
      have := e4 it hit
      rw [lhsOf_eq hr1] at this
      simp [hr1, this.1, this.2]
    have hs0 : s'.complete.filter (fun it => !decide (it.origin = o ∧ (R[it.dot]?).map (·.lhs) = some A)) = s'.complete := by
      rw [List.filter_eq_self]
      intro it hit
      rw [Bool.not_eq_true', decide_eq_false_iff_not]
      exact hout it hit
    rw [hG0, hs0, List.nil_append] at hf
    exact hf.symm
  · have hlen := e3.length_eq
    rw [List.length_append] at hlen
    have hmem : top ∈ s.complete := List.mem_of_getElem? htop
    rcases List.mem_append.1 (e3.mem_iff.1 hmem) with h | h
    · have := List.length_pos_of_mem h
      omega
    · exact absurd ⟨ho, by rw [hrt]; simp [hA]⟩ (hout top h)

/-! ### Forests that need `begin_sum` -/

/-- A step by hand does not return if the forest cannot sum without `begin_sum`. -/
theorem manualAll_never {I : σ → Prop} (hpush : ∀ f it, I f → Gives (E.F.pushSummand f it) I)
    (hsum : ∀ f A o r, I f → E.F.sum f A o ≠ pure r) {s : Rec σ ν} (hs : I s.forest) {o A : Nat}
    (hnext : nextSum E s = pure (some (o, A))) (r : Rec σ ν) : manualAll E (fun _ => false) s ≠ pure r := by
  intro h
  unfold manualAll at h
  rw [loop_eq] at h
  obtain ⟨x, h, _⟩ := bind_eq_pure h
  unfold manualStep at h
  rw [hnext, pure_bind] at h
  obtain ⟨s1, h, _⟩ := bind_eq_pure h
  simp only [Bool.false_eq_true, if_false] at h
  obtain ⟨s2, h2, h⟩ := bind_eq_pure h
  have hloop : ∀ k (s : Rec σ ν), I s.forest → Gives (summandLoop E o A k s) fun s => I s.forest := by
    intro k
    induction k with
    | zero => intro s hs; exact .pure hs
    | succ k ih =>
      intro s hs
      refine Gives.bind (P := fun p : Rec σ ν × Option (Item ν) => I p.1.forest) ?_ ?_
      · unfold nextSummand
        split
        · refine Gives.any.bind fun l _ => ?_
          split
          · exact Gives.any.bind fun _ _ => .pure hs
          · exact .pure hs
        · exact .pure hs
      · rintro ⟨s, _ | it⟩ hs
        · exact .pure hs
        · exact Gives.bind (P := fun s : Rec σ ν => I s.forest) ((hpush _ it hs).bind fun f hf => .pure hf) fun s hs => ih s hs
  have hI := hloop _ s hs s2 h2
  obtain ⟨p, h, _⟩ := bind_eq_pure h
  obtain ⟨q, h, _⟩ := bind_eq_pure h
  exact hsum _ _ _ q hI h

theorem sessionWith_below {ca ca' : Rec σ ν → M (Rec σ ν)} (h : ∀ s, Below (ca s) (ca' s))
    (steps : List (HintOp × List (Nat × Nat))) (s : Rec σ ν) : Below (sessionWith E ca steps s) (sessionWith E ca' steps s) := by
  induction steps generalizing s with
  | nil => exact .refl _
  | cons st rest ih =>
    refine .bind (.bind (.refl _) fun _ => .bind (.refl _) fun _ => Below.ite (.refl _) (.bind (h _) fun _ => .refl _)) ?_
    rintro ⟨s', ok⟩
    exact Below.ite (ih s') (.refl _)

theorem manualSession_below (entire : Rec σ ν → Bool) (k : Nat) (steps : List (HintOp × List (Nat × Nat))) (s : Rec σ ν) :
    Below (sessionWith E (manualAllFuel E entire k) steps s) (manualSession E entire steps s) :=
  sessionWith_below (fun s => loopFuel_below _ k s) steps s

end Rec
end Gearley
