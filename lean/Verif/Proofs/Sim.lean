import Verif.Proofs.RelM
import Verif.Model.Session

/-!
# The recognizer with two different forests

If two forest implementations are related operation by operation, then so are the recognizers that use them.
-/

namespace Gearley
variable {σ₁ ν₁ σ₂ ν₂ : Type}

/-- A relation between two forests. `γ` is a growing world; `N w` relates node handles; `Idle` relates forest states
outside sums and `Summing w k` those inside a sum with `k` summands so far. `okDot` and `okLeaf` restrict the rule
numbers and the tokens with their values. -/
structure FSim (lax : Prop) (F₁ : ForestOps σ₁ ν₁) (F₂ : ForestOps σ₂ ν₂) (okDot : Nat → Prop)
    (okLeaf : Nat → Nat → Prop) where
  γ : Type
  le : γ → γ → Prop
  refl : ∀ w, le w w
  trans : ∀ {a b c}, le a b → le b c → le a c
  N : γ → ν₁ → ν₂ → Prop
  mono : ∀ {w w' a b}, le w w' → N w a b → N w' a b
  Idle : γ → σ₁ → σ₂ → Prop
  Summing : γ → Nat → σ₁ → σ₂ → Prop
  beginSum : ∀ {w s t}, Idle w s t →
    RelM lax (F₁.beginSum s) (F₂.beginSum t) fun s' t' => ∃ w', le w w' ∧ Summing w' 0 s' t'
  pushSummand : ∀ {w k s t d o a b}, Summing w k s t → okDot d → N w a b →
    RelM lax (F₁.pushSummand s ⟨d, o, a⟩) (F₂.pushSummand t ⟨d, o, b⟩)
      fun s' t' => ∃ w', le w w' ∧ Summing w' (k + 1) s' t'
  sum : ∀ {w k s t lhs o}, Summing w k s t → 0 < k →
    RelM lax (F₁.sum s lhs o) (F₂.sum t lhs o) fun a b => ∃ w', le w w' ∧ Idle w' a.1 b.1 ∧ N w' a.2 b.2
  product : ∀ {w s t a b c d}, Idle w s t → N w a b → N w c d →
    RelM lax (F₁.product s a c) (F₂.product t b d) fun a b => ∃ w', le w w' ∧ Idle w' a.1 b.1 ∧ N w' a.2 b.2
  leaf : ∀ {w s t sym pos val}, Idle w s t → okLeaf sym val →
    RelM lax (F₁.leaf s sym pos val) (F₂.leaf t sym pos val)
      fun a b => ∃ w', le w w' ∧ Idle w' a.1 b.1 ∧ N w' a.2 b.2

/-- Every rule number in the completion tables is allowed. -/
structure DotsOK (g : DefaultGrammar) (okDot : Nat → Prop) : Prop where
  comps : ∀ sym ts, g.completions sym = pure ts → ∀ t ∈ ts, okDot t.dot
  binary : ∀ sym e t, g.genCompletion sym = pure e → e.1 = some t → okDot t.dot
  unary : ∀ sym e t, g.genCompletion sym = pure e → e.2 = some t → okDot t.dot

theorem forall₂_same {α} {l : List α} {P : α → Prop} (h : ∀ a ∈ l, P a) :
    List.Forall₂ (fun a b => a = b ∧ P a) l l := by
  induction l with
  | nil => exact .nil
  | cons a l ih => exact .cons ⟨rfl, h a (by simp)⟩ (ih fun b hb => h b (by simp [hb]))

/-- Related lists are the two projections of one list. -/
theorem forall₂_pairs {α β} {R : α → β → Prop} {l : List α} {m : List β} (h : List.Forall₂ R l m) :
    ∃ p : List (α × β), l = p.map Prod.fst ∧ m = p.map Prod.snd ∧ ∀ x ∈ p, R x.1 x.2 := by
  induction h with
  | nil => exact ⟨[], rfl, rfl, by simp⟩
  | cons hr _ ih =>
    obtain ⟨p, rfl, rfl, hp⟩ := ih
    refine ⟨(_, _) :: p, rfl, rfl, ?_⟩
    intro x hx
    rcases List.mem_cons.1 hx with rfl | hx
    · exact hr
    · exact hp x hx

theorem forall₂_of_pairs {α β} {R : α → β → Prop} {p : List (α × β)} (h : ∀ x ∈ p, R x.1 x.2) :
    List.Forall₂ R (p.map Prod.fst) (p.map Prod.snd) := by
  induction p with
  | nil => exact .nil
  | cons a l ih => exact .cons (h a (by simp)) (ih fun b hb => h b (by simp [hb]))

namespace FSim
variable {lax : Prop} {F₁ : ForestOps σ₁ ν₁} {F₂ : ForestOps σ₂ ν₂} {okDot : Nat → Prop} {okLeaf : Nat → Nat → Prop}
  (S : FSim lax F₁ F₂ okDot okLeaf)

/-- Related items: same dot, same origin, related nodes. -/
def IRel (w : S.γ) (a : Item ν₁) (b : Item ν₂) : Prop :=
  a.dot = b.dot ∧ a.origin = b.origin ∧ okDot a.dot ∧ S.N w a.node b.node

theorem IRel.key {w : S.γ} (a : Item ν₁) (b : Item ν₂) (h : S.IRel w a b) : a.dot = b.dot ∧ a.origin = b.origin :=
  ⟨h.1, h.2.1⟩

/-- Related recognizers, up to the relation `Fo` between the forests. -/
structure RecRel (Fo : S.γ → σ₁ → σ₂ → Prop) (w : S.γ) (s : Rec σ₁ ν₁) (t : Rec σ₂ ν₂) : Prop where
  lookahead : s.lookahead = t.lookahead
  predicted : s.predicted = t.predicted
  medial : VRel (S.IRel w) s.medial t.medial
  complete : List.Forall₂ (S.IRel w) s.complete t.complete
  forest : Fo w s.forest t.forest

/-- Related in a later world. -/
def Ext {α β} (Q : S.γ → α → β → Prop) (w : S.γ) (a : α) (b : β) : Prop := ∃ w', S.le w w' ∧ Q w' a b

abbrev RIdle := S.RecRel S.Idle
abbrev RSum (k : Nat) := S.RecRel fun w => S.Summing w k

variable {S}
variable {α β α' β' : Type}

theorem Ext.here {Q : S.γ → α → β → Prop} {w : S.γ} {a : α} {b : β} (h : Q w a b) : S.Ext Q w a b :=
  ⟨w, S.refl w, h⟩

theorem Ext.later {Q : S.γ → α → β → Prop} {w w' : S.γ} {a : α} {b : β} (hw : S.le w w') (h : S.Ext Q w' a b) :
    S.Ext Q w a b := by
  obtain ⟨w'', h1, h2⟩ := h
  exact ⟨w'', S.trans hw h1, h2⟩

theorem relM_ext {Q : S.γ → α → β → Prop} {w w' : S.γ} {x : M α} {y : M β} (hw : S.le w w')
    (h : RelM lax x y (S.Ext Q w')) : RelM lax x y (S.Ext Q w) := h.mono fun _ _ => Ext.later hw

/-- Sequencing: the second step starts in the world where the first ended. -/
theorem relM_then {Q : S.γ → α → β → Prop} {Q' : S.γ → α' → β' → Prop} {w : S.γ} {x : M α} {y : M β}
    {f : α → M α'} {g : β → M β'} (h : RelM lax x y (S.Ext Q w))
    (hf : ∀ w' a b, S.le w w' → Q w' a b → RelM lax (f a) (g b) (S.Ext Q' w')) :
    RelM lax (x >>= f) (y >>= g) (S.Ext Q' w) := by
  refine relM_bind h ?_
  rintro a b ⟨w', hw, hq⟩
  exact relM_ext hw (hf w' a b hw hq)

theorem IRel.mono {w w' : S.γ} (hw : S.le w w') {a : Item ν₁} {b : Item ν₂} (h : S.IRel w a b) : S.IRel w' a b :=
  ⟨h.1, h.2.1, h.2.2.1, S.mono hw h.2.2.2⟩

theorem RecRel.medialMono {Fo} {w w' : S.γ} {s : Rec σ₁ ν₁} {t : Rec σ₂ ν₂} (h : S.RecRel Fo w s t) (hw : S.le w w') :
    VRel (S.IRel w') s.medial t.medial := h.medial.mono fun _ _ => IRel.mono hw

theorem RecRel.completeMono {Fo} {w w' : S.γ} {s : Rec σ₁ ν₁} {t : Rec σ₂ ν₂} (h : S.RecRel Fo w s t)
    (hw : S.le w w') : List.Forall₂ (S.IRel w') s.complete t.complete := h.complete.imp fun _ _ => IRel.mono hw

theorem RecRel.earleme {Fo} {w : S.γ} {s : Rec σ₁ ν₁} {t : Rec σ₂ ν₂} (h : S.RecRel Fo w s t) :
    s.earleme = t.earleme := by
  simp only [Rec.earleme, h.medial.len]

variable {g : DefaultGrammar} {la leo : Bool} {so : Sorter}

/-- An environment from its parts. -/
abbrev env {σ ν} (g : DefaultGrammar) (la leo : Bool) (so : Sorter) (F : ForestOps σ ν) : Env σ ν :=
  ⟨g, F, la, leo, so⟩

local notation "E₁" => env g la leo so F₁
local notation "E₂" => env g la leo so F₂

theorem new_rel {w : S.γ} {f₁ : σ₁} {f₂ : σ₂} (h : S.Idle w f₁ f₂) :
    RelM lax (Rec.new E₁ f₁) (Rec.new E₂ f₂) (S.RIdle w) := by
  unfold Rec.new
  refine relM_bind_same fun m _ => relM_pure ?_
  exact ⟨rfl, rfl, ⟨rfl, .nil⟩, .nil, h⟩

theorem reset_rel {w : S.γ} {s : Rec σ₁ ν₁} {t : Rec σ₂ ν₂} (h : S.RIdle w s t) :
    RelM lax (Rec.reset E₁ s) (Rec.reset E₂ t) (S.RIdle w) := by
  unfold Rec.reset
  rw [h.predicted]
  refine relM_bind_same fun m _ => relM_bind_same fun m _ => relM_bind_same fun m _ => relM_pure ?_
  exact ⟨h.lookahead, rfl, ⟨rfl, .nil⟩, .nil, h.forest⟩

theorem begin_rel {Fo} {w : S.γ} {s : Rec σ₁ ν₁} {t : Rec σ₂ ν₂} (h : S.RecRel Fo w s t) :
    S.RecRel Fo w s.beginEarleme t.beginEarleme :=
  ⟨h.lookahead, h.predicted, h.medial.nextSet, h.complete, h.forest⟩

theorem clear_rel {Fo} {w : S.γ} {s : Rec σ₁ ν₁} {t : Rec σ₂ ν₂} (h : S.RecRel Fo w s t) :
    S.RecRel Fo w s.clearHint t.clearHint := ⟨rfl, h.predicted, h.medial, h.complete, h.forest⟩

theorem set_rel {Fo} {w : S.γ} {s : Rec σ₁ ν₁} {t : Rec σ₂ ν₂} (h : S.RecRel Fo w s t) (sym : Nat) :
    S.RecRel Fo w (s.setHint sym) (t.setHint sym) := ⟨rfl, h.predicted, h.medial, h.complete, h.forest⟩

theorem applyHint_rel {Fo} {w : S.γ} {s : Rec σ₁ ν₁} {t : Rec σ₂ ν₂} (h : S.RecRel Fo w s t) (op : Rec.HintOp) :
    S.RecRel Fo w (s.applyHint op) (t.applyHint op) := by
  cases op with
  | keep => exact h
  | set sym => exact set_rel h sym
  | clear => exact clear_rel h

theorem completeMedialItem_rel {w : S.γ} {s : Rec σ₁ ν₁} {t : Rec σ₂ ν₂} {n : ν₁} {m : ν₂} {a : Item ν₁} {b : Item ν₂}
    (h : S.RIdle w s t) (hn : S.N w n m) (hab : S.IRel w a b) :
    RelM lax (Rec.completeMedialItem E₁ n s a) (Rec.completeMedialItem E₂ m t b) (S.Ext S.RIdle w) := by
  unfold Rec.completeMedialItem
  obtain ⟨d, o, a⟩ := a
  obtain ⟨d', o', b⟩ := b
  obtain ⟨h1, h2, h3, h4⟩ := hab
  simp only at h1 h2 h3 h4
  subst h1 h2
  simp only [h.lookahead]
  refine relM_bind_same fun u _ => relM_ite Iff.rfl (fun _ => ?_) fun _ => relM_pure (Ext.here h)
  refine relM_then (Q := fun w' (a : σ₁ × ν₁) (b : σ₂ × ν₂) => S.Idle w' a.1 b.1 ∧ S.N w' a.2 b.2)
    ((S.product h.forest h4 hn).mono fun _ _ h => h) ?_
  rintro w' ⟨f, x⟩ ⟨f', x'⟩ hw ⟨hi, hx⟩
  refine relM_bind (relM_push (IRel.key S) (h.completeMono hw) (x := ⟨d, o, x⟩) (y := ⟨d, o, x'⟩)
    ⟨rfl, rfl, h3, hx⟩) fun c c' hc => relM_pure (Ext.here ?_)
  exact ⟨rfl, h.predicted, h.medialMono hw, hc, hi⟩

theorem takeWhileM_rel {R : α → β → Prop} {l : List α} {m : List β} (h : List.Forall₂ R l m)
    {p : α → M Bool} {q : β → M Bool} (hpq : ∀ a b, R a b → p a = q b) :
    RelM lax (Rec.takeWhileM p l) (Rec.takeWhileM q m) (List.Forall₂ R) := by
  induction h with
  | nil => exact relM_pure .nil
  | cons hr _ ih =>
    simp only [Rec.takeWhileM, hpq _ _ hr]
    refine relM_bind_same fun c _ => relM_ite Iff.rfl (fun _ => ?_) fun _ => relM_pure .nil
    exact relM_bind ih fun l m hl => relM_pure (.cons hr hl)

theorem medialMatches_rel {w : S.γ} {l : List (Item ν₁)} {m : List (Item ν₂)} (h : List.Forall₂ (S.IRel w) l m)
    (sym : Nat) : RelM lax (Rec.medialMatches E₁ l sym) (Rec.medialMatches E₂ m sym) (List.Forall₂ (S.IRel w)) := by
  unfold Rec.medialMatches
  refine relM_bind (relM_bsearchBy h fun a b hab => by rw [hab.1]) ?_
  rintro i _ rfl
  refine relM_bind (relM_sliceFromM h _) fun l' m' hl => takeWhileM_rel hl fun a b hab => by rw [hab.1]

theorem completeMedialItems_rel {w : S.γ} {s : Rec σ₁ ν₁} {t : Rec σ₂ ν₂} {n : ν₁} {m : ν₂}
    (h : S.RIdle w s t) (hn : S.N w n m) (i sym : Nat) :
    RelM lax (Rec.completeMedialItems E₁ s i sym n) (Rec.completeMedialItems E₂ t i sym m) (S.Ext S.RIdle w) := by
  unfold Rec.completeMedialItems
  refine relM_bind (h.medial.index i) fun l l' hl => relM_bind (medialMatches_rel hl sym) fun l l' hl => ?_
  refine relM_foldlM (R := S.IRel w) ?_ hl (Ext.here h)
  rintro s t a b hab ⟨w', hw, hst⟩
  exact relM_ext hw (completeMedialItem_rel hst (S.mono hw hn) (hab.mono hw))

theorem completePredictions_rel (hd : DotsOK g okDot) {w : S.γ} {s : Rec σ₁ ν₁} {t : Rec σ₂ ν₂} {n : ν₁} {m : ν₂}
    (h : S.RIdle w s t) (hn : S.N w n m) (i sym : Nat) :
    RelM lax (Rec.completePredictions E₁ s i sym n) (Rec.completePredictions E₂ t i sym m) (S.RIdle w) := by
  unfold Rec.completePredictions
  refine relM_bind h.medial.last fun l l' hl => relM_bind_same fun cs hcs => ?_
  refine relM_bind (Q := fun a b => S.RIdle w a.1 b.1 ∧ a.2 = b.2) ?_ ?_
  · refine relM_foldlM (R := fun a b => a = b ∧ okDot a.dot) ?_ (forall₂_same (hd.comps sym cs hcs))
      ⟨h, hl.length_eq⟩
    rintro ⟨s, k⟩ ⟨t, _⟩ p _ ⟨rfl, hp⟩ ⟨hst, rfl⟩
    have hst : S.RIdle w s t := hst
    unfold Rec.completePrediction
    simp only [hst.predicted, hst.lookahead]
    refine relM_bind_same fun b _ => relM_bind_same fun u _ => relM_ite Iff.rfl (fun _ => ?_)
      fun _ => relM_pure ⟨hst, rfl⟩
    exact relM_pure ⟨⟨rfl, rfl, hst.medial.pushItem ⟨rfl, rfl, hp, hn⟩, hst.complete,
      hst.forest⟩, rfl⟩
  · rintro ⟨s, k⟩ ⟨t, _⟩ ⟨hst, rfl⟩
    refine relM_bind hst.medial.last fun l l' hl => ?_
    refine relM_bind (Q := List.Forall₂ (S.IRel w)) ?_ fun c c' hc => ?_
    · exact relM_foldlM (R := S.IRel w) (fun a b c d hcd hab => relM_push (IRel.key S) hab hcd) (forall₂_drop hl k)
        hst.complete
    · rw [hl.length_eq]
      refine relM_bind_same fun e _ => ?_
      have : s.medial.itemCount = t.medial.itemCount := hst.medial.2.length_eq
      rw [this]
      exact relM_bind_same fun r _ => relM_pure
        ⟨hst.lookahead, hst.predicted, hst.medial.truncateChart r, hc, hst.forest⟩

theorem completeGenerated_rel (hd : DotsOK g okDot) {w : S.γ} {s : Rec σ₁ ν₁} {t : Rec σ₂ ν₂} {n : ν₁} {m : ν₂}
    (h : S.RIdle w s t) (hn : S.N w n m) (i sym : Nat) :
    RelM lax (Rec.completeGenerated E₁ s i sym n) (Rec.completeGenerated E₂ t i sym m) (S.RIdle w) := by
  unfold Rec.completeGenerated
  refine relM_bind_same ?_
  rintro ⟨binary, unary⟩ he
  refine relM_bind (Q := S.RIdle w) ?_ fun s t h => ?_
  · cases unary with
    | none => exact relM_pure h
    | some p =>
      rw [h.predicted]
      refine relM_bind_same fun b _ => relM_ite Iff.rfl (fun _ => ?_) fun _ => relM_pure h
      exact relM_bind (relM_push (IRel.key S) h.complete (x := ⟨p.dot, i, n⟩) (y := ⟨p.dot, i, m⟩)
        ⟨rfl, rfl, hd.unary _ _ _ he rfl, hn⟩) fun c c' hc =>
          relM_pure ⟨h.lookahead, rfl, h.medial, hc, h.forest⟩
  · cases binary with
    | none => exact relM_pure h
    | some p =>
      simp only [h.predicted]
      refine relM_bind_same fun b _ => relM_ite Iff.rfl (fun _ => ?_) fun _ => relM_pure h
      exact relM_pure ⟨h.lookahead, rfl, h.medial.pushItem ⟨rfl, rfl, hd.binary _ _ _ he rfl, hn⟩, h.complete,
        h.forest⟩

theorem completeSym_rel (hd : DotsOK g okDot) {w : S.γ} {s : Rec σ₁ ν₁} {t : Rec σ₂ ν₂} {n : ν₁} {m : ν₂}
    (h : S.RIdle w s t) (hn : S.N w n m) (i sym : Nat) :
    RelM lax (Rec.completeSym E₁ s i sym n) (Rec.completeSym E₂ t i sym m) (S.Ext S.RIdle w) := by
  unfold Rec.completeSym
  refine relM_ite Iff.rfl (fun _ => (completeGenerated_rel hd h hn i sym).mono fun _ _ => Ext.here) fun _ => ?_
  rw [h.predicted]
  refine relM_bind_same fun b _ => relM_ite Iff.rfl (fun _ => ?_) fun _ => relM_pure (Ext.here h)
  refine relM_ite Iff.rfl (fun _ => relM_panic) fun _ => ?_
  refine relM_then (completeMedialItems_rel h hn i sym) fun w' s t hw hst => ?_
  exact (completePredictions_rel hd hst (S.mono hw hn) i sym).mono fun _ _ => Ext.here

theorem scan_rel (hd : DotsOK g okDot) {w : S.γ} {s : Rec σ₁ ν₁} {t : Rec σ₂ ν₂} (h : S.RIdle w s t) {sym val : Nat}
    (hl : okLeaf sym val) : RelM lax (Rec.scan E₁ s sym val) (Rec.scan E₂ t sym val) (S.Ext S.RIdle w) := by
  unfold Rec.scan
  rw [h.earleme]
  refine relM_bind_same fun u _ => ?_
  refine relM_then (Q := fun w' (a : σ₁ × ν₁) (b : σ₂ × ν₂) => S.Idle w' a.1 b.1 ∧ S.N w' a.2 b.2)
    ((S.leaf h.forest hl).mono fun _ _ h => h) ?_
  rintro w' ⟨f, x⟩ ⟨f', x'⟩ hw ⟨hi, hx⟩
  exact completeSym_rel hd (s := { s with forest := f }) (t := { t with forest := f' })
    ⟨h.lookahead, h.predicted, h.medialMono hw, h.completeMono hw, hi⟩ hx _ _

theorem scanAll_rel (hd : DotsOK g okDot) {w : S.γ} {s : Rec σ₁ ν₁} {t : Rec σ₂ ν₂} (h : S.RIdle w s t)
    {toks : List (Nat × Nat)} (hl : ∀ p ∈ toks, okLeaf p.1 p.2) :
    RelM lax (Rec.scanAll E₁ s toks) (Rec.scanAll E₂ t toks) (S.Ext S.RIdle w) := by
  unfold Rec.scanAll
  refine relM_foldlM (R := fun a b => a = b ∧ okLeaf a.1 a.2) ?_ (forall₂_same hl) (Ext.here h)
  rintro s t p _ ⟨rfl, hp⟩ ⟨w', hw, hst⟩
  exact relM_ext hw (scan_rel hd hst hp)

theorem nextSum_rel {Fo} {w : S.γ} {s : Rec σ₁ ν₁} {t : Rec σ₂ ν₂} (h : S.RecRel Fo w s t) :
    Rec.nextSum E₁ s = Rec.nextSum E₂ t := by
  unfold Rec.nextSum Heap.peek
  rcases forall₂_getElem? h.complete 0 with ⟨a, b, ha, hb, hab⟩ | ⟨ha, hb⟩
  · rw [ha, hb]; simp only [hab.1, hab.2.1]
  · rw [ha, hb]

/-- If the group is the one on top of the queue, there is a summand. -/
def Top {σ ν} (E : Env σ ν) (s : Rec σ ν) (o lhs : Nat) : Prop := Rec.nextSum E s = pure (some (o, lhs))

theorem nextSummand_rel {Fo} {w : S.γ} {s : Rec σ₁ ν₁} {t : Rec σ₂ ν₂} (h : S.RecRel Fo w s t) (o lhs : Nat) :
    RelM lax (Rec.nextSummand E₁ s o lhs) (Rec.nextSummand E₂ t o lhs) fun a b =>
      S.RecRel Fo w a.1 b.1 ∧ Option.Rel (S.IRel w) a.2 b.2 ∧ (Top E₁ s o lhs → a.2 ≠ none) := by
  unfold Rec.nextSummand Top Rec.nextSum Heap.peek
  rcases forall₂_getElem? h.complete 0 with ⟨a, b, ha, hb, hab⟩ | ⟨ha, hb⟩
  · rw [ha, hb]
    simp only [hab.1, hab.2.1]
    refine relM_bind_same fun l hl => relM_ite Iff.rfl (fun _ => ?_) fun hne => relM_pure ⟨h, .none, ?_⟩
    · refine relM_bind (relM_pop (IRel.key S) h.complete) ?_
      rintro ⟨c, x⟩ ⟨d, y⟩ ⟨hc, -⟩
      exact relM_pure ⟨⟨h.lookahead, h.predicted, h.medial, hc, h.forest⟩, .some hab, fun _ => by simp⟩
    · intro ht
      rw [hl, pure_bind] at ht
      have := pure_inj_M ht
      simp only [Option.some.injEq, Prod.mk.injEq] at this
      exact absurd ⟨this.1.symm, this.2.symm⟩ hne
  · rw [ha, hb]
    refine relM_pure ⟨h, .none, fun ht => ?_⟩
    exact absurd (pure_inj_M ht) (by simp)

theorem pushSummand_rel {w : S.γ} {s : Rec σ₁ ν₁} {t : Rec σ₂ ν₂} {k : Nat} (h : S.RSum k w s t) {a : Item ν₁}
    {b : Item ν₂} (hab : S.IRel w a b) :
    RelM lax (Rec.pushSummand E₁ s a) (Rec.pushSummand E₂ t b) (S.Ext (S.RSum (k + 1)) w) := by
  unfold Rec.pushSummand
  obtain ⟨d, o, n⟩ := a
  obtain ⟨d', o', n'⟩ := b
  obtain ⟨h1, h2, h3, h4⟩ := hab
  simp only at h1 h2 h3 h4
  subst h1 h2
  refine relM_then (Q := fun w' a b => S.Summing w' (k + 1) a b) (S.pushSummand h.forest h3 h4) ?_
  intro w' f f' hw hf
  exact relM_pure (Ext.here ⟨h.lookahead, h.predicted, h.medialMono hw, h.completeMono hw, hf⟩)

theorem summandLoop_rel {w : S.γ} {s : Rec σ₁ ν₁} {t : Rec σ₂ ν₂} {k : Nat} (h : S.RSum k w s t) (o lhs n : Nat)
    (hk : 0 < k ∨ (0 < n ∧ Top E₁ s o lhs)) :
    RelM lax (Rec.summandLoop E₁ o lhs n s) (Rec.summandLoop E₂ o lhs n t)
      (S.Ext (fun w a b => ∃ k, 0 < k ∧ S.RSum k w a b) w) := by
  induction n generalizing w s t k with
  | zero => exact relM_pure (Ext.here ⟨k, by omega, h⟩)
  | succ n ih =>
    simp only [Rec.summandLoop]
    refine relM_bind (nextSummand_rel h o lhs) ?_
    rintro ⟨s', x⟩ ⟨t', y⟩ ⟨hst, hxy, htop⟩
    cases hxy with
    | none =>
      refine relM_pure (Ext.here ⟨k, ?_, hst⟩)
      rcases hk with hk | hk
      · exact hk
      · exact absurd rfl (htop hk.2)
    | some hab =>
      exact relM_then (pushSummand_rel hst hab) fun w' a b hw hab => ih hab (.inl (Nat.succ_pos k))

theorem completeSum_rel (hd : DotsOK g okDot) {w : S.γ} {s : Rec σ₁ ν₁} {t : Rec σ₂ ν₂} {k : Nat} (h : S.RSum k w s t)
    (hk : 0 < k) (o lhs : Nat) :
    RelM lax (Rec.completeSum E₁ s o lhs) (Rec.completeSum E₂ t o lhs)
      (S.Ext (fun w a b => S.RIdle w a.1 b.1 ∧ S.N w a.2 b.2) w) := by
  unfold Rec.completeSum
  refine relM_then (Q := fun w' (a : σ₁ × ν₁) (b : σ₂ × ν₂) => S.Idle w' a.1 b.1 ∧ S.N w' a.2 b.2)
    ((S.sum h.forest hk).mono fun _ _ h => h) ?_
  rintro w' ⟨f, x⟩ ⟨f', x'⟩ hw ⟨hi, hx⟩
  refine relM_then (completeSym_rel hd (s := { s with forest := f }) (t := { t with forest := f' })
    ⟨h.lookahead, h.predicted, h.medialMono hw, h.completeMono hw, hi⟩ hx _ _) ?_
  intro w'' a b hw' hab
  exact relM_pure (Ext.here ⟨hab, S.mono hw' hx⟩)

theorem completeEntireSum_rel (hd : DotsOK g okDot) {w : S.γ} {s : Rec σ₁ ν₁} {t : Rec σ₂ ν₂} (h : S.RIdle w s t)
    (o lhs : Nat) (ht : Top E₁ s o lhs) :
    RelM lax (Rec.completeEntireSum E₁ s o lhs) (Rec.completeEntireSum E₂ t o lhs) (S.Ext S.RIdle w) := by
  unfold Rec.completeEntireSum
  refine relM_then (Q := fun w' a b => S.Summing w' 0 a b) (S.beginSum h.forest) ?_
  intro w' f f' hw hf
  dsimp only
  rw [h.complete.length_eq]
  refine relM_then (summandLoop_rel (S := S) (k := 0) (s := { s with forest := f }) (t := { t with forest := f' })
    ⟨h.lookahead, h.predicted, h.medialMono hw, h.completeMono hw, hf⟩ o lhs t.complete.length (.inr ⟨?_, ?_⟩)) ?_
  · rw [← h.complete.length_eq]
    rcases hc : s.complete with _ | ⟨a, l⟩
    · unfold Top Rec.nextSum Heap.peek at ht
      rw [hc] at ht
      exact absurd (pure_inj_M ht) (by simp)
    · simp
  · exact ht
  · rintro w'' a b hw' ⟨k, hk, hab⟩
    refine relM_then (completeSum_rel hd hab hk o lhs) ?_
    rintro w3 ⟨a, x⟩ ⟨b, y⟩ hw3 ⟨hab, -⟩
    exact relM_pure (Ext.here hab)

theorem completeStep_rel (hd : DotsOK g okDot) {w : S.γ} {s : Rec σ₁ ν₁} {t : Rec σ₂ ν₂} (h : S.RIdle w s t) :
    RelM lax (Rec.completeStep E₁ s) (Rec.completeStep E₂ t) (StepRel (S.Ext S.RIdle w) (S.Ext S.RIdle w)) := by
  unfold Rec.completeStep
  rw [nextSum_rel h]
  refine relM_bind_same fun o ho => ?_
  rcases o with _ | ⟨o, lhs⟩
  · exact relM_pure (Ext.here (clear_rel h))
  · exact relM_bind (completeEntireSum_rel hd h o lhs ((nextSum_rel h).trans ho)) fun a b hab => relM_pure hab

theorem completeAll_rel (hd : DotsOK g okDot) {w : S.γ} {s : Rec σ₁ ν₁} {t : Rec σ₂ ν₂} (h : S.RIdle w s t) :
    RelM lax (Rec.completeAll E₁ s) (Rec.completeAll E₂ t) (S.Ext S.RIdle w) := by
  refine relM_loop (I := S.Ext S.RIdle w) ?_ (Ext.here h)
  rintro s t ⟨w', hw, hst⟩
  refine (completeStep_rel hd hst).mono ?_
  rintro (a | a) (b | b) hab
  · exact Ext.later hw hab
  · exact hab.elim
  · exact hab.elim
  · exact Ext.later hw hab

theorem forall₂_isEmpty {R : α → β → Prop} {l : List α} {m : List β} (h : List.Forall₂ R l m) :
    l.isEmpty = m.isEmpty := by
  cases h <;> rfl

theorem isExhausted_rel {Fo} {w : S.γ} {s : Rec σ₁ ν₁} {t : Rec σ₂ ν₂} (h : S.RecRel Fo w s t) :
    RelM lax s.isExhausted t.isExhausted Eq := by
  unfold Rec.isExhausted
  refine relM_bind h.medial.last fun l m hl => relM_pure ?_
  rw [forall₂_isEmpty hl, forall₂_isEmpty h.complete]

theorem sortMedial_rel {Fo} {w : S.γ} {s : Rec σ₁ ν₁} {t : Rec σ₂ ν₂} (h : S.RecRel Fo w s t) :
    RelM lax (Rec.sortMedial E₁ s) (Rec.sortMedial E₂ t) (S.RecRel Fo w) := by
  unfold Rec.sortMedial
  refine relM_bind (h.medial.modifyLast (R := S.IRel w) fun l m hl => ?_) fun v v' hv =>
    relM_pure ⟨h.lookahead, h.predicted, hv, h.complete, h.forest⟩
  rw [hl.length_eq]
  refine relM_ite Iff.rfl (fun _ => relM_pure hl) fun _ => ?_
  refine relM_bind (Q := List.Forall₂ fun (a : Key × Item ν₁) (b : Key × Item ν₂) => a.1 = b.1 ∧ S.IRel w a.2 b.2)
    (relM_mapM ?_ hl) fun l' m' hl' => relM_pure ?_
  · intro a b hab
    rw [hab.1, hab.2.1]
    exact relM_bind_same fun r _ => relM_bind_same fun r _ => relM_pure ⟨rfl, hab⟩
  · obtain ⟨p, rfl, rfl, hp⟩ := forall₂_pairs hl'
    show List.Forall₂ _ ((so.sort _ _).map _) ((so.sort _ _).map _)
    rw [so.natural, so.natural, List.map_map, List.map_map]
    have key : so.sort (fun a : (Key × Item ν₁) × (Key × Item ν₂) => a.2.1) p
        = so.sort (fun a => a.1.1) p := by
      -- both sorts see the same keys: compare through the list of elements with their keys
      have h1 := so.natural (fun a : (Key × ((Key × Item ν₁) × (Key × Item ν₂))) => a.1) (fun a => (a.1.1, a)) p
      have h2 := so.natural (fun a : (Key × ((Key × Item ν₁) × (Key × Item ν₂))) => a.1) (fun a => (a.2.1, a)) p
      have e : p.map (fun a => (a.1.1, a)) = p.map (fun a => (a.2.1, a)) :=
        List.map_congr_left fun x hx => by rw [(hp x hx).1]
      rw [e] at h1
      have := congrArg (List.map Prod.snd) (h2.symm.trans h1)
      simpa only [List.map_map, Function.comp_def, List.map_id'] using this
    rw [key]
    have hperm := so.perm (fun a : (Key × Item ν₁) × (Key × Item ν₂) => a.1.1) p
    generalize so.sort (fun a : (Key × Item ν₁) × (Key × Item ν₂) => a.1.1) p = q at hperm
    have hq : ∀ x ∈ q, S.IRel w x.1.2 x.2.2 := fun x hx => (hp x (hperm.mem_iff.1 hx)).2
    clear hperm key
    induction q with
    | nil => exact .nil
    | cons a l ih => exact .cons (hq a (by simp)) (ih fun b hb => hq b (by simp [hb]))

theorem forall₂_origins {w : S.γ} {l : List (Item ν₁)} {m : List (Item ν₂)} (h : List.Forall₂ (S.IRel w) l m) :
    l.map (·.origin) = m.map (·.origin) := by
  induction h with
  | nil => rfl
  | cons hr _ ih => simp only [List.map_cons, hr.2.1, ih]

theorem removeUnreachable_rel {Fo} {w : S.γ} {s : Rec σ₁ ν₁} {t : Rec σ₂ ν₂} (h : S.RecRel Fo w s t) :
    RelM lax (Rec.removeUnreachable s) (Rec.removeUnreachable t) (S.RecRel Fo w) := by
  obtain ⟨sf, sl, sp, sm, sc⟩ := s
  obtain ⟨tf, tl, tp, tm, tc⟩ := t
  obtain ⟨h1, h2, h3, h4, h5⟩ := h
  simp only at h1 h2 h3 h4 h5
  subst h1 h2
  unfold Rec.removeUnreachable
  refine relM_bind h3.last fun l m hl => ?_
  simp only [forall₂_origins hl, Rec.earleme, h3.len]
  refine relM_ite Iff.rfl (fun _ => ?_) fun _ => relM_pure ⟨rfl, rfl, h3, h4, h5⟩
  refine relM_bind (h3.truncate _) fun v v' hv => ?_
  simp only [hv.len]
  exact relM_bind_same fun _ _ => relM_bind_same fun _ _ => relM_pure ⟨rfl, rfl, hv, h4, h5⟩

theorem predictionPass_rel {Fo} {w : S.γ} {s : Rec σ₁ ν₁} {t : Rec σ₂ ν₂} (h : S.RecRel Fo w s t) :
    RelM lax (Rec.predictionPass E₁ s) (Rec.predictionPass E₂ t) (S.RecRel Fo w) := by
  unfold Rec.predictionPass
  rw [h.predicted, h.earleme]
  refine relM_bind h.medial.last fun l m hl => relM_bind_same fun i _ => relM_bind_same fun row _ => ?_
  refine relM_bind (relM_foldlM (R := S.IRel w) (I := Eq) ?_ hl rfl) ?_
  · rintro r _ a b hab rfl
    rw [hab.1]
    exact relM_same.mono fun _ _ h => h.1
  · rintro r _ rfl
    exact relM_pure ⟨h.lookahead, rfl, h.medial, h.complete, h.forest⟩

theorem advance_rel {Fo} {w : S.γ} {s : Rec σ₁ ν₁} {t : Rec σ₂ ν₂} (h : S.RecRel Fo w s t) :
    RelM lax (Rec.advanceAfterCompletion E₁ s) (Rec.advanceAfterCompletion E₂ t) (S.RecRel Fo w) := by
  unfold Rec.advanceAfterCompletion
  refine relM_bind (sortMedial_rel h) fun s t h => relM_bind (removeUnreachable_rel h) fun s t h => ?_
  exact relM_ite Iff.rfl (fun _ => relM_panic) fun _ => predictionPass_rel h

theorem endEarleme_rel (hd : DotsOK g okDot) {w : S.γ} {s : Rec σ₁ ν₁} {t : Rec σ₂ ν₂} (h : S.RIdle w s t) :
    RelM lax (Rec.endEarleme E₁ s) (Rec.endEarleme E₂ t)
      (S.Ext (fun w a b => S.RIdle w a.1 b.1 ∧ a.2 = b.2) w) := by
  unfold Rec.endEarleme Rec.endEarlemeWith
  refine relM_bind (isExhausted_rel h) ?_
  rintro x _ rfl
  refine relM_ite Iff.rfl (fun _ => relM_pure (Ext.here ⟨h, rfl⟩)) fun _ => ?_
  refine relM_then (completeAll_rel hd h) fun w' a b hw hab => ?_
  exact relM_bind (advance_rel hab) fun a b hab => relM_pure (Ext.here ⟨hab, rfl⟩)

theorem position_rel (hd : DotsOK g okDot) {w : S.γ} {s : Rec σ₁ ν₁} {t : Rec σ₂ ν₂} (h : S.RIdle w s t)
    {toks : List (Nat × Nat)} (hl : ∀ p ∈ toks, okLeaf p.1 p.2) :
    RelM lax (Rec.position E₁ s toks) (Rec.position E₂ t toks)
      (S.Ext (fun w a b => S.RIdle w a.1 b.1 ∧ a.2 = b.2) w) := by
  unfold Rec.position Rec.positionWith
  refine relM_then (scanAll_rel hd (begin_rel h) hl) fun w' a b hw hab => endEarleme_rel hd hab

theorem session_rel (hd : DotsOK g okDot) {w : S.γ} {s : Rec σ₁ ν₁} {t : Rec σ₂ ν₂} (h : S.RIdle w s t)
    (steps : List (Rec.HintOp × List (Nat × Nat))) (hl : ∀ st ∈ steps, ∀ p ∈ st.2, okLeaf p.1 p.2) :
    RelM lax (Rec.session E₁ steps s) (Rec.session E₂ steps t)
      (S.Ext (fun w a b => S.RIdle w a.1 b.1 ∧ a.2 = b.2) w) := by
  induction steps generalizing w s t with
  | nil => exact relM_pure (Ext.here ⟨h, rfl⟩)
  | cons st rest ih =>
    obtain ⟨op, toks⟩ := st
    show RelM lax (_ >>= _) (_ >>= _) _
    refine relM_then (position_rel hd (applyHint_rel h op) fun p hp => hl (op, toks) (by simp) p hp) ?_
    rintro w' ⟨a, x⟩ ⟨b, _⟩ hw ⟨hab, rfl⟩
    refine relM_ite Iff.rfl (fun _ => ?_) fun _ => relM_pure (Ext.here ⟨hab, rfl⟩)
    exact ih hab fun st hst => hl st (by simp [hst])

theorem finishedNode_rel {Fo} {w : S.γ} {s : Rec σ₁ ν₁} {t : Rec σ₂ ν₂} (h : S.RecRel Fo w s t)
    (hnull : ∀ sym, g.externalizedStartSym = pure sym →
      RelM lax (F₁.nulling s.forest sym) (F₂.nulling t.forest sym) (S.N w)) :
    RelM lax (Rec.finishedNode E₁ s) (Rec.finishedNode E₂ t) (Option.Rel (S.N w)) := by
  unfold Rec.finishedNode
  rw [h.earleme]
  refine relM_ite Iff.rfl (fun _ => ?_) fun _ => ?_
  · exact relM_bind_same fun sym hs => relM_bind (hnull sym hs) fun a b hab => relM_pure (.some hab)
  · refine relM_bind h.medial.last fun l m hl => ?_
    cases hl with
    | nil => exact relM_pure .none
    | cons hr ht =>
      simp only [List.head?_cons, hr.1]
      refine relM_pure ?_
      split
      · exact .some hr.2.2.2
      · exact .none

/-- Away from the trivial parse, no forest operation is involved. -/
theorem finishedNode_rel' {Fo} {w : S.γ} {s : Rec σ₁ ν₁} {t : Rec σ₂ ν₂} (h : S.RecRel Fo w s t)
    (hs : 2 ≤ s.medial.len) (hlen : s.medial.len < 2 ^ 64) :
    RelM lax (Rec.finishedNode E₁ s) (Rec.finishedNode E₂ t) (Option.Rel (S.N w)) := by
  unfold Rec.finishedNode
  rw [h.earleme]
  have hne : t.earleme ≠ maxUsize := by
    rw [← h.earleme]
    unfold Rec.earleme wrappingSub2 maxUsize
    rw [if_pos hs]
    omega
  rw [if_neg (by simp [hne]), if_neg (by simp [hne])]
  refine relM_bind h.medial.last fun l m hl => ?_
  cases hl with
  | nil => exact relM_pure .none
  | cons hr ht =>
    simp only [List.head?_cons, hr.1]
    refine relM_pure ?_
    split
    · exact .some hr.2.2.2
    · exact .none

end FSim
end Gearley
