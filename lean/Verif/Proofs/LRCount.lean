import Verif.Proofs.LRChart
import Mathlib.Algebra.Order.BigOperators.Group.Finset
import Mathlib.Data.Finset.Prod
import Mathlib.Data.Finset.Sigma
import Mathlib.Tactic.Ring

/-!
# How much is found when an LR(1) grammar is parsed
-/

namespace Gearley.Spec
variable {P : URules} {S : Nat} {R : Rules} {ex : Nat → List Nat} {own : Nat → Nat} {plain : Nat → Prop} {inp : Input} {W : List Nat}
  {first follow : Nat → Nat → Prop} {n : Nat} {hint : Nat → Option Nat}

/-- The situation: a reduced LR(1) grammar, look-ahead with FOLLOW sets, and a string of tokens. -/
structure LRParse (P : URules) (S : Nat) (R : Rules) (ex : Nat → List Nat) (own : Nat → Nat) (plain : Nat → Prop) (inp : Input)
    (W : List Nat) (follow : Nat → Nat → Prop) (n : Nat) (hint : Nat → Option Nat) : Prop where
  lr : LRGrammar P S
  bin : LeftBin P R ex own plain
  prod : Productive P
  input : Inp P plain inp W
  start : plain S
  /-- symbols of the user's grammar are filtered -/
  small : ∀ r ∈ R, ∀ X, plain X → (X = r.lhs ∨ X = r.rhs0) → X < n
  /-- one-symbol rules that are not filtered: what was removed at the end can be non-empty -/
  live : ∀ X B, ⟨X, B, none⟩ ∈ R → n ≤ B → ∃ ρ s, (own X, ex B ++ ρ) ∈ P ∧ RSteps P ρ s ∧ Toks P s ∧ s ≠ []
  /-- the FOLLOW sets are those of the grammar -/
  follow : ∀ r ∈ R, plain r.lhs → ∀ c ∈ W, follow r.lhs c → ∃ α β, Derives R S (α ++ r.lhs :: c :: β)
  /-- the next token is known, except after the start of the file -/
  hints : ∀ b, 1 < b → b < W.length → hint b = W[b]?
  /-- tokens are plain symbols -/
  plainW : ∀ c ∈ W, plain c

variable (h : LRParse P S R ex own plain inp W follow n hint)
include h

/-- Found by a one-symbol rule that is not filtered. -/
def Weak (first follow : Nat → Nat → Prop) (n : Nat) (R : Rules) (inp : Input) (hint : Nat → Option Nat) (X a b : Nat) : Prop :=
  ∃ B, ⟨X, B, none⟩ ∈ R ∧ n ≤ B ∧ Seen first follow n R inp hint b B a

/-- What is found and not a token is followed by the next token, if rules are filtered. -/
theorem LRParse.next {X a b c : Nat} (hX : plain X) (hs : Seen first follow n R inp hint b X a) (hw : ¬ Weak first follow n R inp hint X a b)
    (hXt : ¬ UTerminal P X) (h1 : 1 < b) (hc : W[b]? = some c) :
    ∃ γ y, Toks P y ∧ RForm P S (γ ++ X :: c :: y) := by
  have hcm := List.mem_of_getElem? hc
  have hh : hint b = some c := by rw [h.hints b h1 (List.getElem?_eq_some_iff.1 hc).1, hc]
  have key : ∀ r ∈ R, r.lhs = X → follow X c → ∃ γ y, Toks P y ∧ RForm P S (γ ++ X :: c :: y) := by
    intro r hr e hf
    subst e
    obtain ⟨α, β, hd⟩ := h.follow r hr hX c hcm hf
    obtain ⟨γ, y, h1, h2⟩ := h.bin.follows h.prod hX (h.plainW c hcm) (h.input.toks c hcm) hd α β rfl
    rw [(h.bin.ex_plain S h.start).1] at h2
    exact ⟨γ, y, h1, h2⟩
  cases hs with
  | token hm => exact absurd (h.input.toks X (List.mem_of_getElem? (h.input.inp _ _ _ hm).1)) hXt
  | @unary _ _ B _ hr hB hf =>
    have e2 := h.small _ hr X hX (.inl rfl)
    rcases hf with hf | hf | hf
    · exact absurd ⟨B, hr, hf, hB⟩ hw
    · omega
    · exact key _ hr rfl (hf c hh)
  | @binary _ m _ B C _ hr _ _ hB hf =>
    have e2 := h.small _ hr X hX (.inl rfl)
    rcases hf with hf | hf
    · omega
    · exact key _ hr rfl (hf c hh)

/-- Found, where predicted. -/
def Found (first follow : Nat → Nat → Prop) (n : Nat) (R : Rules) (S : Nat) (inp : Input) (hint : Nat → Option Nat) (X a b : Nat) : Prop :=
  Pred R S inp a X ∧ Seen first follow n R inp hint b X a

theorem LRParse.range {X a b : Nat} (hf : Found first follow n R S inp hint X a b) : a < b ∧ b ≤ W.length := by
  obtain ⟨t, ht⟩ := seen_tree hf.2
  exact ⟨(tree_steps h.bin h.input ht).1, (tree_steps h.bin h.input ht).2.1⟩

/-- Rules that are not filtered find something from one origin. -/
theorem LRParse.weak {X B a a' b : Nat} (hr : ⟨X, B, none⟩ ∈ R) (hn : n ≤ B) (h1 : Pred R S inp a X) (h2 : Seen first follow n R inp hint b B a)
    (h1' : Pred R S inp a' X) (h2' : Seen first follow n R inp hint b B a') : a = a' := by
  obtain ⟨ρ, s, k1, k2, k3, k4⟩ := h.live X B hr hn
  obtain ⟨t, ht⟩ := seen_tree h2
  obtain ⟨t', ht'⟩ := seen_tree h2'
  exact one_prefix h.lr h.bin h.prod h.input h.start k1 k2 k3 k4 h1 h1' ht ht'

/-- A symbol of the user's grammar that is also found further is only found once. -/
theorem LRParse.single {X a a' b b' : Nat} (hX : plain X) (h1 : Found first follow n R S inp hint X a b) (hw : ¬ Weak first follow n R inp hint X a b)
    (h2 : Found first follow n R S inp hint X a' b) (h3 : Found first follow n R S inp hint X a b') (hb : b < b') : a = a' := by
  obtain ⟨t1, ht1⟩ := seen_tree h1.2
  obtain ⟨t2, ht2⟩ := seen_tree h2.2
  obtain ⟨t3, ht3⟩ := seen_tree h3.2
  by_cases hb1 : b ≤ 1
  · have := h.range h1
    have := h.range h2
    omega
  exact one_start h.lr h.bin h.prod h.input h.start hX h1.1 h2.1 ht1 ht2 ht3 hb fun hXt c hc => h.next hX h1.2 hw hXt (by omega) hc

/-- The number of times a symbol of the user's grammar is found. -/
theorem LRParse.card_plain {X : Nat} (hX : plain X) (F : Finset (Nat × Nat)) (hF : ∀ p ∈ F, Found first follow n R S inp hint X p.1 p.2) :
    F.card ≤ (R.length + 2) * (W.length + 1) := by
  classical
  -- those found by rules that are not filtered, those that end last, and the others
  let weak : Nat × Nat → Prop := fun p => Weak first follow n R inp hint X p.1 p.2
  let last : Nat × Nat → Prop := fun p => ∀ b', (p.1, b') ∈ F → b' ≤ p.2
  have hsplit0 := Finset.card_filter_add_card_filter_not (s := F) (fun p => weak p)
  have hsplit := Finset.card_filter_add_card_filter_not (s := F.filter fun p => ¬ weak p) (fun p => last p)
  have h0 : (F.filter fun p => weak p).card ≤ R.length * (W.length + 1) := by
    have key : ∀ p ∈ F.filter fun p => weak p, ∃ q : Nat × Nat, q ∈ Finset.range R.length ×ˢ Finset.range (W.length + 1) ∧ q.2 = p.2 ∧
        ∃ B, R[q.1]? = some ⟨X, B, none⟩ ∧ n ≤ B ∧ Seen first follow n R inp hint p.2 B p.1 := by
      intro p hp
      obtain ⟨hp, B, hr, hn, hB⟩ := Finset.mem_filter.1 hp
      obtain ⟨d, hd⟩ := List.getElem?_of_mem hr
      have := h.range (hF p hp)
      refine ⟨(d, p.2), ?_, rfl, B, hd, hn, hB⟩
      rw [Finset.mem_product, Finset.mem_range, Finset.mem_range]
      exact ⟨(List.getElem?_eq_some_iff.1 hd).1, by omega⟩
    choose! q hq1 hq2 hq3 using key
    have := Finset.card_le_card_of_injOn (s := F.filter fun p => weak p) (t := Finset.range R.length ×ˢ Finset.range (W.length + 1)) q hq1 (by
      intro p hp p' hp' e
      have hb : p.2 = p'.2 := by rw [← hq2 p hp, ← hq2 p' hp', e]
      obtain ⟨B, i1, i2, i3⟩ := hq3 p hp
      obtain ⟨B', i1', i2', i3'⟩ := hq3 p' hp'
      rw [← e, i1, Option.some.injEq, Rule.mk.injEq] at i1'
      obtain ⟨_, rfl, _⟩ := i1'
      have := h.weak (List.mem_of_getElem? i1) i2 (hF p (Finset.mem_filter.1 hp).1).1 i3 (hF p' (Finset.mem_filter.1 hp').1).1 (hb ▸ i3')
      exact Prod.ext this hb)
    rwa [Finset.card_product, Finset.card_range, Finset.card_range] at this
  have h1 : ((F.filter fun p => ¬ weak p).filter fun p => last p).card ≤ W.length + 1 := by
    have := Finset.card_le_card_of_injOn (s := (F.filter fun p => ¬ weak p).filter fun p => last p) (t := Finset.range (W.length + 1)) Prod.fst
      (fun p hp => by
        have hp := (Finset.mem_filter.1 (Finset.mem_filter.1 hp).1).1
        have := h.range (hF p hp)
        simp only [Finset.coe_range, Set.mem_Iio]
        omega)
      (by
        intro p hp q hq e
        obtain ⟨p1, p2⟩ := Finset.mem_filter.1 hp
        obtain ⟨q1, q2⟩ := Finset.mem_filter.1 hq
        have p1 := (Finset.mem_filter.1 p1).1
        have q1 := (Finset.mem_filter.1 q1).1
        obtain ⟨pa, pb⟩ := p
        obtain ⟨qa, qb⟩ := q
        simp only at e
        subst e
        have := p2 qb q1
        have := q2 pb p1
        simp only [Prod.mk.injEq, true_and]
        simp only at *
        omega)
    rwa [Finset.card_range] at this
  have h2 : ((F.filter fun p => ¬ weak p).filter fun p => ¬ last p).card ≤ W.length + 1 := by
    have := Finset.card_le_card_of_injOn (s := (F.filter fun p => ¬ weak p).filter fun p => ¬ last p) (t := Finset.range (W.length + 1)) Prod.snd
      (fun p hp => by
        have hp := (Finset.mem_filter.1 (Finset.mem_filter.1 hp).1).1
        have := h.range (hF p hp)
        simp only [Finset.coe_range, Set.mem_Iio]
        omega)
      (by
        intro p hp q hq e
        obtain ⟨p1, p2⟩ := Finset.mem_filter.1 hp
        obtain ⟨q1, _⟩ := Finset.mem_filter.1 hq
        obtain ⟨p1, pw⟩ := Finset.mem_filter.1 p1
        have q1 := (Finset.mem_filter.1 q1).1
        obtain ⟨pa, pb⟩ := p
        obtain ⟨qa, qb⟩ := q
        simp only at e
        subst e
        simp only [last, not_forall, not_le] at p2
        obtain ⟨b', h3, h4⟩ := p2
        have : pa = qa := h.single hX (hF (pa, pb) p1) pw (hF (qa, pb) q1) (hF (pa, b') h3) h4
        rw [this])
    rwa [Finset.card_range] at this
  rw [Nat.add_mul]
  omega

/-- One rule with a given number waits for what is found. -/
theorem LRParse.waiting {C m b d a a' X B : Nat} (hs : Seen first follow n R inp hint b C m) (hr : R[d]? = some ⟨X, B, some C⟩)
    (h1 : Pred R S inp a X) (h2 : Seen first follow n R inp hint m B a) (h1' : Pred R S inp a' X) (h2' : Seen first follow n R inp hint m B a') :
    a = a' := by
  obtain ⟨t, ht⟩ := seen_tree hs
  obtain ⟨t1, ht1⟩ := seen_tree h2
  obtain ⟨t2, ht2⟩ := seen_tree h2'
  exact one_origin h.lr h.bin h.prod h.input h.start (List.mem_of_getElem? hr) h1 h1' ht1 ht2 ht

/-- Where something is found, a symbol of the user's grammar is found over the same positions, or a rule is completed that waited
there, or something is found by a rule that is not filtered. -/
theorem LRParse.keys {X a b : Nat} (hf : Found first follow n R S inp hint X a b) :
    (∃ Y, plain Y ∧ Found first follow n R S inp hint Y a b) ∨
    (∃ d Y B C m : Nat, R[d]? = some ⟨Y, B, some C⟩ ∧ Pred R S inp a Y ∧ Seen first follow n R inp hint m B a ∧
      Found first follow n R S inp hint C m b ∧ plain C) ∨
    ∃ d Y B : Nat, R[d]? = some ⟨Y, B, none⟩ ∧ n ≤ B ∧ Pred R S inp a Y ∧ Seen first follow n R inp hint b B a := by
  classical
  obtain ⟨hp, hs⟩ := hf
  induction hs with
  | token hm => exact .inl ⟨_, (h.input.inp _ _ _ hm).2, hp, .token hm⟩
  | @unary b X B a hr hB hfil ih =>
    by_cases hX : plain X
    · exact .inl ⟨X, hX, hp, .unary hr hB hfil⟩
    · by_cases hn : n ≤ B
      · obtain ⟨d, hd⟩ := List.getElem?_of_mem hr
        exact .inr (.inr ⟨d, X, B, hd, hn, hp, hB⟩)
      · exact ih (.corner hp ⟨_, hr, rfl, rfl⟩)
  | @binary b m X B C a hr hB _ hC _ _ _ =>
    obtain ⟨d, hd⟩ := List.getElem?_of_mem hr
    obtain ⟨t, ht⟩ := seen_tree hB
    exact .inr (.inl ⟨d, X, B, C, m, hd, hp, hB, ⟨.medial hd hp ht, hC⟩, (h.bin.binary _ _ _ hr).1⟩)

/-- Bound for the number of symbols found. -/
def lrFound (syms rules len : Nat) : Nat := syms * ((1 + rules) * (syms * ((rules + 2) * len)) + rules * len)

/-- The number of symbols found. -/
theorem LRParse.card {syms : Nat} (F : Finset (Nat × Nat × Nat)) (hF : ∀ p ∈ F, Found first follow n R S inp hint p.1 p.2.1 p.2.2)
    (hsyms : ∀ X a b, Found first follow n R S inp hint X a b → X < syms) :
    F.card ≤ lrFound syms R.length (W.length + 1) := by
  classical
  -- all plain symbols
  let G : Finset (Nat × Nat × Nat) := (Finset.range syms ×ˢ Finset.range (W.length + 1) ×ˢ Finset.range (W.length + 1)).filter
    fun p => plain p.1 ∧ Found first follow n R S inp hint p.1 p.2.1 p.2.2
  have hGmem : ∀ X a b, plain X → Found first follow n R S inp hint X a b → (X, a, b) ∈ G := by
    intro X a b hX hf
    have := h.range hf
    simp only [G, Finset.mem_filter, Finset.mem_product, Finset.mem_range]
    exact ⟨⟨hsyms X a b hf, by omega, by omega⟩, hX, hf⟩
  have hG : G.card ≤ syms * ((R.length + 2) * (W.length + 1)) := by
    have h1 := Finset.card_eq_sum_card_fiberwise (s := G) (t := Finset.range syms) (f := Prod.fst) (fun p hp => by
      have hp := (Finset.mem_filter.1 hp).1
      exact (Finset.mem_product.1 hp).1)
    rw [h1]
    have h2 : ∀ X ∈ Finset.range syms, (G.filter fun p => p.1 = X).card ≤ (R.length + 2) * (W.length + 1) := by
      intro X _
      by_cases hX : plain X
      · have := h.card_plain (first := first) hX ((G.filter fun p => p.1 = X).image Prod.snd) (by
          intro p hp
          obtain ⟨⟨Y, q⟩, hq, rfl⟩ := Finset.mem_image.1 hp
          obtain ⟨hq, e⟩ := Finset.mem_filter.1 hq
          have := (Finset.mem_filter.1 hq).2.2
          rwa [e] at this)
        rwa [Finset.card_image_of_injOn] at this
        intro p hp q hq e
        have e1 := (Finset.mem_filter.1 hp).2
        have e2 := (Finset.mem_filter.1 hq).2
        exact Prod.ext (e1.trans e2.symm) e
      · have : G.filter (fun p => p.1 = X) = ∅ := by
          rw [Finset.filter_eq_empty_iff]
          intro p hp e
          exact hX (e ▸ (Finset.mem_filter.1 hp).2.1)
        rw [this]
        simp
    have := Finset.sum_le_card_nsmul _ _ _ h2
    rwa [Finset.card_range, Nat.nsmul_eq_mul] at this
  -- the positions
  let K : Finset (Nat × Nat) := F.image Prod.snd
  have hKF : ∀ p ∈ K, ∃ X, Found first follow n R S inp hint X p.1 p.2 := by
    intro p hp
    obtain ⟨q, hq, rfl⟩ := Finset.mem_image.1 hp
    exact ⟨q.1, hF q hq⟩
  let p1 : Nat × Nat → Prop := fun p => ∃ Y, plain Y ∧ Found first follow n R S inp hint Y p.1 p.2
  let p2 : Nat × Nat → Prop := fun p => ∃ d Y B C m : Nat, R[d]? = some ⟨Y, B, some C⟩ ∧ Pred R S inp p.1 Y ∧
    Seen first follow n R inp hint m B p.1 ∧ Found first follow n R S inp hint C m p.2 ∧ plain C
  let p3 : Nat × Nat → Prop := fun p => ∃ d Y B : Nat, R[d]? = some ⟨Y, B, none⟩ ∧ n ≤ B ∧ Pred R S inp p.1 Y ∧
    Seen first follow n R inp hint p.2 B p.1
  have c1 : (K.filter p1).card ≤ G.card := by
    refine le_trans (Finset.card_le_card ?_) (Finset.card_image_le (s := G) (f := Prod.snd))
    intro p hp
    obtain ⟨_, Y, hY, hf⟩ := Finset.mem_filter.1 hp
    exact Finset.mem_image.2 ⟨(Y, p), hGmem Y _ _ hY hf, rfl⟩
  have c2 : (K.filter p2).card ≤ R.length * G.card := by
    have key : ∀ p ∈ K.filter p2, ∃ q : Nat × Nat × Nat × Nat, q ∈ Finset.range R.length ×ˢ G ∧ q.2.2.2 = p.2 ∧
        ∃ Y B C, R[q.1]? = some ⟨Y, B, some C⟩ ∧ q.2.1 = C ∧ Pred R S inp p.1 Y ∧ Seen first follow n R inp hint q.2.2.1 B p.1 := by
      intro p hp
      obtain ⟨_, d, Y, B, C, m, hd, hY, hB, hC, hCp⟩ := Finset.mem_filter.1 hp
      refine ⟨(d, C, m, p.2), ?_, rfl, Y, B, C, hd, rfl, hY, hB⟩
      rw [Finset.mem_product, Finset.mem_range]
      exact ⟨(List.getElem?_eq_some_iff.1 hd).1, hGmem C m p.2 hCp hC⟩
    choose! q hq1 hq2 hq3 using key
    have := Finset.card_le_card_of_injOn (s := K.filter p2) (t := Finset.range R.length ×ˢ G) q hq1 (by
      intro p hp p' hp' e
      have hb : p.2 = p'.2 := by rw [← hq2 p hp, ← hq2 p' hp', e]
      obtain ⟨Y, B, C, i1, i2, i3, i4⟩ := hq3 p hp
      obtain ⟨Y', B', C', i1', i2', i3', i4'⟩ := hq3 p' hp'
      rw [← e, i1, Option.some.injEq, Rule.mk.injEq, Option.some.injEq] at i1'
      obtain ⟨rfl, rfl, rfl⟩ := i1'
      rw [← e] at i4'
      have hC : Seen first follow n R inp hint (q p).2.2.2 (q p).2.1 (q p).2.2.1 :=
        ((Finset.mem_filter.1 (Finset.mem_product.1 (hq1 p hp)).2).2.2).2
      rw [i2] at hC
      exact Prod.ext (h.waiting hC i1 i3 i4 i3' i4') hb)
    rwa [Finset.card_product, Finset.card_range] at this
  have c3 : (K.filter p3).card ≤ R.length * (W.length + 1) := by
    have key : ∀ p ∈ K.filter p3, ∃ q : Nat × Nat, q ∈ Finset.range R.length ×ˢ Finset.range (W.length + 1) ∧ q.2 = p.2 ∧
        ∃ Y B, R[q.1]? = some ⟨Y, B, none⟩ ∧ n ≤ B ∧ Pred R S inp p.1 Y ∧ Seen first follow n R inp hint p.2 B p.1 := by
      intro p hp
      obtain ⟨hpK, d, Y, B, hd, hn, hY, hB⟩ := Finset.mem_filter.1 hp
      obtain ⟨X, hX⟩ := hKF p hpK
      have := h.range hX
      refine ⟨(d, p.2), ?_, rfl, Y, B, hd, hn, hY, hB⟩
      rw [Finset.mem_product, Finset.mem_range, Finset.mem_range]
      exact ⟨(List.getElem?_eq_some_iff.1 hd).1, by omega⟩
    choose! q hq1 hq2 hq3 using key
    have := Finset.card_le_card_of_injOn (s := K.filter p3) (t := Finset.range R.length ×ˢ Finset.range (W.length + 1)) q hq1 (by
      intro p hp p' hp' e
      have hb : p.2 = p'.2 := by rw [← hq2 p hp, ← hq2 p' hp', e]
      obtain ⟨Y, B, i1, i2, i3, i4⟩ := hq3 p hp
      obtain ⟨Y', B', i1', i2', i3', i4'⟩ := hq3 p' hp'
      rw [← e, i1, Option.some.injEq, Rule.mk.injEq] at i1'
      obtain ⟨rfl, rfl, _⟩ := i1'
      exact Prod.ext (h.weak (List.mem_of_getElem? i1) i2 i3 i4 i3' (hb ▸ i4')) hb)
    rwa [Finset.card_product, Finset.card_range, Finset.card_range] at this
  have hK : K.card ≤ (1 + R.length) * G.card + R.length * (W.length + 1) := by
    have hsub : K ⊆ K.filter p1 ∪ (K.filter p2 ∪ K.filter p3) := by
      intro p hp
      obtain ⟨X, hX⟩ := hKF p hp
      simp only [Finset.mem_union, Finset.mem_filter]
      rcases h.keys hX with h1 | h1 | h1
      · exact .inl ⟨hp, h1⟩
      · exact .inr (.inl ⟨hp, h1⟩)
      · exact .inr (.inr ⟨hp, h1⟩)
    have a1 := Finset.card_le_card hsub
    have a2 := Finset.card_union_le (K.filter p1) (K.filter p2 ∪ K.filter p3)
    have a3 := Finset.card_union_le (K.filter p2) (K.filter p3)
    rw [Nat.add_mul, Nat.one_mul]
    omega
  have hFK : F.card ≤ syms * K.card := by
    have := Finset.card_le_card (s := F) (t := Finset.range syms ×ˢ K) (by
      intro p hp
      rw [Finset.mem_product, Finset.mem_range]
      exact ⟨hsyms _ _ _ (hF p hp), Finset.mem_image_of_mem _ hp⟩)
    rwa [Finset.card_product, Finset.card_range] at this
  refine hFK.trans (Nat.mul_le_mul_left _ (hK.trans ?_))
  exact Nat.add_le_add_right (Nat.mul_le_mul_left _ hG) _

end Gearley.Spec
