import Verif.Proofs.Climb
import Verif.Proofs.CostBound

/-! # How often an item is in a set, over whole runs, in whatever order the symbols are numbered -/

namespace Gearley
open Gearley.Spec

/-- A set has no item more often than there are chains to its first symbol. -/
structure ManyAt (g : DefaultGrammar) (R : Rules) (p : Nat → Nat) (s : TRec) (e : Nat) (S : List (List TItem)) : Prop where
  rest : Rest g R s S
  len : S.length ≤ e + 1
  many : ∀ l ∈ S, ∀ d o A, rhs0Of R d = some A → (l.map dotOrigin).count (d, o) ≤ p A

section
variable {g : DefaultGrammar} {R : Rules} {root : Nat → Nat} {p : Nat → Nat}

theorem ManyAt.hintOp {s : TRec} {e : Nat} {S} (h : ManyAt g R p s e S) (op : Rec.HintOp)
    (hop : ∀ x, op = .set x → x < g.syms) : ManyAt g R p (Rec.applyHint s op) e S := by
  refine ⟨?_, h.len, h.many⟩
  cases op with
  | keep => exact h.rest
  | set x =>
    refine { h.rest with hint := ?_ }
    intro y hy
    simp only [Rec.applyHint, Rec.setHint, Option.some.injEq] at hy
    exact hy ▸ hop x rfl
  | clear =>
    refine { h.rest with hint := ?_ }
    intro y hy
    simp [Rec.applyHint, Rec.clearHint] at hy

theorem ManyAt.position (hg : GrammarOK g R root) {rank : Nat → Nat} (hrank : EC.Ranked R rank) (hp : ChainBound R p)
    {s : TRec} {e : Nat} {S} (h : ManyAt g R p s e S) (hlen : e + 1 < 2 ^ 64) {toks : List (Nat × Nat)}
    (ht : ∀ t ∈ toks, t.1 < g.syms + g.gensyms) (hnd : (toks.map (·.1)).Nodup) (hterm : ∀ t ∈ toks, Terminal R t.1)
    {la sorter} :
    Returns (Rec.position (treeEnv g la sorter) s toks) fun r => r.2 = true → ∃ S', ManyAt g R p r.1 (e + 1) S' := by
  obtain ⟨M, hM⟩ := chain_rank_bound R rank
  have hl := h.len
  have hc := h.rest.ok hg (la := la) (sorter := sorter)
  have hJ := EC.keeps_many hc hrank hM hp hnd hterm
  refine (position_spec hg h.rest (by omega) toks ht hJ (.inr (hrank.settles _)) (lax := False)).returns.mono ?_
  rintro r ⟨Fd, cur, hf, hj, hr⟩ hok
  rcases hr with ⟨h1, _⟩ | ⟨_, _, hlook, cur', keep, ha⟩
  · rw [h1] at hok; simp at hok
  refine ⟨S.take keep ++ [cur'], h.rest.next hf ha hlook, ?_, ?_⟩
  · have := ha.keep_le
    simp; omega
  · intro l hl d o A hA
    rcases List.mem_append.1 hl with h' | h'
    · exact h.many l (List.mem_of_mem_take h') d o A hA
    · simp only [List.mem_singleton] at h'
      subst h'
      rw [(ha.perm.map dotOrigin).count_eq]
      obtain ⟨k1, k2⟩ := hj d o A hA
      have h1 : 1 ≤ p A := le_trans (Nat.le_add_right _ _) (hp A)
      by_cases hT : Terminal R A
      · exact (k1 hT).1.trans h1
      · rcases k2 hT with h3 | ⟨_, h3⟩ <;> omega

theorem session_many (hg : GrammarOK g R root) {rank : Nat → Nat} (hrank : EC.Ranked R rank) (hp : ChainBound R p)
    {la sorter} : ∀ (steps : List Step) (s : TRec) (e : Nat) (S), ManyAt g R p s e S → e + steps.length < 2 ^ 64 →
    StepsOK g steps → (∀ st ∈ steps, (st.2.map (·.1)).Nodup ∧ ∀ t ∈ st.2, Terminal R t.1) →
    Returns (Rec.session (treeEnv g la sorter) steps s) fun r => r.2 = true →
      ∃ S', ManyAt g R p r.1 (e + steps.length) S' := by
  intro steps
  induction steps with
  | nil => intro s e S h _ _ _; exact returns_pure fun _ => ⟨S, h⟩
  | cons st rest ih =>
    intro s e S h hlen hok hterm
    obtain ⟨op, toks⟩ := st
    simp only [List.length_cons] at hlen
    have hok0 := hok (op, toks) (by simp)
    have ht0 := hterm (op, toks) (by simp)
    rw [Rec.session, Rec.sessionWith]
    refine returns_bind (((h.hintOp op hok0.1).position hg hrank hp (by omega) hok0.2 ht0.1 ht0.2).mono ?_)
    rintro ⟨s1, ok⟩ hr
    cases ok with
    | false =>
      simp only [Bool.false_eq_true, if_false]
      exact returns_pure fun h => by simp at h
    | true =>
      simp only [if_true]
      obtain ⟨S', h'⟩ := hr rfl
      refine (ih s1 (e + 1) S' h' (by omega) (fun x hx => hok x (by simp [hx])) fun x hx => hterm x (by simp [hx])).mono ?_
      intro r hr h
      rw [List.length_cons, show e + (rest.length + 1) = e + 1 + rest.length by omega]
      exact hr h

theorem new_many (hg : GrammarOK g R root) {rank : Nat → Nat} (hrank : EC.Ranked R rank) (hp : ChainBound R p)
    {steps : List Step} {la sorter} (hlen : steps.length < 2 ^ 64) (hok : StepsOK g steps)
    (hterm : ∀ st ∈ steps, (st.2.map (·.1)).Nodup ∧ ∀ t ∈ st.2, Terminal R t.1) (f : List PTree) :
    Returns (Rec.new (treeEnv g la sorter) f >>= Rec.session (treeEnv g la sorter) steps) fun r =>
      r.2 = true → ∃ S, ManyAt g R p r.1 steps.length S := by
  refine returns_bind ((new_spec (n := 0) (H := False) hg (pred_predOK (R := R) g.startSym (extendBy steps [])) f).mono ?_)
  rintro s ⟨hs, _⟩
  have := session_many hg hrank hp (la := la) (sorter := sorter) steps s 0 [[]] ⟨hs.rest, by simp, by simp⟩ (by omega) hok hterm
  simpa using this

end

/-! ### Lists with repetitions -/

theorem sum_le_dedup {α : Type} [DecidableEq α] [BEq α] [LawfulBEq α] {l : List α} {P : Nat} (h : ∀ a, l.count a ≤ P)
    (f : α → Nat) : (l.map f).sum ≤ P * (l.dedup.map f).sum := by
  have he : l.dedup.toFinset = l.toFinset := by ext a; simp
  rw [Finset.sum_list_map_count, ← List.sum_toFinset _ l.nodup_dedup, he, Finset.mul_sum]
  refine Finset.sum_le_sum fun a _ => Nat.mul_le_mul_right _ ?_
  convert h a

theorem length_le_dedup {α : Type} [DecidableEq α] [BEq α] [LawfulBEq α] {l : List α} {P : Nat} (h : ∀ a, l.count a ≤ P) :
    l.length ≤ P * l.dedup.length := by
  have := sum_le_dedup h fun _ => 1
  simpa using this

/-- A set with few repetitions is small. -/
theorem set_length_many {R : Rules} {l : List TItem} {L P : Nat} (hm : ∀ x, (l.map dotOrigin).count x ≤ P)
    (hr : ∀ it ∈ l, ∃ r, R[it.dot]? = some r) (ho : ∀ it ∈ l, it.origin < L) : l.length ≤ P * (R.length * L) := by
  have h1 : (l.map dotOrigin).toFinset ⊆ Finset.range R.length ×ˢ Finset.range L := by
    intro p hp
    rw [List.mem_toFinset, List.mem_map] at hp
    obtain ⟨it, hit, rfl⟩ := hp
    obtain ⟨r, hr⟩ := hr it hit
    simp only [dotOrigin, Finset.mem_product, Finset.mem_range]
    exact ⟨(List.getElem?_eq_some_iff.1 hr).1, ho it hit⟩
  have h2 := Finset.card_le_card h1
  rw [List.card_toFinset, Finset.card_product, Finset.card_range, Finset.card_range] at h2
  have h3 := length_le_dedup hm
  rw [List.length_map] at h3
  exact h3.trans (Nat.mul_le_mul_left _ h2)

/-! ### A bound for every grammar without cycles -/

/-- Number of one-symbol rules. -/
theorem chainBound_pow {R : Rules} {rank : Nat → Nat} (hrank : EC.Ranked R rank) :
    ∃ p, ChainBound R p ∧ ∀ A, p A ≤ 2 ^ R.countP (fun r => r.rhs1.isNone) := by
  refine ⟨fun A => 2 ^ R.countP (fun r => r.rhs1.isNone && decide (rank A ≤ rank r.lhs)), ?_, ?_⟩
  swap
  · intro A
    refine Nat.pow_le_pow_right (by omega) (List.countP_mono_left fun r _ h => ?_)
    simp only [Bool.and_eq_true] at h
    exact h.1
  · intro A
    -- the rules of `A`, one after the other
    have key : ∀ l : Rules, l.Sublist (unaryRules R A) →
        1 + (l.map fun r => 2 ^ R.countP (fun r' => r'.rhs1.isNone && decide (rank r.rhs0 ≤ rank r'.lhs))).sum ≤
          2 ^ (R.countP (fun r' => r'.rhs1.isNone && decide (rank A < rank r'.lhs)) + l.length) := by
      intro l
      induction l with
      | nil => intro _; simpa using Nat.one_le_two_pow
      | cons r l ih =>
        intro hsub
        have hi := ih ((List.sublist_cons_self _ _).trans hsub)
        obtain ⟨k1, k2, k3⟩ := mem_unaryRules.1 (hsub.subset (List.mem_cons_self ..))
        have hlt := hrank r k1 k3
        rw [k2] at hlt
        have hle : 2 ^ R.countP (fun r' => r'.rhs1.isNone && decide (rank r.rhs0 ≤ rank r'.lhs)) ≤
            2 ^ (R.countP (fun r' => r'.rhs1.isNone && decide (rank A < rank r'.lhs)) + l.length) := by
          refine Nat.pow_le_pow_right (by omega) ((List.countP_mono_left fun r' _ h => ?_).trans (Nat.le_add_right _ _))
          simp only [Bool.and_eq_true, decide_eq_true_eq] at h ⊢
          exact ⟨h.1, by omega⟩
        simp only [List.map_cons, List.sum_cons, List.length_cons]
        rw [← Nat.add_assoc, ← Nat.add_assoc, Nat.pow_succ]
        omega
    refine (key _ (List.Sublist.refl _)).trans (Nat.pow_le_pow_right (by omega) ?_)
    rw [unaryRules, ← List.countP_eq_length_filter]
    clear key
    induction R with
    | nil => simp
    | cons r R ih =>
      have := ih fun x hx => hrank x (by simp [hx])
      simp only [List.countP_cons]
      have : (if (r.rhs1.isNone && decide (rank A < rank r.lhs)) = true then 1 else 0) +
          (if (decide (r.lhs = A) && r.rhs1.isNone) = true then 1 else 0) ≤
          if (r.rhs1.isNone && decide (rank A ≤ rank r.lhs)) = true then 1 else 0 := by
        cases r.rhs1.isNone
        · simp
        · by_cases h1 : r.lhs = A
          · simp [h1]
          · simp only [h1, Bool.true_and, decide_false, Bool.false_and, Bool.false_eq_true, if_false, Nat.add_zero,
              decide_eq_true_eq]
            split
            · rw [if_pos (by omega)]
            · omega
      omega

end Gearley
