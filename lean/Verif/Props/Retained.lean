import Verif.Proofs.Retained
import Verif.Proofs.Machine
import Verif.Props.Linear
import Verif.Props.Lower

/-!
# C52: which sets the recognizer keeps

`remove_unreachable_sets` (recognizer.rs:255-281) drops the sets after the last one that an item of the newest set refers to.
-/

namespace Gearley.Props
open Gearley.Spec
variable {σ ν : Type} {c : Cfg} {n : Nat} {w : WrappedRoot} {E : Env σ ν} {f : σ}

/-- The positions that a derivation of the whole input may still return to when the input up to `e` has been read: `e` itself, and
the start of each two-symbol rule that has its first symbol end at such a position. -/
inductive Needed (R : Rules) (start : Nat) (inp : Input) (len e : Nat) : Nat → Prop
  | now : Needed R start inp len e e
  | back {d A B C a b z : Nat} {l r : PTree} : Needed R start inp len e b → R[d]? = some ⟨A, B, some C⟩ →
      Ctx R start inp len A a z → TreeOf R inp l B a b → TreeOf R inp r C b z → Needed R start inp len e a

/-- C52, lower bound. Without hints: when a part of the input has been read, a set is kept for every position that a derivation of
any continuation may still return to. -/
theorem C52_needed_kept (hB : Built c n w E.g) (hleo : E.leo = false)
    (hF : SafeStart E.F f c.rules.length c.numSyms) {pre more : List Step}
    (htok : TokensOK c.numSyms pre) (hno : NoHints pre) (hlen : pre.length < 2 ^ 64) {K : Finset Nat}
    (hK : ∀ p ∈ K, Needed (rulesOf c) w.root (inputOf (pre ++ more)) (pre ++ more).length pre.length p) :
    ∃ r, (Rec.new E f >>= Rec.session E pre) = pure r ∧ (r.2 = true → K.card ≤ r.1.medial.len) := by
  obtain ⟨root, rank, g0, hR⟩ := hB.ready
  obtain ⟨okDot, okLeaf, SF, w0, hI, hd, hl⟩ := hF
  have henv : FSim.env E.g E.lookahead false E.sorter E.F = E := by
    simp only [FSim.env, ← hleo]
  rw [← hR.start] at hK
  have hWin : StepsIn (inputOf (pre ++ more)) 0 pre := by
    intro i x hx
    rw [Nat.zero_add]
    refine inputOf_eq ?_
    obtain ⟨hi, hx⟩ := List.getElem?_eq_some_iff.1 hx
    rw [List.getElem?_append_left hi, List.getElem?_eq_getElem hi, hx]
  generalize inputOf (pre ++ more) = W at hK hWin
  generalize (pre ++ more).length = N at hK
  have hT : LookaheadOK E.g (rulesOf c) (fun _ => False) := ⟨fun _ _ _ _ h => h.elim, fun _ _ _ _ _ h => h.elim⟩
  have hP := pred_predOK (R := rulesOf c) E.g.startSym W
  have hrun : Returns (Rec.new (treeEnv E.g E.lookahead E.sorter) [] >>= Rec.session (treeEnv E.g E.lookahead E.sorter) pre)
      fun r => r.2 = true → K.card ≤ r.1.medial.len := by
    refine returns_bind ((new_spec (n := N) (H := True) hR.ok hP []).mono ?_)
    rintro s ⟨hs, hl⟩
    refine (session_inv hR.ok hT hR.ranked hP pre s 0 _ _ hs (by omega)
      (stepsOK_of hR htok fun st hst x hx => absurd hx (hno st hst x)) hWin
      fun _ _ => by rw [hl]; exact hno.hintsOK).mono ?_
    rintro ⟨s', ok⟩ hr hok1
    simp only [Nat.zero_add] at hr hok1
    have hinv : ∃ S loc, InvAt E.g (rulesOf c) W N True (Pred (rulesOf c) E.g.startSym W) (fun _ => False) s' pre.length S loc := by
      rcases hr with ⟨_, h2⟩ | ⟨h1, _⟩
      · rcases h2 with ⟨rfl, rfl⟩ | ⟨_, S', loc', h3, _⟩
        · exact ⟨_, _, hs⟩
        · exact ⟨_, _, h3⟩
      · rw [hok1] at h1; simp at h1
    obtain ⟨S, loc, hinv⟩ := hinv
    obtain ⟨hfull, _⟩ := hinv.full trivial
    have hmem : ∀ p, Needed (rulesOf c) E.g.startSym W N pre.length p → p ∈ loc := by
      intro p hp
      induction hp with
      | now => exact List.mem_of_getElem? hinv.sound.last
      | back _ hr hctx hl hr' ih =>
        obtain ⟨k, hk, hkb⟩ := List.getElem_of_mem ih
        have hkS : k < S.length := by rw [← hinv.sound.locLen]; exact hk
        obtain ⟨o, ho, _⟩ := hfull.item k S[k] _ (List.getElem?_eq_getElem hkS)
          (by rw [List.getElem?_eq_getElem hk, hkb]) _ _ _ ⟨_, _, _, _, _, hr, hctx, hl, hr'⟩
        exact List.mem_of_getElem? ho
    have h1 : K.card ≤ loc.toFinset.card :=
      Finset.card_le_card fun p hp => List.mem_toFinset.2 (hmem p (hK p hp))
    have h2 := loc.toFinset_card_le
    have h3 : s'.medial.len = S.length := by rw [hinv.rest.medial, Vec2d.len_eq]
    have := hinv.sound.locLen
    show K.card ≤ s'.medial.len
    omega
  have := sim_run (la := E.lookahead) (so := E.sorter) SF.sim (hR.dots hd) (f0 := []) (w := w0) hI
    (fun st hst p hp => hl p.1 p.2 (htok st hst p hp).1 (htok st hst p hp).2) hrun
  rw [henv] at this
  obtain ⟨r, h, r0, w', hq, hrel, hr0⟩ := this
  refine ⟨r, h, fun ht => ?_⟩
  rw [hrel.medial.len]
  exact hq (hr0 ▸ ht)

/-- C52, upper bound. If all items of Earley's algorithm start at one of the first `K + 1` positions, at most `K + 3` sets are
kept, however long the input is, whatever the hints; and one more when a position fails. -/
theorem C52_bounded (hB : Built c n w E.g) (hleo : E.leo = false)
    (hF : SafeStart E.F f c.rules.length c.numSyms) (hmark : Marked (rulesOf c) w.root w.eof) {steps : List Step}
    (htok : TokensOK c.numSyms steps) (hin : HintsIn n steps) (hlen : steps.length < 2 ^ 64)
    (huser : ∀ st ∈ steps, ∀ p ∈ st.2, p.1 < n ∧ p.1 ≠ w.eof) {K : Nat}
    (hK : ∀ d a b, EarleyItem (rulesOf c) w.root (inputOf steps) d a b → a ≤ K) :
    ∃ r, (Rec.new E f >>= Rec.session E steps) = pure r ∧ r.1.medial.len ≤ if r.2 then K + 3 else K + 4 := by
  obtain ⟨root, rank, g0, hR⟩ := hB.ready
  obtain ⟨okDot, okLeaf, SF, w0, hI, hd, hl⟩ := hF
  have henv : FSim.env E.g E.lookahead false E.sorter E.F = E := by
    simp only [FSim.env, ← hleo]
  rw [← hR.start] at hK hmark
  rw [← hR.eof] at hmark
  have hWin : StepsIn (inputOf steps) 0 steps := by
    intro i st hst
    rw [Nat.zero_add, inputOf_eq hst]
  have hP := pred_predOK (R := rulesOf c) E.g.startSym (inputOf steps)
  have hrun : Returns (Rec.new (treeEnv E.g E.lookahead E.sorter) [] >>= Rec.session (treeEnv E.g E.lookahead E.sorter) steps)
      fun r => r.1.medial.len ≤ if r.2 then K + 3 else K + 4 := by
    refine returns_bind ((new_spec (n := 0) (H := False) hR.ok hP []).mono ?_)
    rintro s ⟨hs, _⟩
    exact few_session hR.ok hR.ranked hmark hK steps s 0 _ _ hs.rest hs.sound (.inl (by simp)) (by omega)
      (stepsOK_of hR htok hin) hWin (by rw [hR.syms, hR.eof]; exact huser)
  have := sim_run (la := E.lookahead) (so := E.sorter) SF.sim (hR.dots hd) (f0 := []) (w := w0) hI
    (fun st hst p hp => hl p.1 p.2 (htok st hst p hp).1 (htok st hst p hp).2) hrun
  rw [henv] at this
  obtain ⟨r, h, r0, w', hq, hrel, hr0⟩ := this
  refine ⟨r, h, ?_⟩
  rw [hrel.medial.len, hr0]
  exact hq

/-- C52 for left-linear grammars: at most four sets are kept, however long the input is. -/
theorem C52_left_linear (hB : Built c n w E.g) (hleo : E.leo = false)
    (hF : SafeStart E.F f c.rules.length c.numSyms) (hmark : Marked (rulesOf c) w.root w.eof)
    (hlin : LeftLinear (rulesOf c) w.root) {steps : List Step}
    (htok : TokensOK c.numSyms steps) (hin : HintsIn n steps) (hlen : steps.length < 2 ^ 64)
    (huser : ∀ st ∈ steps, ∀ p ∈ st.2, p.1 < n ∧ p.1 ≠ w.eof) :
    ∃ r, (Rec.new E f >>= Rec.session E steps) = pure r ∧ (r.2 = true → r.1.medial.len ≤ 4) ∧ r.1.medial.len ≤ 5 := by
  obtain ⟨r, h1, h2⟩ := C52_bounded hB hleo hF hmark htok hin hlen huser (K := 1) (by
    rintro d a b ⟨A, B, C, t, e1, e2, _⟩
    exact (hlin.pred e2).resolve_right fun h => h _ (List.mem_of_getElem? e1) rfl)
  refine ⟨r, h1, fun h => by rw [h] at h2; exact h2, ?_⟩
  split at h2 <;> omega

section
open Gearley.Example

/-- The grammar `S ::= S a | a` meets the conditions of `C52_left_linear`. -/
example : Marked (rulesOf Left.cfg) Left.wrap.root Left.wrap.eof ∧ LeftLinear (rulesOf Left.cfg) Left.wrap.root :=
  ⟨⟨5, 1, by decide, by decide, by unfold Terminal; decide, by unfold Terminal; decide⟩, left_linear⟩

-- the bound of `C52_left_linear` is attained: after the hint for the end, the last set has no item that starts at 1
example : let E : Env (List PTree) (List PTree) := { g := Left.grammar, F := treeForest, sorter := sorter }
    (Rec.new E [] >>= Rec.sessionWith E (Rec.completeAllFuel E 20)
      [(.keep, [(1, 0)]), (.keep, [(4, 0)]), (.keep, [(4, 0)]), (.set 0, [(4, 0)])] >>= fun r => pure (r.2, r.1.medial.len)) =
      pure (true, 4) := by
  decide +kernel

/-- Every position of a list is needed when the list is read with the grammar `S ::= a S | a`. -/
theorem right_needed (k p : Nat) (hp : p ≤ k + 1) :
    Needed (rulesOf Right.cfg) 2 (inputOf (listSteps k ++ [(.keep, [(4, 0)]), (.keep, [(0, 0)])])) (k + 3) (k + 1) p := by
  have hst : ∀ i, 1 ≤ i → i ≤ k + 1 → inputOf (listSteps k ++ [(.keep, [(4, 0)]), (.keep, [(0, 0)])]) i = [(4, 0)] := by
    intro i hi1 hi2
    obtain ⟨i, rfl⟩ : ∃ j, i = j + 1 := ⟨i - 1, by omega⟩
    refine inputOf_eq (st := (.keep, [(4, 0)])) ?_
    rw [show listSteps k ++ [(.keep, [(4, 0)]), (.keep, [(0, 0)])] = listSteps (k + 1) ++ [(.keep, [(0, 0)])] by
      rw [listSteps_succ]; simp]
    rw [List.getElem?_append_left (by simp [listSteps]; omega), listSteps, List.getElem?_cons_succ,
      List.getElem?_replicate_of_lt (by omega)]
  have hsof : inputOf (listSteps k ++ [(.keep, [(4, 0)]), (.keep, [(0, 0)])]) 0 = [(1, 0)] := rfl
  have heof : inputOf (listSteps k ++ [(.keep, [(4, 0)]), (.keep, [(0, 0)])]) (k + 2) = [(0, 0)] := by
    refine inputOf_eq (st := (.keep, [(0, 0)])) ?_
    rw [List.getElem?_append_right (by simp [listSteps]), show k + 2 - (listSteps k).length = 1 by simp [listSteps]]
    rfl
  generalize inputOf (listSteps k ++ [(.keep, [(4, 0)]), (.keep, [(0, 0)])]) = W at hst hsof heof
  have hleaf : ∀ i, 1 ≤ i → i ≤ k + 1 → TreeOf (rulesOf Right.cfg) W (.leaf 4 0) 4 i (i + 1) :=
    fun i h1 h2 => .leaf (by rw [hst i h1 h2]; simp)
  have hlist : ∀ m p, p + m = k + 1 → 1 ≤ p → ∃ t, TreeOf (rulesOf Right.cfg) W t 3 p (k + 2) := by
    intro m
    induction m with
    | zero =>
      intro p hp h1
      obtain rfl : p = k + 1 := by omega
      exact ⟨_, .unary (d := 2) (B := 4) rfl (hleaf _ h1 (by omega))⟩
    | succ m ih =>
      intro p hp h1
      obtain ⟨t, h⟩ := ih (p + 1) (by omega) (by omega)
      exact ⟨_, .binary (d := 1) (B := 4) (C := 3) rfl (hleaf p h1 (by omega)) h⟩
  have hroot : Ctx (rulesOf Right.cfg) 2 W (k + 3) 5 0 (k + 2) :=
    .left (d := 0) (A := 2) (C := 0) rfl .root (.leaf (v := 0) (by rw [heof]; simp))
  have hS : Ctx (rulesOf Right.cfg) 2 W (k + 3) 3 1 (k + 2) :=
    .right (d := 3) (A := 5) (B := 1) rfl hroot (.leaf (v := 0) (by rw [hsof]; simp))
  have hctx : ∀ m, m ≤ k → Ctx (rulesOf Right.cfg) 2 W (k + 3) 3 (m + 1) (k + 2) := by
    intro m
    induction m with
    | zero => intro _; exact hS
    | succ m ih =>
      intro hm
      exact .right (d := 1) (A := 3) (B := 4) rfl (ih (by omega)) (hleaf (m + 1) (by omega) (by omega))
  -- from the end to the start
  have hdown : ∀ m p, p + m = k + 1 → 1 ≤ p → Needed (rulesOf Right.cfg) 2 W (k + 3) (k + 1) p := by
    intro m
    induction m with
    | zero => intro p hp _; obtain rfl : p = k + 1 := by omega
              exact .now
    | succ m ih =>
      intro p hp h1
      obtain ⟨q, rfl⟩ : ∃ q, p = q + 1 := ⟨p - 1, by omega⟩
      obtain ⟨t, ht⟩ := hlist m (q + 1 + 1) (by omega) (by omega)
      exact .back (d := 1) (B := 4) (C := 3) (ih (q + 1 + 1) (by omega) (by omega)) rfl (hctx q (by omega))
        (hleaf (q + 1) (by omega) (by omega)) ht
  by_cases h0 : p = 0
  · subst h0
    obtain ⟨t, ht⟩ := hlist k 1 (by omega) (by omega)
    exact .back (d := 3) (A := 5) (B := 1) (C := 3) (hdown k 1 (by omega) (by omega)) rfl hroot
      (.leaf (v := 0) (by rw [hsof]; simp)) ht
  · exact hdown (k + 1 - p) p (by omega) (by omega)

/-- C52 for right recursion: with the grammar `S ::= a S | a` all sets are kept. -/
theorem C52_right_recursion (hg : E.g = Right.grammar) (hleo : E.leo = false)
    (hF : SafeStart E.F f Right.cfg.rules.length Right.cfg.numSyms) (k : Nat) (hk : k + 2 < 2 ^ 64) :
    ∃ r, (Rec.new E f >>= Rec.session E (listSteps k)) = pure r ∧ r.2 = true ∧ r.1.medial.len = k + 2 := by
  have hB : Built Right.cfg 5 Right.wrap E.g := hg ▸ Right.built
  obtain ⟨r, h1, h2⟩ := C05_viable_prefix (E := E) (f := f) (steps := listSteps k) hB hleo hF (listSteps_tokens k) (by
      intro st hst p hp
      rcases List.mem_cons.1 hst with rfl | hst
      · simp at hp; subst hp; decide
      · obtain ⟨_, rfl⟩ := List.mem_replicate.1 hst
        simp at hp; subst hp; decide) (listSteps_noHints k) (by simp [listSteps]; omega)
  have hok := h2.2 (listSteps_viable k)
  obtain ⟨r', h3, h4⟩ := C52_needed_kept (E := E) (f := f) (pre := listSteps k)
    (more := [(.keep, [(4, 0)]), (.keep, [(0, 0)])]) hB hleo hF (listSteps_tokens k) (listSteps_noHints k)
    (by simp [listSteps]; omega) (K := Finset.range (k + 2)) (by
      intro p hp
      rw [Finset.mem_range] at hp
      have := right_needed k p (by omega)
      have e1 : (listSteps k ++ [(.keep, [(4, 0)]), (.keep, [(0, 0)])] : List Step).length = k + 3 := by simp [listSteps]
      have e2 : (listSteps k).length = k + 1 := by simp [listSteps]
      rw [e1, e2]
      exact this)
  rw [h1] at h3
  have h3 := pure_inj_M h3
  subst h3
  refine ⟨r, h1, hok, ?_⟩
  have h5 := h4 hok
  rw [Finset.card_range] at h5
  obtain ⟨s0, e0, e1⟩ := bind_eq_pure h1
  have h6 := Rec.session_len _ _ _ e1
  rw [Rec.new_len e0] at h6
  simp only [listSteps, List.length_cons, List.length_replicate] at h6
  omega

end
end Gearley.Props
