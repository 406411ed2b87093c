import Verif.Proofs.CompactEval
import Verif.Proofs.EvalRounds

/-!
# Rounds of `evaluate` of the compact bocage
-/

namespace Gearley.Compact
open Gearley.Spec Gearley.Simple
variable {α : Type} {info : ForestInfo} {E : Evaluator α}

/-- Rounds for a node or, with `true`, for the summands up to the next end mark, and the number of nodes made on the way. -/
inductive Rd (info : ForestInfo) (G : List Nat) : Bool → Nat → Nat → Nat → Prop
  | leaf {h s v} : get G h = pure (.leaf s v) → Rd info G false h 1 0
  | nulling {h s} : get G h = pure (.nullingLeaf s) → Rd info G false h 1 0
  | rule {h l r m n a b} : get G h = pure (.rule l r) → Rd info G false l m a → Rd info G false r n b →
      Rd info G false h (m + n + 3) (a + b)
  | product {h d f n a} : get G h = pure (.product d f) → Fixed info G d f → Rd info G false f n a →
      Rd info G false h (n + 2) a
  | single {h d f n a} : get G h = pure (.summand d f) → Rd info G true h n a → Rd info G false h n a
  | beginSum {h d f n a} : get G h = pure .beginSum → get G (h + 1) = pure (.summand d f) → Rd info G true (h + 1) n a →
      Rd info G false h (n + 1) a
  | endSum {h} : get G h = pure .endSum → Rd info G true h 1 0
  | summand {h d f z m n a b} : get G h = pure (.summand d f) → getNodeSize G h = pure z → Fixed info G d f →
      Rd info G false f m a → Rd info G true (h + z) n b → Rd info G true h (m + 2 + n) (a + b)
  | removed {h d f z s dir m k n a b c} : get G h = pure (.summand d f) → getNodeSize G h = pure z → ¬ IsRule G f →
      d ≠ nullAction → info.nullingEliminated[d]? = some (some (s, dir)) → s * 9 < 2 ^ 32 → Rd info G false f m a →
      Rd info G false (s * 9) k b → Rd info G true (h + z) n c →
      Rd info G true h (m + k + 5 + n) (a + b + 1 + c)

theorem Rd.pos {G : List Nat} {c : Bool} {h n a : Nat} (hv : Rd info G c h n a) : 0 < n := by
  induction hv <;> omega

theorem Rd.get {G : List Nat} {c : Bool} {h n a : Nat} (hv : Rd info G c h n a) : ∃ x, get G h = pure x := by
  cases hv with
  | leaf h | nulling h | rule h _ _ | product h _ _ | single h _ | beginSum h _ _ | endSum h
  | summand h _ _ _ _ | removed h _ _ _ _ _ _ _ _ => exact ⟨_, h⟩

theorem Rd.lt {G : List Nat} {c : Bool} {h n a : Nat} (hv : Rd info G c h n a) : h < G.length :=
  get_lt hv.get.choose_spec

theorem Rd.mono {G G' : List Nat} (hp : G <+: G') {c : Bool} {h n a : Nat} (hv : Rd info G c h n a) :
    Rd info G' c h n a := by
  induction hv with
  | leaf h => exact .leaf (get_prefix hp h)
  | nulling h => exact .nulling (get_prefix hp h)
  | rule h _ _ ih1 ih2 => exact .rule (get_prefix hp h) ih1 ih2
  | product h h2 _ ih => exact .product (get_prefix hp h) (h2.mono hp) ih
  | single h _ ih => exact .single (get_prefix hp h) ih
  | beginSum h h1 _ ih => exact .beginSum (get_prefix hp h) (get_prefix hp h1) ih
  | endSum h => exact .endSum (get_prefix hp h)
  | summand h hs h2 _ _ ih1 ih2 => exact .summand (get_prefix hp h) (size_prefix hp hs) (h2.mono hp) ih1 ih2
  | removed h hs h2 h3 h4 h5 h6 _ _ ih1 ih2 ih3 =>
    exact .removed (get_prefix hp h) (size_prefix hp hs) (not_isRule_mono hp h6.get.choose_spec h2) h3 h4 h5 ih1 ih2 ih3

/-- What is known when the entry on top of the stack `S` has been processed in `n` rounds. -/
structure Ran (info : ForestInfo) (E : Evaluator α) (st st' : Eval α) (S : List WorkNode) (n a : Nat) : Prop where
  rounds : Rounds (Eval.step E) n st st'
  binfo : st'.b.info = info
  pre : st.b.graph <+: st'.b.graph
  len : st'.b.graph.length ≤ st.b.graph.length + 9 * a
  shape : st'.stack.map strip = S.map strip
  res : st.results.length ≤ st'.results.length
  ok : StackOK st'.results.length st'.stack

/-- The claim for nodes of `n` rounds. -/
def Run (info : ForestInfo) (E : Evaluator α) (c : Bool) (n : Nat) : Prop :=
  ∀ {st : Eval α} {S : List WorkNode} {w : WorkNode} {h p a : Nat}, st.stack = S ++ [w] → strip w = (h, 0, p) →
    p < S.length → st.b.info = info → Rd info st.b.graph c h n a → st.b.graph.length + 9 * a < 2 ^ 32 →
    StackOK st.results.length st.stack → ∃ st', Ran info E st st' S n a

/-- The last part of a product or summand. -/
theorem finish_ok {b : Bocage} {rs : List α} {S : List WorkNode} {w : WorkNode} {d : Nat} (hp : w.parent < S.length)
    (hok : StackOK rs.length (S ++ [w])) :
    ∃ rs' S', Eval.finish E { b := b, results := rs, stack := S } w d = pure { b := b, results := rs', stack := S' } ∧
      S'.map strip = S.map strip ∧ rs.length ≤ rs'.length ∧ StackOK rs'.length S' := by
  have hrs : ∀ i ∈ w.results, i < rs.length := fun i hi => hok _ (List.mem_append_right _ List.mem_cons_self) i hi
  cases ho : b.info.originId d with
  | none =>
    obtain ⟨S', k1, k2, k3⟩ := pushResults_ok (p := w.parent) hp hok.left hrs
    refine ⟨rs, S', ?_, k2, Nat.le_refl _, k3⟩
    unfold Eval.finish
    simp only [ho]
    rw [k1]; rfl
  | some id =>
    obtain ⟨u, hu⟩ := mapM_ok hrs
    obtain ⟨S', k1, k2, k3⟩ := pushResults_ok (p := w.parent) (vs := [u32Pred (rs ++ [E.product id u]).length])
      (l := (rs ++ [E.product id u]).length) hp
      (hok.left.mono (by simp)) (by intro i hi; rw [List.mem_singleton.1 hi]; exact u32Pred_lt (by simp))
    refine ⟨rs ++ [E.product id u], S', ?_, k2, by simp, k3⟩
    unfold Eval.finish
    simp only [ho]
    rw [hu, pure_bind, k1]; rfl

/-- The factors of a product or summand, without the last round. -/
theorem run_factors' {n : Nat} (ih : Run info E false n) {st : Eval α} {S : List WorkNode} {w : WorkNode} {h p d f a : Nat}
    (hw : strip w = (h, 1, p)) (hp : p < S.length) (hi : st.b.info = info) (hv : Rd info st.b.graph false f n a)
    (hl : st.b.graph.length + 9 * a < 2 ^ 32) (hs : st.stack = S ++ [w, { node := f, parent := S.length }])
    (hok : StackOK st.results.length st.stack) :
    ∃ (st1 : Eval α) (S1 : List WorkNode) (rs : List Nat) (rs' : List α) (S' : List WorkNode),
      Rounds (Eval.step E) n st st1 ∧ st1.b.info = info ∧
      st.b.graph <+: st1.b.graph ∧ st1.b.graph.length ≤ st.b.graph.length + 9 * a ∧
      st1.stack = S1 ++ [{ node := h, child := 1, parent := p, results := rs }] ∧ 0 < S1.length ∧
      Eval.finish E { b := st1.b, results := st1.results, stack := S1 }
        { node := h, child := 1, parent := p, results := rs } d = pure { b := st1.b, results := rs', stack := S' } ∧
      S'.map strip = S.map strip ∧ st.results.length ≤ rs'.length ∧ StackOK rs'.length S' := by
  obtain ⟨st1, h1⟩ := ih (S := S ++ [w]) (w := { node := f, parent := S.length }) (p := S.length) (by rw [hs]; simp) rfl
    (by simp) hi hv hl hok
  obtain ⟨S1, w1, h2, h3, h4⟩ := strip_snoc h1.shape
  have hS1 := length_of_strip h3
  have hok1 := h1.ok
  rw [h2] at hok1
  rw [hw] at h4
  obtain ⟨node, child, parent, rs⟩ := w1
  simp only [strip, Prod.mk.injEq] at h4
  obtain ⟨rfl, rfl, rfl⟩ := h4
  obtain ⟨rs', S', k1, k2, k3, k4⟩ := finish_ok (E := E) (b := st1.b) (d := d) (show parent < S1.length by omega) hok1
  exact ⟨st1, S1, rs, rs', S', h1.rounds, h1.binfo, h1.pre, h1.len, h2, by omega, k1, k2.trans h3, h1.res.trans k3, k4⟩

/-- A summand after its first round. -/
theorem run_summand' {m n : Nat} (ih1 : Run info E false m) (ih2 : Run info E true n) {st : Eval α} {S : List WorkNode}
    {w : WorkNode} {h p d f f' z a b : Nat} (hw : strip w = (h, 1, p)) (hp : p < S.length) (hi : st.b.info = info)
    (hh : get st.b.graph h = pure (.summand d f')) (hz : getNodeSize st.b.graph h = pure z)
    (hv1 : Rd info st.b.graph false f m a) (hv2 : Rd info st.b.graph true (h + z) n b)
    (hl : st.b.graph.length + 9 * (a + b) < 2 ^ 32) (hs : st.stack = S ++ [w, { node := f, parent := S.length }])
    (hok : StackOK st.results.length st.stack) :
    ∃ st', Ran info E st st' S (m + 1 + n) (a + b) := by
  obtain ⟨st1, S1, rs, rs', S', h1, h2, h3, h4, h5, h50, h6, h7, h8, h9⟩ := run_factors' ih1 (d := d) hw hp hi hv1 (by omega) hs hok
  have hlt := hv2.lt
  have hS := length_of_strip h7
  let st2 : Eval α := { b := st1.b, results := rs', stack := S' ++ [{ node := h + z, parent := p }] }
  have hstep : Eval.step E st1 = pure (.inl st2) := by
    refine step_same h5 h50 (get_prefix h3 hh) (by simp) ?_
    unfold Eval.visit
    simp only
    rw [h6, pure_bind]
    simp only
    rw [size_prefix h3 hz, pure_bind, u32_of_lt' (by omega)]
  obtain ⟨st3, k1⟩ := ih2 (st := st2) (S := S') (w := { node := h + z, parent := p }) (h := h + z) (p := p) rfl rfl (by omega) h2
    (hv2.mono h3) (by simp only [st2]; omega) (by simp only [st2]; exact h9.append (stackOK_one (by simp)))
  have k2 := k1.len
  simp only [st2] at k2
  exact ⟨st3, by rw [Nat.add_assoc, Nat.add_comm 1 n]; exact h1.trans (.step hstep k1.rounds), k1.binfo, h3.trans k1.pre,
    by omega, k1.shape.trans h7, h8.trans k1.res, k1.ok⟩

/-- The first round at a summand that gets back a symbol. -/
theorem restore' {st : Eval α} {S : List WorkNode} {h p d f s m k a b : Nat} {dir : Bool} {rs : List Nat}
    (hs : st.stack = S ++ [{ node := h, parent := p, results := rs }]) (hp : p < S.length) (hi : st.b.info = info)
    (hh : get st.b.graph h = pure (.summand d f)) (hnr : ¬ IsRule st.b.graph f)
    (hd : d ≠ nullAction) (he : info.nullingEliminated[d]? = some (some (s, dir))) (hs9 : s * 9 < 2 ^ 32)
    (hv1 : Rd info st.b.graph false f m a) (hv2 : Rd info st.b.graph false (s * 9) k b)
    (hl : st.b.graph.length < 2 ^ 32) :
    ∃ (st1 : Eval α) (f' : Nat), Eval.step E st = pure (.inl st1) ∧
      st1.stack = S ++ [{ node := h, child := 1, parent := p, results := rs }, { node := f', parent := S.length }] ∧
      st1.results = st.results ∧ st1.b.info = info ∧ st.b.graph <+: st1.b.graph ∧
      st1.b.graph.length ≤ st.b.graph.length + 9 ∧
      Rd info st1.b.graph false f' (m + k + 3) (a + b) := by
  let G := st.b.graph
  let lr : Nat × Nat := if dir then (f, s * 9) else (s * 9, f)
  let G' := push G (.rule lr.1 lr.2)
  have hpre : G <+: G' := ⟨_, rfl⟩
  have hlr : lr.1 < 2 ^ 32 ∧ lr.2 < 2 ^ 32 := by
    have := hv1.lt
    cases dir
    · exact ⟨hs9, by show f < 2 ^ 32; omega⟩
    · exact ⟨by show f < 2 ^ 32; omega, hs9⟩
  have hnew : get G' G.length = pure (.rule lr.1 lr.2) := by
    have := get_encode G (n := .rule lr.1 lr.2) hlr []
    rwa [List.append_nil] at this
  have hlen' : G'.length ≤ G.length + 9 := by
    have := encode_le (.rule lr.1 lr.2)
    simp only [G', push, List.length_append]; omega
  have hgl : G.length = st.b.graph.length := rfl
  let st1 : Eval α :=
    { b := { st.b with graph := G' }
      results := st.results
      stack := S ++ [{ node := h, child := 1, parent := p, results := rs }, { node := G.length, parent := S.length }] }
  have hpost : st.b.postprocess (.summand d f) = pure ({ st.b with graph := G' }, .product d G.length) := by
    unfold Bocage.postprocess
    obtain ⟨y, hy⟩ := hv1.get
    simp only
    rw [hy, pure_bind]
    split
    · rename_i l r
      exact absurd ⟨l, r, hy⟩ hnr
    · subst hi
      rw [if_neg hd, indexM_eq he, pure_bind]
      simp only [Bocage.product]
      rw [u32_of_lt' (show s < 2 ^ 32 by omega), mul9, u32_of_lt' hs9, len, u32_of_lt' (by omega)]
  refine ⟨st1, G.length, ?_, rfl, rfl, hi, hpre, hlen', ?_⟩
  · rw [step_eq hs (by omega) hh]
    simp only [if_true]
    rw [hpost, pure_bind]
    rfl
  · cases dir
    · rw [Nat.add_comm m k, Nat.add_comm a b]; exact .rule hnew (hv2.mono hpre) (hv1.mono hpre)
    · exact .rule hnew (hv1.mono hpre) (hv2.mono hpre)

theorem run_all (hE : E.Grows) (n : Nat) : ∀ c, Run info E c n := by
  induction n using Nat.strong_induction_on with
  | _ n ih =>
    have two : ∀ {l : Nat} {S : List WorkNode} {w w' : WorkNode}, StackOK l S → (∀ i ∈ w.results, i < l) → w'.results = [] →
        StackOK l (S ++ [w, w']) := by
      intro l S w w' hS h1 h2
      refine hS.append ?_
      intro x hx
      rcases List.mem_cons.1 hx with rfl | hx
      · exact h1
      · cases List.mem_singleton.1 hx
        rw [h2]; simp
    have chain : Run info E true n := by
      intro st S w h p a hs hw hp hi hv hl hok
      obtain ⟨node, child, parent, rs⟩ := w
      simp only [strip, Prod.mk.injEq] at hw
      obtain ⟨rfl, rfl, rfl⟩ := hw
      rw [hs] at hok
      have hrs : ∀ i ∈ rs, i < st.results.length := fun i hi => hok _ (List.mem_append_right _ List.mem_cons_self) i hi
      cases hv with
      | endSum hh =>
        refine ⟨{ st with stack := S }, .one (step_same hs (by omega) hh
          (fun _ => postprocess_other (by simp) (by simp)) ?_), hi, List.prefix_rfl, Nat.le_add_right _ _, rfl, Nat.le_refl _, hok.left⟩
        rfl
      | @summand _ d f z m n a b hh hz hfix hv1 hv2 =>
        let st1 : Eval α :=
          { st with stack := S ++ [{ node := node, child := 1, parent := parent, results := rs }, { node := f, parent := S.length }] }
        have h1 : Eval.step E st = pure (.inl st1) :=
          step_same hs (by omega) hh (fun _ => postprocess_fixed hv1.get.choose_spec (hi ▸ hfix) (.inr rfl)) rfl
        obtain ⟨st', h2⟩ := run_summand' (ih m (by omega) false) (ih n (by omega) true) (st := st1) (S := S)
          (w := { node := node, child := 1, parent := parent, results := rs }) rfl hp hi hh hz
          hv1 hv2 (by simp only [st1]; omega) rfl (by simp only [st1]; exact two hok.left hrs rfl)
        refine ⟨st', ?_, h2.binfo, h2.pre, h2.len, h2.shape, h2.res, h2.ok⟩
        rw [show m + 2 + n = m + 1 + n + 1 by omega]
        exact .step h1 h2.rounds
      | @removed _ d f z s dir m k n a b c hh hz hnr hd he hs9 hv1 hv2 hv3 =>
        obtain ⟨st1, f', h1, hs1, hr1, hi1, hpre, hlen', hv'⟩ := restore' (E := E) hs hp hi hh hnr hd he hs9 hv1 hv2
          (by omega)
        obtain ⟨st', h2⟩ := run_summand' (ih (m + k + 3) (by omega) false) (ih n (by omega) true) (st := st1) (S := S)
          (w := { node := node, child := 1, parent := parent, results := rs }) rfl hp hi1
          (get_prefix hpre hh) (size_prefix hpre hz) hv' (hv3.mono hpre) (by omega) hs1
          (by rw [hs1, hr1]; exact two hok.left hrs rfl)
        have h3 := h2.len
        refine ⟨st', ?_, h2.binfo, hpre.trans h2.pre, by omega, h2.shape, hr1 ▸ h2.res, h2.ok⟩
        rw [show m + k + 5 + n = m + k + 3 + 1 + n + 1 by omega]
        exact .step h1 h2.rounds
    intro c
    cases c with
    | true => exact chain
    | false =>
      intro st S w h p a hs hw hp hi hv hl hok
      have hok0 := hok
      have hw0 := hw
      have hs0 := hs
      obtain ⟨node, child, parent, rs⟩ := w
      simp only [strip, Prod.mk.injEq] at hw
      obtain ⟨rfl, rfl, rfl⟩ := hw
      rw [hs] at hok
      have hrs : ∀ i ∈ rs, i < st.results.length := fun i hi => hok _ (List.mem_append_right _ List.mem_cons_self) i hi
      cases hv with
      | @leaf _ s v hh =>
        obtain ⟨S', h1, h2, h3⟩ := pushResults_ok (p := parent) (vs := [u32Pred (st.results ++ [E.leaf s v]).length])
          (l := (st.results ++ [E.leaf s v]).length) hp (hok.left.mono (by simp))
          (by intro i hi; rw [List.mem_singleton.1 hi]; exact u32Pred_lt (by simp))
        refine ⟨{ b := st.b, results := st.results ++ [E.leaf s v], stack := S' }, .one ?_, hi, List.prefix_rfl,
          Nat.le_add_right _ _, h2, by simp, h3⟩
        refine step_same hs (by omega) hh (fun _ => postprocess_other (by simp) (by simp)) ?_
        unfold Eval.visit
        simp only
        rw [h1]; rfl
      | @nulling _ s hh =>
        have hg := hE s st.results
        obtain ⟨S', h1, h2, h3⟩ := pushResults_ok (p := parent) (vs := [u32 st.results.length])
          (l := (E.nulling s st.results).length) hp (hok.left.mono (by omega))
          (by intro i hi; rw [List.mem_singleton.1 hi]; exact u32_lt_of_lt hg)
        refine ⟨{ b := st.b, results := E.nulling s st.results, stack := S' }, .one ?_, hi, List.prefix_rfl,
          Nat.le_add_right _ _, h2, by simp only; omega, h3⟩
        refine step_same hs (by omega) hh (fun _ => postprocess_other (by simp) (by simp)) ?_
        unfold Eval.visit
        simp only
        rw [h1]; rfl
      | @rule _ l r m n a b hh hv1 hv2 =>
        let st1 : Eval α := { st with stack := S ++ [{ node := node, child := 1, parent := parent, results := rs }, { node := l, parent := parent }] }
        have h1 : Eval.step E st = pure (.inl st1) :=
          step_same hs (by omega) hh (fun _ => postprocess_other (by simp) (by simp)) rfl
        obtain ⟨st2, h2⟩ := ih m (by omega) false (st := st1) (S := S ++ [{ node := node, child := 1, parent := parent, results := rs }])
          (w := { node := l, parent := parent }) (h := l)
          (p := parent) (by simp [st1]) rfl (by simp; omega) hi hv1 (by simp only [st1]; omega)
          (by simp only [st1]; exact two hok.left hrs rfl)
        obtain ⟨S2, w2, h3, h4, h5⟩ := strip_snoc h2.shape
        have hl2 := h2.len
        simp only [st1] at hl2
        have hS2 := length_of_strip h4
        have hok2 := h2.ok
        rw [h3] at hok2
        obtain ⟨n2, c2, p2, rs2⟩ := w2
        simp only [strip, Prod.mk.injEq] at h5
        obtain ⟨rfl, rfl, rfl⟩ := h5
        let st3 : Eval α := { st2 with stack := S2 ++ [{ node := n2, child := 2, parent := p2, results := rs2 }, { node := r, parent := p2 }] }
        have h6 : Eval.step E st2 = pure (.inl st3) :=
          step_same h3 (by omega) (get_prefix h2.pre hh) (by simp) rfl
        obtain ⟨st4, h7⟩ := ih n (by omega) false (st := st3) (S := S2 ++ [{ node := n2, child := 2, parent := p2, results := rs2 }])
          (w := { node := r, parent := p2 }) (h := r)
          (p := p2) (by simp [st3]) rfl (by simp; omega) h2.binfo (hv2.mono h2.pre) (by simp only [st3]; omega)
          (by
            simp only [st3]
            exact two hok2.left (fun i hi => hok2 _ (List.mem_append_right _ List.mem_cons_self) i hi) rfl)
        obtain ⟨S4, w4, h8, h9, h10⟩ := strip_snoc h7.shape
        have hS4 := length_of_strip h9
        have hok4 := h7.ok
        rw [h8] at hok4
        obtain ⟨n4, c4, p4, rs4⟩ := w4
        simp only [strip, Prod.mk.injEq] at h10
        obtain ⟨rfl, rfl, rfl⟩ := h10
        have h11 : Eval.step E st4 = pure (.inl { st4 with stack := S4 }) :=
          step_same h8 (by omega) (get_prefix h7.pre (get_prefix h2.pre hh)) (by simp) rfl
        refine ⟨{ st4 with stack := S4 }, ?_, h7.binfo, h2.pre.trans h7.pre, ?_, h9.trans h4, h2.res.trans h7.res, hok4.left⟩
        · have := Rounds.step h1 (h2.rounds.trans (.step h6 (h7.rounds.trans (.one h11))))
          rwa [show m + n + 3 = m + (n + 1 + 1) + 1 by omega]
        · have := h7.len; simp only [st3] at this ⊢; omega
      | @product _ d f n a hh hfix hv =>
        let st1 : Eval α :=
          { st with stack := S ++ [{ node := node, child := 1, parent := parent, results := rs }, { node := f, parent := S.length }] }
        have h1 : Eval.step E st = pure (.inl st1) :=
          step_same hs (by omega) hh (fun _ => postprocess_fixed hv.get.choose_spec (hi ▸ hfix) (.inl rfl)) rfl
        obtain ⟨st2, S1, rs1, rs', S', k1, k2, k3, k4, k5, k50, k6, k7, k8, k9⟩ := run_factors' (ih n (by omega) false)
          (st := st1) (d := d) (w := { node := node, child := 1, parent := parent, results := rs }) rfl hp hi hv
          (by simp only [st1]; omega) rfl (by simp only [st1]; exact two hok.left hrs rfl)
        refine ⟨{ b := st2.b, results := rs', stack := S' }, .step h1 (k1.trans (.one ?_)), k2, k3, k4, k7, k8, k9⟩
        exact step_same k5 k50 (get_prefix k3 hh) (by simp) k6
      | single hh hv => exact chain hs0 hw0 hp hi hv hl hok0
      | @beginSum _ d f n _ hh h1 hv =>
        have hlt := hv.lt
        let st1 : Eval α := { st with stack := S ++ [{ node := node + 1, parent := parent }] }
        have h1 : Eval.step E st = pure (.inl st1) := by
          refine step_same hs (by omega) hh (fun _ => postprocess_other (by simp) (by simp)) ?_
          unfold Eval.visit
          simp only
          rw [u32_of_lt' (by omega)]
        obtain ⟨st2, h2⟩ := ih n (by omega) true (st := st1) (S := S) (w := { node := node + 1, parent := parent }) rfl rfl hp hi hv hl
          (by simp only [st1]; exact hok.left.append (stackOK_one (by simp)))
        exact ⟨st2, .step h1 h2.rounds, h2.binfo, h2.pre, h2.len, h2.shape, h2.res, h2.ok⟩

/-- `evaluate` makes exactly so many rounds and returns. -/
theorem evaluate_rounds (hE : E.Grows) {b : Bocage} {x r n a : Nat} (hroot : b.evalRoot x = (pure (.inl r) : M (Nat ⊕ List α)))
    (hv : Rd b.info b.graph false r n a) (hg : b.graph.length + 9 * a < 2 ^ 32) :
    ∃ res, b.evaluate E x = pure res ∧ ∀ m, b.evaluateFuel m E x = if m ≤ n then diverge else pure res := by
  obtain ⟨st', h1⟩ := run_all hE n false (info := b.info) (st := { b := b, results := [], stack := evalStack r })
    (S := [{ node := nullHandle, parent := 0 }]) (w := { node := r, parent := 0 }) (h := r) (p := 0) rfl rfl (by simp) rfl hv hg (by
      intro w hw
      simp only [evalStack, List.mem_cons, List.not_mem_nil, or_false] at hw
      rcases hw with rfl | rfl <;> simp)
  have hlen := length_of_strip h1.shape
  have hstop : Eval.step E st' = pure (.inr st') := by
    unfold Eval.step; rw [if_neg (by rw [hlen]; simp)]
  have h0 : 0 < st'.stack.length := by rw [hlen]; simp
  obtain ⟨u, hu⟩ := takeResults_ok E.dflt (h1.ok _ (List.getElem_mem h0))
  refine ⟨(st'.b, u), ?_, fun m => ?_⟩
  · unfold Bocage.evaluate Bocage.evaluateWith
    rw [hroot, pure_bind]
    simp only
    rw [h1.rounds.loop hstop, pure_bind, indexM_eq (List.getElem?_eq_getElem h0), pure_bind, hu]; rfl
  · unfold Bocage.evaluateFuel Bocage.evaluateWith
    rw [hroot, pure_bind]
    simp only
    rw [h1.rounds.fuel hstop]
    split
    · rfl
    · rw [pure_bind, indexM_eq (List.getElem?_eq_getElem h0), pure_bind, hu]; rfl

end Gearley.Compact
