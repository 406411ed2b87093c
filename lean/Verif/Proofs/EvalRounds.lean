import Verif.Proofs.SimpleEval
import Verif.Spec.EvalWork

/-!
# Rounds of `evaluate`

Here the values are of no interest: indices into the vector of results only have to be in bounds, so that the number of
results is not limited.
-/

namespace Gearley
open Gearley.Spec
variable {α : Type}

/-- So many rounds of a loop. -/
inductive Rounds {σ ρ : Type} (f : σ → M (σ ⊕ ρ)) : Nat → σ → σ → Prop
  | refl (s) : Rounds f 0 s s
  | step {k s t u} : f s = pure (.inl t) → Rounds f k t u → Rounds f (k + 1) s u

namespace Rounds
variable {σ ρ : Type} {f : σ → M (σ ⊕ ρ)} {s t u : σ} {j k : Nat}

theorem trans (h : Rounds f j s t) (h' : Rounds f k t u) : Rounds f (j + k) s u := by
  induction h with
  | refl => rw [Nat.zero_add]; exact h'
  | @step j _ _ _ h _ ih => rw [Nat.add_right_comm]; exact .step h (ih h')

theorem one (h : f s = pure (.inl t)) : Rounds f 1 s t := .step h (.refl _)

theorem steps (h : Rounds f k s t) : Steps f s t := by
  induction h with
  | refl => exact .refl _
  | step h _ ih => exact .step h ih

/-- The loop needs one round more to stop. -/
theorem fuel (h : Rounds f k s t) {x : ρ} (hx : f t = pure (.inr x)) (m : Nat) :
    loopFuel f m s = if m ≤ k then diverge else pure x := by
  induction h generalizing m with
  | refl =>
    cases m with
    | zero => rfl
    | succ m => rw [if_neg (by omega), loopFuel, hx]; rfl
  | step h _ ih =>
    cases m with
    | zero => rfl
    | succ m =>
      rw [loopFuel, h, pure_bind]
      simp only
      rw [ih hx m]
      simp only [Nat.add_le_add_iff_right]

theorem loop (h : Rounds f k s t) {x : ρ} (hx : f t = pure (.inr x)) : loop f s = pure x := by
  rw [h.steps.loop, loop_inr hx]

end Rounds

/-- A stack entry without the results. -/
def strip (w : WorkNode) : Nat × Nat × Nat := (w.node, w.child, w.parent)

/-- All indices are in bounds. -/
def StackOK (l : Nat) (S : List WorkNode) : Prop := ∀ w ∈ S, ∀ i ∈ w.results, i < l

theorem StackOK.mono {l l' : Nat} {S : List WorkNode} (h : StackOK l S) (hl : l ≤ l') : StackOK l' S :=
  fun w hw i hi => Nat.lt_of_lt_of_le (h w hw i hi) hl

theorem StackOK.append {l : Nat} {S S' : List WorkNode} (h : StackOK l S) (h' : StackOK l S') : StackOK l (S ++ S') :=
  fun w hw => (List.mem_append.1 hw).elim (h w) (h' w)

theorem StackOK.left {l : Nat} {S S' : List WorkNode} (h : StackOK l (S ++ S')) : StackOK l S :=
  fun w hw => h w (List.mem_append_left _ hw)

theorem StackOK.right {l : Nat} {S S' : List WorkNode} (h : StackOK l (S ++ S')) : StackOK l S' :=
  fun w hw => h w (List.mem_append_right _ hw)

theorem stackOK_one {l : Nat} {w : WorkNode} (h : ∀ i ∈ w.results, i < l) : StackOK l [w] := by
  intro w' hw'
  cases List.mem_singleton.1 hw'
  exact h

theorem length_of_strip {S S' : List WorkNode} (h : S'.map strip = S.map strip) : S'.length = S.length := by
  have := congrArg List.length h
  simpa using this

theorem strip_snoc {S T : List WorkNode} {w : WorkNode} (h : T.map strip = (S ++ [w]).map strip) :
    ∃ S' w', T = S' ++ [w'] ∧ S'.map strip = S.map strip ∧ strip w' = strip w := by
  rcases List.eq_nil_or_concat T with rfl | ⟨S', w', rfl⟩
  · simp at h
  · rw [List.concat_eq_append] at h ⊢
    rw [List.map_append, List.map_append] at h
    obtain ⟨h1, h2⟩ := List.append_inj' h rfl
    exact ⟨S', w', rfl, h1, by simpa using h2⟩

theorem pushResults_ok {l : Nat} {S : List WorkNode} {p : Nat} (hp : p < S.length) {vs : List Nat} (hS : StackOK l S)
    (hv : ∀ i ∈ vs, i < l) : ∃ S', pushResults S p vs = pure S' ∧ S'.map strip = S.map strip ∧ StackOK l S' := by
  refine ⟨_, pushResults_eq (List.getElem?_eq_getElem hp) vs, ?_, ?_⟩
  · refine List.ext_getElem? fun i => ?_
    rw [List.getElem?_map, List.getElem?_map, List.getElem?_set]
    split
    · rename_i hi
      subst hi
      rw [List.getElem?_eq_getElem hp]
      simp [strip, hp]
    · rfl
  · intro w hw i hi
    rcases List.mem_or_eq_of_mem_set hw with hw | rfl
    · exact hS w hw i hi
    · rcases List.mem_append.1 hi with hi | hi
      · exact hS _ (List.getElem_mem hp) i hi
      · exact hv i hi

theorem u32Pred_lt {l : Nat} (h : 0 < l) : u32Pred l < l := by
  unfold u32Pred u32
  omega

theorem u32_lt_of_lt {l l' : Nat} (h : l < l') : u32 l < l' := by
  unfold u32
  omega

theorem mapM_ok {rs : List α} : ∀ {idx : List Nat}, (∀ i ∈ idx, i < rs.length) →
    ∃ u, (idx.mapM fun v => indexM rs v) = pure u
  | [], _ => ⟨[], rfl⟩
  | i :: idx, h => by
    obtain ⟨u, hu⟩ := mapM_ok (rs := rs) (idx := idx) fun j hj => h j (List.mem_cons_of_mem _ hj)
    exact ⟨rs[i]'(h i List.mem_cons_self) :: u, by
      rw [List.mapM_cons, indexM_eq (List.getElem?_eq_getElem (h i List.mem_cons_self)), pure_bind, hu, pure_bind]⟩

theorem takeResults_ok (d : α) : ∀ {idx : List Nat} {rs : List α}, (∀ i ∈ idx, i < rs.length) →
    ∃ u, takeResults d idx rs = pure u
  | [], _, _ => ⟨[], rfl⟩
  | i :: idx, rs, h => by
    obtain ⟨u, hu⟩ := takeResults_ok d (idx := idx) (rs := rs.set i d) fun j hj => by
      rw [List.length_set]; exact h j (List.mem_cons_of_mem _ hj)
    exact ⟨rs[i]'(h i List.mem_cons_self) :: u, by
      rw [takeResults, indexM_eq (List.getElem?_eq_getElem (h i List.mem_cons_self)), pure_bind, hu, pure_bind]⟩

theorem le_sum_of_mem {x : Nat} : ∀ {l : List Nat}, x ∈ l → x ≤ l.sum
  | y :: l, h => by
    rw [List.sum_cons]
    rcases List.mem_cons.1 h with rfl | h
    · omega
    · have := le_sum_of_mem h; omega

/-- The evaluator appends to the vector of results for an empty derivation. -/
def Evaluator.Grows (E : Evaluator α) : Prop := ∀ s rs, rs.length < (E.nulling s rs).length

namespace Simple
variable {info : ForestInfo} {E : Evaluator α}

/-- Rounds for a node, and a bound on the number of nodes made on the way. -/
inductive Rd (info : ForestInfo) (G : List Node) : Nat → Nat → Nat → Prop
  | leaf {h s v} : G[h]? = some (.leaf s v) → Rd info G h 1 0
  | nulling {h s} : G[h]? = some (.nullingLeaf s) → Rd info G h 1 0
  | rule {h l r m n a b} : G[h]? = some (.rule l r) → Rd info G l m a → Rd info G r n b → Rd info G h (m + n + 3) (a + b)
  | product {h d f n a} (e : Nat) : G[h]? = some (.product d f) →
      IsRule G f ∨ d = nullAction ∨ info.nullingEliminated[d]? = some none → Rd info G f n a → Rd info G h (n + 2) (a + e)
  | removed {h d f s dir m n a b} : G[h]? = some (.product d f) → ¬ IsRule G f → d ≠ nullAction →
      info.nullingEliminated[d]? = some (some (s, dir)) → s < 2 ^ 32 → Rd info G f m a → Rd info G s n b →
      Rd info G h (m + n + 5) (a + b + 1)
  | sum {h nt k} {us : List (Nat × Nat)} : G[h]? = some (.sum nt k) → us.length = k →
      (∀ i (hi : i < us.length), Rd info G (h + 1 + i) us[i].1 us[i].2) →
      Rd info G h ((us.map (·.1)).sum + k + 1) (us.map (·.2)).sum

theorem Rd.lt {G : List Node} {h n a : Nat} (hv : Rd info G h n a) : h < G.length := by
  cases hv with
  | leaf h | nulling h | rule h _ _ | product _ h _ _ | removed h _ _ _ _ _ _ | sum h _ _ =>
    exact (List.getElem?_eq_some_iff.1 h).1

/-- A later graph. -/
structure Keeps' (info : ForestInfo) (G G' : List Node) : Prop where
  rd : ∀ {h n a}, Rd info G h n a → Rd info G' h n a
  other : ∀ {h : Nat} {x : Node}, G[h]? = some x → (∀ d f, x ≠ .product d f) → G'[h]? = some x
  product : ∀ {h d f : Nat}, G[h]? = some (.product d f) → ∃ f', G'[h]? = some (.product d f')

theorem Keeps'.refl (G : List Node) : Keeps' info G G := ⟨id, fun h _ => h, fun h => ⟨_, h⟩⟩

theorem Keeps'.trans {G G' G'' : List Node} (h : Keeps' info G G') (k : Keeps' info G' G'') : Keeps' info G G'' where
  rd hv := k.rd (h.rd hv)
  other hx hn := k.other (h.other hx hn) hn
  product hx := let ⟨_, hx'⟩ := h.product hx; k.product hx'

theorem keeps_restore' {G : List Node} {h d f s : Nat} {dir : Bool} (hh : G[h]? = some (.product d f))
    (hf : ¬ IsRule G f) (hd : d ≠ nullAction) (he : info.nullingEliminated[d]? = some (some (s, dir))) :
    Keeps' info G ((G ++ [Node.rule (if dir then f else s) (if dir then s else f)]).set h (.product d G.length)) := by
  have hlt := (List.getElem?_eq_some_iff.1 hh).1
  have hself : ((G ++ [Node.rule (if dir then f else s) (if dir then s else f)]).set h (.product d G.length))[h]? =
      some (.product d G.length) := List.getElem?_set_self (by simp; omega)
  have hsame : ∀ (i : Nat) x, G[i]? = some x → i ≠ h →
      ((G ++ [Node.rule (if dir then f else s) (if dir then s else f)]).set h (.product d G.length))[i]? = some x := by
    intro i x hi hne
    rw [List.getElem?_set_ne (by omega), List.getElem?_append_left (List.getElem?_eq_some_iff.1 hi).1, hi]
  have hother : ∀ {i : Nat} {x : Node}, G[i]? = some x → (∀ d f, x ≠ .product d f) →
      ((G ++ [Node.rule (if dir then f else s) (if dir then s else f)]).set h (.product d G.length))[i]? = some x := by
    intro i x hi hn
    refine hsame i x hi ?_
    rintro rfl
    rw [hh] at hi
    cases hi
    exact hn _ _ rfl
  have hnew : ((G ++ [Node.rule (if dir then f else s) (if dir then s else f)]).set h (.product d G.length))[G.length]? =
      some (.rule (if dir then f else s) (if dir then s else f)) := by
    rw [List.getElem?_set_ne (by omega)]; simp
  have hrule : ∀ i, i < G.length →
      (IsRule ((G ++ [Node.rule (if dir then f else s) (if dir then s else f)]).set h (.product d G.length)) i ↔ IsRule G i) := by
    intro i hi
    by_cases hne : i = h
    · subst hne
      constructor
      · rintro ⟨l, r, h'⟩; rw [hself] at h'; cases h'
      · rintro ⟨l, r, h'⟩; rw [hh] at h'; cases h'
    · have hx := hsame i G[i] (List.getElem?_eq_getElem hi) hne
      unfold IsRule
      rw [hx, List.getElem?_eq_getElem hi]
  refine ⟨?_, hother, ?_⟩
  · intro x n a hv
    induction hv with
    | leaf h1 => exact .leaf (hother h1 (by simp))
    | nulling h1 => exact .nulling (hother h1 (by simp))
    | rule h1 _ _ ih1 ih2 => exact .rule (hother h1 (by simp)) ih1 ih2
    | @product x d' f' n a e h1 h2 h3 ih =>
      by_cases hx : x = h
      · subst hx
        rw [hh] at h1
        cases h1
        rcases h2 with h2 | h2 | h2
        · exact absurd h2 hf
        · exact absurd h2 hd
        · rw [he] at h2; cases h2
      · refine .product e (hsame _ _ h1 hx) ?_ ih
        rcases h2 with h2 | h2
        · exact .inl ((hrule _ h3.lt).2 h2)
        · exact .inr h2
    | @removed x d' f' s' dir' m n a b h1 h2 h3 h4 h5 h6 h7 ih1 ih2 =>
      by_cases hx : x = h
      · subst hx
        rw [hh] at h1
        cases h1
        rw [he] at h4
        cases h4
        refine .product (n := m + n + 3) 1 hself (.inl ⟨_, _, hnew⟩) ?_
        cases dir
        · rw [Nat.add_comm m n, Nat.add_comm a b]; exact .rule hnew ih2 ih1
        · exact .rule hnew ih1 ih2
      · exact .removed (hsame _ _ h1 hx) (fun hr => h2 ((hrule _ h6.lt).1 hr)) h3 h4 h5 ih1 ih2
    | sum h1 h2 _ ih => exact .sum (hother h1 (by simp)) h2 ih
  · intro i d' f' hi
    by_cases hx : i = h
    · subst hx; rw [hh] at hi; cases hi; exact ⟨_, hself⟩
    · exact ⟨_, hsame _ _ hi hx⟩

/-- What is known when the entry on top of the stack `S` has been processed in `n` rounds. -/
structure Ran (info : ForestInfo) (E : Evaluator α) (st st' : Eval α) (S : List WorkNode) (n a : Nat) : Prop where
  rounds : Rounds (Eval.step E) n st st'
  binfo : st'.b.info = info
  keeps : Keeps' info st.b.graph st'.b.graph
  len : st'.b.graph.length ≤ st.b.graph.length + a
  shape : st'.stack.map strip = S.map strip
  res : st.results.length ≤ st'.results.length
  ok : StackOK st'.results.length st'.stack

/-- The claim for nodes of `n` rounds. -/
def Run (info : ForestInfo) (E : Evaluator α) (n : Nat) : Prop :=
  ∀ {st : Eval α} {S : List WorkNode} {w : WorkNode} {h p a : Nat}, st.stack = S ++ [w] → strip w = (h, 0, p) →
    p < S.length → st.b.info = info → Rd info st.b.graph h n a → st.b.graph.length + a < 2 ^ 32 →
    StackOK st.results.length st.stack → ∃ st', Ran info E st st' S n a

theorem run_sum' {N : Nat} (ih : ∀ n, n < N → Run info E n) {nt k h p : Nat} :
    ∀ (us : List (Nat × Nat)) (i : Nat) {st : Eval α} {S : List WorkNode} {w : WorkNode}, i + us.length = k →
    st.stack = S ++ [w] → strip w = (h, i, p) → p < S.length → st.b.info = info →
    st.b.graph[h]? = some (.sum nt k) →
    (∀ j (hj : j < us.length), us[j].1 < N ∧ Rd info st.b.graph (h + 1 + (i + j)) us[j].1 us[j].2) →
    st.b.graph.length + (us.map (·.2)).sum < 2 ^ 32 → StackOK st.results.length st.stack →
    ∃ st', Ran info E st st' S ((us.map (·.1)).sum + us.length + 1) (us.map (·.2)).sum
  | [], i, st, S, w, hk, hs, hw, hp, hi, hh, _, _, hok => by
    obtain ⟨node, child, parent, rs⟩ := w
    simp only [strip, Prod.mk.injEq] at hw
    obtain ⟨rfl, rfl, rfl⟩ := hw
    refine ⟨{ st with stack := S }, .one (step_same hs (by omega) hh (fun _ => postprocess_other (by simp)) ?_),
      hi, .refl _, Nat.le_add_right _ _, rfl, Nat.le_refl _, (hs ▸ hok).left⟩
    unfold Eval.visit
    simp only
    rw [if_neg (by simp at hk; omega)]
  | x :: us, i, st, S, w, hk, hs, hw, hp, hi, hh, hv, hl, hok => by
    obtain ⟨node, child, parent, rs⟩ := w
    simp only [strip, Prod.mk.injEq] at hw
    obtain ⟨rfl, rfl, rfl⟩ := hw
    have hx := hv 0 (by simp)
    simp only [List.getElem_cons_zero, Nat.add_zero] at hx
    simp only [List.map_cons, List.sum_cons] at hl
    have hlt := hx.2.lt
    rw [hs] at hok
    have hrs : ∀ i ∈ rs, i < st.results.length := fun i hi => hok _ (List.mem_append_right _ List.mem_cons_self) i hi
    let st1 : Eval α := { st with stack := S ++ [{ node := node, child := child + 1, parent := parent, results := rs }, { node := node + 1 + child, parent := parent }] }
    have h1 : Eval.step E st = pure (.inl st1) := by
      refine step_same hs (by omega) hh (fun _ => postprocess_other (by simp)) ?_
      unfold Eval.visit
      simp only
      rw [if_pos (by simp at hk; omega), u32_of_lt' (by omega), show node + child + 1 = node + 1 + child by omega]
    obtain ⟨st2, h2⟩ := ih _ hx.1 (st := st1)
      (S := S ++ [{ node := node, child := child + 1, parent := parent, results := rs }]) (h := node + 1 + child)
      (p := parent) (by simp [st1]; rfl) rfl (by simp; omega) hi hx.2 (by simp only [st1]; omega) (by
        simp only [st1]
        refine hok.left.append ?_
        intro w hw
        rcases List.mem_cons.1 hw with rfl | hw
        · exact hrs
        · cases List.mem_singleton.1 hw; simp)
    obtain ⟨S2, w2, h3, h4, h5⟩ := strip_snoc h2.shape
    have hl2 := h2.len
    simp only [st1] at hl2
    have hS2 := length_of_strip h4
    obtain ⟨st3, h6⟩ := run_sum' ih (nt := nt) (k := k) (h := node) (p := parent) us (child + 1) (st := st2) (S := S2) (w := w2)
      (by simp at hk; omega) h3 h5 (by omega) h2.binfo (h2.keeps.other hh (by simp)) (by
        intro j hj
        have := hv (j + 1) (by simp; omega)
        simp only [List.getElem_cons_succ] at this
        refine ⟨this.1, h2.keeps.rd ?_⟩
        rw [show child + 1 + j = child + (j + 1) by omega]; exact this.2) (by omega) h2.ok
    refine ⟨st3, ?_, h6.binfo, h2.keeps.trans h6.keeps, ?_, h6.shape.trans h4, h2.res.trans h6.res, h6.ok⟩
    · have := Rounds.step h1 (h2.rounds.trans h6.rounds)
      rw [List.map_cons, List.sum_cons, List.length_cons]
      rwa [show x.1 + (us.map (·.1)).sum + (us.length + 1) + 1 = x.1 + ((us.map (·.1)).sum + us.length + 1) + 1 by omega]
    · have := h6.len; simp only [List.map_cons, List.sum_cons]; omega

/-- A product after its first round. -/
theorem run_product' (hE : E.Grows) {n : Nat} (ih : Run info E n) {st : Eval α} {S : List WorkNode} {w : WorkNode} {h p d f a : Nat}
    (hw : strip w = (h, 1, p)) (hp : p < S.length) (hi : st.b.info = info) (hf : st.b.graph[h]? = some (.product d f))
    (hv : Rd info st.b.graph f n a) (hl : st.b.graph.length + a < 2 ^ 32)
    (hs : st.stack = S ++ [w, { node := f, parent := S.length }]) (hok : StackOK st.results.length st.stack) :
    ∃ st', Ran info E st st' S (n + 1) a := by
  obtain ⟨st1, h1⟩ := ih (S := S ++ [w]) (w := { node := f, parent := S.length }) (p := S.length) (by rw [hs]; simp) rfl
    (by simp) hi hv hl hok
  obtain ⟨S1, w1, h2, h3, h4⟩ := strip_snoc h1.shape
  obtain ⟨f', h6⟩ := h1.keeps.product hf
  have hS1 := length_of_strip h3
  have hok1 := h1.ok
  rw [h2] at hok1
  rw [hw] at h4
  obtain ⟨node, child, parent, rs⟩ := w1
  simp only [strip, Prod.mk.injEq] at h4
  obtain ⟨rfl, rfl, rfl⟩ := h4
  have hrs : ∀ i ∈ rs, i < st1.results.length := fun i hi => hok1 _ (List.mem_append_right _ List.mem_cons_self) i hi
  have key : ∀ {rs' : List α} {S' : List WorkNode}, Eval.visit E { b := st1.b, results := st1.results, stack := S1 }
      { node := node, child := 1, parent := parent, results := rs } (.product d f') =
        pure { b := st1.b, results := rs', stack := S' } → S'.map strip = S1.map strip →
      st1.results.length ≤ rs'.length → StackOK rs'.length S' → ∃ st', Ran info E st st' S (n + 1) a := by
    intro rs' S' hv hsh hle hok'
    refine ⟨{ b := st1.b, results := rs', stack := S' }, h1.rounds.trans (.one ?_), h1.binfo, h1.keeps, h1.len,
      hsh.trans h3, h1.res.trans hle, hok'⟩
    exact step_same h2 (by omega) h6 (by simp) hv
  cases ho : info.originId d with
  | none =>
    obtain ⟨S', k1, k2, k3⟩ := pushResults_ok (p := parent) (by omega) hok1.left hrs
    refine key ?_ k2 (Nat.le_refl _) k3
    unfold Eval.visit
    simp only [h1.binfo, ho]
    rw [k1]; rfl
  | some id =>
    obtain ⟨u, hu⟩ := mapM_ok hrs
    obtain ⟨S', k1, k2, k3⟩ := pushResults_ok (p := parent) (vs := [u32Pred (st1.results ++ [E.product id u]).length])
      (l := (st1.results ++ [E.product id u]).length) (by omega)
      (hok1.left.mono (by simp)) (by intro i hi; rw [List.mem_singleton.1 hi]; exact u32Pred_lt (by simp))
    refine key (rs' := st1.results ++ [E.product id u]) ?_ k2 (by simp) k3
    unfold Eval.visit
    simp only [h1.binfo, ho]
    rw [hu, pure_bind, k1]; rfl

theorem run_all (hE : E.Grows) (n : Nat) : Run info E n := by
  induction n using Nat.strong_induction_on with
  | _ n ih =>
    intro st S w h p a hs hw hp hi hv hl hok
    obtain ⟨node, child, parent, rs⟩ := w
    simp only [strip, Prod.mk.injEq] at hw
    obtain ⟨rfl, rfl, rfl⟩ := hw
    have hok0 := hok
    rw [hs] at hok
    have hrs : ∀ i ∈ rs, i < st.results.length := fun i hi => hok _ (List.mem_append_right _ List.mem_cons_self) i hi
    have two : ∀ {l : Nat} {w w' : WorkNode}, st.results.length ≤ l → (∀ i ∈ w.results, i < l) → w'.results = [] →
        StackOK l (S ++ [w, w']) := by
      intro l w w' hl h1 h2
      refine (hok.left.mono hl).append ?_
      intro x hx
      rcases List.mem_cons.1 hx with rfl | hx
      · exact h1
      · cases List.mem_singleton.1 hx
        rw [h2]; simp
    cases hv with
    | @leaf _ s v hh =>
      obtain ⟨S', h1, h2, h3⟩ := pushResults_ok (p := parent) (vs := [u32Pred (st.results ++ [E.leaf s v]).length])
        (l := (st.results ++ [E.leaf s v]).length) hp (hok.left.mono (by simp))
        (by intro i hi; rw [List.mem_singleton.1 hi]; exact u32Pred_lt (by simp))
      refine ⟨{ b := st.b, results := st.results ++ [E.leaf s v], stack := S' }, .one ?_, hi, .refl _,
        Nat.le_add_right _ _, h2, by simp, h3⟩
      refine step_same hs (by omega) hh (fun _ => postprocess_other (by simp)) ?_
      unfold Eval.visit
      simp only
      rw [h1]; rfl
    | @nulling _ s hh =>
      have hg := hE s st.results
      obtain ⟨S', h1, h2, h3⟩ := pushResults_ok (p := parent) (vs := [u32 st.results.length])
        (l := (E.nulling s st.results).length) hp (hok.left.mono (by omega))
        (by intro i hi; rw [List.mem_singleton.1 hi]; exact u32_lt_of_lt hg)
      refine ⟨{ b := st.b, results := E.nulling s st.results, stack := S' }, .one ?_, hi, .refl _,
        Nat.le_add_right _ _, h2, by simp only; omega, h3⟩
      refine step_same hs (by omega) hh (fun _ => postprocess_other (by simp)) ?_
      unfold Eval.visit
      simp only
      rw [h1]; rfl
    | @rule _ l r m n a b hh hv1 hv2 =>
      let st1 : Eval α := { st with stack := S ++ [{ node := node, child := 1, parent := parent, results := rs }, { node := l, parent := parent }] }
      have h1 : Eval.step E st = pure (.inl st1) :=
        step_same hs (by omega) hh (fun _ => postprocess_other (by simp)) rfl
      obtain ⟨st2, h2⟩ := ih m (by omega) (st := st1) (S := S ++ [{ node := node, child := 1, parent := parent, results := rs }])
        (w := { node := l, parent := parent }) (h := l)
        (p := parent) (by simp [st1]) rfl (by simp; omega) hi hv1 (by simp only [st1]; omega)
        (by simp only [st1]; exact two (Nat.le_refl _) hrs rfl)
      obtain ⟨S2, w2, h3, h4, h5⟩ := strip_snoc h2.shape
      have hl2 := h2.len
      simp only [st1] at hl2
      have hS2 := length_of_strip h4
      have hok2 := h2.ok
      rw [h3] at hok2
      obtain ⟨n2, c2, p2, rs2⟩ := w2
      simp only [strip, Prod.mk.injEq] at h5
      obtain ⟨rfl, rfl, rfl⟩ := h5
      let st3 : Eval α := { st2 with stack := S2 ++ [{ node := n2, child := 2, parent := p2, results := rs2 }, { node := r, parent := p2 }] }
      have h6 : Eval.step E st2 = pure (.inl st3) :=
        step_same h3 (by omega) (h2.keeps.other hh (by simp)) (by simp) rfl
      obtain ⟨st4, h7⟩ := ih n (by omega) (st := st3) (S := S2 ++ [{ node := n2, child := 2, parent := p2, results := rs2 }])
        (w := { node := r, parent := p2 }) (h := r)
        (p := p2) (by simp [st3]) rfl (by simp; omega) h2.binfo (h2.keeps.rd hv2) (by simp only [st3]; omega) (by
          simp only [st3]
          refine hok2.left.append ?_
          intro x hx
          rcases List.mem_cons.1 hx with rfl | hx
          · exact fun i hi => hok2 _ (List.mem_append_right _ List.mem_cons_self) i hi
          · cases List.mem_singleton.1 hx; simp)
      obtain ⟨S4, w4, h8, h9, h10⟩ := strip_snoc h7.shape
      have hS4 := length_of_strip h9
      have hok4 := h7.ok
      rw [h8] at hok4
      obtain ⟨n4, c4, p4, rs4⟩ := w4
      simp only [strip, Prod.mk.injEq] at h10
      obtain ⟨rfl, rfl, rfl⟩ := h10
      have h11 : Eval.step E st4 = pure (.inl { st4 with stack := S4 }) :=
        step_same h8 (by omega) (h7.keeps.other (h2.keeps.other hh (by simp)) (by simp)) (by simp) rfl
      refine ⟨{ st4 with stack := S4 }, ?_, h7.binfo, h2.keeps.trans h7.keeps, ?_, h9.trans h4, h2.res.trans h7.res, hok4.left⟩
      · have := Rounds.step h1 (h2.rounds.trans (.step h6 (h7.rounds.trans (.one h11))))
        rwa [show m + n + 3 = m + (n + 1 + 1) + 1 by omega]
      · have := h7.len; simp only [st3] at this ⊢; omega
    | @product _ d f n a e hh hfix hv =>
      let st1 : Eval α :=
        { st with stack := S ++ [{ node := node, child := 1, parent := parent, results := rs }, { node := f, parent := S.length }] }
      have h1 : Eval.step E st = pure (.inl st1) :=
        step_same hs (by omega) hh (fun _ => postprocess_fixed hv.lt (hi ▸ hfix)) rfl
      obtain ⟨st', h2⟩ := run_product' hE (ih n (by omega)) (st := st1) (S := S)
        (w := { node := node, child := 1, parent := parent, results := rs }) (h := node) (p := parent) rfl hp hi hh hv (by simp only [st1]; omega)
        rfl (by simp only [st1]; exact two (Nat.le_refl _) hrs rfl)
      have := h2.len
      exact ⟨st', .step h1 h2.rounds, h2.binfo, h2.keeps, by simp only [st1] at this; omega, h2.shape, h2.res, h2.ok⟩
    | @removed _ d f s dir m n a b hh hnr hd he hs32 hv1 hv2 =>
      let G := st.b.graph
      let G' := (G ++ [Node.rule (if dir then f else s) (if dir then s else f)]).set node (.product d G.length)
      have hlt : node < G.length := (List.getElem?_eq_some_iff.1 hh).1
      have hk : Keeps' info G G' := keeps_restore' hh hnr hd he
      have hself : G'[node]? = some (.product d G.length) := List.getElem?_set_self (by simp; omega)
      have hnew : G'[G.length]? = some (.rule (if dir then f else s) (if dir then s else f)) := by
        simp only [G']
        rw [List.getElem?_set_ne (by omega)]; simp
      let st1 : Eval α :=
        { b := { st.b with graph := G' }
          results := st.results
          stack := S ++ [{ node := node, child := 1, parent := parent, results := rs }, { node := G.length, parent := S.length }] }
      have hpost : st.b.postprocess (.product d f) = pure
          ({ st.b with graph := G ++ [Node.rule (if dir then f else s) (if dir then s else f)] },
            .product d G.length) := by
        unfold Bocage.postprocess
        simp only
        rw [indexM_eq (List.getElem?_eq_getElem hv1.lt), pure_bind]
        split
        · rename_i l r hx
          exact absurd ⟨l, r, by rw [List.getElem?_eq_getElem hv1.lt, hx]⟩ hnr
        · rw [if_neg hd, hi, indexM_eq he, pure_bind]
          simp only [Bocage.product]
          rw [u32_of_lt' hs32, u32Pred_eq (by simp; omega) (by simp)]
          cases dir <;> simp [G, hi]
      have h1 : Eval.step E st = pure (.inl st1) := by
        rw [step_eq hs (by omega)]
        simp only [if_true]
        rw [indexM_eq hh, pure_bind, hpost]
        simp only [pure_bind]
        rw [setM_eq (by simp; omega)]
        simp only [pure_bind]
        rw [indexM_eq hself, pure_bind]
        rfl
      have hlen' : G'.length = G.length + 1 := by simp [G']
      have hgl : G.length = st.b.graph.length := rfl
      have hv' : Rd info G' G.length (m + n + 3) (a + b) := by
        cases dir
        · rw [Nat.add_comm m n, Nat.add_comm a b]; exact .rule hnew (hk.rd hv2) (hk.rd hv1)
        · exact .rule hnew (hk.rd hv1) (hk.rd hv2)
      obtain ⟨st', h2⟩ := run_product' hE (ih (m + n + 3) (by omega)) (st := st1) (S := S)
        (w := { node := node, child := 1, parent := parent, results := rs }) (h := node) (p := parent) rfl hp hi hself hv'
        (by simp only [st1]; omega) rfl (by simp only [st1]; exact two (Nat.le_refl _) hrs rfl)
      have h3 := h2.len
      simp only [st1] at h3
      exact ⟨st', .step h1 h2.rounds, h2.binfo, hk.trans h2.keeps, by omega, h2.shape, h2.res, h2.ok⟩
    | @sum _ nt k us hh hul hus =>
      have hsub : ∀ x ∈ us, x.1 ≤ (us.map (·.1)).sum := by
        intro x hx
        exact le_sum_of_mem (List.mem_map.2 ⟨x, hx, rfl⟩)
      subst hul
      exact run_sum' (N := (us.map (·.1)).sum + us.length + 1) ih us 0 (by omega) hs rfl hp hi hh
        (fun j hj => ⟨by have := hsub _ (List.getElem_mem hj); omega, by rw [Nat.zero_add]; exact hus j hj⟩) hl hok0

/-- `evaluate` makes exactly so many rounds and returns. -/
theorem evaluate_rounds (hE : E.Grows) {b : Bocage} {x r n a : Nat} (hroot : b.evalRoot E x = pure (.inl r))
    (hv : Rd b.info b.graph r n a) (hg : b.graph.length + a < 2 ^ 32) :
    ∃ res, b.evaluate E x = pure res ∧ ∀ m, b.evaluateFuel m E x = if m ≤ n then diverge else pure res := by
  obtain ⟨st', h1⟩ := run_all hE n (info := b.info) (st := { b := b, results := [], stack := evalStack r })
    (S := [{ node := nullHandle, parent := 0 }]) (w := { node := r, parent := 0 }) (h := r) (p := 0) rfl rfl (by simp) rfl hv hg (by
      intro w hw
      simp only [evalStack, List.mem_cons, List.not_mem_nil, or_false] at hw
      rcases hw with rfl | rfl <;> simp)
  have hlen := length_of_strip h1.shape
  have hstop : Eval.step E st' = pure (.inr st') := by
    unfold Eval.step; rw [if_neg (by rw [hlen]; simp)]
  have h0 : 0 < st'.stack.length := by rw [hlen]; simp
  obtain ⟨u, hu⟩ := takeResults_ok E.dflt (h1.ok _ (List.getElem_mem h0))
  refine ⟨(st'.b, u), ?_, fun m => ?_⟩
  · unfold Bocage.evaluate Bocage.evaluateWith
    rw [hroot, pure_bind]
    simp only
    rw [h1.rounds.loop hstop, pure_bind, indexM_eq (List.getElem?_eq_getElem h0), pure_bind, hu]; rfl
  · unfold Bocage.evaluateFuel Bocage.evaluateWith
    rw [hroot, pure_bind]
    simp only
    rw [h1.rounds.fuel hstop]
    split
    · rfl
    · rw [pure_bind, indexM_eq (List.getElem?_eq_getElem h0), pure_bind, hu]; rfl

end Simple
end Gearley
