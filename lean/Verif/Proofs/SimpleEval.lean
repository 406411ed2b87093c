import Verif.Proofs.Work
import Verif.Proofs.Nulling

/-!
# `evaluate` of the simple bocage

`Ev graph h u n`: the node `h` has the values `u`. In contrast to the specification the relation follows the graph, with
the values of all summands put one after the other. It is kept when a product node gets back its removed symbol.
-/

namespace Gearley.Simple
open Gearley.Spec
variable {α : Type} {info : ForestInfo} {E : Evaluator α} {nv : Nat → List α} {nc : Nat → Nat}

/-- The values of a product node. -/
def finish (info : ForestInfo) (E : Evaluator α) (d : Nat) (args : List α) : List α :=
  match info.originId d with
  | some id => [E.product id args]
  | none => args

def IsRule (G : List Node) (f : Nat) : Prop := ∃ l r, G[f]? = some (.rule l r)

inductive Ev (info : ForestInfo) (E : Evaluator α) (G : List Node) : Nat → List α → Nat → Prop
  | leaf {h s v} : G[h]? = some (.leaf s v) → Ev info E G h [E.leaf s v] 1
  | nulling {h s v extra} : G[h]? = some (.nullingLeaf s) → (∀ rs, E.nulling s rs = rs ++ v :: extra) →
      Ev info E G h [v] (1 + extra.length)
  | rule {h l r u v m n} : G[h]? = some (.rule l r) → Ev info E G l u m → Ev info E G r v n → Ev info E G h (u ++ v) (m + n)
  | product {h d f u n} : G[h]? = some (.product d f) →
      IsRule G f ∨ d = nullAction ∨ info.nullingEliminated[d]? = some none → Ev info E G f u n →
      Ev info E G h (finish info E d u) (n + 1)
  | removed {h d f s dir u v m n} : G[h]? = some (.product d f) → ¬ IsRule G f → d ≠ nullAction →
      info.nullingEliminated[d]? = some (some (s, dir)) → s < 2 ^ 32 → Ev info E G f u m → Ev info E G s v n →
      Ev info E G h (finish info E d (if dir then u ++ v else v ++ u)) (m + n + 1)
  | sum {h nt k} {us : List (List α × Nat)} : G[h]? = some (.sum nt k) → 1 < k → us.length = k →
      (∀ i (hi : i < us.length), Ev info E G (h + 1 + i) us[i].1 us[i].2) →
      Ev info E G h (us.map (·.1)).flatten (us.map (·.2)).sum

theorem Ev.pos {G : List Node} {h n : Nat} {u : List α} (hv : Ev info E G h u n) : 0 < n := by
  induction hv with
  | leaf => omega
  | nulling => omega
  | rule => omega
  | product => omega
  | removed => omega
  | @sum h nt k us hh hk hl _ ih =>
    rcases us with _ | ⟨x, us⟩
    · simp at hl; omega
    · have := ih 0 (by simp)
      simp only [List.getElem_cons_zero] at this
      simp only [List.map_cons, List.sum_cons]; omega

theorem Ev.lt {G : List Node} {h n : Nat} {u : List α} (hv : Ev info E G h u n) : h < G.length := by
  cases hv with
  | leaf h | nulling h _ | rule h _ _ | product h _ _ | removed h _ _ _ _ _ _ | sum h _ _ _ =>
    exact (List.getElem?_eq_some_iff.1 h).1

/-- A later graph: all values are kept; the kind of each node is kept, and only the factors of products change. -/
structure Keeps (info : ForestInfo) (E : Evaluator α) (G G' : List Node) : Prop where
  ev : ∀ {h u n}, Ev info E G h u n → Ev info E G' h u n
  other : ∀ {h : Nat} {x : Node}, G[h]? = some x → (∀ d f, x ≠ .product d f) → G'[h]? = some x
  product : ∀ {h d f : Nat}, G[h]? = some (.product d f) → ∃ f' : Nat, G'[h]? = some (.product d f')
  fixed : ∀ {h d f : Nat}, G[h]? = some (.product d f) → IsRule G f → G'[h]? = some (.product d f)

theorem Keeps.refl (G : List Node) : Keeps info E G G := ⟨id, fun h _ => h, fun h => ⟨_, h⟩, fun h _ => h⟩

theorem Keeps.trans {G G' G'' : List Node} (h : Keeps info E G G') (k : Keeps info E G' G'') : Keeps info E G G'' where
  ev hv := k.ev (h.ev hv)
  other hx ho := k.other (h.other hx ho) ho
  product hp := let ⟨_, h1⟩ := h.product hp; k.product h1
  fixed hp hr := k.fixed (h.fixed hp hr) (let ⟨l, r, h1⟩ := hr; ⟨l, r, h.other h1 (by simp)⟩)

/-- The removed symbol is put back. -/
theorem keeps_restore {G : List Node} {h d f s : Nat} {dir : Bool} (hh : G[h]? = some (.product d f))
    (hf : ¬ IsRule G f) (hd : d ≠ nullAction) (he : info.nullingEliminated[d]? = some (some (s, dir))) :
    Keeps info E G ((G ++ [Node.rule (if dir then f else s) (if dir then s else f)]).set h (.product d G.length)) := by
  have hlt := (List.getElem?_eq_some_iff.1 hh).1
  generalize hG' : (G ++ [Node.rule (if dir then f else s) (if dir then s else f)]).set h (.product d G.length) = G'
  have hsame : ∀ (i : Nat) (x : Node), G[i]? = some x → i ≠ h → G'[i]? = some x := by
    intro i x hi hne
    rw [← hG', List.getElem?_set_ne (Ne.symm hne)]
    exact getElem?_prefix ⟨_, rfl⟩ hi
  have hself : G'[h]? = some (.product d G.length) := by
    rw [← hG', List.getElem?_set_self (by simp; omega)]
  have hnew : G'[G.length]? = some (.rule (if dir then f else s) (if dir then s else f)) := by
    rw [← hG', List.getElem?_set_ne (by omega)]; simp
  have hother : ∀ {i : Nat} {x : Node}, G[i]? = some x → (∀ d f, x ≠ .product d f) → G'[i]? = some x := by
    intro i x hi hx
    refine hsame i x hi ?_
    rintro rfl
    rw [hh] at hi
    cases hi
    exact hx _ _ rfl
  have hrule : ∀ i, (i < G.length) → (IsRule G' i ↔ IsRule G i) := by
    intro i hi
    by_cases hne : i = h
    · subst hne
      constructor
      · rintro ⟨l, r, h1⟩; rw [hself] at h1; cases h1
      · rintro ⟨l, r, h1⟩; rw [hh] at h1; cases h1
    · have hx := hsame i G[i] (List.getElem?_eq_getElem hi) hne
      unfold IsRule
      rw [hx, List.getElem?_eq_getElem hi]
  refine ⟨?_, hother, ?_, ?_⟩
  · intro x u n hv
    induction hv with
    | leaf h1 => exact .leaf (hother h1 (by simp))
    | nulling h1 h2 => exact .nulling (hother h1 (by simp)) h2
    | rule h1 _ _ ih1 ih2 => exact .rule (hother h1 (by simp)) ih1 ih2
    | @product x d' f' u n h1 h2 h3 ih =>
      by_cases hx : x = h
      · subst hx
        rw [hh] at h1
        cases h1
        rcases h2 with h2 | h2 | h2
        · exact absurd h2 hf
        · exact absurd h2 hd
        · rw [he] at h2; cases h2
      · refine .product (hsame _ _ h1 hx) ?_ ih
        rcases h2 with h2 | h2
        · exact .inl ((hrule _ h3.lt).2 h2)
        · exact .inr h2
    | @removed x d' f' s' dir' u v m n h1 h2 h3 h4 h5 h6 h7 ih1 ih2 =>
      by_cases hx : x = h
      · subst hx
        rw [hh] at h1
        cases h1
        rw [he] at h4
        cases h4
        refine .product hself (.inl ⟨_, _, hnew⟩) ?_
        cases dir
        · rw [Nat.add_comm m n]; exact .rule hnew ih2 ih1
        · exact .rule hnew ih1 ih2
      · exact .removed (hsame _ _ h1 hx) (fun hr => h2 ((hrule _ h6.lt).1 hr)) h3 h4 h5 ih1 ih2
    | sum h1 h2 h3 _ ih => exact .sum (hother h1 (by simp)) h2 h3 ih
  · intro i d' f' hi
    by_cases hx : i = h
    · subst hx; rw [hh] at hi; cases hi; exact ⟨_, hself⟩
    · exact ⟨_, hsame _ _ hi hx⟩
  · intro i d' f' hi hr
    refine hsame _ _ hi ?_
    rintro rfl
    rw [hh] at hi
    cases hi
    exact hf hr

/-! ### One round -/

theorem step_eq {st : Eval α} {S : List WorkNode} {w : WorkNode} (hs : st.stack = S ++ [w]) (h0 : 0 < S.length) :
    Eval.step E st = (do
      let b ← (if w.child = 0 then do
          let node ← indexM st.b.graph w.node
          let (b, node) ← st.b.postprocess node
          let graph ← setM b.graph w.node node
          pure { b with graph := graph }
        else pure st.b)
      let node ← indexM b.graph w.node
      let st' ← Eval.visit E { b := b, results := st.results, stack := S } w node
      pure (.inl st')) := by
  unfold Eval.step
  rw [if_pos (by rw [hs]; simp; omega), hs]
  simp only [List.getLast?_append, List.getLast?_singleton, Option.some_or, unwrapM, pure_bind, List.dropLast_concat]

/-- A round at a node that is not changed. -/
theorem step_same {st : Eval α} {S : List WorkNode} {w : WorkNode} {x : Node} (hs : st.stack = S ++ [w])
    (h0 : 0 < S.length) (hx : st.b.graph[w.node]? = some x) (hp : w.child = 0 → st.b.postprocess x = pure (st.b, x))
    {st' : Eval α} (hv : Eval.visit E { b := st.b, results := st.results, stack := S } w x = pure st') :
    Eval.step E st = pure (.inl st') := by
  have hlt := (List.getElem?_eq_some_iff.1 hx).1
  rw [step_eq hs h0]
  have : (if w.child = 0 then do
          let node ← indexM st.b.graph w.node
          let (b, node) ← st.b.postprocess node
          let graph ← setM b.graph w.node node
          pure { b with graph := graph }
        else pure st.b : M Bocage) = pure st.b := by
    by_cases hc : w.child = 0
    · rw [if_pos hc, indexM_eq hx, pure_bind, hp hc]
      simp only [pure_bind]
      rw [setM_eq hlt]
      have : x = st.b.graph[w.node] := by
        have := List.getElem?_eq_getElem hlt; rw [hx] at this; exact Option.some.inj this
      rw [this, List.set_getElem_self]
      rfl
    · rw [if_neg hc]
  rw [this, pure_bind, indexM_eq hx, pure_bind, hv, pure_bind]

theorem postprocess_other {b : Bocage} {x : Node} (h : ∀ d f, x ≠ .product d f) : b.postprocess x = pure (b, x) := by
  unfold Bocage.postprocess
  split
  · rename_i d f; exact absurd rfl (h d f)
  · rfl

theorem postprocess_fixed {b : Bocage} {d f : Nat} (hl : f < b.graph.length)
    (h : IsRule b.graph f ∨ d = nullAction ∨ b.info.nullingEliminated[d]? = some none) :
    b.postprocess (.product d f) = pure (b, .product d f) := by
  unfold Bocage.postprocess
  simp only
  rw [indexM_eq (List.getElem?_eq_getElem hl), pure_bind]
  split
  · rfl
  · rename_i hn
    rcases h with ⟨l, r, h⟩ | h | h
    · rw [List.getElem?_eq_getElem hl] at h
      exact absurd (Option.some.inj h) (hn l r)
    · rw [if_pos h]
    · by_cases hd : d = nullAction
      · rw [if_pos hd]
      · rw [if_neg hd, indexM_eq h]; rfl

/-- What is known when the entry on top of the stack `S` has been processed. -/
structure Done (info : ForestInfo) (E : Evaluator α) (st st' : Eval α) (S : List WorkNode) (p : Nat) (u : List α) (n : Nat) :
    Prop where
  steps : Steps (Eval.step E) st st'
  binfo : st'.b.info = info
  keeps : Keeps info E st.b.graph st'.b.graph
  len : st'.b.graph.length ≤ st.b.graph.length + n
  pushed : Pushed st.results st'.results S st'.stack p u n

theorem Done.of_step {st st1 st' : Eval α} {S : List WorkNode} {p n : Nat} {u : List α}
    (h1 : Eval.step E st = pure (.inl st1)) (hb : st1.b = st.b) (hr : st1.results = st.results)
    (h : Done info E st1 st' S p u n) : Done info E st st' S p u n :=
  ⟨.step h1 h.steps, h.binfo, hb ▸ h.keeps, hb ▸ h.len, hr ▸ h.pushed⟩

/-! ### Whole nodes -/

/-- The claim: an entry for a node of cost `n` on top of the stack delivers the values of the node to its parent. -/
def Runs (info : ForestInfo) (E : Evaluator α) (n : Nat) : Prop :=
  ∀ {st : Eval α} {S : List WorkNode} {h p : Nat} {u : List α}, st.stack = S ++ [{ node := h, parent := p }] →
    p < S.length → st.b.info = info → Ev info E st.b.graph h u n → st.b.graph.length + n < 2 ^ 32 →
    st.results.length + n < 2 ^ 32 → ∃ st', Done info E st st' S p u n

/-- Two entries one after the other. -/
theorem Done.append {st st1 st2 : Eval α} {S S1 : List WorkNode} {p m n : Nat} {u v : List α}
    (h : Done info E st st1 S p u m) (hs : st1.stack = S1) (k : Done info E st1 st2 S1 p v n) :
    Done info E st st2 S p (u ++ v) (m + n) := by
  subst hs
  exact ⟨h.steps.trans k.steps, k.binfo, h.keeps.trans k.keeps, by have := h.len; have := k.len; omega,
    h.pushed.append k.pushed⟩

/-- A product node whose factors are not changed. -/
theorem run_product {n : Nat} (ih : Runs info E n) {st st0 : Eval α} {S : List WorkNode} {h p d f : Nat} {u : List α}
    (hp : p < S.length) (hi : st.b.info = info) (hf : st.b.graph[h]? = some (.product d f))
    (hv : Ev info E st.b.graph f u n) (hl : st.b.graph.length + n < 2 ^ 32) (hr : st.results.length + n + 1 < 2 ^ 32)
    (hs : st.stack = S ++ [{ node := h, child := 1, parent := p }, { node := f, parent := S.length }]) :
    ∃ st', Done info E st st' S p (finish info E d u) (n + 1) ∧ st'.b.graph.length ≤ st.b.graph.length + n := by
  obtain ⟨st1, h1⟩ := ih (S := S ++ [{ node := h, child := 1, parent := p }]) (p := S.length) (by rw [hs]; simp)
    (by simp) hi hv hl (by omega)
  obtain ⟨idx, h2, h3, h4, h5⟩ := h1.pushed.top
  obtain ⟨f', h6⟩ := h1.keeps.product hf
  have hlen := h1.pushed.length
  have key : ∀ {rs' : List α} {S' : List WorkNode}, Eval.visit E { b := st1.b, results := st1.results, stack := S }
      { node := h, child := 1, parent := p, results := [] ++ idx } (.product d f') =
        pure { b := st1.b, results := rs', stack := S' } →
      Pushed st.results rs' S S' p (finish info E d u) (n + 1) →
      ∃ st', Done info E st st' S p (finish info E d u) (n + 1) ∧ st'.b.graph.length ≤ st.b.graph.length + n := by
    intro rs' S' hv hpu
    refine ⟨{ b := st1.b, results := rs', stack := S' }, ⟨h1.steps.trans (.step ?_ (.refl _)), h1.binfo, h1.keeps, ?_, hpu⟩,
      h1.len⟩
    · exact step_same h2 (by omega) h6 (by simp) hv
    · have := h1.len; simp only; omega
  obtain ⟨new, hn1, hn2⟩ := h1.pushed.res
  unfold finish at key ⊢
  cases ho : info.originId d with
  | none =>
    obtain ⟨S', h7, h8⟩ := pushed_pass (S := S) hp (n := n + 1) ⟨new, hn1, by omega⟩ h3 h4 h5
    rw [ho] at key
    refine key ?_ h8
    unfold Eval.visit
    simp only [h1.binfo, ho, List.nil_append]
    rw [h7]; rfl
  | some id =>
    obtain ⟨S', h7, h8⟩ := pushed_one (rs := st1.results) (S := S) hp (E.product id u) (by omega)
    rw [ho] at key
    refine key (rs' := st1.results ++ [E.product id u]) (S' := S') ?_ ?_
    · unfold Eval.visit
      simp only [h1.binfo, ho, List.nil_append]
      rw [h3.mapM, pure_bind, h7]; rfl
    · obtain ⟨w, idx', k1, k2, k3, k4, k5⟩ := h8.stk
      refine ⟨⟨new ++ [E.product id u], by rw [hn1]; simp, by simp; omega⟩, w, idx', k1, k2, k3, k4, ?_⟩
      intro i hi
      have := k5 i hi
      rw [hn1, List.length_append] at this; omega

/-- The summands from number `i` on. -/
theorem run_sum {N : Nat} (ih : ∀ n, n < N → Runs info E n) {nt k h p : Nat} {S0 : List WorkNode} :
    ∀ (us : List (List α × Nat)) (i : Nat) {st : Eval α} {S : List WorkNode}, i + us.length = k →
    st.stack = S ++ [{ node := h, child := i, parent := p }] → p < S.length → st.b.info = info →
    st.b.graph[h]? = some (.sum nt k) →
    (∀ j (hj : j < us.length), us[j].2 < N ∧ Ev info E st.b.graph (h + 1 + (i + j)) us[j].1 us[j].2) →
    st.b.graph.length + (us.map (·.2)).sum < 2 ^ 32 → st.results.length + (us.map (·.2)).sum < 2 ^ 32 →
    ∃ st', Done info E st st' S p (us.map (·.1)).flatten (us.map (·.2)).sum
  | [], i, st, S, hk, hs, hp, hi, hh, _, _, _ => by
    refine ⟨{ st with stack := S }, .step (step_same hs (by omega) hh (fun _ => postprocess_other (by simp)) ?_) (.refl _),
      hi, .refl _, Nat.le_add_right _ _, .nil hp⟩
    unfold Eval.visit
    simp only
    rw [if_neg (by simp at hk; omega)]
  | x :: us, i, st, S, hk, hs, hp, hi, hh, hv, hl, hr => by
    have hx := hv 0 (by simp)
    simp only [List.getElem_cons_zero, Nat.add_zero] at hx
    simp only [List.map_cons, List.sum_cons] at hl hr
    have hlt := hx.2.lt
    let st1 : Eval α := { st with stack := S ++ [{ node := h, child := i + 1, parent := p }, { node := h + 1 + i, parent := p }] }
    have h1 : Eval.step E st = pure (.inl st1) := by
      refine step_same hs (by omega) hh (fun _ => postprocess_other (by simp)) ?_
      unfold Eval.visit
      simp only
      rw [if_pos (by simp at hk; omega), u32_of_lt' (by omega), show h + i + 1 = h + 1 + i by omega]
    obtain ⟨st2, h2⟩ := ih _ hx.1 (st := st1) (S := S ++ [{ node := h, child := i + 1, parent := p }]) (h := h + 1 + i)
      (p := p) (by simp [st1]) (by simp; omega) hi hx.2 (by simp only [st1]; omega) (by simp only [st1]; omega)
    obtain ⟨S2, h3, h4⟩ := h2.pushed.inner hp
    have hl2 := h2.len
    have hr2 := h2.pushed.length
    simp only [st1] at hl2 hr2
    have hd : Done info E st { st2 with stack := S2 } S p x.1 x.2 → True := fun _ => trivial
    obtain ⟨st3, h5⟩ := run_sum ih (S0 := S0) (nt := nt) (k := k) (h := h) (p := p) us (i + 1) (st := st2) (S := S2)
      (by simp at hk; omega) h3 (by rw [h4.length_stack]; exact hp) h2.binfo (h2.keeps.other hh (by simp)) (by
        intro j hj
        have := hv (j + 1) (by simp; omega)
        simp only [List.getElem_cons_succ] at this
        refine ⟨this.1, h2.keeps.ev ?_⟩
        rw [show i + 1 + j = i + (j + 1) by omega]; exact this.2) (by omega) (by omega)
    refine ⟨st3, ?_, h5.binfo, h2.keeps.trans h5.keeps, ?_, ?_⟩
    · exact .step h1 (h2.steps.trans h5.steps)
    · have := h5.len; simp only [List.map_cons, List.sum_cons]; omega
    · simp only [List.map_cons, List.sum_cons, List.flatten_cons]
      exact h4.append h5.pushed

theorem lt_sum_of_mem {l : List Nat} {x : Nat} (h : ∀ y ∈ l, 0 < y) (hx : x ∈ l) (hl : 1 < l.length) : x < l.sum := by
  have le : ∀ {l : List Nat} {x : Nat}, x ∈ l → x ≤ l.sum := by
    intro l x hx
    induction l with
    | nil => simp at hx
    | cons a l ih =>
      rw [List.sum_cons]
      rcases List.mem_cons.1 hx with rfl | hx
      · omega
      · have := ih hx; omega
  rcases l with _ | ⟨a, _ | ⟨b, l⟩⟩
  · simp at hl
  · simp at hl
  · rw [List.sum_cons]
    have ha := h a (by simp)
    have hb := h b (by simp)
    rcases List.mem_cons.1 hx with rfl | hx
    · simp only [List.sum_cons]; omega
    · have := le hx; omega

theorem runs (n : Nat) : Runs info E n := by
  induction n using Nat.strong_induction_on with
  | _ n ih =>
    intro st S h p u hs hp hi hv hl hr
    cases hv with
    | @leaf _ s v hh =>
      obtain ⟨S', h1, h2⟩ := pushed_one (rs := st.results) (S := S) hp (E.leaf s v) (by omega)
      refine ⟨{ b := st.b, results := st.results ++ [E.leaf s v], stack := S' }, .step ?_ (.refl _), hi, .refl _,
        Nat.le_add_right _ _, h2⟩
      refine step_same hs (by omega) hh (fun _ => postprocess_other (by simp)) ?_
      unfold Eval.visit
      simp only
      rw [h1]; rfl
    | @nulling _ s v extra hh hn =>
      obtain ⟨S', h1, h2⟩ := pushed_nulling (rs := st.results) (S := S) hp v extra (by omega)
      refine ⟨{ b := st.b, results := st.results ++ v :: extra, stack := S' }, .step ?_ (.refl _), hi, .refl _,
        Nat.le_add_right _ _, h2⟩
      refine step_same hs (by omega) hh (fun _ => postprocess_other (by simp)) ?_
      unfold Eval.visit
      simp only
      rw [h1, hn]; rfl
    | @rule _ l r u v m n hh hv1 hv2 =>
      have p1 := hv1.pos
      have p2 := hv2.pos
      let st1 : Eval α := { st with stack := S ++ [{ node := h, child := 1, parent := p }, { node := l, parent := p }] }
      have h1 : Eval.step E st = pure (.inl st1) :=
        step_same hs (by omega) hh (fun _ => postprocess_other (by simp)) rfl
      obtain ⟨st2, h2⟩ := ih m (by omega) (st := st1) (S := S ++ [{ node := h, child := 1, parent := p }]) (h := l)
        (p := p) (by simp [st1]) (by simp; omega) hi hv1 (by simp only [st1]; omega) (by simp only [st1]; omega)
      obtain ⟨S2, h3, h4⟩ := h2.pushed.inner hp
      have hl2 := h2.len
      have hr2 := h2.pushed.length
      simp only [st1] at hl2 hr2
      have hp2 : p < S2.length := by rw [h4.length_stack]; exact hp
      let st3 : Eval α := { st2 with stack := S2 ++ [{ node := h, child := 2, parent := p }, { node := r, parent := p }] }
      have h5 : Eval.step E st2 = pure (.inl st3) :=
        step_same h3 (by omega) (h2.keeps.other hh (by simp)) (by simp) rfl
      obtain ⟨st4, h6⟩ := ih n (by omega) (st := st3) (S := S2 ++ [{ node := h, child := 2, parent := p }]) (h := r)
        (p := p) (by simp [st3]) (by simp; omega) h2.binfo (h2.keeps.ev hv2) (by simp only [st3]; omega)
        (by simp only [st3]; omega)
      obtain ⟨S4, h7, h8⟩ := h6.pushed.inner hp2
      have h9 : Eval.step E st4 = pure (.inl { st4 with stack := S4 }) :=
        step_same h7 (by have := h8.length_stack; omega) (h6.keeps.other (h2.keeps.other hh (by simp)) (by simp)) (by simp) rfl
      refine ⟨{ st4 with stack := S4 }, ?_, h6.binfo, h2.keeps.trans h6.keeps, ?_, h4.append h8⟩
      · exact .step h1 (h2.steps.trans (.step h5 (h6.steps.trans (.step h9 (.refl _)))))
      · have := h6.len; simp only [st3] at this ⊢; omega
    | @product _ d f u n hh hfix hv =>
      let st1 : Eval α :=
        { st with stack := S ++ [{ node := h, child := 1, parent := p }, { node := f, parent := S.length }] }
      have h1 : Eval.step E st = pure (.inl st1) :=
        step_same hs (by omega) hh (fun _ => postprocess_fixed hv.lt (hi ▸ hfix)) rfl
      obtain ⟨st', h2, h3⟩ := run_product (ih n (by omega)) (st := st1) (st0 := st1) (S := S) hp hi hh hv (by simp only [st1]; omega)
        (by simp only [st1]; omega) rfl
      exact ⟨st', .of_step h1 rfl rfl h2⟩
    | @removed _ d f s dir u v m n hh hnr hd he hs32 hv1 hv2 =>
      let G := st.b.graph
      let G' := (G ++ [Node.rule (if dir then f else s) (if dir then s else f)]).set h (.product d G.length)
      have hlt : h < G.length := (List.getElem?_eq_some_iff.1 hh).1
      have hk : Keeps info E G G' := keeps_restore hh hnr hd he
      have hself : G'[h]? = some (.product d G.length) := List.getElem?_set_self (by simp; omega)
      have hnew : G'[G.length]? = some (.rule (if dir then f else s) (if dir then s else f)) := by
        simp only [G']
        rw [List.getElem?_set_ne (by omega)]; simp
      let st1 : Eval α :=
        { b := { st.b with graph := G' }
          results := st.results
          stack := S ++ [{ node := h, child := 1, parent := p }, { node := G.length, parent := S.length }] }
      have hpost : st.b.postprocess (.product d f) = pure
          ({ st.b with graph := G ++ [Node.rule (if dir then f else s) (if dir then s else f)] },
            .product d G.length) := by
        unfold Bocage.postprocess
        simp only
        rw [indexM_eq (List.getElem?_eq_getElem hv1.lt), pure_bind]
        split
        · rename_i l r hx
          exact absurd ⟨l, r, by rw [List.getElem?_eq_getElem hv1.lt, hx]⟩ hnr
        · rw [if_neg hd, hi, indexM_eq he, pure_bind]
          simp only [Bocage.product]
          rw [u32_of_lt' hs32, u32Pred_eq (by simp; omega) (by simp)]
          cases dir <;> simp [G, hi]
      have h1 : Eval.step E st = pure (.inl st1) := by
        rw [step_eq hs (by omega)]
        simp only [if_true]
        rw [indexM_eq hh, pure_bind, hpost]
        simp only [pure_bind]
        rw [setM_eq (by simp; omega)]
        simp only [pure_bind]
        rw [indexM_eq hself, pure_bind]
        rfl
      have hlen' : G'.length = G.length + 1 := by simp [G']
      have hgl : G.length = st.b.graph.length := rfl
      have hv' : Ev info E G' G.length (if dir then u ++ v else v ++ u) (m + n) := by
        cases dir
        · rw [Nat.add_comm m n]; exact .rule hnew (hk.ev hv2) (hk.ev hv1)
        · exact .rule hnew (hk.ev hv1) (hk.ev hv2)
      obtain ⟨st', h2, h3⟩ := run_product (ih (m + n) (by omega)) (st := st1) (st0 := st1) (S := S) hp hi hself hv'
        (by simp only [st1]; omega) (by simp only [st1]; omega) rfl
      refine ⟨st', .step h1 h2.steps, h2.binfo, hk.trans h2.keeps, ?_, h2.pushed⟩
      simp only [st1] at h3
      omega
    | @sum _ nt k us hh hk hul hus =>
      have hsub : ∀ j (hj : j < us.length), us[j].2 < (us.map (·.2)).sum := by
        intro j hj
        refine lt_sum_of_mem ?_ ?_ (by simp; omega)
        · intro x hx
          obtain ⟨y, hy, rfl⟩ := List.mem_map.1 hx
          obtain ⟨i, hi, rfl⟩ := List.getElem_of_mem hy
          exact (hus i hi).pos
        · exact List.mem_map.2 ⟨_, List.getElem_mem hj, rfl⟩
      exact run_sum (S0 := S) ih us 0 (by omega) hs hp hi hh (fun j hj => ⟨hsub j hj, by rw [Nat.zero_add]; exact hus j hj⟩) hl hr

/-! ### From trees to values -/

theorem finish_eq (he : info.eval.length < 2 ^ 32) (d : Nat) (u : List α) : finish info E d u = applyRule info E d u := by
  unfold finish applyRule
  rw [originId_eq he]
  cases info.origin d <;> rfl

theorem Ev.mono {G G' : List Node} (hp : G <+: G') {h n : Nat} {u : List α} (hv : Ev info E G h u n) :
    Ev info E G' h u n := by
  induction hv with
  | leaf h => exact .leaf (getElem?_prefix hp h)
  | nulling h h2 => exact .nulling (getElem?_prefix hp h) h2
  | rule h _ _ ih1 ih2 => exact .rule (getElem?_prefix hp h) ih1 ih2
  | product h h2 _ ih =>
    refine .product (getElem?_prefix hp h) ?_ ih
    rcases h2 with ⟨l, r, h2⟩ | h2
    · exact .inl ⟨l, r, getElem?_prefix hp h2⟩
    · exact .inr h2
  | @removed h d f s dir u v m n h1 h2 h3 h4 h5 h6 h7 ih1 ih2 =>
    refine .removed (getElem?_prefix hp h1) ?_ h3 h4 h5 ih1 ih2
    rintro ⟨l, r, hr⟩
    obtain ⟨c, rfl⟩ := hp
    rw [List.getElem?_append_left h6.lt] at hr
    exact h2 ⟨l, r, hr⟩
  | sum h h2 h3 _ ih => exact .sum (getElem?_prefix hp h) h2 h3 ih

/-- The values of the nodes made by `initialize_nulling`. -/
theorem ev_nulling {count : Nat} {G : List Node} (hN : NullEval info E nv nc) (hc : count = info.maxNullingSymbol.getD 0)
    (hG : NullingOK count info.nullingIntermediate G) (s : Nat) (hs : s ≤ count) : Ev info E G s (nv s) (nc s) := by
  generalize hk : nc s = k
  induction k using Nat.strong_induction_on generalizing s with
  | _ k ih =>
    cases hr : info.nullingRule s with
    | none =>
      obtain ⟨v, extra, h1, h2, h3⟩ := hN.leaf s hr
      rw [h1, ← hk, h2]
      refine .nulling (hG.leaf s hs ?_) h3
      unfold ForestInfo.nullingRule at hr
      simpa using hr
    | some p =>
      obtain ⟨x, y⟩ := p
      obtain ⟨h1, h2⟩ := hN.rule s x y hr
      unfold ForestInfo.nullingRule at hr
      rw [Option.map_eq_some_iff] at hr
      obtain ⟨⟨s', x', y'⟩, h3, h4⟩ := hr
      cases h4
      obtain ⟨i, h5, h6⟩ := hG.product s _ hs h3
      have hle := info.rule_le _ (List.mem_of_getElem? h5)
      dsimp only at hle
      rw [← hc] at hle
      have h7 := hG.rule i _ h5
      have hv : Ev info E G (count + 1 + i) (nv x ++ nv y) (nc x + nc y) :=
        .rule h7 (ih _ (by omega) x hle.2.1 rfl) (ih _ (by omega) y hle.2.2 rfl)
      have := Ev.product h6 (.inl ⟨_, _, h7⟩) hv
      unfold finish ForestInfo.originId at this
      rw [if_pos rfl] at this
      rw [h1, ← hk, h2]
      exact this

theorem den_pair {G : List Node} {f : Nat} {ts : List PTree} (hd : Den G f ts) :
    (IsRule G f → ∀ t ∈ ts, IsPair t) ∧ (¬ IsRule G f → ∀ t ∈ ts, ¬ IsPair t) := by
  cases hd with
  | leaf h => exact ⟨fun ⟨l, r, h'⟩ => (by rw [h] at h'; cases h'), fun _ t ht => by rw [List.mem_singleton.1 ht]; exact id⟩
  | nulling h => exact ⟨fun ⟨l, r, h'⟩ => (by rw [h] at h'; cases h'), fun _ t ht => by rw [List.mem_singleton.1 ht]; exact id⟩
  | product h _ =>
    refine ⟨fun ⟨l, r, h'⟩ => (by rw [h] at h'; cases h'), fun _ t ht => ?_⟩
    obtain ⟨t', _, rfl⟩ := List.mem_map.1 ht
    exact id
  | rule h _ _ =>
    refine ⟨fun _ t ht => ?_, fun hn => absurd ⟨_, _, h⟩ hn⟩
    obtain ⟨a, _, b, _, rfl⟩ := mem_pairs.1 ht
    trivial
  | @sum h nt k us h hk hl hp hs =>
    refine ⟨fun ⟨l, r, h'⟩ => (by rw [h] at h'; cases h'), fun _ t ht => ?_⟩
    obtain ⟨ts', h1, h2⟩ := List.mem_flatten.1 ht
    obtain ⟨i, hi, rfl⟩ := List.getElem_of_mem h1
    obtain ⟨d, f', h3⟩ := hp i (hl ▸ hi)
    have h4 := hs i hi
    generalize us[i] = ts' at h2 h4
    cases h4 with
    | product h' _ =>
      obtain ⟨t', _, rfl⟩ := List.mem_map.1 h2
      exact id
    | leaf h' | nulling h' | rule h' _ _ | sum h' _ _ _ _ => rw [h3] at h'; cases h'

/-- What the tables must provide for evaluation. -/
structure Tables (info : ForestInfo) (E : Evaluator α) (nv : Nat → List α) (nc : Nat → Nat) (G : List Node) (k : Nat) : Prop where
  eval : info.eval.length < 2 ^ 32
  elim : info.nullingEliminated.length < 2 ^ 32
  cover : k ≤ info.nullingEliminated.length
  null : ∀ (d s : Nat) dir, info.nullingEliminated[d]? = some (some (s, dir)) → s < 2 ^ 32 ∧ Ev info E G s (nv s) (nc s)

theorem map_single {β γ : Type} {f : β → γ} {l : List β} {y : γ} (h : l.map f = [y]) : ∃ x, l = [x] ∧ f x = y := by
  rcases l with _ | ⟨a, _ | ⟨b, l⟩⟩
  · simp at h
  · exact ⟨a, rfl, by simpa using h⟩
  · simp at h

theorem flatten_single {β : Type} {l : List (List β)} {y : β} (h : l.flatten = [y]) (hn : ∀ x ∈ l, x ≠ []) : l = [[y]] := by
  rcases l with _ | ⟨a, l⟩
  · simp at h
  rcases a with _ | ⟨b, a⟩
  · exact absurd rfl (hn [] (by simp))
  · simp only [List.flatten_cons, List.cons_append, List.cons.injEq, List.append_eq_nil_iff] at h
    obtain ⟨rfl, rfl, h⟩ := h
    rcases l with _ | ⟨c, l⟩
    · rfl
    · rw [List.flatten_cons, List.append_eq_nil_iff] at h
      exact absurd h.1 (hn c (by simp))

theorem sum_map_le {β : Type} {l : List β} {f g : β → Nat} (h : ∀ x ∈ l, f x ≤ g x) : (l.map f).sum ≤ (l.map g).sum := by
  induction l with
  | nil => simp
  | cons a l ih =>
    simp only [List.map_cons, List.sum_cons]
    have := h a (by simp)
    have := ih fun x hx => h x (by simp [hx])
    omega

theorem choose_sum {β γ : Type} {c : γ → Nat} {P : Nat → β × Nat → Prop} (tss : List (List γ))
    (h : ∀ (i : Nat) (hi : i < tss.length), ∃ x, P i x ∧ x.2 ≤ (tss[i].map c).sum) :
    ∃ us : List (β × Nat), us.length = tss.length ∧ (∀ (i : Nat) (hi : i < us.length), P i us[i]) ∧
      (us.map (·.2)).sum ≤ (tss.flatten.map c).sum := by
  induction tss generalizing P with
  | nil => exact ⟨[], rfl, fun i hi => absurd hi (by simp), by simp⟩
  | cons a tss ih =>
    obtain ⟨x, hx1, hx2⟩ := h 0 (by simp)
    obtain ⟨us, h1, h2, h3⟩ := ih (P := fun i => P (i + 1)) fun i hi => by
      have := h (i + 1) (by simpa using hi)
      rwa [List.getElem_cons_succ] at this
    refine ⟨x :: us, by simp [h1], ?_, ?_⟩
    · intro i hi
      cases i with
      | zero => exact hx1
      | succ i => exact h2 i (by simpa using hi)
    · simp only [List.getElem_cons_zero] at hx2
      simp only [List.map_cons, List.sum_cons, List.flatten_cons, List.map_append, List.sum_append]
      omega

/-- Every node that represents trees has values; if it represents a single tree, those of the tree. -/
theorem ev_of_den {G : List Node} {k : Nat} (hT : Tables info E nv nc G k) {h : Nat} {ts : List PTree} (hd : Den G h ts) :
    (∀ t ∈ ts, Covered k t) →
    ∃ u n, Ev info E G h u n ∧ n ≤ (ts.map (treeCost info nc)).sum ∧ ∀ t, ts = [t] → u = treeVals info E nv t := by
  induction hd with
  | @leaf h s v hh =>
    intro _
    refine ⟨_, _, .leaf hh, by simp [treeCost], ?_⟩
    rintro t ht
    rw [List.cons.injEq] at ht
    rw [← ht.1, treeVals]
  | nulling h => intro hc; exact absurd (hc _ List.mem_cons_self) id
  | @rule h l r ls rs hh hl hr ih1 ih2 =>
    intro hc
    obtain ⟨hc1, hc2⟩ := pairs_covered hl.ne_nil hr.ne_nil hc
    obtain ⟨u, m, h1, h2, h3⟩ := ih1 hc1
    obtain ⟨v, n, k1, k2, k3⟩ := ih2 hc2
    refine ⟨_, _, .rule hh h1 k1, Nat.le_trans (Nat.add_le_add h2 k2) (sum_pairs_le _ _ hl.ne_nil hr.ne_nil), ?_⟩
    intro t ht
    obtain ⟨a, b, rfl, rfl, rfl⟩ := pairs_single ht
    rw [treeVals, h3 a rfl, k3 b rfl]
  | @product h d f ts hh hd ih =>
    intro hc
    have hne := hd.ne_nil
    obtain ⟨u, n, h1, h2, h3⟩ := ih fun t ht => (hc _ (List.mem_map.2 ⟨t, ht, rfl⟩)).2
    have hdk : d < info.nullingEliminated.length := by
      obtain ⟨t, ht⟩ := List.exists_mem_of_ne_nil _ hne
      exact Nat.lt_of_lt_of_le (hc _ (List.mem_map.2 ⟨t, ht, rfl⟩)).1 hT.cover
    have hda : d ≠ nullAction := by have := hT.elim; unfold nullAction; omega
    obtain ⟨hp1, hp2⟩ := den_pair hd
    rw [List.map_map]
    by_cases hr : IsRule G f
    · refine ⟨_, _, .product hh (.inl hr) h1, ?_, ?_⟩
      · refine Nat.le_trans (Nat.add_le_add_right h2 1) (Nat.le_trans (sum_map_add ts _ 1 hne) (sum_map_le ?_))
        intro t ht
        rw [Function.comp, (treeVals_pair (E := E) (nv := nv) (hp1 hr t ht)).2]
      · intro t ht
        obtain ⟨t', rfl, rfl⟩ := map_single ht
        rw [finish_eq hT.eval, h3 t' rfl, (treeVals_pair (nc := nc) (hp1 hr t' (by simp))).1]
    · have hn := hp2 hr
      cases he : info.nullingEliminated[d] with
      | none =>
        have he' : info.nullingEliminated[d]? = some none := by rw [List.getElem?_eq_getElem hdk, he]
        have hrem : info.removed d = none := by unfold ForestInfo.removed; rw [he']; rfl
        refine ⟨_, _, .product hh (.inr (.inr he')) h1, ?_, ?_⟩
        · refine Nat.le_trans (Nat.add_le_add_right h2 1) (Nat.le_trans (sum_map_add ts _ 1 hne) (sum_map_le ?_))
          intro t ht
          rw [Function.comp, (treeVals_other (E := E) (nv := nv) (hn t ht)).2, hrem]
          simp
        · intro t ht
          obtain ⟨t', rfl, rfl⟩ := map_single ht
          rw [finish_eq hT.eval, h3 t' rfl, (treeVals_other (nc := nc) (hn t' (by simp))).1, hrem]
      | some p =>
        obtain ⟨s, dir⟩ := p
        have he' : info.nullingEliminated[d]? = some (some (s, dir)) := by rw [List.getElem?_eq_getElem hdk, he]
        have hrem : info.removed d = some (s, dir) := by unfold ForestInfo.removed; rw [he']; rfl
        obtain ⟨hs, hv⟩ := hT.null d s dir he'
        refine ⟨_, _, .removed hh hr hda he' hs h1 hv, ?_, ?_⟩
        · rw [Nat.add_assoc]
          refine Nat.le_trans (Nat.add_le_add_right h2 (nc s + 1)) (Nat.le_trans (sum_map_add ts _ _ hne) (sum_map_le ?_))
          intro t ht
          rw [Function.comp, (treeVals_other (E := E) (nv := nv) (hn t ht)).2, hrem, Nat.add_assoc]
        · intro t ht
          obtain ⟨t', rfl, rfl⟩ := map_single ht
          rw [finish_eq hT.eval, h3 t' rfl, (treeVals_other (nc := nc) (hn t' (by simp))).1, hrem]
          cases dir <;> rfl
  | @sum h nt k' tss hh hk hl hp hs ih =>
    intro hc
    obtain ⟨us, h1, h2, h3⟩ := choose_sum (c := treeCost info nc) (P := fun i x => Ev info E G (h + 1 + i) x.1 x.2)
      tss fun i hi => by
        obtain ⟨u, n, h1, h2, _⟩ := ih i hi fun t ht => hc t (List.mem_flatten.2 ⟨_, List.getElem_mem hi, ht⟩)
        exact ⟨(u, n), h1, h2⟩
    refine ⟨_, _, .sum (us := us) hh hk (by omega) h2, h3, ?_⟩
    · intro t ht
      have := flatten_single ht fun x hx => by
        obtain ⟨i, hi, rfl⟩ := List.getElem_of_mem hx
        exact (hs i hi).ne_nil
      rw [this] at hl
      simp at hl; omega

/-- `evaluate` returns the values of the chosen node. -/
theorem evaluate_run {b : Bocage} {x r n : Nat} {u : List α} (hroot : b.evalRoot E x = pure (.inl r))
    (hv : Ev b.info E b.graph r u n) (hg : b.graph.length + n < 2 ^ 32) :
    ∃ b', b.evaluate E x = pure (b', u) ∧ b'.info = b.info ∧ Keeps b.info E b.graph b'.graph ∧
      b'.graph.length ≤ b.graph.length + n := by
  obtain ⟨st', h1⟩ := runs n (info := b.info) (E := E) (st := { b := b, results := [], stack := evalStack r })
    (S := [{ node := nullHandle, parent := 0 }]) (h := r) (p := 0) rfl (by simp) rfl hv hg (by simp; omega)
  obtain ⟨w, idx, h2, h3, h4, h5, _⟩ := h1.pushed.stk
  cases h2
  have hst : st'.stack = [{ node := nullHandle, parent := 0, results := idx }] := by rw [h3]; rfl
  refine ⟨st'.b, ?_, h1.binfo, h1.keeps, h1.len⟩
  unfold Bocage.evaluate Bocage.evaluateWith
  rw [hroot, pure_bind]
  simp only
  rw [h1.steps.loop, loop_inr (b := st') (by unfold Eval.step; rw [if_neg (by rw [hst]; simp)]), pure_bind, hst]
  simp only [indexM, List.getElem?_cons_zero, pure_bind]
  rw [takeResults_eq E.dflt h4 h5]; rfl

theorem evalRoot_eq {b : Bocage} {x d f l r v : Nat} (hx : b.graph[x]? = some (.product d f))
    (hf : b.graph[f]? = some (.rule l r)) (hl : b.graph[l]? = some (.leaf b.info.sof v)) :
    b.evalRoot E x = pure (.inl r) := by
  unfold Bocage.evalRoot
  rw [indexM_eq hx, pure_bind]
  simp only
  rw [indexM_eq hf, pure_bind]
  simp only
  rw [indexM_eq hl, pure_bind]
  simp [assertM]

end Gearley.Simple
