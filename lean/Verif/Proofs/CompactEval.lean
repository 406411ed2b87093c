import Verif.Proofs.SimpleEval

/-!
# `evaluate` of the compact bocage

As for the simple bocage, but here the graph only grows: a rule that gets back its removed symbol is appended, and the
summand is not changed. With `true`, `Ev` is about the summands from a position up to the next end mark.
-/

namespace Gearley.Compact
open Gearley.Spec Gearley.Simple
variable {α : Type} {info : ForestInfo} {E : Evaluator α} {nv : Nat → List α} {nc : Nat → Nat}

def IsRule (G : List Nat) (f : Nat) : Prop := ∃ l r, get G f = pure (.rule l r)

/-- No symbol is put back. -/
def Fixed (info : ForestInfo) (G : List Nat) (d f : Nat) : Prop :=
  IsRule G f ∨ d = nullAction ∨ info.nullingEliminated[d]? = some none

inductive Ev (info : ForestInfo) (E : Evaluator α) (G : List Nat) : Bool → Nat → List α → Nat → Prop
  | leaf {h s v} : get G h = pure (.leaf s v) → Ev info E G false h [E.leaf s v] 1
  | nulling {h s v extra} : get G h = pure (.nullingLeaf s) → (∀ rs, E.nulling s rs = rs ++ v :: extra) →
      Ev info E G false h [v] (1 + extra.length)
  | rule {h l r u v m n} : get G h = pure (.rule l r) → Ev info E G false l u m → Ev info E G false r v n →
      Ev info E G false h (u ++ v) (m + n)
  | product {h d f u n} : get G h = pure (.product d f) → Fixed info G d f → Ev info E G false f u n →
      Ev info E G false h (finish info E d u) (n + 1)
  | restored {h d f s dir u x m k} : get G h = pure (.product d f) → ¬ IsRule G f → d ≠ nullAction →
      info.nullingEliminated[d]? = some (some (s, dir)) → s * 9 < 2 ^ 32 → Ev info E G false f u m →
      Ev info E G false (s * 9) x k → Ev info E G false h (finish info E d (if dir then u ++ x else x ++ u)) (m + k + 1)
  | single {h d f u n} : get G h = pure (.summand d f) → Ev info E G true h u n → Ev info E G false h u n
  | beginSum {h d f u n} : get G h = pure .beginSum → get G (h + 1) = pure (.summand d f) → Ev info E G true (h + 1) u n →
      Ev info E G false h u n
  | endSum {h} : get G h = pure .endSum → Ev info E G true h [] 0
  | summand {h d f z u v m n} : get G h = pure (.summand d f) → getNodeSize G h = pure z → Fixed info G d f →
      Ev info E G false f u m → Ev info E G true (h + z) v n → Ev info E G true h (finish info E d u ++ v) (m + 1 + n)
  | removed {h d f z s dir u v x m k n} : get G h = pure (.summand d f) → getNodeSize G h = pure z → ¬ IsRule G f →
      d ≠ nullAction → info.nullingEliminated[d]? = some (some (s, dir)) → s * 9 < 2 ^ 32 → Ev info E G false f u m →
      Ev info E G false (s * 9) x k → Ev info E G true (h + z) v n →
      Ev info E G true h (finish info E d (if dir then u ++ x else x ++ u) ++ v) (m + k + 1 + n)

theorem Ev.pos' {G : List Nat} {c : Bool} {h n : Nat} {u : List α} (hv : Ev info E G c h u n) :
    0 < n ∨ c = true ∧ get G h = pure .endSum := by
  induction hv with
  | leaf => omega
  | nulling => omega
  | rule _ _ _ ih _ => have := ih.resolve_right (by simp); omega
  | product => omega
  | restored => omega
  | single h _ ih =>
    rcases ih with ih | ⟨_, ih⟩
    · exact .inl ih
    · cases get_inj h ih
  | beginSum _ h _ ih =>
    rcases ih with ih | ⟨_, ih⟩
    · exact .inl ih
    · cases get_inj h ih
  | endSum h => exact .inr ⟨rfl, h⟩
  | summand => omega
  | removed => omega

theorem Ev.pos {G : List Nat} {h n : Nat} {u : List α} (hv : Ev info E G false h u n) : 0 < n :=
  hv.pos'.resolve_right (by simp)

theorem get_lt {G : List Nat} {h : Nat} {x : Node} (hx : get G h = pure x) : h < G.length := by
  unfold get at hx
  obtain ⟨a, h1, _⟩ := bind_eq_pure hx
  exact (List.getElem?_eq_some_iff.1 (indexM_pure h1)).1

theorem Ev.get {G : List Nat} {c : Bool} {h n : Nat} {u : List α} (hv : Ev info E G c h u n) : ∃ x, get G h = pure x := by
  cases hv with
  | leaf h | nulling h _ | rule h _ _ | product h _ _ | restored h _ _ _ _ _ _ | single h _ | beginSum h _ _ | endSum h | summand h _ _ _ _
  | removed h _ _ _ _ _ _ _ _ => exact ⟨_, h⟩

theorem Ev.lt {G : List Nat} {c : Bool} {h n : Nat} {u : List α} (hv : Ev info E G c h u n) : h < G.length :=
  get_lt hv.get.choose_spec

theorem IsRule.mono {G G' : List Nat} (hp : G <+: G') {f : Nat} (h : IsRule G f) : IsRule G' f :=
  let ⟨l, r, h⟩ := h; ⟨l, r, get_prefix hp h⟩

theorem not_isRule_mono {G G' : List Nat} (hp : G <+: G') {f : Nat} {x : Node} (hx : Compact.get G f = pure x)
    (h : ¬ IsRule G f) : ¬ IsRule G' f := by
  rintro ⟨l, r, hr⟩
  have := get_inj (get_prefix hp hx) hr
  subst this
  exact h ⟨l, r, hx⟩

theorem Fixed.mono {G G' : List Nat} (hp : G <+: G') {d f : Nat} (h : Fixed info G d f) : Fixed info G' d f :=
  h.imp (.mono hp) id

theorem Ev.mono {G G' : List Nat} (hp : G <+: G') {c : Bool} {h n : Nat} {u : List α} (hv : Ev info E G c h u n) :
    Ev info E G' c h u n := by
  induction hv with
  | leaf h => exact .leaf (get_prefix hp h)
  | nulling h h2 => exact .nulling (get_prefix hp h) h2
  | rule h _ _ ih1 ih2 => exact .rule (get_prefix hp h) ih1 ih2
  | product h h2 _ ih => exact .product (get_prefix hp h) (h2.mono hp) ih
  | restored h h2 h3 h4 h5 h6 _ ih1 ih2 =>
    exact .restored (get_prefix hp h) (not_isRule_mono hp h6.get.choose_spec h2) h3 h4 h5 ih1 ih2
  | single h _ ih => exact .single (get_prefix hp h) ih
  | beginSum h h1 _ ih => exact .beginSum (get_prefix hp h) (get_prefix hp h1) ih
  | endSum h => exact .endSum (get_prefix hp h)
  | summand h hs h2 _ _ ih1 ih2 => exact .summand (get_prefix hp h) (size_prefix hp hs) (h2.mono hp) ih1 ih2
  | removed h hs h2 h3 h4 h5 h6 _ _ ih1 ih2 ih3 =>
    exact .removed (get_prefix hp h) (size_prefix hp hs) (not_isRule_mono hp h6.get.choose_spec h2) h3 h4 h5 ih1 ih2 ih3

/-! ### One round -/

theorem step_eq {st : Eval α} {S : List WorkNode} {w : WorkNode} {x : Node} (hs : st.stack = S ++ [w]) (h0 : 0 < S.length)
    (hx : get st.b.graph w.node = pure x) :
    Eval.step E st = (do
      let (b, node) ← (if w.child = 0 then st.b.postprocess x else pure (st.b, x))
      let st' ← Eval.visit E { b := b, results := st.results, stack := S } w node
      pure (.inl st')) := by
  unfold Eval.step
  rw [if_pos (by rw [hs]; simp; omega), hs]
  simp only [List.getLast?_append, List.getLast?_singleton, Option.some_or, unwrapM, pure_bind, List.dropLast_concat, hx]

/-- A round at a node that is not changed. -/
theorem step_same {st : Eval α} {S : List WorkNode} {w : WorkNode} {x : Node} (hs : st.stack = S ++ [w])
    (h0 : 0 < S.length) (hx : get st.b.graph w.node = pure x) (hp : w.child = 0 → st.b.postprocess x = pure (st.b, x))
    {st' : Eval α} (hv : Eval.visit E { b := st.b, results := st.results, stack := S } w x = pure st') :
    Eval.step E st = pure (.inl st') := by
  rw [step_eq hs h0 hx]
  have : (if w.child = 0 then st.b.postprocess x else pure (st.b, x)) = pure (st.b, x) := by
    by_cases hc : w.child = 0
    · rw [if_pos hc, hp hc]
    · rw [if_neg hc]
  rw [this, pure_bind]
  simp only
  rw [hv, pure_bind]

theorem postprocess_other {b : Bocage} {x : Node} (h : ∀ d f, x ≠ .product d f) (h' : ∀ d f, x ≠ .summand d f) :
    b.postprocess x = pure (b, x) := by
  unfold Bocage.postprocess
  split
  · rename_i d f; exact absurd rfl (h d f)
  · rename_i d f; exact absurd rfl (h' d f)
  · rfl

theorem postprocess_fixed {b : Bocage} {d f : Nat} {y x : Node} (hy : get b.graph f = pure y)
    (h : Fixed b.info b.graph d f) (hx : x = .product d f ∨ x = .summand d f) : b.postprocess x = pure (b, x) := by
  have key : (do
      match ← get b.graph f with
      | .rule .. => pure (b, x)
      | _ =>
        if d = nullAction then pure (b, x)
        else do
          match ← indexM b.info.nullingEliminated d with
          | some (sym, dir) =>
            let lr := if dir then (f, mul9 (u32 sym)) else (mul9 (u32 sym), f)
            let (b, rule) := b.product lr.1 lr.2
            pure (b, .product d rule)
          | none => pure (b, x) : M (Bocage × Node)) = pure (b, x) := by
    rw [hy, pure_bind]
    split
    · rfl
    · rename_i hn
      rcases h with ⟨l, r, h⟩ | h | h
      · exact absurd (get_inj hy h) (hn l r)
      · rw [if_pos h]
      · by_cases hd : d = nullAction
        · rw [if_pos hd]
        · rw [if_neg hd, indexM_eq h]; rfl
  rcases hx with rfl | rfl <;> exact key

/-- What is known when the entry on top of the stack `S` has been processed. -/
structure Done (info : ForestInfo) (E : Evaluator α) (st st' : Eval α) (S : List WorkNode) (p : Nat) (u : List α) (n : Nat) :
    Prop where
  steps : Steps (Eval.step E) st st'
  binfo : st'.b.info = info
  pre : st.b.graph <+: st'.b.graph
  len : st'.b.graph.length ≤ st.b.graph.length + 9 * n
  pushed : Pushed st.results st'.results S st'.stack p u n

def Runs (info : ForestInfo) (E : Evaluator α) (c : Bool) (n : Nat) : Prop :=
  ∀ {st : Eval α} {S : List WorkNode} {h p : Nat} {u : List α}, st.stack = S ++ [{ node := h, parent := p }] →
    p < S.length → st.b.info = info → Ev info E st.b.graph c h u n → st.b.graph.length + 9 * n < 2 ^ 32 →
    st.results.length + n < 2 ^ 32 → ∃ st', Done info E st st' S p u n

/-- The last part of a product or summand. -/
theorem finish_spec {b : Bocage} {rs rs1 : List α} {S : List WorkNode} {h p d n : Nat} {idx : List Nat} {u : List α}
    (hi : b.info = info) (hp : p < S.length) (hres : ∃ new, rs1 = rs ++ new ∧ new.length ≤ n) (h3 : Refs rs1 idx u)
    (h4 : idx.Pairwise (· < ·)) (h5 : ∀ i ∈ idx, rs.length ≤ i) (hr : rs1.length + 1 < 2 ^ 32) :
    ∃ rs' S', Eval.finish E { b := b, results := rs1, stack := S } { node := h, child := 1, parent := p, results := [] ++ idx } d =
        pure { b := b, results := rs', stack := S' } ∧ Pushed rs rs' S S' p (finish info E d u) (n + 1) := by
  obtain ⟨new, hn1, hn2⟩ := hres
  unfold Simple.finish Eval.finish
  simp only [hi]
  cases ho : info.originId d with
  | none =>
    obtain ⟨S', h7, h8⟩ := pushed_pass (S := S) hp (n := n + 1) ⟨new, hn1, by omega⟩ h3 h4 h5
    refine ⟨rs1, S', ?_, h8⟩
    simp only [List.nil_append]
    rw [h7]; rfl
  | some id =>
    obtain ⟨S', h7, h8⟩ := pushed_one (rs := rs1) (S := S) hp (E.product id u) hr
    refine ⟨rs1 ++ [E.product id u], S', ?_, ?_⟩
    · simp only [List.nil_append]
      rw [h3.mapM, pure_bind, h7]; rfl
    · obtain ⟨w, idx', k1, k2, k3, k4, k5⟩ := h8.stk
      refine ⟨⟨new ++ [E.product id u], by rw [hn1]; simp, by simp; omega⟩, w, idx', k1, k2, k3, k4, ?_⟩
      intro i hi
      have := k5 i hi
      rw [hn1, List.length_append] at this; omega

/-- The factors of a product or summand, without the last round. -/
theorem run_factors {n : Nat} (ih : Runs info E false n) {st : Eval α} {S : List WorkNode} {h p d f : Nat} {u : List α}
    (hp : p < S.length) (hi : st.b.info = info) (hv : Ev info E st.b.graph false f u n)
    (hl : st.b.graph.length + 9 * n < 2 ^ 32) (hr : st.results.length + n + 1 < 2 ^ 32)
    (hs : st.stack = S ++ [{ node := h, child := 1, parent := p }, { node := f, parent := S.length }]) :
    ∃ (st1 : Eval α) (idx : List Nat) (rs' : List α) (S' : List WorkNode), Steps (Eval.step E) st st1 ∧ st1.b.info = info ∧
      st.b.graph <+: st1.b.graph ∧ st1.b.graph.length ≤ st.b.graph.length + 9 * n ∧
      st1.stack = S ++ [{ node := h, child := 1, parent := p, results := [] ++ idx }] ∧
      Eval.finish E { b := st1.b, results := st1.results, stack := S }
        { node := h, child := 1, parent := p, results := [] ++ idx } d = pure { b := st1.b, results := rs', stack := S' } ∧
      Pushed st.results rs' S S' p (finish info E d u) (n + 1) := by
  obtain ⟨st1, h1⟩ := ih (S := S ++ [{ node := h, child := 1, parent := p }]) (p := S.length) (by rw [hs]; simp)
    (by simp) hi hv hl (by omega)
  obtain ⟨idx, h2, h3, h4, h5⟩ := h1.pushed.top
  have hlen := h1.pushed.length
  obtain ⟨rs', S', h6, h7⟩ := finish_spec (E := E) (d := d) (h := h) h1.binfo hp h1.pushed.res h3 h4 h5 (by omega)
  exact ⟨st1, idx, rs', S', h1.steps, h1.binfo, h1.pre, h1.len, h2, h6, h7⟩

theorem encode_le (x : Node) : (encode x).length ≤ 9 := by
  rcases hw : x.words with _ | ⟨d, l, r⟩
  · rcases words_none hw with rfl | rfl <;> decide
  · obtain ⟨h1, h2, h3, h4⟩ := words_bounds hw
    have b3 := byteLen_bound h3
    have b4 := byteLen_bound h4
    rw [encode_words hw, List.length_cons, List.length_append, take_length h3, take_length h4]
    omega

/-- A summand after its first round. -/
theorem run_summand {m n : Nat} (ih1 : Runs info E false m) (ih2 : Runs info E true n) {st : Eval α} {S : List WorkNode}
    {h p d f f' z : Nat} {u v : List α} (hp : p < S.length) (hi : st.b.info = info)
    (hh : get st.b.graph h = pure (.summand d f')) (hz : getNodeSize st.b.graph h = pure z)
    (hv1 : Ev info E st.b.graph false f u m) (hv2 : Ev info E st.b.graph true (h + z) v n)
    (hl : st.b.graph.length + 9 * (m + n) < 2 ^ 32) (hr : st.results.length + (m + 1 + n) < 2 ^ 32)
    (hs : st.stack = S ++ [{ node := h, child := 1, parent := p }, { node := f, parent := S.length }]) :
    ∃ st', Done info E st st' S p (finish info E d u ++ v) (m + 1 + n) ∧
      st'.b.graph.length ≤ st.b.graph.length + 9 * (m + n) := by
  obtain ⟨st1, idx, rs', S', h1, h2, h3, h4, h5, h6, h7⟩ := run_factors ih1 (d := d) hp hi hv1 (by omega) (by omega) hs
  have hlen := h7.length
  have hlt := hv2.lt
  let st2 : Eval α := { b := st1.b, results := rs', stack := S' ++ [{ node := h + z, parent := p }] }
  have hstep : Eval.step E st1 = pure (.inl st2) := by
    refine step_same h5 (by omega) (get_prefix h3 hh) (by simp) ?_
    unfold Eval.visit
    simp only
    rw [h6, pure_bind]
    simp only
    rw [size_prefix h3 hz, pure_bind, u32_of_lt' (by omega)]
  obtain ⟨st3, h8⟩ := ih2 (st := st2) (S := S') (h := h + z) (p := p) rfl (by rw [h7.length_stack]; exact hp) h2
    (hv2.mono h3) (by simp only [st2]; omega) (by simp only [st2]; omega)
  have h9 := h8.len
  simp only [st2] at h9
  refine ⟨st3, ⟨h1.trans (.step hstep h8.steps), h8.binfo, h3.trans h8.pre, ?_, h7.append h8.pushed⟩, ?_⟩ <;> omega

/-- The first round at a product or summand that gets back a symbol. -/
theorem restore {st : Eval α} {S : List WorkNode} {h p d f s m k : Nat} {dir : Bool} {u x : List α}
    (hs : st.stack = S ++ [{ node := h, parent := p }]) (hp : p < S.length) (hi : st.b.info = info)
    (hh : get st.b.graph h = pure (.product d f) ∨ get st.b.graph h = pure (.summand d f)) (hnr : ¬ IsRule st.b.graph f)
    (hd : d ≠ nullAction) (he : info.nullingEliminated[d]? = some (some (s, dir))) (hs9 : s * 9 < 2 ^ 32)
    (hv1 : Ev info E st.b.graph false f u m) (hv2 : Ev info E st.b.graph false (s * 9) x k)
    (hl : st.b.graph.length < 2 ^ 32) :
    ∃ (st1 : Eval α) (f' : Nat), Eval.step E st = pure (.inl st1) ∧
      st1.stack = S ++ [{ node := h, child := 1, parent := p }, { node := f', parent := S.length }] ∧
      st1.results = st.results ∧ st1.b.info = info ∧ st.b.graph <+: st1.b.graph ∧
      st1.b.graph.length ≤ st.b.graph.length + 9 ∧
      Ev info E st1.b.graph false f' (if dir then u ++ x else x ++ u) (m + k) := by
  let G := st.b.graph
  let lr : Nat × Nat := if dir then (f, s * 9) else (s * 9, f)
  let G' := push G (.rule lr.1 lr.2)
  have hpre : G <+: G' := ⟨_, rfl⟩
  have hlr : lr.1 < 2 ^ 32 ∧ lr.2 < 2 ^ 32 := by
    have := hv1.lt
    cases dir
    · exact ⟨hs9, by show f < 2 ^ 32; omega⟩
    · exact ⟨by show f < 2 ^ 32; omega, hs9⟩
  have hnew : get G' G.length = pure (.rule lr.1 lr.2) := by
    have := get_encode G (n := .rule lr.1 lr.2) hlr []
    rwa [List.append_nil] at this
  have hlen' : G'.length ≤ G.length + 9 := by
    have := encode_le (.rule lr.1 lr.2)
    simp only [G', push, List.length_append]; omega
  have hgl : G.length = st.b.graph.length := rfl
  let st1 : Eval α :=
    { b := { st.b with graph := G' }
      results := st.results
      stack := S ++ [{ node := h, child := 1, parent := p }, { node := G.length, parent := S.length }] }
  have hpost : ∀ x, x = .product d f ∨ x = .summand d f →
      st.b.postprocess x = pure ({ st.b with graph := G' }, .product d G.length) := by
    have key : ∀ x : Node, (do
        match ← get st.b.graph f with
        | .rule .. => pure (st.b, x)
        | _ =>
          if d = nullAction then pure (st.b, x)
          else do
            match ← indexM st.b.info.nullingEliminated d with
            | some (sym, dir) =>
              let lr := if dir then (f, mul9 (u32 sym)) else (mul9 (u32 sym), f)
              let (b, rule) := st.b.product lr.1 lr.2
              pure (b, .product d rule)
            | none => pure (st.b, x) : M (Bocage × Node)) =
          pure ({ st.b with graph := G' }, .product d G.length) := by
      intro x
      obtain ⟨y, hy⟩ := hv1.get
      rw [hy, pure_bind]
      split
      · rename_i l r
        exact absurd ⟨l, r, hy⟩ hnr
      · subst hi
        rw [if_neg hd, indexM_eq he, pure_bind]
        simp only [Bocage.product]
        rw [u32_of_lt' (show s < 2 ^ 32 by omega), mul9, u32_of_lt' hs9, len, u32_of_lt' (by omega)]
    intro x hx
    rcases hx with rfl | rfl <;> exact key _
  refine ⟨st1, G.length, ?_, rfl, rfl, hi, hpre, hlen', ?_⟩
  · rcases hh with hh | hh <;>
    · rw [step_eq hs (by omega) hh]
      simp only [if_true]
      rw [hpost _ (by simp), pure_bind]
      rfl
  · cases dir
    · rw [Nat.add_comm m k]; exact .rule hnew (hv2.mono hpre) (hv1.mono hpre)
    · exact .rule hnew (hv1.mono hpre) (hv2.mono hpre)

theorem runs (n : Nat) : ∀ c, Runs info E c n := by
  induction n using Nat.strong_induction_on with
  | _ n ih =>
    have chain : Runs info E true n := by
      intro st S h p u hs hp hi hv hl hr
      cases hv with
      | endSum hh =>
        refine ⟨{ st with stack := S }, .step (step_same hs (by omega) hh
          (fun _ => postprocess_other (by simp) (by simp)) ?_) (.refl _), hi, List.prefix_rfl, Nat.le_add_right _ _, .nil hp⟩
        rfl
      | @summand _ d f z u v m n hh hz hfix hv1 hv2 =>
        let st1 : Eval α :=
          { st with stack := S ++ [{ node := h, child := 1, parent := p }, { node := f, parent := S.length }] }
        have h1 : Eval.step E st = pure (.inl st1) :=
          step_same hs (by omega) hh (fun _ => postprocess_fixed hv1.get.choose_spec (hi ▸ hfix) (.inr rfl)) rfl
        have := hv1.pos
        obtain ⟨st', h2, _⟩ := run_summand (ih m (by omega) false) (ih n (by omega) true) (st := st1) (S := S) hp hi hh hz
          hv1 hv2 (by simp only [st1]; omega) (by simp only [st1]; omega) rfl
        exact ⟨st', .step h1 h2.steps, h2.binfo, h2.pre, h2.len, h2.pushed⟩
      | @removed _ d f z s dir u v x m k n hh hz hnr hd he hs9 hv1 hv2 hv3 =>
        have p1 := hv1.pos
        have p2 := hv2.pos
        obtain ⟨st1, f', h1, hs1, hr1, hi1, hpre, hlen', hv'⟩ := restore (E := E) hs hp hi (.inr hh) hnr hd he hs9 hv1 hv2
          (by omega)
        obtain ⟨st', h2, h3⟩ := run_summand (ih (m + k) (by omega) false) (ih n (by omega) true) (st := st1) (S := S) hp hi1
          (get_prefix hpre hh) (size_prefix hpre hz) hv' (hv3.mono hpre) (by omega) (by rw [hr1]; omega) hs1
        refine ⟨st', .step h1 h2.steps, h2.binfo, hpre.trans h2.pre, ?_, hr1 ▸ h2.pushed⟩
        omega
    intro c
    cases c with
    | true => exact chain
    | false =>
      intro st S h p u hs hp hi hv hl hr
      cases hv with
      | @leaf _ s v hh =>
        obtain ⟨S', h1, h2⟩ := pushed_one (rs := st.results) (S := S) hp (E.leaf s v) (by omega)
        refine ⟨{ b := st.b, results := st.results ++ [E.leaf s v], stack := S' }, .step ?_ (.refl _), hi, List.prefix_rfl,
          Nat.le_add_right _ _, h2⟩
        refine step_same hs (by omega) hh (fun _ => postprocess_other (by simp) (by simp)) ?_
        unfold Eval.visit
        simp only
        rw [h1]; rfl
      | @nulling _ s v extra hh hn =>
        obtain ⟨S', h1, h2⟩ := pushed_nulling (rs := st.results) (S := S) hp v extra (by omega)
        refine ⟨{ b := st.b, results := st.results ++ v :: extra, stack := S' }, .step ?_ (.refl _), hi, List.prefix_rfl,
          Nat.le_add_right _ _, h2⟩
        refine step_same hs (by omega) hh (fun _ => postprocess_other (by simp) (by simp)) ?_
        unfold Eval.visit
        simp only
        rw [h1, hn]; rfl
      | @rule _ l r u v m n hh hv1 hv2 =>
        have p1 := hv1.pos
        have p2 := hv2.pos
        let st1 : Eval α := { st with stack := S ++ [{ node := h, child := 1, parent := p }, { node := l, parent := p }] }
        have h1 : Eval.step E st = pure (.inl st1) :=
          step_same hs (by omega) hh (fun _ => postprocess_other (by simp) (by simp)) rfl
        obtain ⟨st2, h2⟩ := ih m (by omega) false (st := st1) (S := S ++ [{ node := h, child := 1, parent := p }]) (h := l)
          (p := p) (by simp [st1]) (by simp; omega) hi hv1 (by simp only [st1]; omega) (by simp only [st1]; omega)
        obtain ⟨S2, h3, h4⟩ := h2.pushed.inner hp
        have hl2 := h2.len
        have hr2 := h2.pushed.length
        simp only [st1] at hl2 hr2
        have hp2 : p < S2.length := by rw [h4.length_stack]; exact hp
        let st3 : Eval α := { st2 with stack := S2 ++ [{ node := h, child := 2, parent := p }, { node := r, parent := p }] }
        have h5 : Eval.step E st2 = pure (.inl st3) :=
          step_same h3 (by omega) (get_prefix h2.pre hh) (by simp) rfl
        obtain ⟨st4, h6⟩ := ih n (by omega) false (st := st3) (S := S2 ++ [{ node := h, child := 2, parent := p }]) (h := r)
          (p := p) (by simp [st3]) (by simp; omega) h2.binfo (hv2.mono h2.pre) (by simp only [st3]; omega)
          (by simp only [st3]; omega)
        obtain ⟨S4, h7, h8⟩ := h6.pushed.inner hp2
        have h9 : Eval.step E st4 = pure (.inl { st4 with stack := S4 }) :=
          step_same h7 (by have := h8.length_stack; omega) (get_prefix h6.pre (get_prefix h2.pre hh)) (by simp) rfl
        refine ⟨{ st4 with stack := S4 }, ?_, h6.binfo, h2.pre.trans h6.pre, ?_, h4.append h8⟩
        · exact .step h1 (h2.steps.trans (.step h5 (h6.steps.trans (.step h9 (.refl _)))))
        · have := h6.len; simp only [st3] at this ⊢; omega
      | @product _ d f u n hh hfix hv =>
        let st1 : Eval α :=
          { st with stack := S ++ [{ node := h, child := 1, parent := p }, { node := f, parent := S.length }] }
        have h1 : Eval.step E st = pure (.inl st1) :=
          step_same hs (by omega) hh (fun _ => postprocess_fixed hv.get.choose_spec (hi ▸ hfix) (.inl rfl)) rfl
        obtain ⟨st2, idx, rs', S', k1, k2, k3, k4, k5, k6, k7⟩ := run_factors (ih n (by omega) false) (st := st1) (d := d) hp hi hv
          (by simp only [st1]; omega) (by simp only [st1]; omega) rfl
        refine ⟨{ b := st2.b, results := rs', stack := S' }, .step h1 (k1.trans (.step ?_ (.refl _))), k2, k3, ?_, k7⟩
        · exact step_same k5 (by omega) (get_prefix k3 hh) (by simp) k6
        · simp only [st1] at k4; simp only; omega
      | @restored _ d f s dir u x m k hh hnr hd he hs9 hv1 hv2 =>
        have p1 := hv1.pos
        have p2 := hv2.pos
        obtain ⟨st1, f', h1, hs1, hr1, hi1, hpre, hlen', hv'⟩ := restore (E := E) hs hp hi (.inl hh) hnr hd he hs9 hv1 hv2
          (by omega)
        obtain ⟨st2, idx, rs', S', k1, k2, k3, k4, k5, k6, k7⟩ := run_factors (ih (m + k) (by omega) false) (st := st1)
          (d := d) hp hi1 hv' (by omega) (by rw [hr1]; omega) hs1
        refine ⟨{ b := st2.b, results := rs', stack := S' }, .step h1 (k1.trans (.step ?_ (.refl _))), k2, hpre.trans k3, ?_,
          hr1 ▸ k7⟩
        · exact step_same k5 (by omega) (get_prefix k3 (get_prefix hpre hh)) (by simp) k6
        · simp only; omega
      | single hh hv => exact chain hs hp hi hv hl hr
      | @beginSum _ d f _ _ hh h1 hv =>
        have hlt := hv.lt
        let st1 : Eval α := { st with stack := S ++ [{ node := h + 1, parent := p }] }
        have h1 : Eval.step E st = pure (.inl st1) := by
          refine step_same hs (by omega) hh (fun _ => postprocess_other (by simp) (by simp)) ?_
          unfold Eval.visit
          simp only
          rw [u32_of_lt' (by omega)]
        obtain ⟨st2, h2⟩ := chain (st := st1) (S := S) rfl hp hi hv hl hr
        exact ⟨st2, .step h1 h2.steps, h2.binfo, h2.pre, h2.len, h2.pushed⟩

/-! ### From trees to values -/

/-- The values of the nodes made by `initialize_nulling`. -/
theorem ev_nulling {count : Nat} {G0 : List Simple.Node} {G : List Nat} (hN : NullEval info E nv nc)
    (hc : count = info.maxNullingSymbol.getD 0) (h0 : NullingOK count info.nullingIntermediate G0)
    (hl : 9 * G0.length < 2 ^ 32) (hG : ∀ (i : Nat) x, G0[i]? = some x → get G (9 * i) = pure (convert x)) (s : Nat)
    (hs : s ≤ count) : Ev info E G false (s * 9) (nv s) (nc s) := by
  have hlen := h0.len
  have h9 : ∀ i, i < G0.length → mul9 i = i * 9 := fun i hi => u32_of_lt (by omega)
  generalize hk : nc s = k
  induction k using Nat.strong_induction_on generalizing s with
  | _ k ih =>
    cases hr : info.nullingRule s with
    | none =>
      obtain ⟨v, extra, h1, h2, h3⟩ := hN.leaf s hr
      rw [h1, ← hk, h2]
      refine .nulling ?_ h3
      rw [Nat.mul_comm]
      refine hG s _ (h0.leaf s hs ?_)
      unfold ForestInfo.nullingRule at hr
      simpa using hr
    | some p =>
      obtain ⟨x, y⟩ := p
      obtain ⟨h1, h2⟩ := hN.rule s x y hr
      unfold ForestInfo.nullingRule at hr
      rw [Option.map_eq_some_iff] at hr
      obtain ⟨⟨s', x', y'⟩, h3, h4⟩ := hr
      cases h4
      obtain ⟨i, h5, h6⟩ := h0.product s _ hs h3
      have hi := (List.getElem?_eq_some_iff.1 h5).1
      have hle := info.rule_le _ (List.mem_of_getElem? h5)
      dsimp only at hle
      rw [← hc] at hle
      have h7 := hG _ _ (h0.rule i _ h5)
      have h8 := hG _ _ h6
      simp only [convert] at h7 h8
      rw [h9 _ (by omega), h9 _ (by omega), Nat.mul_comm 9] at h7
      rw [h9 _ (by omega), Nat.mul_comm 9] at h8
      have hv : Ev info E G false ((count + 1 + i) * 9) (nv x ++ nv y) (nc x + nc y) :=
        .rule h7 (ih _ (by omega) x hle.2.1 rfl) (ih _ (by omega) y hle.2.2 rfl)
      have := Ev.product h8 (.inl ⟨_, _, h7⟩) hv
      unfold Simple.finish ForestInfo.originId at this
      rw [if_pos rfl] at this
      rw [h1, ← hk, h2]
      exact this

theorem den_pair {G : List Nat} {c : Bool} {f : Nat} {ts : List PTree} (hd : DenAt G c f ts) :
    (IsRule G f → ∀ t ∈ ts, IsPair t) ∧ (¬ IsRule G f → ∀ t ∈ ts, ¬ IsPair t) := by
  induction hd with
  | leaf h => exact ⟨fun ⟨l, r, h'⟩ => (by cases get_inj h h'), fun _ t ht => by rw [List.mem_singleton.1 ht]; exact id⟩
  | nulling h => exact ⟨fun ⟨l, r, h'⟩ => (by cases get_inj h h'), fun _ t ht => by rw [List.mem_singleton.1 ht]; exact id⟩
  | product h _ =>
    refine ⟨fun ⟨l, r, h'⟩ => (by cases get_inj h h'), fun _ t ht => ?_⟩
    obtain ⟨t', _, rfl⟩ := List.mem_map.1 ht
    exact id
  | rule h _ _ =>
    refine ⟨fun _ t ht => ?_, fun hn => absurd ⟨_, _, h⟩ hn⟩
    obtain ⟨a, _, b, _, rfl⟩ := mem_pairs.1 ht
    trivial
  | single h _ ih => exact ih
  | beginSum h h1 _ _ ih =>
    refine ⟨fun ⟨l, r, h'⟩ => (by cases get_inj h h'), fun _ t ht => ih.2 ?_ t ht⟩
    rintro ⟨l, r, h'⟩
    cases get_inj h1 h'
  | endSum => exact ⟨fun _ t ht => absurd ht (by simp), fun _ t ht => absurd ht (by simp)⟩
  | @summand h d f s ts us hh hs h1 h2 ih1 ih2 =>
    refine ⟨fun ⟨l, r, h'⟩ => (by cases get_inj hh h'), fun _ t ht => ?_⟩
    rcases List.mem_append.1 ht with ht | ht
    · obtain ⟨t', _, rfl⟩ := List.mem_map.1 ht
      exact id
    · cases h2 with
      | endSum => simp at ht
      | summand h' _ _ _ => exact ih2.2 (fun ⟨l, r, h''⟩ => by cases get_inj h' h'') t ht

/-- What the tables must provide for evaluation. -/
structure Tables (info : ForestInfo) (E : Evaluator α) (nv : Nat → List α) (nc : Nat → Nat) (G : List Nat) (k : Nat) : Prop where
  eval : info.eval.length < 2 ^ 32
  elim : info.nullingEliminated.length < 2 ^ 32
  cover : k ≤ info.nullingEliminated.length
  null : ∀ (d s : Nat) dir, info.nullingEliminated[d]? = some (some (s, dir)) →
    s * 9 < 2 ^ 32 ∧ Ev info E G false (s * 9) (nv s) (nc s)

/-- One product or summand: the new arguments and their cost. -/
theorem factors {G : List Nat} {k d f m : Nat} {u : List α} {ts : List PTree} (hT : Tables info E nv nc G k)
    (hc : ∀ t ∈ ts.map (PTree.node d), Covered k t) (hd : DenAt G false f ts)
    (hm : m ≤ (ts.map (treeCost info nc)).sum) (hu : ∀ t, ts = [t] → u = treeVals info E nv t) :
    ∃ a e, ((Fixed info G d f ∧ a = u ∧ e = m) ∨ ∃ s dir x j, ¬ IsRule G f ∧ d ≠ nullAction ∧
        info.nullingEliminated[d]? = some (some (s, dir)) ∧ s * 9 < 2 ^ 32 ∧ Ev info E G false (s * 9) x j ∧
        a = (if dir then u ++ x else x ++ u) ∧ e = m + j) ∧
      e + 1 ≤ ((ts.map (PTree.node d)).map (treeCost info nc)).sum ∧
      ∀ t, ts.map (PTree.node d) = [t] → finish info E d a = treeVals info E nv t := by
  have hne := hd.ne_nil.resolve_right (by simp)
  have hdk : d < info.nullingEliminated.length := by
    obtain ⟨t, ht⟩ := List.exists_mem_of_ne_nil _ hne
    exact Nat.lt_of_lt_of_le (hc _ (List.mem_map.2 ⟨t, ht, rfl⟩)).1 hT.cover
  have hda : d ≠ nullAction := by have := hT.elim; unfold nullAction; omega
  obtain ⟨hp1, hp2⟩ := den_pair hd
  rw [List.map_map]
  by_cases hr : IsRule G f
  · refine ⟨u, m, .inl ⟨.inl hr, rfl, rfl⟩, ?_, ?_⟩
    · refine Nat.le_trans (Nat.add_le_add_right hm 1) (Nat.le_trans (sum_map_add ts _ 1 hne) (sum_map_le ?_))
      intro t ht
      rw [Function.comp, (treeVals_pair (E := E) (nv := nv) (hp1 hr t ht)).2]
    · intro t ht
      obtain ⟨t', rfl, rfl⟩ := map_single ht
      rw [finish_eq hT.eval, hu t' rfl, (treeVals_pair (nc := nc) (hp1 hr t' (by simp))).1]
  · have hn := hp2 hr
    cases he : info.nullingEliminated[d] with
    | none =>
      have he' : info.nullingEliminated[d]? = some none := by rw [List.getElem?_eq_getElem hdk, he]
      have hrem : info.removed d = none := by unfold ForestInfo.removed; rw [he']; rfl
      refine ⟨u, m, .inl ⟨.inr (.inr he'), rfl, rfl⟩, ?_, ?_⟩
      · refine Nat.le_trans (Nat.add_le_add_right hm 1) (Nat.le_trans (sum_map_add ts _ 1 hne) (sum_map_le ?_))
        intro t ht
        rw [Function.comp, (treeVals_other (E := E) (nv := nv) (hn t ht)).2, hrem]
        simp
      · intro t ht
        obtain ⟨t', rfl, rfl⟩ := map_single ht
        rw [finish_eq hT.eval, hu t' rfl, (treeVals_other (nc := nc) (hn t' (by simp))).1, hrem]
    | some p =>
      obtain ⟨s, dir⟩ := p
      have he' : info.nullingEliminated[d]? = some (some (s, dir)) := by rw [List.getElem?_eq_getElem hdk, he]
      have hrem : info.removed d = some (s, dir) := by unfold ForestInfo.removed; rw [he']; rfl
      obtain ⟨hs, hv2⟩ := hT.null d s dir he'
      refine ⟨_, _, .inr ⟨s, dir, nv s, nc s, hr, hda, he', hs, hv2, rfl, rfl⟩, ?_, ?_⟩
      · rw [Nat.add_assoc]
        refine Nat.le_trans (Nat.add_le_add_right hm (nc s + 1)) (Nat.le_trans (sum_map_add ts _ _ hne) (sum_map_le ?_))
        intro t ht
        rw [Function.comp, (treeVals_other (E := E) (nv := nv) (hn t ht)).2, hrem, Nat.add_assoc]
      · intro t ht
        obtain ⟨t', rfl, rfl⟩ := map_single ht
        rw [finish_eq hT.eval, hu t' rfl, (treeVals_other (nc := nc) (hn t' (by simp))).1, hrem]
        cases dir <;> rfl

/-- Every node that represents trees has values; if it represents a single tree, those of the tree. -/
theorem ev_of_den {G : List Nat} {k : Nat} (hT : Tables info E nv nc G k) {c : Bool} {h : Nat} {ts : List PTree}
    (hd : DenAt G c h ts) : (∀ t ∈ ts, Covered k t) →
    ∃ u n, Ev info E G c h u n ∧ n ≤ (ts.map (treeCost info nc)).sum ∧ (ts = [] → u = []) ∧
      ∀ t, ts = [t] → u = treeVals info E nv t := by
  induction hd with
  | @leaf h s v hh =>
    intro _
    refine ⟨_, _, .leaf hh, by simp [treeCost], by simp, ?_⟩
    rintro t ht
    rw [List.cons.injEq] at ht
    rw [← ht.1, treeVals]
  | nulling h => intro hc; exact absurd (hc _ List.mem_cons_self) id
  | @rule h l r ls rs hh hl hr ih1 ih2 =>
    intro hc
    have n1 := hl.ne_nil.resolve_right (by simp)
    have n2 := hr.ne_nil.resolve_right (by simp)
    obtain ⟨hc1, hc2⟩ := pairs_covered n1 n2 hc
    obtain ⟨u, m, h1, h2, _, h3⟩ := ih1 hc1
    obtain ⟨v, n, k1, k2, _, k3⟩ := ih2 hc2
    refine ⟨_, _, .rule hh h1 k1, Nat.le_trans (Nat.add_le_add h2 k2) (sum_pairs_le _ _ n1 n2), ?_, ?_⟩
    · intro he; exact absurd he (Simple.pairs_ne_nil n1 n2)
    intro t ht
    obtain ⟨a, b, rfl, rfl, rfl⟩ := pairs_single ht
    rw [treeVals, h3 a rfl, k3 b rfl]
  | @product h f ts hh hd ih =>
    intro hc
    obtain ⟨t, ht⟩ := List.exists_mem_of_ne_nil _ (hd.ne_nil.resolve_right (by simp))
    have hdk := Nat.lt_of_lt_of_le (hc _ (List.mem_map.2 ⟨t, ht, rfl⟩)).1 hT.cover
    have := hT.elim
    unfold nullAction at hdk
    omega
  | single h _ ih =>
    intro hc
    obtain ⟨u, n, h1, h2⟩ := ih hc
    exact ⟨u, n, .single h h1, h2⟩
  | beginSum h h0 _ _ ih =>
    intro hc
    obtain ⟨u, n, h1, h2⟩ := ih hc
    exact ⟨u, n, .beginSum h h0 h1, h2⟩
  | endSum h => intro _; exact ⟨[], 0, .endSum h, by simp, by simp, by simp⟩
  | @summand h d f z ts us hh hz hd1 hd2 ih1 ih2 =>
    intro hc
    obtain ⟨u, m, h1, h2, _, h3⟩ := ih1 fun t ht => (hc (.node d t) (List.mem_append_left _ (List.mem_map.2 ⟨t, ht, rfl⟩))).2
    obtain ⟨v, n, k1, k2, k3, k4⟩ := ih2 fun t ht => hc t (List.mem_append_right _ ht)
    obtain ⟨a, e, h4, h5, h6⟩ := factors hT (fun t ht => hc t (List.mem_append_left _ ht)) hd1 h2 h3
    have hne : ts.map (PTree.node d) ≠ [] := by simpa using hd1.ne_nil.resolve_right (by simp)
    refine ⟨finish info E d a ++ v, e + 1 + n, ?_, ?_, ?_, ?_⟩
    · rcases h4 with ⟨g1, rfl, rfl⟩ | ⟨s, dir, x, j, g1, g2, g3, g4, g5, rfl, rfl⟩
      · exact .summand hh hz g1 h1 k1
      · exact .removed hh hz g1 g2 g3 g4 h1 g5 k1
    · rw [List.map_append, List.sum_append]; omega
    · intro he; rw [List.append_eq_nil_iff] at he; exact absurd he.1 hne
    · intro t ht
      rcases hts : ts.map (PTree.node d) with _ | ⟨x, xs⟩
      · exact absurd hts hne
      · rw [hts, List.cons_append, List.cons.injEq, List.append_eq_nil_iff] at ht
        obtain ⟨rfl, rfl, rfl⟩ := ht
        rw [k3 rfl, List.append_nil]
        exact h6 _ hts

/-- `evaluate` at a node for the wrapping rule returns the values of the inner root. -/
theorem evaluate_run {b : Bocage} {x r n : Nat} {u : List α} (hroot : b.evalRoot x = (pure (.inl r) : M (Nat ⊕ List α)))
    (hv : Ev b.info E b.graph false r u n) (hg : b.graph.length + 9 * n < 2 ^ 32) :
    ∃ b', b.evaluate E x = pure (b', u) ∧ b'.info = b.info ∧ b.graph <+: b'.graph ∧
      b'.graph.length ≤ b.graph.length + 9 * n := by
  obtain ⟨st', h1⟩ := runs n false (info := b.info) (E := E) (st := { b := b, results := [], stack := evalStack r })
    (S := [{ node := nullHandle, parent := 0 }]) (h := r) (p := 0) rfl (by simp) rfl hv hg (by simp; omega)
  obtain ⟨w, idx, h2, h3, h4, h5, _⟩ := h1.pushed.stk
  cases h2
  have hst : st'.stack = [{ node := nullHandle, parent := 0, results := idx }] := by rw [h3]; rfl
  refine ⟨st'.b, ?_, h1.binfo, h1.pre, h1.len⟩
  unfold Bocage.evaluate Bocage.evaluateWith
  rw [hroot, pure_bind]
  simp only
  rw [h1.steps.loop, loop_inr (b := st') (by unfold Eval.step; rw [if_neg (by rw [hst]; simp)]), pure_bind, hst]
  simp only [indexM, List.getElem?_cons_zero, pure_bind]
  rw [takeResults_eq E.dflt h4 h5]; rfl

end Gearley.Compact
