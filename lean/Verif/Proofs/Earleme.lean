import Verif.Proofs.Facts

/-! # Scanning and completing one position -/

namespace Gearley
open Gearley.Spec

/-- Trees contributed by a summand. -/
def sumTrees (it : TItem) : List PTree := it.node.map (.node it.dot)

/-- Lexicographic order of groups: origin, then symbol. -/
def KeyLt (a b : Nat × Nat) : Prop := a.1 < b.1 ∨ (a.1 = b.1 ∧ a.2 < b.2)

/-- The group of an item. -/
def keyOf (R : Rules) (it : TItem) : Nat × Nat := (it.origin, lhsOf R it.dot)

theorem peek_max {l : List TItem} (hl : Heap.IsHeap l) {top : TItem} (h : Heap.peek l = some top) :
    ∀ it ∈ l, it.le top = true := by
  intro it hit
  obtain ⟨i, hi, rfl⟩ := List.getElem_of_mem hit
  have : l[0]'(by omega) = top := by
    simp only [Heap.peek] at h
    rw [List.getElem?_eq_getElem (by omega)] at h
    simpa using h
  rw [← this]
  exact hl.root_max i hi

theorem lhs_mono {g : DefaultGrammar} {R : Rules} {root : Nat → Nat} (hg : GrammarOK g R root) {d d' : Nat} {r r' : Rule}
    (h : R[d]? = some r) (h' : R[d']? = some r') (hle : d ≤ d') : r.lhs ≤ r'.lhs := by
  rcases Nat.lt_or_eq_of_le hle with hlt | rfl
  · have hd : d < R.length := by rw [List.getElem?_eq_some_iff] at h; exact h.1
    have hd' : d' < R.length := by rw [List.getElem?_eq_some_iff] at h'; exact h'.1
    have := (List.pairwise_iff_getElem.1 hg.sorted) d d' hd hd' hlt
    rw [List.getElem?_eq_getElem hd] at h
    rw [List.getElem?_eq_getElem hd'] at h'
    simp only [Option.some.injEq] at h h'
    rwa [h, h'] at this
  · rw [h] at h'; simp only [Option.some.injEq] at h'; rw [h']

/-- Items ordered by the queue have ordered groups. -/
theorem key_mono {g : DefaultGrammar} {R : Rules} {root : Nat → Nat} (hg : GrammarOK g R root) {a b : TItem}
    (ha : ∃ r, R[a.dot]? = some r) (hb : ∃ r, R[b.dot]? = some r) (h : a.le b = true) :
    KeyLt (keyOf R a) (keyOf R b) ∨ keyOf R a = keyOf R b := by
  obtain ⟨r, hr⟩ := ha
  obtain ⟨r', hr'⟩ := hb
  rw [Item.le_iff] at h
  simp only [keyOf, KeyLt, lhsOf_eq hr, lhsOf_eq hr', Prod.mk.injEq]
  rcases h with h | ⟨h1, h2⟩
  · exact Or.inl (Or.inl h)
  · have := lhs_mono hg hr hr' h2
    omega

/-- The completed items that the loop of `complete_entire_sum` takes from the queue. -/
theorem summandLoop_spec {g : DefaultGrammar} {R : Rules} {root : Nat → Nat} (hg : GrammarOK g R root) {la sorter}
    (o A : Nat) (fuel : Nat) (s : TRec) (hh : Heap.IsHeap s.complete) (hfuel : s.complete.length ≤ fuel)
    (hr : ∀ it ∈ s.complete, ∃ r, R[it.dot]? = some r) :
    Returns (Rec.summandLoop (treeEnv g la sorter) o A fuel s) fun s' => ∃ G,
      s' = { s with complete := s'.complete, forest := s.forest ++ G.flatMap sumTrees } ∧ Heap.IsHeap s'.complete ∧
      s.complete.Perm (G ++ s'.complete) ∧ (∀ it ∈ G, keyOf R it = (o, A)) ∧
      (∀ top, Heap.peek s'.complete = some top → keyOf R top ≠ (o, A)) ∧
      (∀ top, Heap.peek s.complete = some top → keyOf R top = (o, A) → G ≠ []) := by
  induction fuel generalizing s with
  | zero =>
    have hnil : s.complete = [] := by simpa using hfuel
    refine returns_pure ⟨[], by simp, hh, by simp, by simp, ?_, ?_⟩ <;> simp [hnil, Heap.peek]
  | succ fuel ih =>
    simp only [Rec.summandLoop, Rec.nextSummand]
    cases hp : Heap.peek s.complete with
    | none =>
      simp only [pure_bind]
      refine returns_pure ⟨[], by simp, hh, by simp, by simp, ?_, ?_⟩ <;> simp [hp]
    | some top =>
      have hmem : top ∈ s.complete := List.mem_of_getElem? hp
      obtain ⟨r, hrr⟩ := hr top hmem
      have hlhs : (treeEnv g la sorter).g.getLhs top.dot = pure r.lhs := hg.getLhs _ _ hrr
      simp only [hlhs, pure_bind]
      have hkey : keyOf R top = (top.origin, r.lhs) := by simp [keyOf, lhsOf_eq hrr]
      by_cases hk : o = top.origin ∧ A = r.lhs
      · rw [if_pos hk]
        have hcons : ∃ tl, s.complete = top :: tl := by
          cases hc : s.complete with
          | nil => rw [hc] at hmem; simp at hmem
          | cons a tl => rw [hc] at hp; simp [Heap.peek] at hp; exact ⟨tl, by rw [hp]⟩
        obtain ⟨tl, htl⟩ := hcons
        have hpop : Returns (Heap.pop s.complete) (fun r => r.2 = some top ∧ s.complete.Perm (top :: r.1) ∧
            Heap.IsHeap r.1) := by
          rw [htl] at hh ⊢
          exact Heap.pop_spec (top :: tl) hh
        simp only [LawfulMonad.bind_assoc, pure_bind]
        refine returns_bind (hpop.mono ?_)
        rintro ⟨h1, x⟩ ⟨hx, hperm, hheap⟩
        simp only at hx hperm hheap
        simp only [Rec.pushSummand, treeEnv, treeForest, pure_bind]
        have hlen : h1.length ≤ fuel := by
          have := hperm.length_eq
          simp at this; omega
        have := ih { s with complete := h1, forest := s.forest ++ top.node.map (.node top.dot) } hheap hlen
          (fun it hit => hr it (hperm.mem_iff.2 (by simp [hit])))
        simp only [treeEnv, treeForest] at this
        refine this.mono ?_
        rintro s' ⟨G, e1, e2, e3, e4, e5, _⟩
        refine ⟨top :: G, ?_, e2, ?_, ?_, e5, by simp⟩
        · rw [e1]; simp [sumTrees]
        · exact hperm.trans (by simpa using e3)
        · intro it hit
          rcases List.mem_cons.1 hit with rfl | h
          · rw [hkey, hk.1, hk.2]
          · exact e4 it h
      · rw [if_neg hk]
        simp only [pure_bind]
        have hne : keyOf R top ≠ (o, A) := by
          rw [hkey]; intro h; apply hk
          simp only [Prod.mk.injEq] at h
          exact ⟨h.1.symm, h.2.symm⟩
        refine returns_pure ⟨[], by simp, hh, by simp, by simp, ?_, ?_⟩
        · intro t ht; rw [hp] at ht; simp only [Option.some.injEq] at ht; rw [← ht]; exact hne
        · intro t ht; simp only [Option.some.injEq] at ht; rw [← ht]; intro h; exact absurd h hne

namespace EC

/-- The environment of the run. -/
def E (c : EC) : Env (List PTree) (List PTree) := treeEnv c.g c.la c.sorter

/-- What is assumed about the state when a position starts. -/
structure OK (c : EC) : Prop where
  gok : GrammarOK c.g c.R c.root
  rows : c.S.length ≤ c.pm.rows.length
  width : c.pm.width = c.g.syms
  rowLen : ∀ row ∈ c.pm.rows, row.length = c.g.syms
  hint : ∀ h, c.hint = some h → h < c.g.syms
  sets : ∀ l ∈ c.S, SetOK c.R l
  node : ∀ l ∈ c.S, ∀ it ∈ l, it.node ≠ []
  origin : ∀ (k : Nat) (l : List TItem), c.S[k]? = some l → ∀ it ∈ l, it.origin < k

/-- State while a position is processed: `scans` are the tokens scanned so far, `Fd` all finished symbols acted upon,
`popped` the completed facts taken from the queue. -/
structure Mid (c : EC) (scans : Multiset Done) (s : TRec) (Fd : Multiset Done) (popped : Multiset Fact)
    (cur : List TItem) : Prop where
  medial : s.medial = Vec2d.ofSets (c.S ++ [cur])
  heap : Heap.IsHeap s.complete
  pred : s.predicted = c.pm
  look : s.lookahead = c.hint
  fd : Fd = scans + popped.map (fire c.R)
  hf : facts s.complete + popped = Fd.bind c.consH
  cf : facts cur = Fd.bind c.consM
  hitems : ∀ it ∈ s.complete, it.node ≠ [] ∧ it.origin < c.S.length ∧ ∃ r, c.R[it.dot]? = some r
  citems : ∀ it ∈ cur, it.node ≠ [] ∧ it.origin < c.S.length ∧ ∃ A B C, c.R[it.dot]? = some ⟨A, B, some C⟩

variable {c : EC}

theorem OK.shape (hc : c.OK) {scans s Fd popped cur} (h : c.Mid scans s Fd popped cur) : Shape c.g c.R s c.S cur where
  medial := h.medial
  heap := h.heap
  rows := by rw [h.pred]; exact hc.rows
  width := by rw [h.pred]; exact hc.width
  rowLen := by rw [h.pred]; exact hc.rowLen
  hint := by rw [h.look]; exact hc.hint
  sets := hc.sets

theorem pairs_ne_nil {l r : List PTree} (hl : l ≠ []) (hr : r ≠ []) : pairs l r ≠ [] := by
  cases l with
  | nil => exact absurd rfl hl
  | cons a l => cases r with
    | nil => exact absurd rfl hr
    | cons b r => simp [pairs]

theorem heapNew_items (hc : c.OK) {o A : Nat} (ho : o < c.S.length) {N : List PTree} (hN : N ≠ []) :
    ∀ it ∈ heapNew c.g c.R c.root c.la c.hint c.pm c.S o A N,
      it.node ≠ [] ∧ it.origin ≤ o ∧ ∃ r, c.R[it.dot]? = some r ∧
      (it.origin < o ∨ (it.origin = o ∧ r.rhs1 = none ∧ r.rhs0 = A)) := by
  intro it hit
  simp only [heapNew] at hit
  split at hit
  · rcases List.mem_append.1 hit with h | h
    · simp only [medPart, List.mem_map, List.mem_filter] at h
      obtain ⟨x, ⟨hx, _⟩, rfl⟩ := h
      have hget : c.S[o]? = some c.S[o] := by simp [ho]
      rw [hget, Option.getD_some] at hx
      have hmem := List.getElem_mem ho
      obtain ⟨A', B', C', hr⟩ := (hc.sets _ hmem).binary x hx
      have := hc.origin o _ hget x hx
      exact ⟨pairs_ne_nil (hc.node _ hmem x hx) hN, by simp only; omega, _, hr, Or.inl this⟩
    · simp only [unPart, List.mem_map, List.mem_filter] at h
      obtain ⟨p, ⟨hp, _⟩, rfl⟩ := h
      obtain ⟨r, h1, h2, h3, _⟩ := mem_unTrans.1 hp
      exact ⟨hN, Nat.le_refl _, r, h1, Or.inr ⟨rfl, h3, h2⟩⟩
  · simp at hit

theorem medNew_items {o A : Nat} {N : List PTree} (hN : N ≠ []) :
    ∀ it ∈ medNew c.g c.R c.root c.la c.hint c.pm o A N,
      it.node ≠ [] ∧ it.origin = o ∧ ∃ A B C, c.R[it.dot]? = some ⟨A, B, some C⟩ := by
  intro it hit
  simp only [medNew] at hit
  split at hit
  · simp only [binPart, List.mem_map, List.mem_filter] at hit
    obtain ⟨p, ⟨hp, _⟩, rfl⟩ := hit
    obtain ⟨⟨A', B', C'⟩, h1, h2, h3, _⟩ := mem_binTrans.1 hp
    obtain ⟨C, rfl⟩ := Option.isSome_iff_exists.1 h3
    exact ⟨hN, rfl, _, _, _, h1⟩
  · simp at hit

theorem Mid.complete (hc : c.OK) {scans scans' s Fd Fd' popped popped' cur} (h : c.Mid scans s Fd popped cur)
    {o A : Nat} (ho : o < c.S.length) (hA : A < c.g.syms + c.g.gensyms) {N : List PTree} (hN : N ≠ [])
    {s0 : TRec} (hs0 : s0 = { s with complete := s0.complete, forest := s0.forest }) (hheap : Heap.IsHeap s0.complete)
    (hsub : ∀ it ∈ s0.complete, it ∈ s.complete)
    (hfd : Fd' = Fd + (N : Multiset PTree).map fun t => (A, o, t))
    (hfd' : Fd' = scans' + popped'.map (fire c.R))
    (hp : facts s0.complete + popped' = facts s.complete + popped) :
    Returns (Rec.completeSym c.E s0 o A N) fun s' =>
      c.Mid scans' s' Fd' popped' (cur ++ medNew c.g c.R c.root c.la c.hint c.pm o A N) ∧ s'.forest = s0.forest ∧
      s'.complete.Perm (s0.complete ++ heapNew c.g c.R c.root c.la c.hint c.pm c.S o A N) := by
  have hmed : s0.medial = s.medial := by rw [hs0]
  have hpr : s0.predicted = s.predicted := by rw [hs0]
  have hla : s0.lookahead = s.lookahead := by rw [hs0]
  have hsh : Shape c.g c.R s0 c.S cur := by
    have := hc.shape h
    exact ⟨hmed ▸ this.medial, hheap, hpr ▸ this.rows, hpr ▸ this.width, hpr ▸ this.rowLen, hla ▸ this.hint, this.sets⟩
  refine (completeSym_spec hc.gok hsh ho hA N (la := c.la) (sorter := c.sorter)).mono ?_
  rintro s' ⟨h1, h2, h3⟩
  rw [hla, h.look, hpr, h.pred] at h1 h3
  refine ⟨⟨?_, h2, ?_, ?_, hfd', ?_, ?_, ?_, ?_⟩, by rw [h1], h3⟩
  · rw [h1]
  · rw [h1]
  · rw [h1]
  · rw [facts_perm h3, facts_append, c.facts_heapNew, hfd, Multiset.add_bind, Multiset.bind_map, ← h.hf, ← hp]
    simp only [add_assoc, add_comm, add_left_comm]
  · rw [facts_append, c.facts_medNew, hfd, Multiset.add_bind, Multiset.bind_map, h.cf]
  · intro it hit
    rcases List.mem_append.1 (h3.mem_iff.1 hit) with h' | h'
    · exact h.hitems it (hsub it h')
    · obtain ⟨a1, a2, r, a3, _⟩ := heapNew_items hc ho hN it h'
      exact ⟨a1, by omega, r, a3⟩
  · intro it hit
    rcases List.mem_append.1 hit with h' | h'
    · exact h.citems it h'
    · obtain ⟨a1, a2, a3⟩ := medNew_items hN it h'
      exact ⟨a1, by omega, a3⟩

theorem Mid.earleme {scans s Fd popped cur} (h : c.Mid scans s Fd popped cur) (hS : 0 < c.S.length) :
    s.earleme = c.S.length - 1 := by
  rw [Rec.earleme, h.medial, Vec2d.len_eq, wrappingSub2]
  simp only [List.length_append, List.length_singleton]
  rw [if_pos (by omega)]; omega

/-- `scan`. -/
theorem Mid.scan (hc : c.OK) {scans s cur} (h : c.Mid scans s scans 0 cur) (hS : 0 < c.S.length)
    (hlen : c.S.length < 2 ^ 64) {a v : Nat} (ha : a < c.g.syms + c.g.gensyms) :
    Returns (Rec.scan c.E s a v) fun s' =>
      c.Mid (scans + {(a, c.S.length - 1, .leaf a v)}) s' (scans + {(a, c.S.length - 1, .leaf a v)}) 0
        (cur ++ medNew c.g c.R c.root c.la c.hint c.pm (c.S.length - 1) a [.leaf a v]) ∧
      s'.complete.Perm (s.complete ++ heapNew c.g c.R c.root c.la c.hint c.pm c.S (c.S.length - 1) a [.leaf a v]) := by
  have he := h.earleme hS
  have hne : (c.S.length - 1 != maxUsize) = true := by
    simp only [maxUsize, bne_iff_ne, ne_eq]; omega
  simp only [Rec.scan, he, assertM_true hne, pure_bind]
  have hleaf : c.E.F.leaf s.forest a (c.S.length - 1 + 1) v = pure (s.forest, [.leaf a v]) := rfl
  rw [hleaf, pure_bind]
  refine (Mid.complete hc h (scans' := scans + {(a, c.S.length - 1, .leaf a v)}) (popped' := 0)
    (Fd' := scans + {(a, c.S.length - 1, .leaf a v)}) (o := c.S.length - 1) (by omega) ha (N := [.leaf a v]) (by simp)
    (s0 := s) rfl h.heap (fun _ h => h) (by simp) (by simp) (by simp)).mono ?_
  rintro s' ⟨hm, _, hp⟩
  exact ⟨hm, hp⟩

/-- The trees of a group, as a multiset of finished symbols. -/
theorem group_fire {R : Rules} {G : List TItem} {o A : Nat} (hG : ∀ it ∈ G, keyOf R it = (o, A)) :
    (G.flatMap sumTrees : Multiset PTree).map (fun t => ((A, o, t) : Done)) = (facts G).map (fire R) := by
  induction G with
  | nil => simp
  | cons it G ih =>
    have hk := hG it (by simp)
    simp only [keyOf, Prod.mk.injEq] at hk
    rw [List.flatMap_cons, ← Multiset.coe_add, Multiset.map_add, facts_cons, Multiset.map_add,
      ih (fun x hx => hG x (by simp [hx]))]
    congr 1
    simp only [sumTrees, itemFacts, ← Multiset.map_coe, Multiset.map_map, Function.comp_def, fire, hk]

/-- One round of `complete_all_sums_entirely`. -/
theorem Mid.step (hc : c.OK) {scans s Fd popped cur} (h : c.Mid scans s Fd popped cur) :
    Returns (Rec.completeStep c.E s) fun r => match r with
      | .inr s' => s.complete = [] ∧ s' = s.clearHint
      | .inl s' => ∃ G rest o A Fd' popped' cur', c.Mid scans s' Fd' popped' cur' ∧
          o < c.S.length ∧ G ≠ [] ∧ s.complete.Perm (G ++ rest) ∧ (∀ it ∈ G, keyOf c.R it = (o, A)) ∧
          (∀ it ∈ rest, KeyLt (keyOf c.R it) (o, A)) ∧
          s'.complete.Perm (rest ++ heapNew c.g c.R c.root c.la c.hint c.pm c.S o A (G.flatMap sumTrees)) ∧
          Fd' = Fd + (facts G).map (fire c.R) ∧
          cur' = cur ++ medNew c.g c.R c.root c.la c.hint c.pm o A (G.flatMap sumTrees) := by
  have hheap := h.heap
  simp only [Rec.completeStep, Rec.nextSum]
  cases hp : Heap.peek s.complete with
  | none =>
    simp only [pure_bind]
    refine returns_pure ⟨?_, rfl⟩
    simpa [Heap.peek] using hp
  | some top =>
    have hmem : top ∈ s.complete := List.mem_of_getElem? hp
    obtain ⟨_, hto, r, hrr⟩ := h.hitems top hmem
    have hlhs : c.E.g.getLhs top.dot = pure r.lhs := hc.gok.getLhs _ _ hrr
    simp only [hlhs, pure_bind, Rec.completeEntireSum, LawfulMonad.bind_assoc]
    have hbegin : c.E.F.beginSum s.forest = pure [] := rfl
    rw [hbegin]
    simp only [pure_bind]
    have hkey : keyOf c.R top = (top.origin, r.lhs) := by simp [keyOf, lhsOf_eq hrr]
    refine returns_bind ((summandLoop_spec hc.gok (la := c.la) (sorter := c.sorter) top.origin r.lhs s.complete.length
      { s with forest := [] } hheap (Nat.le_refl _) (fun it hit => (h.hitems it hit).2.2)).mono ?_)
    rintro s1 ⟨G, e1, e2, e3, e4, e5, e6⟩
    simp only at e3
    have hG := e6 top hp hkey
    simp only [Rec.completeSum, LawfulMonad.bind_assoc]
    have hsum : c.E.F.sum s1.forest r.lhs top.origin = pure (s1.forest, s1.forest) := rfl
    rw [hsum, pure_bind]
    have hforest : s1.forest = G.flatMap sumTrees := by rw [e1]; simp
    have hN : G.flatMap sumTrees ≠ [] := by
      cases G with
      | nil => exact absurd rfl hG
      | cons it G =>
        have := (h.hitems it (e3.mem_iff.2 (by simp))).1
        simp [sumTrees, this]
    rw [hforest]
    have hs1 : ({ s1 with forest := G.flatMap sumTrees } : TRec) = s1 := by rw [← hforest]
    simp only [hs1]
    refine returns_bind ((Mid.complete hc h (scans' := scans) (popped' := popped + facts G)
      (Fd' := Fd + (facts G).map (fire c.R)) (o := top.origin) hto (hc.gok.lhs_lt r (List.mem_of_getElem? hrr)) hN
      (s0 := s1) (by rw [e1]) e2 (fun it hit => e3.mem_iff.2 (by simp [hit])) (by rw [group_fire e4])
      (by rw [h.fd, Multiset.map_add, add_assoc]) (by
        rw [facts_perm e3, facts_append]
        simp only [add_assoc, add_comm, add_left_comm])).mono ?_)
    rintro s2 ⟨hm, _, hperm⟩
    simp only [pure_bind]
    refine returns_pure ⟨G, s1.complete, top.origin, r.lhs, _, _, _, hm, hto, hG, e3, e4, ?_, hperm, rfl, rfl⟩
    intro it hit
    have hits : it ∈ s.complete := e3.mem_iff.2 (by simp [hit])
    cases hp1 : Heap.peek s1.complete with
    | none => simp [Heap.peek] at hp1; rw [hp1] at hit; simp at hit
    | some top1 =>
      have hmem1 : top1 ∈ s1.complete := List.mem_of_getElem? hp1
      have hmem1' : top1 ∈ s.complete := e3.mem_iff.2 (by simp [hmem1])
      have hne := e5 top1 hp1
      have k1 := key_mono hc.gok (h.hitems top1 hmem1').2.2 ⟨r, hrr⟩ (peek_max hheap hp top1 hmem1')
      have k2 := key_mono hc.gok (h.hitems it hits).2.2 (h.hitems top1 hmem1').2.2 (peek_max e2 hp1 it hit)
      rw [hkey] at k1
      rcases k1 with k1 | k1
      · rcases k2 with k2 | k2
        · simp only [KeyLt] at k1 k2 ⊢; omega
        · rw [k2]; exact k1
      · exact absurd k1 hne

/-! ### Termination -/

/-- Weight of an item in the queue. -/
def weight (R : Rules) (rank : Nat → Nat) (B K : Nat) (it : TItem) : Nat :=
  (B + 1) ^ (it.origin * K + rank (lhsOf R it.dot))

theorem sum_lt_pow {R : Rules} {rank : Nat → Nat} {B K : Nat} {l : List TItem} {e : Nat} (hl : l.length ≤ B)
    (h : ∀ it ∈ l, it.origin * K + rank (lhsOf R it.dot) < e) :
    (l.map (weight R rank B K)).sum < (B + 1) ^ e := by
  cases e with
  | zero =>
    cases l with
    | nil => simp
    | cons it l => exact absurd (h it (by simp)) (by omega)
  | succ e =>
    have : (l.map (weight R rank B K)).sum ≤ l.length * (B + 1) ^ e := by
      clear hl
      induction l with
      | nil => simp
      | cons it l ih =>
        have h1 := ih (fun x hx => h x (by simp [hx]))
        have h2 : weight R rank B K it ≤ (B + 1) ^ e :=
          Nat.pow_le_pow_right (by omega) (by have := h it (by simp); omega)
        simp only [List.map_cons, List.sum_cons, List.length_cons, Nat.add_mul, Nat.one_mul]
        omega
    calc _ ≤ l.length * (B + 1) ^ e := this
      _ ≤ B * (B + 1) ^ e := Nat.mul_le_mul_right _ hl
      _ < (B + 1) * (B + 1) ^ e := Nat.mul_lt_mul_of_pos_right (by omega) (Nat.pow_pos (by omega))
      _ = (B + 1) ^ (e + 1) := by rw [Nat.pow_succ, Nat.mul_comm]

theorem rank_bound (R : Rules) (rank : Nat → Nat) : ∃ K, ∀ r ∈ R, rank r.lhs < K := by
  induction R with
  | nil => exact ⟨0, by simp⟩
  | cons r R ih =>
    obtain ⟨K, hK⟩ := ih
    refine ⟨K + rank r.lhs + 1, ?_⟩
    intro x hx
    rcases List.mem_cons.1 hx with rfl | h
    · omega
    · have := hK x h; omega

theorem set_bound (S : List (List TItem)) : ∃ B, ∀ o : Nat, (S[o]?.getD []).length ≤ B := by
  induction S with
  | nil => exact ⟨0, by simp⟩
  | cons l S ih =>
    obtain ⟨B, hB⟩ := ih
    refine ⟨B + l.length, ?_⟩
    intro o
    cases o with
    | zero => simp
    | succ o => have := hB o; simp only [List.getElem?_cons_succ]; omega

theorem heapNew_length {o A : Nat} {N : List PTree} :
    (heapNew c.g c.R c.root c.la c.hint c.pm c.S o A N).length ≤ (c.S[o]?.getD []).length + c.R.length := by
  simp only [heapNew]
  split
  · rw [List.length_append, medPart, unPart, List.length_map, List.length_map]
    have h1 := List.length_filter_le (fun it => decide (rhs1Of c.R it.dot = some A) && okM c.g c.R c.la c.hint it.dot)
      (c.S[o]?.getD [])
    have h2 := List.length_filter_le (fun p => c.pm.bit o p.symbol && (decide (c.g.syms ≤ A) ||
      okP c.g c.R c.la c.hint p.dot)) (unTrans c.R c.root A)
    have h3 : (unTrans c.R c.root A).length ≤ c.R.length := by
      rw [unTrans, List.length_map]
      exact (List.length_filter_le _ _).trans (by simp)
    omega
  · simp

/-- Unary rules do not form a cycle. -/
def Ranked (R : Rules) (rank : Nat → Nat) : Prop := ∀ r ∈ R, r.rhs1 = none → rank r.lhs < rank r.rhs0

/-- Outcome of the completion pass. -/
structure Ended (c : EC) (scans : Multiset Done) (s : TRec) (Fd : Multiset Done) (cur : List TItem) : Prop where
  medial : s.medial = Vec2d.ofSets (c.S ++ [cur])
  empty : s.complete = []
  pred : s.predicted = c.pm
  look : s.lookahead = none
  fd : Fd = scans + (Fd.bind c.consH).map (fire c.R)
  cf : facts cur = Fd.bind c.consM
  citems : ∀ it ∈ cur, it.node ≠ [] ∧ it.origin < c.S.length ∧ ∃ A B C, c.R[it.dot]? = some ⟨A, B, some C⟩

theorem Mid.ended {scans s Fd popped cur} (h : c.Mid scans s Fd popped cur) (he : s.complete = []) :
    c.Ended scans s.clearHint Fd cur where
  medial := h.medial
  empty := he
  pred := h.pred
  look := rfl
  fd := by
    have := h.hf
    rw [he, facts_nil, zero_add] at this
    rw [← this]; exact h.fd
  cf := h.cf
  citems := h.citems

/-- A relation between queue and new set that is preserved when a group is completed. -/
def StepKeeps (c : EC) (J : List TItem → List TItem → Prop) : Prop :=
  ∀ (heap heap' cur G rest : List TItem) (o A : Nat), J heap cur → G ≠ [] → heap.Perm (G ++ rest) →
    (∀ it ∈ heap, it.node ≠ [] ∧ it.origin < c.S.length ∧ ∃ r, c.R[it.dot]? = some r) →
    (∀ it ∈ G, keyOf c.R it = (o, A)) → (∀ it ∈ rest, KeyLt (keyOf c.R it) (o, A)) →
    heap'.Perm (rest ++ heapNew c.g c.R c.root c.la c.hint c.pm c.S o A (G.flatMap sumTrees)) →
    J heap' (cur ++ medNew c.g c.R c.root c.la c.hint c.pm o A (G.flatMap sumTrees))

/-- A relation that is established by scanning tokens and preserved by completion. -/
structure Keeps (c : EC) (toks : List (Nat × Nat)) (J : List (Nat × Nat) → List TItem → List TItem → Prop) : Prop where
  init : J [] [] []
  scan : ∀ (pre post : List (Nat × Nat)) (a v : Nat) (heap heap' cur : List TItem), toks = pre ++ (a, v) :: post →
    J pre heap cur → (∀ it ∈ heap, it.node ≠ [] ∧ it.origin < c.S.length ∧ ∃ r, c.R[it.dot]? = some r) →
    heap'.Perm (heap ++ heapNew c.g c.R c.root c.la c.hint c.pm c.S (c.S.length - 1) a [.leaf a v]) →
    J (pre ++ [(a, v)]) heap' (cur ++ medNew c.g c.R c.root c.la c.hint c.pm (c.S.length - 1) a [.leaf a v])
  step : c.StepKeeps (J toks)

theorem keeps_true (c : EC) (toks : List (Nat × Nat)) : c.Keeps toks fun _ _ _ => True :=
  ⟨trivial, fun _ _ _ _ _ _ _ _ _ _ _ => trivial, fun _ _ _ _ _ _ _ _ _ _ _ _ _ _ => trivial⟩

/-- A reason for the completion loop to end: symbols are ranked by the one-symbol rules that get completed. -/
def Settles (R : Rules) (J : List TItem → List TItem → Prop) : Prop := ∃ (D : Nat → Prop) (rank : Nat → Nat),
  (∀ heap cur, J heap cur → ∀ it ∈ heap, D it.dot) ∧
  ∀ (d : Nat) r, R[d]? = some r → r.rhs1 = none → D d → rank r.lhs < rank r.rhs0

theorem Ranked.settles {R : Rules} {rank : Nat → Nat} (h : Ranked R rank) (J : List TItem → List TItem → Prop) :
    Settles R J :=
  ⟨fun _ => True, rank, fun _ _ _ _ _ => trivial, fun _ r hr h1 _ => h r (List.mem_of_getElem? hr) h1⟩

/-- `complete_all_sums_entirely` does not panic, and returns when unary rules are acyclic. -/
theorem completeAll_spec' (hc : c.OK) {scans s Fd popped cur}
    (h : c.Mid scans s Fd popped cur) (J : List TItem → List TItem → Prop) {lax : Prop} (hterm : lax ∨ Settles c.R J)
    (hJ0 : J s.complete cur) (hJ : c.StepKeeps J) :
    Ends lax (Rec.completeAll c.E s) fun s' => ∃ Fd' cur', c.Ended scans s' Fd' cur' ∧ J [] cur' := by
  rcases hterm with hlax | ⟨D, rank, hD, hrank⟩
  · refine (loop_ends (fun s => ∃ Fd popped cur, c.Mid scans s Fd popped cur ∧ J s.complete cur)
      (fun s' => ∃ Fd' cur', c.Ended scans s' Fd' cur' ∧ J [] cur') ?_ s ⟨Fd, popped, cur, h, hJ0⟩).imp id
      fun h => ⟨hlax, h.2⟩
    rintro s ⟨Fd, popped, cur, h, hJs⟩
    refine (Mid.step hc h).mono ?_
    rintro (s' | s')
    · rintro ⟨G, rest, o, A, Fd', popped', cur', hm, ho, hG, hperm, hkey, hrest, hperm', _, hcur⟩
      exact ⟨_, _, _, hm, by rw [hcur]; exact hJ _ _ _ G rest o A hJs hG hperm h.hitems hkey hrest hperm'⟩
    · rintro ⟨he, rfl⟩
      exact ⟨_, _, h.ended he, by rw [← he]; exact hJs⟩
  refine .inl ?_
  obtain ⟨K, hK⟩ := rank_bound c.R rank
  obtain ⟨B0, hB0⟩ := set_bound c.S
  let B := B0 + c.R.length
  refine loop_returns (fun s => ∃ Fd popped cur, c.Mid scans s Fd popped cur ∧ J s.complete cur)
    (fun s => (s.complete.map (weight c.R rank B K)).sum) _ ?_ s ⟨Fd, popped, cur, h, hJ0⟩
  rintro s ⟨Fd, popped, cur, h, hJs⟩
  refine (Mid.step hc h).mono ?_
  rintro (s' | s')
  · rintro ⟨G, rest, o, A, Fd', popped', cur', hm, ho, hG, hperm, hkey, hrest, hperm', _, hcur⟩
    have hJ' : J s'.complete cur' := by
      rw [hcur]; exact hJ _ _ _ G rest o A hJs hG hperm h.hitems hkey hrest hperm'
    refine ⟨⟨_, _, _, hm, hJ'⟩, ?_⟩
    rw [(hperm.map _).sum_eq, (hperm'.map _).sum_eq]
    simp only [List.map_append, List.sum_append]
    obtain ⟨it, G, rfl⟩ := List.exists_cons_of_ne_nil hG
    have hk := hkey it (by simp)
    simp only [keyOf, Prod.mk.injEq] at hk
    have hN : ((it :: G).flatMap sumTrees) ≠ [] := by
      have := (h.hitems it (hperm.mem_iff.2 (by simp))).1
      simp [sumTrees, this]
    have hlt : ((heapNew c.g c.R c.root c.la c.hint c.pm c.S o A ((it :: G).flatMap sumTrees)).map
        (weight c.R rank B K)).sum < (B + 1) ^ (o * K + rank A) := by
      apply sum_lt_pow
      · have h1 := heapNew_length (c := c) (o := o) (A := A) (N := (it :: G).flatMap sumTrees)
        have h2 := hB0 o
        show _ ≤ B0 + c.R.length
        omega
      · intro x hx
        obtain ⟨_, _, r, hr, hcase⟩ := heapNew_items hc ho hN x hx
        have hDx := hD _ _ hJ' x (hperm'.mem_iff.2 (List.mem_append_right _ hx))
        rw [lhsOf_eq hr]
        have hb := hK r (List.mem_of_getElem? hr)
        rcases hcase with hlt | ⟨he, h1, h2⟩
        · have : (x.origin + 1) * K ≤ o * K := Nat.mul_le_mul_right _ hlt
          rw [Nat.add_mul, Nat.one_mul] at this
          omega
        · have := hrank x.dot r hr h1 hDx
          rw [he, ← h2]; omega
    have hw : weight c.R rank B K it = (B + 1) ^ (o * K + rank A) := by
      simp only [weight, hk.1, hk.2]
    simp only [List.map_cons, List.sum_cons, hw]
    omega
  · rintro ⟨he, rfl⟩
    exact ⟨_, _, h.ended he, by rw [← he]; exact hJs⟩

theorem completeAll_spec (hc : c.OK) {rank : Nat → Nat} (hrank : Ranked c.R rank) {scans s Fd popped cur}
    (h : c.Mid scans s Fd popped cur) :
    Returns (Rec.completeAll c.E s) fun s' => ∃ Fd' cur', c.Ended scans s' Fd' cur' :=
  (completeAll_spec' hc h (fun _ _ => True) (.inr (hrank.settles _)) trivial
    (fun _ _ _ _ _ _ _ _ _ _ _ _ _ _ => trivial)).returns.mono fun _ ⟨a, b, h, _⟩ => ⟨a, b, h⟩

end EC
end Gearley
