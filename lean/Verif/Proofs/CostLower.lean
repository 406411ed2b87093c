import Verif.Proofs.Quadratic

/-! # Lower bounds on the number of operations -/

namespace Gearley
open Gearley.Spec
variable {σ ν : Type} {E : Env σ ν}

namespace Rec

theorem completeMedialItem_ops {n : ν} {s s' : Rec (σ × Nat) ν} {item : Item ν}
    (h : completeMedialItem E.counting n s item = pure s') : s.forest.2 ≤ s'.forest.2 := by
  unfold completeMedialItem at h
  obtain ⟨u, _, h⟩ := bind_eq_pure h
  split at h
  · obtain ⟨⟨f, m⟩, h1, h⟩ := bind_eq_pure h
    obtain ⟨heap, h2, h⟩ := bind_eq_pure h
    rw [← pure_inj_M h]
    obtain ⟨⟨f', m'⟩, _, h3⟩ := bind_eq_pure (show (E.F.product s.forest.1 item.node n >>= fun r =>
      pure ((r.1, s.forest.2 + 1), r.2)) = pure (f, m) from h1)
    have := pure_inj_M h3
    simp only [Prod.mk.injEq] at this
    simp only [← this.1]
    omega
  · rw [← pure_inj_M h]

theorem completeMedialFold_ops {n : ν} {items : List (Item ν)} : ∀ {s s' : Rec (σ × Nat) ν},
    items.foldlM (completeMedialItem E.counting n) s = pure s' → s.forest.2 ≤ s'.forest.2 := by
  induction items with
  | nil => intro s s' h; rw [← pure_inj_M h]
  | cons x l ih =>
    intro s s' h
    rw [List.foldlM_cons] at h
    obtain ⟨s1, h1, h⟩ := bind_eq_pure h
    exact (completeMedialItem_ops h1).trans (ih h)

theorem completeSym_ops {n : ν} {s s' : Rec (σ × Nat) ν} {o A : Nat} (hleo : E.leo = false)
    (h : completeSym E.counting s o A n = pure s') : s.forest.2 ≤ s'.forest.2 := by
  unfold completeSym at h
  split at h
  · unfold completeGenerated at h
    obtain ⟨⟨b, u⟩, _, h⟩ := bind_eq_pure h
    obtain ⟨s1, h2, h⟩ := bind_eq_pure h
    have e1 : s1.forest = s.forest := by
      cases u with
      | none => rw [← pure_inj_M h2]
      | some t =>
        obtain ⟨p, _, h2⟩ := bind_eq_pure h2
        split at h2
        · obtain ⟨heap, _, h2⟩ := bind_eq_pure h2
          rw [← pure_inj_M h2]
        · rw [← pure_inj_M h2]
    have e2 : s'.forest = s1.forest := by
      cases b with
      | none => rw [← pure_inj_M h]
      | some t =>
        obtain ⟨p, _, h⟩ := bind_eq_pure h
        split at h
        · rw [← pure_inj_M h]
        · rw [← pure_inj_M h]
    rw [e2, e1]
  · obtain ⟨b, _, h⟩ := bind_eq_pure h
    cases b with
    | false =>
      simp only [Bool.false_eq_true, if_false] at h
      rw [← pure_inj_M h]
    | true =>
      simp only [if_true, show E.counting.leo = false from hleo, Bool.false_eq_true, if_false] at h
      obtain ⟨s1, h1, h⟩ := bind_eq_pure h
      have e1 : s.forest.2 ≤ s1.forest.2 := by
        unfold completeMedialItems at h1
        obtain ⟨set, _, h1⟩ := bind_eq_pure h1
        obtain ⟨items, _, h1⟩ := bind_eq_pure h1
        exact completeMedialFold_ops h1
      unfold completePredictions at h
      obtain ⟨last, _, h⟩ := bind_eq_pure h
      obtain ⟨comps, _, h⟩ := bind_eq_pure h
      obtain ⟨⟨s2, k⟩, h3, h⟩ := bind_eq_pure h
      obtain ⟨last', _, h⟩ := bind_eq_pure h
      obtain ⟨heap, _, h⟩ := bind_eq_pure h
      obtain ⟨extra, _, h⟩ := bind_eq_pure h
      obtain ⟨keep, _, h⟩ := bind_eq_pure h
      rw [← pure_inj_M h]
      have := (completePredictions_loop h3).1
      simp only at this ⊢
      rw [this]
      exact e1

theorem summandLoop_ops {o A : Nat} : ∀ (k : Nat) {s s' : Rec (σ × Nat) ν},
    summandLoop E.counting o A k s = pure s' → s.forest.2 ≤ s'.forest.2 := by
  intro k
  induction k with
  | zero => intro s s' h; rw [← pure_inj_M h]
  | succ k ih =>
    intro s s' h
    unfold summandLoop at h
    obtain ⟨⟨s1, x⟩, h1, h⟩ := bind_eq_pure h
    have e1 : s1.forest = s.forest := by
      unfold nextSummand at h1
      cases hp : Heap.peek s.complete with
      | none =>
        rw [hp] at h1
        have := pure_inj_M h1
        simp only [Prod.mk.injEq] at this
        rw [← this.1]
      | some ei =>
        rw [hp] at h1
        obtain ⟨l, _, h1⟩ := bind_eq_pure h1
        split at h1
        · obtain ⟨⟨heap, y⟩, _, h1⟩ := bind_eq_pure h1
          have := pure_inj_M h1
          simp only [Prod.mk.injEq] at this
          rw [← this.1]
        · have := pure_inj_M h1
          simp only [Prod.mk.injEq] at this
          rw [← this.1]
    cases x with
    | none => rw [← pure_inj_M h, e1]
    | some item =>
      obtain ⟨s2, h2, h⟩ := bind_eq_pure h
      have := ih h
      unfold pushSummand at h2
      obtain ⟨f, h3, h2⟩ := bind_eq_pure h2
      obtain ⟨f', _, h4⟩ := bind_eq_pure (show (E.F.pushSummand s1.forest.1 item >>= fun r =>
        pure (r, s1.forest.2 + 1)) = pure f from h3)
      rw [← pure_inj_M h2, ← pure_inj_M h4, e1] at this
      simp only at this
      omega

/-- Completing a group takes at least two operations. -/
theorem completeEntireSum_ops {s s' : Rec (σ × Nat) ν} {o A : Nat} (hleo : E.leo = false)
    (h : completeEntireSum E.counting s o A = pure s') : s.forest.2 + 2 ≤ s'.forest.2 := by
  unfold completeEntireSum at h
  obtain ⟨f, h1, h⟩ := bind_eq_pure h
  obtain ⟨s1, h2, h⟩ := bind_eq_pure h
  obtain ⟨⟨s2, n⟩, h3, h⟩ := bind_eq_pure h
  have h := pure_inj_M h
  subst h
  obtain ⟨f', _, h4⟩ := bind_eq_pure (show (E.F.beginSum s.forest.1 >>= fun r =>
        pure (r, s.forest.2 + 1)) = pure f from h1)
  have h4 := pure_inj_M h4
  have e2 := summandLoop_ops _ h2
  unfold completeSum at h3
  obtain ⟨⟨f2, m⟩, h5, h3⟩ := bind_eq_pure h3
  obtain ⟨s3, h6, h3⟩ := bind_eq_pure h3
  have h3 := pure_inj_M h3
  simp only [Prod.mk.injEq] at h3
  obtain ⟨rfl, rfl⟩ := h3
  obtain ⟨f3, _, h7⟩ := bind_eq_pure (show (E.F.sum s1.forest.1 A o >>= fun r =>
        pure ((r.1, s1.forest.2 + 1), r.2)) = pure (f2, m) from h5)
  have h7 := pure_inj_M h7
  simp only [Prod.mk.injEq] at h7
  have h8 := completeSym_ops hleo h6
  rw [← h7.1] at h8
  rw [← h4] at e2
  simp only at h8 e2 ⊢
  omega

theorem groups_ops {s s' : Rec (σ × Nat) ν} {l : List (Nat × Nat)} (hleo : E.leo = false) (h : Groups E.counting s l s') :
    s.forest.2 + 2 * l.length ≤ s'.forest.2 := by
  induction h with
  | done _ => simp
  | next h1 h2 _ ih =>
    have := completeEntireSum_ops hleo h2
    simp only [List.length_cons]
    omega

theorem scanAll_ops {toks : List (Nat × Nat)} (hleo : E.leo = false) : ∀ {s s' : Rec (σ × Nat) ν},
    scanAll E.counting s toks = pure s' → s.forest.2 ≤ s'.forest.2 := by
  induction toks with
  | nil => intro s s' h; rw [← pure_inj_M h]
  | cons p l ih =>
    intro s s' h
    unfold scanAll at h
    rw [List.foldlM_cons] at h
    obtain ⟨s1, h1, h⟩ := bind_eq_pure h
    refine Nat.le_trans ?_ (ih h)
    unfold scan at h1
    obtain ⟨_, _, h1⟩ := bind_eq_pure h1
    obtain ⟨⟨f2, m⟩, h5, h6⟩ := bind_eq_pure h1
    obtain ⟨f3, _, h7⟩ := bind_eq_pure (show (E.F.leaf s.forest.1 p.1 (s.earleme + 1) p.2 >>= fun r =>
          pure ((r.1, s.forest.2 + 1), r.2)) = pure (f2, m) from h5)
    have h7 := pure_inj_M h7
    simp only [Prod.mk.injEq] at h7
    have h8 := completeSym_ops hleo h6
    rw [← h7.1] at h8
    simp only at h8
    omega

end Rec

namespace EC
variable {c : EC}

/-- Everything that gets finished was scanned or belongs to a group. -/
theorem groups_all (hc : c.OK) {s s' : TRec} {l : List (Nat × Nat)} (hgr : Rec.Groups c.E s l s') :
    ∀ {scans Fd popped cur}, c.Mid scans s Fd popped cur → ∃ Fd' cur', c.Fixed scans Fd' cur' ∧
      ∀ z ∈ Fd', z ∈ Fd ∨ (z.2.1, z.1) ∈ l := by
  induction hgr with
  | @done s h1 =>
    intro scans Fd popped cur h
    have : s.complete = [] := by
      unfold Rec.nextSum at h1
      cases hp : Heap.peek s.complete with
      | none => simpa [Heap.peek] using hp
      | some top =>
        rw [hp] at h1
        obtain ⟨_, _, r, hrr⟩ := h.hitems top (List.mem_of_getElem? hp)
        have hlhs : c.E.g.getLhs top.dot = pure r.lhs := hc.gok.getLhs _ _ hrr
        simp only [hlhs, pure_bind, pure_inj_M_iff] at h1
        cases h1
    have he := h.ended this
    exact ⟨Fd, cur, ⟨he.fd, he.cf, he.citems⟩, fun z hz => .inl hz⟩
  | @next s s1 s2 o1 A1 l h1 h2 _ ih =>
    intro scans Fd popped cur h
    have hst : Rec.completeStep c.E s = pure (.inl s1) := by
      unfold Rec.completeStep
      rw [h1, pure_bind]
      simp only [h2, pure_bind]
    obtain ⟨G, rest, o', A', Fd', popped', cur', hm, hol, hG, hperm, hkey, hrest, hperm', hFd, _⟩ := (Mid.step hc h).of_eq hst
    -- the top of the queue has the key of the group
    have hkk : (o', A') = (o1, A1) := by
      obtain ⟨top, htop, hk⟩ : ∃ top, Heap.peek s.complete = some top ∧ keyOf c.R top = (o1, A1) := by
        unfold Rec.nextSum at h1
        cases hp : Heap.peek s.complete with
        | none => rw [hp] at h1; simp at h1
        | some top =>
          rw [hp] at h1
          obtain ⟨_, _, r, hrr⟩ := h.hitems top (List.mem_of_getElem? hp)
          have hlhs : c.E.g.getLhs top.dot = pure r.lhs := hc.gok.getLhs _ _ hrr
          simp only [hlhs, pure_bind, pure_inj_M_iff, Option.some.injEq, Prod.mk.injEq] at h1
          exact ⟨top, rfl, by simp [keyOf, lhsOf_eq hrr, h1]⟩
      have hmem : top ∈ s.complete := List.mem_of_getElem? htop
      obtain ⟨it, G', rfl⟩ := List.exists_cons_of_ne_nil hG
      have hit : it ∈ s.complete := hperm.mem_iff.2 (by simp)
      rcases List.mem_append.1 (hperm.mem_iff.1 hmem) with h3 | h3
      · rw [← hkey top h3, hk]
      · have h4 := hrest top h3
        have h5 := key_mono hc.gok (h.hitems it hit).2.2 (h.hitems top hmem).2.2 (peek_max h.heap htop it hit)
        rw [hkey it (by simp), hk] at h5
        rw [hk] at h4
        rcases h5 with h5 | h5
        · simp only [KeyLt] at h4 h5; omega
        · exact h5
    obtain ⟨Fd2, cur2, hfix, hall⟩ := ih hm
    refine ⟨Fd2, cur2, hfix, fun z hz => ?_⟩
    rcases hall z hz with h3 | h3
    · rw [hFd] at h3
      rcases Multiset.mem_add.1 h3 with h4 | h4
      · exact .inl h4
      · obtain ⟨x, hx, rfl⟩ := Multiset.mem_map.1 h4
        obtain ⟨it, hit, e1, e2, _⟩ := mem_facts.1 hx
        have hk := hkey it hit
        rw [hkk] at hk
        simp only [keyOf, Prod.mk.injEq] at hk
        refine .inr (List.mem_cons.2 (.inl ?_))
        simp only [fire, Prod.mk.injEq]
        exact ⟨e2.symm ▸ hk.1, e1.symm ▸ hk.2⟩
    · exact .inr (List.mem_cons_of_mem _ h3)

end EC

theorem Rest.mid_begin {g : DefaultGrammar} {R : Rules} {root : Nat → Nat} {la sorter} {s : TRec} {S} (h : Rest g R s S) :
    (ctxOf g R root la sorter s S).Mid 0 s.beginEarleme 0 0 [] := by
  refine ⟨?_, ?_, rfl, rfl, by simp, ?_, by simp, ?_, by simp⟩
  · simp only [Rec.beginEarleme, h.medial, Vec2d.nextSet_eq]; rfl
  · show Heap.IsHeap s.complete
    rw [h.empty]; exact Heap.isHeap_nil
  · show facts s.complete + 0 = _
    rw [h.empty]; simp
  · show ∀ it ∈ s.complete, _
    rw [h.empty]; simp

end Gearley
