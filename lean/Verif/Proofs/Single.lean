import Verif.Proofs.Groups
import Verif.Proofs.Run
import Verif.Spec.Seen

/-! # Symbols with one tree: nothing is completed twice, in whatever order the symbols are numbered -/

namespace Gearley
open Gearley.Spec
variable {g : DefaultGrammar} {R : Rules} {root : Nat → Nat}

/-- Items with different facts, at most one for each rule and origin. -/
theorem dotOrigin_nodup {l : List TItem} (hf : (facts l).Nodup) (hn : ∀ it ∈ l, it.node ≠ [])
    (hu : ∀ x ∈ facts l, ∀ y ∈ facts l, x.1 = y.1 → x.2.1 = y.2.1 → x = y) : (l.map dotOrigin).Nodup := by
  induction l with
  | nil => simp
  | cons it l ih =>
    rw [facts_cons, Multiset.nodup_add] at hf
    rw [List.map_cons, List.nodup_cons]
    refine ⟨fun hmem => ?_, ih hf.2.1 (fun x hx => hn x (by simp [hx])) fun x hx y hy => hu x (by simp [hx]) y (by simp [hy])⟩
    obtain ⟨it', hit', he⟩ := List.mem_map.1 hmem
    simp only [dotOrigin, Prod.mk.injEq] at he
    obtain ⟨f, fs, hf1⟩ := List.exists_cons_of_ne_nil (hn it (by simp))
    obtain ⟨f', fs', hf2⟩ := List.exists_cons_of_ne_nil (hn it' (by simp [hit']))
    have h1 : (it.dot, it.origin, f) ∈ itemFacts it := by simp [itemFacts, hf1]
    have h2 : (it'.dot, it'.origin, f') ∈ facts l := mem_facts.2 ⟨it', hit', rfl, rfl, by rw [hf2]; simp⟩
    have := hu _ (by rw [facts_cons]; exact Multiset.mem_add.2 (.inl h1)) _ (by rw [facts_cons]; exact Multiset.mem_add.2 (.inr h2))
      he.1.symm he.2.symm
    rw [this] at h1
    exact Multiset.disjoint_left.1 hf.2.2 h1 h2

/-- The same for the items of a set. -/
theorem Sound.single {W : Input} {P : Nat → Nat → Prop} {St : Nat → Prop} {pm : BitMatrix} {S : List (List TItem)} {loc : List Nat} {e : Nat}
    (hs : Sound R W P St pm S loc e) (hf : ∀ l ∈ S, (facts l).Nodup) (hn : ∀ l ∈ S, ∀ it ∈ l, it.node ≠ [])
    (hun : ∀ (A B C d a b : Nat) (t t' : PTree), R[d]? = some ⟨A, B, some C⟩ → P a A → TreeOf R W t B a b → TreeOf R W t' B a b → t = t') :
    ∀ l ∈ S, (l.map dotOrigin).Nodup := by
  intro l hl
  obtain ⟨k, hk⟩ := List.getElem?_of_mem hl
  refine dotOrigin_nodup (hf l hl) (hn l hl) ?_
  rintro ⟨d, o, t⟩ hx ⟨d', o', t'⟩ hy e1 e2
  simp only at e1 e2
  subst e1 e2
  obtain ⟨A, B, C, a, b, k1, k2, k3, k4, k5⟩ := hs.fact k l hk _ hx
  obtain ⟨A', B', C', a', b', j1, j2, j3, j4, j5⟩ := hs.fact k l hk _ hy
  simp only at k1 k2 k3 k4 k5 j1 j2 j3 j4 j5
  rw [k1] at j1
  rw [k2] at j2
  rw [k3] at j3
  cases j1
  cases j2
  cases j3
  rw [hun A B C d a b t t' k1 k5 k4 j4]

/-- Where the groups come from. -/
theorem EC.groups_fixed {c : EC} (hc : c.OK) {s : TRec} {l : List (Nat × Nat)} {s' : TRec} (hgr : Rec.Groups c.E s l s') :
    ∀ {scans Fd popped cur}, c.Mid scans s Fd popped cur → ∃ Fd' cur', c.Fixed scans Fd' cur' ∧
      ∃ ts : List Done, ts.map (fun z => (z.2.1, z.1)) = l ∧ Fd + (ts : Multiset Done) ≤ Fd' := by
  induction hgr with
  | @done s h1 =>
    intro scans Fd popped cur h
    have hempty : s.complete = [] := by
      unfold Rec.nextSum at h1
      cases hp : Heap.peek s.complete with
      | none => simpa [Heap.peek] using hp
      | some top =>
        rw [hp] at h1
        obtain ⟨_, _, r, hrr⟩ := h.hitems top (List.mem_of_getElem? hp)
        have hlhs : c.E.g.getLhs top.dot = pure r.lhs := hc.gok.getLhs _ _ hrr
        simp [hlhs, pure_inj_M_iff] at h1
    have he := h.ended hempty
    exact ⟨Fd, cur, ⟨he.fd, he.cf, he.citems⟩, [], rfl, by simp⟩
  | @next s s1 s2 o A l h1 h2 _ ih =>
    intro scans Fd popped cur h
    have hstep := Mid.step hc h
    have hst : Rec.completeStep c.E s = pure (.inl s1) := by
      unfold Rec.completeStep
      rw [h1, pure_bind]
      simp only [h2, pure_bind]
    obtain ⟨G, rest, o', A', Fd', popped', cur', hm, hol, hG, hperm, hkey, hrest, hperm', hFd, _⟩ := hstep.of_eq hst
    obtain ⟨top, htop, hk⟩ : ∃ top, Heap.peek s.complete = some top ∧ keyOf c.R top = (o, A) := by
      unfold Rec.nextSum at h1
      cases hp : Heap.peek s.complete with
      | none => rw [hp] at h1; simp at h1
      | some top =>
        rw [hp] at h1
        obtain ⟨_, _, r, hrr⟩ := h.hitems top (List.mem_of_getElem? hp)
        have hlhs : c.E.g.getLhs top.dot = pure r.lhs := hc.gok.getLhs _ _ hrr
        simp only [hlhs, pure_bind, pure_inj_M_iff, Option.some.injEq, Prod.mk.injEq] at h1
        exact ⟨top, rfl, by simp [keyOf, lhsOf_eq hrr, h1]⟩
    have hmem : top ∈ s.complete := List.mem_of_getElem? htop
    have hkk : (o', A') = (o, A) := by
      obtain ⟨it, G', rfl⟩ := List.exists_cons_of_ne_nil hG
      have hit : it ∈ s.complete := hperm.mem_iff.2 (by simp)
      rcases List.mem_append.1 (hperm.mem_iff.1 hmem) with h3 | h3
      · rw [← hkey top h3, hk]
      · have h4 := hrest top h3
        have h5 := key_mono hc.gok (h.hitems it hit).2.2 (h.hitems top hmem).2.2 (peek_max h.heap htop it hit)
        rw [hkey it (by simp), hk] at h5
        rw [hk] at h4
        rcases h5 with h5 | h5
        · simp only [KeyLt] at h4 h5; omega
        · exact h5
    simp only [Prod.mk.injEq] at hkk
    obtain ⟨rfl, rfl⟩ := hkk
    obtain ⟨Fd2, cur2, h5, ts, h6, h7⟩ := ih hm
    obtain ⟨it, G', rfl⟩ := List.exists_cons_of_ne_nil hG
    obtain ⟨f, fs, hf⟩ := List.exists_cons_of_ne_nil (h.hitems it (hperm.mem_iff.2 (by simp))).1
    have hk1 := hkey it (by simp)
    simp only [keyOf, Prod.mk.injEq] at hk1
    refine ⟨Fd2, cur2, h5, fire c.R (it.dot, it.origin, f) :: ts, ?_, ?_⟩
    · rw [List.map_cons, h6]
      simp [fire, hk1]
    · refine le_trans ?_ h7
      rw [hFd, ← Multiset.cons_coe, ← Multiset.singleton_add, ← add_assoc]
      gcongr
      rw [Multiset.singleton_le]
      exact Multiset.mem_map_of_mem _ (mem_facts.2 ⟨it, by simp, rfl, rfl, by rw [hf]; simp⟩)

/-- No group is completed twice. -/
theorem groups_single {W : Input} {P : Nat → Nat → Prop} {St : Nat → Prop} {s0 : TRec} {S : List (List TItem)} {loc : List Nat} {e : Nat}
    {la sorter} (hc : (ctxOf g R root la sorter s0 S).OK) (hs : Sound R W P St s0.predicted S loc e) (hS : ∀ l ∈ S, (facts l).Nodup)
    (hnd : (W e).Nodup) (hun : ∀ A a t t', P a A → TreeOf R W t A a (e + 1) → TreeOf R W t' A a (e + 1) → t = t')
    {s s' : TRec} {l : List (Nat × Nat)} (hgr : Rec.Groups (ctxOf g R root la sorter s0 S).E s l s') {Fd popped cur}
    (hm : (ctxOf g R root la sorter s0 S).Mid (scansOf (S.length - 1) (W e)) s Fd popped cur)
    (hgs : ∀ p ∈ l, ∃ a, loc[p.1]? = some a ∧ P a p.2) : l.Nodup := by
  obtain ⟨Fd', cur', hf, ts, h1, h2⟩ := EC.groups_fixed hc hgr hm
  have h3 := hf.once hs hS hnd
  have h4 : (ts : Multiset Done) ≤ Fd' := le_trans (Multiset.le_add_left _ _) h2
  have h5 : ts.Nodup := Multiset.coe_nodup.1 (Multiset.nodup_of_le h4 h3)
  rw [← h1]
  refine List.Nodup.map_on ?_ h5
  rintro ⟨A, o, t⟩ hx ⟨A', o', t'⟩ hy he
  simp only [Prod.mk.injEq] at he
  obtain ⟨rfl, rfl⟩ := he
  obtain ⟨a, i1, i2⟩ := hf.sound hs t A o (Multiset.mem_of_le h4 (by simpa using hx))
  obtain ⟨a', j1, j2⟩ := hf.sound hs t' A o (Multiset.mem_of_le h4 (by simpa using hy))
  obtain ⟨a2, k1, k2⟩ := hgs (o, A) (by rw [← h1]; exact List.mem_map_of_mem hx)
  simp only at k1 k2
  rw [i1] at j1 k1
  cases j1
  cases k1
  rw [hun A a t t' k2 i2 j2]

end Gearley
