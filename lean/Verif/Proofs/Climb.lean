import Verif.Proofs.Groups
import Verif.Spec.Chains

/-! # How often a group is completed, in whatever order the symbols are numbered -/

namespace Gearley
open Gearley.Spec

theorem mem_unaryRules {R : Rules} {A : Nat} {r : Rule} : r ∈ unaryRules R A ↔ r ∈ R ∧ r.lhs = A ∧ r.rhs1 = none := by
  simp [unaryRules]

/-- Weights added up along the chains of one-symbol rules of length at most `n`. -/
def climb (R : Rules) (I : Nat → Nat) : Nat → Nat → Nat
  | 0, A => I A
  | n + 1, A => I A + ((unaryRules R A).map fun r => climb R I n r.rhs0).sum

theorem mapSum_le {α : Type} {l : List α} {f g : α → Nat} (h : ∀ a ∈ l, f a ≤ g a) : (l.map f).sum ≤ (l.map g).sum := by
  induction l with
  | nil => simp
  | cons a l ih =>
    simp only [List.map_cons, List.sum_cons]
    have := h a (by simp)
    have := ih fun b hb => h b (by simp [hb])
    omega

theorem mapSum_add {α : Type} {l : List α} {f g : α → Nat} :
    (l.map fun a => f a + g a).sum = (l.map f).sum + (l.map g).sum := by
  induction l with
  | nil => simp
  | cons a l ih => simp only [List.map_cons, List.sum_cons, ih]; omega

theorem le_mapSum {α : Type} {l : List α} {f : α → Nat} {a : α} (h : a ∈ l) : f a ≤ (l.map f).sum := by
  induction l with
  | nil => simp at h
  | cons b l ih =>
    simp only [List.map_cons, List.sum_cons]
    rcases List.mem_cons.1 h with rfl | h
    · omega
    · have := ih h; omega

theorem climb_mono {R : Rules} {I I' : Nat → Nat} (h : ∀ A, I A ≤ I' A) (n A : Nat) : climb R I n A ≤ climb R I' n A := by
  induction n generalizing A with
  | zero => exact h A
  | succ n ih => exact Nat.add_le_add (h A) (mapSum_le fun r _ => ih r.rhs0)

theorem climb_le {R : Rules} {I p : Nat → Nat} (hp : ChainBound R p) (h : ∀ A, I A ≤ 1) (n A : Nat) : climb R I n A ≤ p A := by
  induction n generalizing A with
  | zero => exact (h A).trans (le_trans (Nat.le_add_right _ _) (hp A))
  | succ n ih => exact (Nat.add_le_add (h A) (mapSum_le fun r _ => ih r.rhs0)).trans (hp A)

/-- If weights move up one rule, the total does not increase. -/
theorem climb_step {R : Rules} {rank : Nat → Nat} (hrank : EC.Ranked R rank) {M : Nat}
    (hM : ∀ r ∈ R, r.rhs1 = none → rank r.lhs < M) {I I' δ : Nat → Nat}
    (h : ∀ X, I' X + δ X ≤ I X + ((unaryRules R X).map fun r => δ r.rhs0).sum) (n X : Nat) (hX : M ≤ rank X + n) :
    climb R I' n X + δ X ≤ climb R I n X := by
  induction n generalizing X with
  | zero =>
    have := h X
    have he : unaryRules R X = [] := by
      rw [List.eq_nil_iff_forall_not_mem]
      intro r hr
      obtain ⟨h1, rfl, h3⟩ := mem_unaryRules.1 hr
      have := hM r h1 h3
      omega
    simpa [he, climb] using this
  | succ n ih =>
    have h1 := h X
    have h2 : ((unaryRules R X).map fun r => climb R I' n r.rhs0 + δ r.rhs0).sum ≤
        ((unaryRules R X).map fun r => climb R I n r.rhs0).sum := by
      refine mapSum_le fun r hr => ih r.rhs0 ?_
      obtain ⟨k1, k2, k3⟩ := mem_unaryRules.1 hr
      have := hrank r k1 k3
      rw [k2] at this
      omega
    rw [mapSum_add] at h2
    simp only [climb]
    omega

theorem chain_rank_bound (R : Rules) (rank : Nat → Nat) : ∃ M, ∀ r ∈ R, r.rhs1 = none → rank r.lhs < M := by
  refine ⟨(R.map fun r => rank r.lhs).sum + 1, fun r hr _ => ?_⟩
  have := le_mapSum (f := fun r : Rule => rank r.lhs) hr
  omega

open Classical in
/-- Whether the group `(o, A)` comes up, if no chain of one-symbol rules leads to it. -/
noncomputable def comesUp (R : Rules) (heap : List TItem) (o A : Nat) : Nat :=
  if ∃ it ∈ heap, o < it.origin ∨ keyOf R it = (o, A) then 1 else 0

theorem comesUp_le (R : Rules) (heap : List TItem) (o A : Nat) : comesUp R heap o A ≤ 1 := by
  unfold comesUp; split <;> omega

theorem comesUp_eq_one {R : Rules} {heap : List TItem} {o A : Nat} {it : TItem} (h : it ∈ heap)
    (h' : o < it.origin ∨ keyOf R it = (o, A)) : comesUp R heap o A = 1 := by
  unfold comesUp; rw [if_pos ⟨it, h, h'⟩]

/-- The group `(o', A')` is completed: the number of times that any group can still come up. -/
theorem comesUp_step {R : Rules} {rank : Nat → Nat} (hrank : EC.Ranked R rank) {M : Nat}
    (hM : ∀ r ∈ R, r.rhs1 = none → rank r.lhs < M) {heap heap' G rest : List TItem} {o' A' : Nat} (hG : G ≠ [])
    (hperm : heap.Perm (G ++ rest)) (hkey : ∀ it ∈ G, keyOf R it = (o', A'))
    (hrest : ∀ it ∈ rest, KeyLt (keyOf R it) (o', A'))
    (hheap' : ∀ it ∈ heap', it ∈ rest ∨ it.origin < o' ∨
      (it.origin = o' ∧ ∃ r, R[it.dot]? = some r ∧ r.rhs1 = none ∧ r.rhs0 = A')) (o X : Nat) :
    climb R (comesUp R heap' o) M X + (if (o, X) = (o', A') then 1 else 0) ≤ climb R (comesUp R heap o) M X := by
  obtain ⟨x, G', rfl⟩ := List.exists_cons_of_ne_nil hG
  have hx : x ∈ heap := hperm.mem_iff.2 (by simp)
  have hkx := hkey x (by simp)
  rcases Nat.lt_trichotomy o o' with hlt | rfl | hgt
  · rw [if_neg (by simp; omega), Nat.add_zero]
    refine climb_mono (fun A => ?_) _ _
    rw [comesUp_eq_one hx (.inl (by simp only [keyOf, Prod.mk.injEq] at hkx; omega))]
    exact comesUp_le _ _ _ _
  · refine climb_step (δ := fun X => if (o, X) = (o, A') then 1 else 0) hrank hM (fun X => ?_) M X (by omega)
    simp only [Prod.mk.injEq, true_and]
    have hno : ∀ it ∈ heap', ¬ o < it.origin := by
      intro it hit
      rcases hheap' it hit with h | h | h
      · have := hrest it h
        simp only [KeyLt, keyOf] at this; omega
      · omega
      · omega
    by_cases hXA : X = A'
    · subst hXA
      rw [if_pos rfl, comesUp_eq_one hx (.inr hkx)]
      have : comesUp R heap' o X = 0 := by
        unfold comesUp
        rw [if_neg]
        rintro ⟨it, hit, h | h⟩
        · exact hno it hit h
        · rcases hheap' it hit with h' | h' | ⟨_, r, hr, h1, h2⟩
          · have := hrest it h'
            rw [h] at this
            simp only [KeyLt] at this; omega
          · simp only [keyOf, Prod.mk.injEq] at h; omega
          · simp only [keyOf, lhsOf_eq hr, Prod.mk.injEq] at h
            have := hrank r (List.mem_of_getElem? hr) h1
            rw [h2, h.2] at this
            omega
      omega
    · rw [if_neg hXA, Nat.add_zero]
      by_cases hc : ∃ it ∈ heap', o < it.origin ∨ keyOf R it = (o, X)
      swap
      · unfold comesUp; rw [if_neg hc]; omega
      obtain ⟨it, hit, h | h⟩ := hc
      · exact absurd h (hno it hit)
      rw [comesUp_eq_one hit (.inr h)]
      rcases hheap' it hit with h' | h' | ⟨_, r, hr, h1, h2⟩
      · rw [comesUp_eq_one (hperm.mem_iff.2 (List.mem_append_right _ h')) (.inr h)]
        omega
      · simp only [keyOf, Prod.mk.injEq] at h; omega
      · simp only [keyOf, lhsOf_eq hr, Prod.mk.injEq] at h
        have hm : r ∈ unaryRules R X := mem_unaryRules.2 ⟨List.mem_of_getElem? hr, h.2, h1⟩
        have := le_mapSum (f := fun r : Rule => if r.rhs0 = A' then 1 else 0) hm
        simp only [if_pos h2] at this
        omega
  · rw [if_neg (by simp; omega), Nat.add_zero]
    refine climb_mono (fun A => ?_) _ _
    unfold comesUp
    rw [if_neg]
    · omega
    rintro ⟨it, hit, h⟩
    have : it.origin < o := by
      rcases hheap' it hit with h' | h' | h'
      · have := hrest it h'
        simp only [KeyLt, keyOf] at this; omega
      · omega
      · omega
    simp only [keyOf, Prod.mk.injEq] at h
    omega

namespace EC
variable {c : EC}

/-- A group is completed at most once for every chain of one-symbol rules that leads to it. -/
theorem groups_count (hc : c.OK) {rank : Nat → Nat} (hrank : Ranked c.R rank) {M : Nat}
    (hM : ∀ r ∈ c.R, r.rhs1 = none → rank r.lhs < M) {s : TRec} {l : List (Nat × Nat)} {s' : TRec}
    (hgr : Rec.Groups c.E s l s') : ∀ {scans Fd popped cur}, c.Mid scans s Fd popped cur →
    ∀ o A, l.count (o, A) ≤ climb c.R (comesUp c.R s.complete o) M A := by
  induction hgr with
  | done _ => intro scans Fd popped cur _ o A; simp
  | @next s s1 s2 o A l h1 h2 _ ih =>
    intro scans Fd popped cur h o₁ A₁
    have hstep := Mid.step hc h
    have hst : Rec.completeStep c.E s = pure (.inl s1) := by
      unfold Rec.completeStep
      rw [h1, pure_bind]
      simp only [h2, pure_bind]
    obtain ⟨G, rest, o', A', Fd', popped', cur', hm, hol, hG, hperm, hkey, hrest, hperm', _, _⟩ := hstep.of_eq hst
    -- the top of the queue has the key `(o, A)`
    obtain ⟨top, htop, hk⟩ : ∃ top, Heap.peek s.complete = some top ∧ keyOf c.R top = (o, A) := by
      unfold Rec.nextSum at h1
      cases hp : Heap.peek s.complete with
      | none => rw [hp] at h1; simp at h1
      | some top =>
        rw [hp] at h1
        obtain ⟨_, _, r, hrr⟩ := h.hitems top (List.mem_of_getElem? hp)
        have hlhs : c.E.g.getLhs top.dot = pure r.lhs := hc.gok.getLhs _ _ hrr
        simp only [hlhs, pure_bind, pure_inj_M_iff, Option.some.injEq, Prod.mk.injEq] at h1
        exact ⟨top, rfl, by simp [keyOf, lhsOf_eq hrr, h1]⟩
    have hmem : top ∈ s.complete := List.mem_of_getElem? htop
    have hkk : (o', A') = (o, A) := by
      obtain ⟨it, G', rfl⟩ := List.exists_cons_of_ne_nil hG
      have hit : it ∈ s.complete := hperm.mem_iff.2 (by simp)
      rcases List.mem_append.1 (hperm.mem_iff.1 hmem) with h3 | h3
      · rw [← hkey top h3, hk]
      · have h4 := hrest top h3
        have h5 := key_mono hc.gok (h.hitems it hit).2.2 (h.hitems top hmem).2.2 (peek_max h.heap htop it hit)
        rw [hkey it (by simp), hk] at h5
        rw [hk] at h4
        rcases h5 with h5 | h5
        · simp only [KeyLt] at h4 h5; omega
        · exact h5
    simp only [Prod.mk.injEq] at hkk
    obtain ⟨rfl, rfl⟩ := hkk
    have hN : G.flatMap sumTrees ≠ [] := by
      obtain ⟨it, G', rfl⟩ := List.exists_cons_of_ne_nil hG
      have := (h.hitems it (hperm.mem_iff.2 (by simp))).1
      simp [sumTrees, this]
    have hi := ih hm o₁ A₁
    have hs := comesUp_step hrank hM (heap' := s1.complete) hG hperm hkey hrest (fun it hit => by
      rcases List.mem_append.1 (hperm'.mem_iff.1 hit) with h3 | h3
      · exact .inl h3
      · obtain ⟨_, _, r, hr, hcase⟩ := heapNew_items hc hol hN it h3
        rcases hcase with h4 | ⟨h4, h5, h6⟩
        · exact .inr (.inl h4)
        · exact .inr (.inr ⟨h4, r, hr, h5, h6⟩)) o₁ A₁
    rw [List.count_cons]
    have he : ((o', A') == (o₁, A₁)) = decide ((o₁, A₁) = (o', A')) := by
      rw [Bool.eq_iff_iff]; simp only [beq_iff_eq, decide_eq_true_eq]; exact eq_comm
    rw [he]
    simp only [decide_eq_true_eq]
    omega

/-- How often an item is created. -/
def JMany (c : EC) (p : Nat → Nat) (M : Nat) (toks pre : List (Nat × Nat)) (heap cur : List TItem) : Prop :=
  ∀ d o A, rhs0Of c.R d = some A →
    (Terminal c.R A → (cur.map dotOrigin).count (d, o) ≤ 1 ∧ ((cur.map dotOrigin).count (d, o) ≠ 0 → A ∈ pre.map (·.1))) ∧
    (¬ Terminal c.R A → (cur.map dotOrigin).count (d, o) = 0 ∨
      pre = toks ∧ (cur.map dotOrigin).count (d, o) + climb c.R (comesUp c.R heap o) M A ≤ p A)

theorem keeps_many (hc : c.OK) {rank : Nat → Nat} (hrank : Ranked c.R rank) {M : Nat}
    (hM : ∀ r ∈ c.R, r.rhs1 = none → rank r.lhs < M) {p : Nat → Nat} (hp : ChainBound c.R p) {toks : List (Nat × Nat)}
    (hnd : (toks.map (·.1)).Nodup) (hterm : ∀ t ∈ toks, Terminal c.R t.1) : c.Keeps toks (c.JMany p M toks) where
  init := by intro d o A _; simp
  scan := by
    intro pre post a v heap heap' cur htoks hJ hheap hpm d o A hA
    obtain ⟨h1, h2⟩ := hJ d o A hA
    rw [List.map_append, List.count_append]
    have hpre : pre ≠ toks := by
      intro h; rw [← h] at htoks; simp at htoks
    have hta : Terminal c.R a := hterm (a, v) (by rw [htoks]; simp)
    refine ⟨fun ht => ?_, fun ht => ?_⟩
    · by_cases hk : (o, A) = (c.S.length - 1, a)
      · simp only [Prod.mk.injEq] at hk
        obtain ⟨rfl, rfl⟩ := hk
        have hz : (cur.map dotOrigin).count (d, c.S.length - 1) = 0 := by
          by_contra hne
          have h3 := (h1 ht).2 hne
          rw [htoks, List.map_append, List.map_cons, List.nodup_append] at hnd
          exact hnd.2.2 _ h3 _ (by simp) rfl
        rw [hz, Nat.zero_add]
        exact ⟨medNew_count_le _ _ _ _, fun _ => by simp⟩
      · rw [medNew_count_zero hA hk, Nat.add_zero]
        exact ⟨(h1 ht).1, fun h => by have := (h1 ht).2 h; simp at this ⊢; exact .inl this⟩
    · rw [medNew_count_zero hA (by rintro h; simp only [Prod.mk.injEq] at h; rw [h.2] at ht; exact ht hta), Nat.add_zero]
      rcases h2 ht with h3 | ⟨h3, _⟩
      · exact .inl h3
      · exact absurd h3 hpre
  step := by
    intro heap heap' cur G rest o' A' hJ hG hperm hheap hkey hrest hpm d o A hA
    obtain ⟨h1, h2⟩ := hJ d o A hA
    obtain ⟨it, G', rfl⟩ := List.exists_cons_of_ne_nil hG
    have hit : it ∈ heap := hperm.mem_iff.2 (by simp)
    have hkit := hkey it (by simp)
    obtain ⟨hn, hlt, r, hr⟩ := hheap it hit
    simp only [keyOf, lhsOf_eq hr, Prod.mk.injEq] at hkit
    obtain ⟨rfl, rfl⟩ := hkit
    have hnt : ¬ Terminal c.R r.lhs := fun h => h r (List.mem_of_getElem? hr) rfl
    have hN : (it :: G').flatMap sumTrees ≠ [] := by
      simp only [List.flatMap_cons, ne_eq, List.append_eq_nil_iff, sumTrees, List.map_eq_nil_iff, hn, false_and,
        not_false_iff]
    have hs := comesUp_step hrank hM (heap' := heap') hG hperm hkey hrest (fun x hx => by
      rcases List.mem_append.1 (hpm.mem_iff.1 hx) with h | h
      · exact Or.inl h
      · obtain ⟨_, _, r', e1, e2⟩ := heapNew_items hc hlt hN x h
        rcases e2 with e2 | ⟨e2, e3, e4⟩
        · exact Or.inr (Or.inl e2)
        · exact Or.inr (Or.inr ⟨e2, r', e1, e3, e4⟩)) o A
    rw [List.map_append, List.count_append]
    refine ⟨fun ht => ?_, fun ht => .inr ⟨rfl, ?_⟩⟩
    · rw [medNew_count_zero hA (by rintro h; simp only [Prod.mk.injEq] at h; rw [h.2] at ht; exact hnt ht), Nat.add_zero]
      exact h1 ht
    · have hcount : ((medNew c.g c.R c.root c.la c.hint c.pm it.origin r.lhs ((it :: G').flatMap sumTrees)).map dotOrigin).count (d, o)
          ≤ if (o, A) = (it.origin, r.lhs) then 1 else 0 := by
        split
        · exact medNew_count_le _ _ _ _
        · rename_i hk
          rw [medNew_count_zero hA hk]
      have hle : (cur.map dotOrigin).count (d, o) + climb c.R (comesUp c.R heap o) M A ≤ p A := by
        rcases h2 ht with h3 | ⟨_, h3⟩
        · rw [h3, Nat.zero_add]
          exact climb_le hp (comesUp_le _ _ _) _ _
        · exact h3
      omega

end EC
end Gearley
