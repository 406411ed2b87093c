import Verif.Spec.Packed
import Verif.Proofs.SepForest
import Verif.Proofs.Finished

/-!
# Packed forests

`VDen V h ts`: the handle `h` represents the trees `ts`, and the alternatives of every node are separate. If the trees are
exactly those of a symbol over a range of the input, then the handle refers to a packed forest.
-/

namespace Gearley
open Gearley.Spec

/-- A summand: rule number, handle and the trees of the handle. -/
abbrev VSummand := Nat × Nat × List PTree

abbrev VSummand.trees (x : VSummand) : List PTree := x.2.2.map (.node x.1)
abbrev VSummand.view (x : VSummand) : Nat × Nat := (x.1, x.2.1)
abbrev VSummand.sep (x : VSummand) : Nat × List PTree := (x.1, x.2.2)

inductive VDen (V : Nat → View → Prop) : Nat → List PTree → Prop
  | leaf {h s v} : V h (.leaf s v) → VDen V h [.leaf s v]
  | rule {h l r ls rs} : V h (.rule l r) → VDen V l ls → VDen V r rs → VDen V h (pairs ls rs)
  | alts {h} (xs : List VSummand) : V h (.alts (xs.map VSummand.view)) → xs ≠ [] → (∀ x ∈ xs, VDen V x.2.1 x.2.2) →
      (xs.map VSummand.sep).Pairwise Sep → VDen V h (xs.flatMap VSummand.trees)

theorem VDen.mono {V V' : Nat → View → Prop} (h : ∀ x a, V x a → V' x a) {x : Nat} {ts : List PTree} (hd : VDen V x ts) :
    VDen V' x ts := by
  induction hd with
  | leaf hv => exact .leaf (h _ _ hv)
  | rule hv _ _ ih1 ih2 => exact .rule (h _ _ hv) ih1 ih2
  | alts xs hv hne _ hs ih => exact .alts xs (h _ _ hv) hne ih hs

theorem VDen.ne_nil {V : Nat → View → Prop} {x : Nat} {ts : List PTree} (hd : VDen V x ts) : ts ≠ [] := by
  induction hd with
  | leaf => simp
  | rule _ _ _ ih1 ih2 => exact Simple.pairs_ne_nil ih1 ih2
  | alts xs _ hne _ _ ih =>
    rcases xs with _ | ⟨x, xs⟩
    · exact absurd rfl hne
    · have := ih x (by simp)
      simp [this]

/-- Separate summands stay separate when their trees are listed in a different order. -/
theorem Sep.perm {a b : Nat} {ts ts' us us' : List PTree} (h : Sep (a, ts) (b, us)) (h1 : ts'.Perm ts) (h2 : us'.Perm us) :
    Sep (a, ts') (b, us') := fun e t ht u hu => h e t (h1.mem_iff.1 ht) u (h2.mem_iff.1 hu)

theorem vden_alts {V : Nat → View → Prop} {h : Nat} {ys : List VSummand} (hv : V h (.alts (ys.map VSummand.view)))
    (hne : ys ≠ []) (hd : ∀ y ∈ ys, ∃ us, VDen V y.2.1 us ∧ us.Perm y.2.2) (hs : (ys.map VSummand.sep).Pairwise Sep) :
    ∃ us, VDen V h us ∧ us.Perm (ys.flatMap VSummand.trees) := by
  classical
  have hg : ∃ g : VSummand → List PTree, ∀ y ∈ ys, VDen V y.2.1 (g y) ∧ (g y).Perm y.2.2 :=
    ⟨fun y => if h : ∃ us, VDen V y.2.1 us ∧ us.Perm y.2.2 then h.choose else [], fun y hy => by
      simp only [hd y hy, dif_pos]; exact (hd y hy).choose_spec⟩
  obtain ⟨g, hg⟩ := hg
  refine ⟨_, .alts (ys.map fun y => (y.1, y.2.1, g y)) (by simpa [Function.comp_def] using hv) (by simpa using hne) ?_ ?_, ?_⟩
  · intro x hx
    obtain ⟨y, hy, rfl⟩ := List.mem_map.1 hx
    exact (hg y hy).1
  · rw [List.map_map, List.pairwise_map]
    rw [List.pairwise_map] at hs
    exact hs.imp_of_mem fun ha hb h => h.perm (hg _ ha).2 (hg _ hb).2
  · rw [List.flatMap_map]
    exact List.Perm.flatMap_left _ fun y hy => (hg y hy).2.map _

theorem treeOf_pair {R : Rules} {inp : Input} {a b : PTree} {A i j : Nat} : ¬ TreeOf R inp (.pair a b) A i j := by
  intro h; cases h

theorem treeSplit_treeOf {R : Rules} {inp : Input} {t : PTree} {A i j : Nat} (h : TreeOf R inp t A i j) : treeSplit t = none := by
  cases h <;> rfl

/-- The trees of one summand of a node for `A` over `i .. j` with split `m`. -/
def SplitAt (R : Rules) (inp : Input) (A i j : Nat) (x : VSummand) (m : Nat) : Prop :=
  (∃ B, R[x.1]? = some ⟨A, B, none⟩ ∧ m = j ∧ ∀ f ∈ x.2.2, TreeOf R inp f B i j) ∨
  (∃ B C, R[x.1]? = some ⟨A, B, some C⟩ ∧ ∀ f ∈ x.2.2, ∃ a b, f = .pair a b ∧ TreeOf R inp a B i m ∧ TreeOf R inp b C m j)

theorem packs_of_vden {V : Nat → View → Prop} (hV : ∀ {h a b}, V h a → V h b → a = b) {R : Rules} {inp : Input} {h : Nat}
    {ts : List PTree} (hd : VDen V h ts) :
    (∀ A i j, (∀ t, t ∈ ts ↔ TreeOf R inp t A i j) → Packs V R inp A i j h) ∧
    (∀ l r, V h (.rule l r) → ∃ ls rs, ts = pairs ls rs ∧ ls ≠ [] ∧ rs ≠ [] ∧
      (∀ A i j, (∀ t, t ∈ ls ↔ TreeOf R inp t A i j) → Packs V R inp A i j l) ∧
      (∀ A i j, (∀ t, t ∈ rs ↔ TreeOf R inp t A i j) → Packs V R inp A i j r)) ∧
    (∀ a b, .pair a b ∈ ts → ∃ l r, V h (.rule l r)) := by
  classical
  induction hd with
  | @leaf h s v hv =>
    refine ⟨fun A i j ht => ?_, fun l r h' => ?_, fun a b h' => ?_⟩
    · have := (ht (.leaf s v)).1 (by simp)
      cases this with
      | leaf hm => exact .leaf hv hm
    · cases hV hv h'
    · simp at h'
  | @rule h l r ls rs hv h1 h2 ih1 ih2 =>
    refine ⟨fun A i j ht => ?_, fun l' r' h' => ?_, fun a b _ => ⟨l, r, hv⟩⟩
    · obtain ⟨t, hm⟩ := List.exists_mem_of_ne_nil _ (Simple.pairs_ne_nil h1.ne_nil h2.ne_nil)
      obtain ⟨a, _, b, _, rfl⟩ := mem_pairs.1 hm
      exact absurd ((ht _).1 hm) treeOf_pair
    · cases hV hv h'
      exact ⟨ls, rs, rfl, h1.ne_nil, h2.ne_nil, ih1.1, ih2.1⟩
  | @alts h xs hv hne hd hs ih =>
    refine ⟨fun A i j ht => ?_, fun l r h' => (by cases hV hv h'), fun a b h' => ?_⟩
    rotate_left
    · simp at h'
    have hmem : ∀ x ∈ xs, ∀ f ∈ x.2.2, TreeOf R inp (.node x.1 f) A i j := fun x hx f hf =>
      (ht _).1 (List.mem_flatMap.2 ⟨x, hx, List.mem_map.2 ⟨f, hf, rfl⟩⟩)
    have hback : ∀ d f, TreeOf R inp (.node d f) A i j → ∃ x ∈ xs, x.1 = d ∧ f ∈ x.2.2 := by
      intro d f h'
      obtain ⟨x, hx, hf⟩ := List.mem_flatMap.1 ((ht _).2 h')
      obtain ⟨f', hf', e⟩ := List.mem_map.1 hf
      cases e
      exact ⟨x, hx, rfl, hf'⟩
    have hsplit : ∀ x ∈ xs, ∃ m, SplitAt R inp A i j x m := by
      intro x hx
      obtain ⟨f0, hf0⟩ := List.exists_mem_of_ne_nil _ (hd x hx).ne_nil
      have h0 := hmem x hx f0 hf0
      cases h0 with
      | @unary _ _ B _ _ _ hr h0 =>
        refine ⟨j, .inl ⟨B, hr, rfl, fun f hf => ?_⟩⟩
        have := hmem x hx f hf
        cases this with
        | unary hr' h => rw [hr] at hr'; cases hr'; exact h
        | binary hr' _ _ => rw [hr] at hr'; cases hr'
      | @binary _ _ B C a0 b0 _ m _ hr ha0 hb0 =>
        refine ⟨m, .inr ⟨B, C, hr, ?_⟩⟩
        obtain ⟨l, r, hlr⟩ := (ih x hx).2.2 _ _ hf0
        obtain ⟨ls, rs, e, _, _, _⟩ := (ih x hx).2.1 _ _ hlr
        rw [e] at hf0
        obtain ⟨a1, ha1, b1, hb1, e'⟩ := mem_pairs.1 hf0
        cases e'
        intro f hf
        rw [e] at hf
        obtain ⟨a, ha, b, hb, rfl⟩ := mem_pairs.1 hf
        have t1 := hmem x hx (.pair a b0) (by rw [e]; exact mem_pairs.2 ⟨a, ha, b0, hb1, rfl⟩)
        have t2 := hmem x hx (.pair a0 b) (by rw [e]; exact mem_pairs.2 ⟨a0, ha1, b, hb, rfl⟩)
        refine ⟨a, b, rfl, ?_, ?_⟩
        · cases t1 with
          | unary _ h => exact absurd h treeOf_pair
          | @binary _ _ _ _ _ _ _ k _ hr' h1 h2 =>
            rw [hr] at hr'; cases hr'
            have := h2.width
            have := hb0.width
            have := h1.width
            have := ha0.width
            have hk : k = m := by omega
            subst hk
            exact h1
        · cases t2 with
          | unary _ h => exact absurd h treeOf_pair
          | @binary _ _ _ _ _ _ _ k _ hr' h1 h2 =>
            rw [hr] at hr'; cases hr'
            have := h1.width
            have := ha0.width
            have hk : k = m := by omega
            subst hk
            exact h2
    obtain ⟨m, hm⟩ : ∃ m : VSummand → Nat, ∀ x ∈ xs, SplitAt R inp A i j x (m x) :=
      ⟨fun x => if h : ∃ m, SplitAt R inp A i j x m then h.choose else 0, fun x hx => by
        simp only [hsplit x hx, dif_pos]; exact (hsplit x hx).choose_spec⟩
    have hnd : (xs.map fun x => (x.1, m x)).Nodup := by
      rw [List.Nodup, List.pairwise_map]
      rw [List.pairwise_map] at hs
      refine hs.imp_of_mem fun {x y} hx hy hsep e => ?_
      simp only [Prod.mk.injEq] at e
      obtain ⟨f, hf⟩ := List.exists_mem_of_ne_nil _ (hd x hx).ne_nil
      obtain ⟨f', hf'⟩ := List.exists_mem_of_ne_nil _ (hd y hy).ne_nil
      refine hsep e.1 f hf f' hf' ?_
      rcases hm x hx with ⟨B, h1, _, h2⟩ | ⟨B, C, h1, h2⟩ <;> rcases hm y hy with ⟨B', h1', _, h2'⟩ | ⟨B', C', h1', h2'⟩
      · rw [treeSplit_treeOf (h2 f hf), treeSplit_treeOf (h2' f' hf')]
      · rw [e.1, h1'] at h1; cases h1
      · rw [e.1, h1'] at h1; cases h1
      · obtain ⟨a, b, rfl, ha, hb⟩ := h2 f hf
        obtain ⟨a', b', rfl, ha', hb'⟩ := h2' f' hf'
        have := ha.width
        have := ha'.width
        simp only [treeSplit, Option.some.injEq]
        omega
    have huniq : ∀ x ∈ xs, ∀ y ∈ xs, x.1 = y.1 → m x = m y → x = y := fun x hx y hy e1 e2 =>
      List.inj_on_of_nodup_map hnd hx hy (by rw [e1, e2])
    refine .node (xs.map fun x => (x.1, m x, x.2.1)) (by simpa [Function.comp_def] using hv)
      (by simpa [Function.comp_def] using hnd) ?_ (by simpa using hne) ?_ ?_ ?_ ?_
    · intro d k
      simp only [List.map_map, Function.comp_def, List.mem_map, Prod.mk.injEq]
      constructor
      · rintro ⟨x, hx, rfl, rfl⟩
        obtain ⟨f, hf⟩ := List.exists_mem_of_ne_nil _ (hd x hx).ne_nil
        rcases hm x hx with ⟨B, h1, h2, h3⟩ | ⟨B, C, h1, h2⟩
        · exact .inl ⟨B, h1, h2, f, h3 f hf⟩
        · obtain ⟨a, b, _, ha, hb⟩ := h2 f hf
          exact .inr ⟨B, C, h1, ⟨a, ha⟩, ⟨b, hb⟩⟩
      · rintro (⟨B, h1, rfl, t, h2⟩ | ⟨B, C, h1, ⟨a, ha⟩, ⟨b, hb⟩⟩)
        · obtain ⟨x, hx, rfl, hf⟩ := hback _ _ (.unary h1 h2)
          refine ⟨x, hx, rfl, ?_⟩
          rcases hm x hx with ⟨B', h1', h2', _⟩ | ⟨B', C', h1', h2'⟩
          · exact h2'
          · rw [h1] at h1'; cases h1'
        · obtain ⟨x, hx, rfl, hf⟩ := hback _ _ (.binary h1 ha hb)
          refine ⟨x, hx, rfl, ?_⟩
          rcases hm x hx with ⟨B', h1', _⟩ | ⟨B', C', h1', h2'⟩
          · rw [h1] at h1'; cases h1'
          · obtain ⟨a', b', e, ha', hb'⟩ := h2' _ hf
            cases e
            have := ha.width
            have := ha'.width
            omega
    · intro d k f B hk hr
      obtain ⟨x, hx, e⟩ := List.mem_map.1 hk
      cases e
      refine (ih x hx).1 _ _ _ fun t => ⟨fun hm' => ?_, fun h' => ?_⟩
      · rcases hm x hx with ⟨B', h1', _, h2'⟩ | ⟨B', C', h1', _⟩
        · rw [hr] at h1'; cases h1'; exact h2' t hm'
        · rw [hr] at h1'; cases h1'
      · obtain ⟨y, hy, e, hf⟩ := hback _ _ (.unary hr h')
        have : x = y := by
          refine huniq x hx y hy e.symm ?_
          rcases hm x hx with ⟨B', h1', h2', _⟩ | ⟨B', C', h1', _⟩
          · rcases hm y hy with ⟨B'', h1'', h2'', _⟩ | ⟨B'', C'', h1'', _⟩
            · rw [h2', h2'']
            · rw [e, hr] at h1''; cases h1''
          · rw [hr] at h1'; cases h1'
        rw [this]; exact hf
    · intro d k f B C hk hr
      obtain ⟨x, hx, e⟩ := List.mem_map.1 hk
      cases e
      obtain ⟨f, hf⟩ := List.exists_mem_of_ne_nil _ (hd x hx).ne_nil
      rcases hm x hx with ⟨B', h1', _, h2'⟩ | ⟨B', C', h1', h2'⟩
      · rw [hr] at h1'; cases h1'
      · obtain ⟨a, b, rfl, _⟩ := h2' f hf
        exact (ih x hx).2.2 _ _ hf
    all_goals
      intro d k f B C l r hk hr hlr
      obtain ⟨x, hx, e⟩ := List.mem_map.1 hk
      cases e
      obtain ⟨ls, rs, e, hl, hr', hl', hr''⟩ := (ih x hx).2.1 _ _ hlr
      obtain ⟨a0, ha0⟩ := List.exists_mem_of_ne_nil _ hl
      obtain ⟨b0, hb0⟩ := List.exists_mem_of_ne_nil _ hr'
      have hall : ∀ a ∈ ls, ∀ b ∈ rs, TreeOf R inp a B i (m x) ∧ TreeOf R inp b C (m x) j := by
        intro a ha b hb
        rcases hm x hx with ⟨B', h1', _, h2'⟩ | ⟨B', C', h1', h2'⟩
        · rw [hr] at h1'; cases h1'
        · rw [hr] at h1'; cases h1'
          obtain ⟨a', b', e', h1, h2⟩ := h2' (.pair a b) (by rw [e]; exact mem_pairs.2 ⟨a, ha, b, hb, rfl⟩)
          cases e'
          exact ⟨h1, h2⟩
      have hfull : ∀ a b, TreeOf R inp a B i (m x) → TreeOf R inp b C (m x) j → a ∈ ls ∧ b ∈ rs := by
        intro a b ha hb
        obtain ⟨y, hy, e1, hf⟩ := hback _ _ (.binary hr ha hb)
        have : x = y := by
          refine huniq x hx y hy e1.symm ?_
          rcases hm y hy with ⟨B'', h1'', _⟩ | ⟨B'', C'', h1'', h2''⟩
          · rw [e1, hr] at h1''; cases h1''
          · obtain ⟨a', b', e', h1, h2⟩ := h2'' _ hf
            cases e'
            have := ha.width
            have := h1.width
            omega
        subst this
        rw [e] at hf
        obtain ⟨a', ha', b', hb', e'⟩ := mem_pairs.1 hf
        cases e'
        exact ⟨ha', hb'⟩
    · exact hl' _ _ _ fun t => ⟨fun h' => (hall t h' b0 hb0).1, fun h' => (hfull t b0 h' (hall a0 ha0 b0 hb0).2).1⟩
    · exact hr'' _ _ _ fun t => ⟨fun h' => (hall a0 ha0 t h').2, fun h' => (hfull a0 t (hall a0 ha0 b0 hb0).1 h').2⟩

end Gearley
