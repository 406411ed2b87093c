import Verif.Proofs.PackedSession

/-! # Values of packed forests -/

namespace Gearley
open Gearley.Spec
variable {α : Type}

/-- The arguments of rule `d` with factor `f`, and their cost. -/
inductive ArgsAt (V : Nat → View → Prop) (Ev : Nat → List α → Nat → Prop) (info : ForestInfo) (nv : Nat → List α)
    (nc : Nat → Nat) (k d f : Nat) : List α → Nat → Prop
  | rule {l r u v m n} : V f (.rule l r) → Ev l u m → Ev r v n → ArgsAt V Ev info nv nc k d f (u ++ v) (m + n)
  | one {u n} : (∀ l r, ¬ V f (.rule l r)) → d < k → info.removed d = none → Ev f u n → ArgsAt V Ev info nv nc k d f u n
  | removed {u n s dir} : (∀ l r, ¬ V f (.rule l r)) → d < k → info.removed d = some (s, dir) → Ev f u n →
      ArgsAt V Ev info nv nc k d f (if dir then u ++ nv s else nv s ++ u) (n + nc s)

/-- What the relation `Ev` must provide. -/
structure EvOK (V : Nat → View → Prop) (Ev : Nat → List α → Nat → Prop) (info : ForestInfo) (E : Evaluator α)
    (nv : Nat → List α) (nc : Nat → Nat) (k : Nat) : Prop where
  det : ∀ {h a b}, V h a → V h b → a = b
  leaf : ∀ {h s v}, V h (.leaf s v) → Ev h [E.leaf s v] 1
  alts : ∀ {h} (xs : List (Nat × Nat × List α × Nat)), xs ≠ [] → V h (.alts (xs.map fun x => (x.1, x.2.1))) →
    (∀ x ∈ xs, ArgsAt V Ev info nv nc k x.1 x.2.1 x.2.2.1 x.2.2.2) →
    Ev h (xs.flatMap fun x => applyRule info E x.1 x.2.2.1) (xs.map fun x => x.2.2.2 + 1).sum

theorem Packs.no_rule {V : Nat → View → Prop} (hV : ∀ {h a b}, V h a → V h b → a = b) {R : Rules} {inp : Input}
    {A i j h : Nat} (hp : Packs V R inp A i j h) (l r : Nat) : ¬ V h (.rule l r) := by
  intro h'
  cases hp with
  | leaf hv _ => cases hV hv h'
  | node as hv => cases hV hv h'

theorem packedVals_of_packs {V : Nat → View → Prop} {Ev : Nat → List α → Nat → Prop} {info : ForestInfo} {E : Evaluator α}
    {nv : Nat → List α} {nc : Nat → Nat} {R : Rules} {inp : Input} (hE : EvOK V Ev info E nv nc R.length) {A i j h : Nat}
    (hp : Packs V R inp A i j h) : ∃ u N, PackedVals info E nv nc R inp A i j u N ∧ Ev h u N := by
  classical
  induction hp with
  | leaf hv hm => exact ⟨_, _, .leaf hm, hE.leaf hv⟩
  | @node A i j h as hv hn hm hne h1 h2 h3 h4 ih1 ih3 ih4 =>
    -- data for one alternative
    let Q := fun (a : Nat × Nat × Nat) (x : PackedAlt α) => x.rule = a.1 ∧ x.split = a.2.1 ∧
      (∀ B, R[a.1]? = some ⟨A, B, none⟩ → PackedVals info E nv nc R inp B i j x.left x.costL) ∧
      (∀ B C, R[a.1]? = some ⟨A, B, some C⟩ → PackedVals info E nv nc R inp B i a.2.1 x.left x.costL ∧
        PackedVals info E nv nc R inp C a.2.1 j x.right x.costR) ∧
      ∃ n, x.cost info nc R = n + 1 ∧ ArgsAt V Ev info nv nc R.length a.1 a.2.2 (x.args info nv R) n
    have key : ∀ a ∈ as, ∃ x, Q a x := by
      rintro ⟨d, m, f⟩ ha
      have halt := (hm d m).1 (List.mem_map.2 ⟨_, ha, rfl⟩)
      rcases halt with ⟨B, hr, hmj, t1, ht1⟩ | ⟨B, C, hr, ht1, ht2⟩
      · obtain ⟨u, n, k1, k2⟩ := ih1 d m f B ha hr
        have hnr := Packs.no_rule (V := V) hE.det (h1 d m f B ha hr)
        have hd : d < R.length := (List.getElem?_eq_some_iff.1 hr).1
        refine ⟨⟨d, m, u, [], n, 0⟩, rfl, rfl, ?_, ?_, ?_⟩
        · intro B' hr'
          simp only [hr, Option.some.injEq, Rule.mk.injEq, true_and, and_true] at hr'
          subst hr'; exact k1
        · intro B' C' hr'; simp [hr] at hr'
        · simp only [PackedAlt.cost, PackedAlt.args, hr, Option.bind_some]
          cases hrem : info.removed d with
          | none => exact ⟨n, rfl, .one hnr hd hrem k2⟩
          | some p =>
            obtain ⟨s, dir⟩ := p
            refine ⟨_, rfl, ?_⟩
            have := ArgsAt.removed (nv := nv) (nc := nc) hnr hd hrem k2
            cases dir <;> exact this
      · obtain ⟨l, r, hlr⟩ := h2 d m f B C ha hr
        obtain ⟨u, p, k1, k2⟩ := ih3 d m f B C l r ha hr hlr
        obtain ⟨v, q, k3, k4⟩ := ih4 d m f B C l r ha hr hlr
        refine ⟨⟨d, m, u, v, p, q⟩, rfl, rfl, ?_, ?_, ?_⟩
        · intro B' hr'; simp [hr] at hr'
        · intro B' C' hr'
          simp only [hr, Option.some.injEq, Rule.mk.injEq, true_and] at hr'
          obtain ⟨rfl, rfl⟩ := hr'
          exact ⟨k1, k3⟩
        · simp only [PackedAlt.cost, PackedAlt.args, hr, Option.bind_some]
          exact ⟨_, rfl, .rule hlr k2 k4⟩
    have hg : ∃ g : Nat × Nat × Nat → PackedAlt α, ∀ a ∈ as, Q a (g a) :=
      ⟨fun a => if h : ∃ x, Q a x then h.choose else ⟨0, 0, [], [], 0, 0⟩, fun a ha => by
        simp only [key a ha, dif_pos]; exact (key a ha).choose_spec⟩
    obtain ⟨g, hg⟩ := hg
    have hmap : ((as.map g).map fun a => (a.rule, a.split)) = as.map fun a => (a.1, a.2.1) := by
      rw [List.map_map]
      exact List.map_congr_left fun a ha => by simp only [Function.comp, (hg a ha).1, (hg a ha).2.1]
    refine ⟨_, _, .node (as.map g) (by rw [hmap]; exact hn) (by rw [hmap]; exact hm) (by simpa using hne) ?_ ?_ ?_, ?_⟩
    · intro x hx B hr
      obtain ⟨a, ha, rfl⟩ := List.mem_map.1 hx
      rw [(hg a ha).1] at hr
      exact (hg a ha).2.2.1 B hr
    · intro x hx B C hr
      obtain ⟨a, ha, rfl⟩ := List.mem_map.1 hx
      rw [(hg a ha).1] at hr
      rw [(hg a ha).2.1]
      exact ((hg a ha).2.2.2.1 B C hr).1
    · intro x hx B C hr
      obtain ⟨a, ha, rfl⟩ := List.mem_map.1 hx
      rw [(hg a ha).1] at hr
      rw [(hg a ha).2.1]
      exact ((hg a ha).2.2.2.1 B C hr).2
    · have := hE.alts (h := h) (as.map fun a => (a.1, a.2.2, (g a).args info nv R, (g a).cost info nc R - 1))
        (by simpa using hne) (by simpa [Function.comp_def] using hv) (by
          intro x hx
          obtain ⟨a, ha, rfl⟩ := List.mem_map.1 hx
          obtain ⟨n, e, h'⟩ := (hg a ha).2.2.2.2
          rw [e]
          exact h')
      have e1 : ((as.map g).flatMap fun a => applyRule info E a.rule (a.args info nv R)) =
          ((as.map fun a => (a.1, a.2.2, (g a).args info nv R, (g a).cost info nc R - 1)).flatMap
            fun x => applyRule info E x.1 x.2.2.1) := by
        rw [List.flatMap_map, List.flatMap_map]
        exact List.flatMap_congr fun a ha => by rw [(hg a ha).1]
      have e2 : ((as.map g).map fun a => a.cost info nc R) =
          ((as.map fun a => (a.1, a.2.2, (g a).args info nv R, (g a).cost info nc R - 1)).map fun x => x.2.2.2 + 1) := by
        rw [List.map_map, List.map_map]
        refine List.map_congr_left fun a ha => ?_
        obtain ⟨n, e, _⟩ := (hg a ha).2.2.2.2
        simp only [Function.comp, e]; omega
      rw [e1, e2]
      exact this

end Gearley

namespace Gearley
open Gearley.Spec
variable {α : Type} {info : ForestInfo} {E : Evaluator α} {nv : Nat → List α} {nc : Nat → Nat} {k : Nat}

theorem removed_some {d s : Nat} {dir : Bool} (h : info.removed d = some (s, dir)) :
    info.nullingEliminated[d]? = some (some (s, dir)) := by
  unfold ForestInfo.removed at h
  rwa [Option.join_eq_some_iff] at h

theorem removed_none {d : Nat} (h : info.removed d = none) (hd : d < info.nullingEliminated.length) :
    info.nullingEliminated[d]? = some none := by
  unfold ForestInfo.removed at h
  rw [List.getElem?_eq_getElem hd] at h ⊢
  simpa using h

theorem Simple.hasView_rule {G : List Simple.Node} {f : Nat} : Simple.IsRule G f ↔ ∃ l r, Simple.HasView G f (.rule l r) := by
  constructor
  · rintro ⟨l, r, h⟩; exact ⟨l, r, .rule h⟩
  · rintro ⟨l, r, h⟩; cases h with | rule h => exact ⟨l, r, h⟩

theorem Compact.hasView_rule {G : List Nat} {f : Nat} : Compact.IsRule G f ↔ ∃ l r, Compact.HasView G f (.rule l r) := by
  constructor
  · rintro ⟨l, r, h⟩; exact ⟨l, r, .rule h⟩
  · rintro ⟨l, r, h⟩; cases h with | rule h => exact ⟨l, r, h⟩

namespace Simple

theorem ev_args {G : List Node} (hT : Tables info E nv nc G k) {p d f n : Nat} {u : List α}
    (hp : G[p]? = some (.product d f)) (ha : ArgsAt (HasView G) (Ev info E G) info nv nc k d f u n) :
    Ev info E G p (applyRule info E d u) (n + 1) := by
  rw [← finish_eq hT.eval]
  have hcov := hT.cover
  have hel := hT.elim
  cases ha with
  | rule h1 h2 h3 =>
    cases h1 with
    | rule h1 => exact .product hp (.inl ⟨_, _, h1⟩) (.rule h1 h2 h3)
  | one h1 h2 h3 h4 => exact .product hp (.inr (.inr (removed_none h3 (by omega)))) h4
  | removed h1 h2 h3 h4 =>
    have he := removed_some h3
    obtain ⟨k1, k2⟩ := hT.null _ _ _ he
    refine .removed hp (fun h => ?_) (by unfold nullAction; omega) he k1 h4 k2
    obtain ⟨l, r, h⟩ := hasView_rule.1 h
    exact h1 l r h

theorem evOK {G : List Node} (hT : Tables info E nv nc G k) : EvOK (HasView G) (Ev info E G) info E nv nc k where
  det := HasView.det
  leaf h := by cases h with | leaf h => exact .leaf h
  alts := by
    intro h xs hne hv hx
    generalize has : (xs.map fun x => (x.1, x.2.1)) = as at hv
    cases hv with
    | @product d f hp =>
      rcases xs with _ | ⟨x, _ | ⟨y, xs⟩⟩
      · simp at has
      · simp only [List.map_cons, List.map_nil, List.cons.injEq, and_true, Prod.mk.injEq] at has
        obtain ⟨rfl, rfl⟩ := has
        have := ev_args hT hp (hx x (by simp))
        simpa using this
      · simp at has
    | @sum nt as hs hk hp =>
      subst has
      simp only [List.length_map] at hs hk hp
      have := Ev.sum (info := info) (E := E) (G := G) (us := xs.map fun x => (applyRule info E x.1 x.2.2.1, x.2.2.2 + 1)) hs hk
        (by simp) (fun i hi => by
          have hi' : i < xs.length := by simpa using hi
          have h1 := hp i (by simpa using hi')
          simp only [List.getElem_map] at h1 ⊢
          exact ev_args hT h1 (hx _ (List.getElem_mem hi')))
      rw [List.map_map, List.map_map] at this
      rw [List.flatMap_def]
      exact this

end Simple

namespace Compact

theorem ev_chain {G : List Nat} (hT : Tables info E nv nc G k) : ∀ (xs : List (Nat × Nat × List α × Nat)) (h : Nat),
    Chain G h (xs.map fun x => (x.1, x.2.1)) →
    (∀ x ∈ xs, ArgsAt (HasView G) (Ev info E G false) info nv nc k x.1 x.2.1 x.2.2.1 x.2.2.2) →
    Ev info E G true h (xs.flatMap fun x => applyRule info E x.1 x.2.2.1) (xs.map fun x => x.2.2.2 + 1).sum
  | [], h, hc, _ => by
    cases hc with
    | done h => exact .endSum h
  | (d, f, u, n) :: xs, h, hc, hx => by
    have hcov := hT.cover
    have hel := hT.elim
    cases hc with
    | summand h1 h2 h3 =>
      have ih := ev_chain hT xs _ h3 fun x hx' => hx x (List.mem_cons_of_mem _ hx')
      have ha := hx _ List.mem_cons_self
      simp only at ha
      rw [List.flatMap_cons, List.map_cons, List.sum_cons]
      simp only
      rw [← Simple.finish_eq hT.eval]
      cases ha with
      | rule g1 g2 g3 =>
        cases g1 with
        | rule g1 => exact .summand h1 h2 (.inl ⟨_, _, g1⟩) (.rule g1 g2 g3) ih
      | one g1 g2 g3 g4 => exact .summand h1 h2 (.inr (.inr (removed_none g3 (by omega)))) g4 ih
      | removed g1 g2 g3 g4 =>
        have he := removed_some g3
        obtain ⟨k1, k2⟩ := hT.null _ _ _ he
        refine .removed h1 h2 (fun h => ?_) (by unfold nullAction; omega) he k1 g4 k2 ih
        obtain ⟨l, r, h⟩ := hasView_rule.1 h
        exact g1 l r h

theorem evOK {G : List Nat} (hT : Tables info E nv nc G k) : EvOK (HasView G) (Ev info E G false) info E nv nc k where
  det := HasView.det
  leaf h := by cases h with | leaf h => exact .leaf h
  alts := by
    intro h xs hne hv hx
    generalize has : (xs.map fun x => (x.1, x.2.1)) = as at hv
    cases hv with
    | single hc =>
      have := hc.first
      exact .single this (ev_chain hT xs _ (has ▸ hc) hx)
    | beginSum hb hk hc =>
      rcases as with _ | ⟨⟨d, f⟩, as⟩
      · simp at hk
      · exact .beginSum hb hc.first (ev_chain hT xs _ (has ▸ hc) hx)

end Compact
end Gearley
