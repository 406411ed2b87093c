import Verif.Proofs.PackedVals
import Verif.Proofs.EvalRoundsCompact

/-! # Rounds for packed forests -/

namespace Gearley
open Gearley.Spec

/-- Rounds for the factor `f` of rule `d`, and a bound on the number of new nodes. -/
inductive RdArgs (V : Nat → View → Prop) (Rd : Nat → Nat → Nat → Prop) (info : ForestInfo) (nr : Nat → Nat) (k d f : Nat) :
    Nat → Nat → Prop
  | rule {l r m n a b} : V f (.rule l r) → Rd l m a → Rd r n b → RdArgs V Rd info nr k d f (m + n + 3) (a + b)
  | one {n a} : (∀ l r, ¬ V f (.rule l r)) → d < k → info.removed d = none → Rd f n a → RdArgs V Rd info nr k d f n a
  | removed {n a s dir} : (∀ l r, ¬ V f (.rule l r)) → d < k → info.removed d = some (s, dir) → Rd f n a →
      RdArgs V Rd info nr k d f (n + nr s + 3) (a + 1)

/-- What the relation `Rd` must provide. -/
structure RdOK (V : Nat → View → Prop) (Rd : Nat → Nat → Nat → Prop) (info : ForestInfo) (nr extra : Nat → Nat) (k : Nat) :
    Prop where
  det : ∀ {h a b}, V h a → V h b → a = b
  leaf : ∀ {h s v}, V h (.leaf s v) → Rd h 1 0
  alts : ∀ {h} (xs : List (Nat × Nat × Nat × Nat)), xs ≠ [] → V h (.alts (xs.map fun x => (x.1, x.2.1))) →
    (∀ x ∈ xs, RdArgs V Rd info nr k x.1 x.2.1 x.2.2.1 x.2.2.2) →
    Rd h ((xs.map fun x => x.2.2.1 + 2).sum + extra xs.length) (xs.map fun x => x.2.2.2).sum

theorem sum_le_sum_map {β : Type} {f g : β → Nat} : ∀ {l : List β}, (∀ x ∈ l, f x ≤ g x) → (l.map f).sum ≤ (l.map g).sum
  | [], _ => Nat.le_refl _
  | x :: l, h => by
    rw [List.map_cons, List.map_cons, List.sum_cons, List.sum_cons]
    exact Nat.add_le_add (h x List.mem_cons_self) (sum_le_sum_map fun y hy => h y (List.mem_cons_of_mem _ hy))

theorem packedWork_of_packs {V : Nat → View → Prop} {Rd : Nat → Nat → Nat → Prop} {info : ForestInfo} {nr extra : Nat → Nat}
    {R : Rules} {inp : Input} (hE : RdOK V Rd info nr extra R.length) {A i j h : Nat}
    (hp : Packs V R inp A i j h) : ∃ k g, PackedWork extra nr info R inp A i j k ∧ Rd h k g ∧ g ≤ k ∧
      ((∀ d, info.removed d = none) → g = 0) := by
  classical
  induction hp with
  | leaf hv hm => exact ⟨_, _, .leaf hm, hE.leaf hv, by omega, fun _ => rfl⟩
  | @node A i j h as hv hn hm hne h1 h2 h3 h4 ih1 ih3 ih4 =>
    -- data for one alternative
    let Q := fun (a : Nat × Nat × Nat) (x : WorkAlt × Nat) => x.1.rule = a.1 ∧ x.1.split = a.2.1 ∧
      (∀ B, R[a.1]? = some ⟨A, B, none⟩ → PackedWork extra nr info R inp B i j x.1.left) ∧
      (∀ B C, R[a.1]? = some ⟨A, B, some C⟩ → PackedWork extra nr info R inp B i a.2.1 x.1.left ∧
        PackedWork extra nr info R inp C a.2.1 j x.1.right) ∧
      ∃ n, x.1.rounds info nr R = n + 2 ∧ RdArgs V Rd info nr R.length a.1 a.2.2 n x.2 ∧ x.2 ≤ n ∧
        ((∀ d, info.removed d = none) → x.2 = 0)
    have key : ∀ a ∈ as, ∃ x, Q a x := by
      rintro ⟨d, m, f⟩ ha
      have halt := (hm d m).1 (List.mem_map.2 ⟨_, ha, rfl⟩)
      rcases halt with ⟨B, hr, hmj, t1, ht1⟩ | ⟨B, C, hr, ht1, ht2⟩
      · obtain ⟨n, g, k1, k2, k3, k4⟩ := ih1 d m f B ha hr
        have hnr := Packs.no_rule (V := V) hE.det (h1 d m f B ha hr)
        have hd : d < R.length := (List.getElem?_eq_some_iff.1 hr).1
        cases hrem : info.removed d with
        | none =>
          refine ⟨⟨⟨d, m, n, 0⟩, g⟩, rfl, rfl, ?_, ?_, ?_⟩
          · intro B' hr'
            simp only [hr, Option.some.injEq, Rule.mk.injEq, true_and, and_true] at hr'
            subst hr'; exact k1
          · intro B' C' hr'; simp [hr] at hr'
          · simp only [WorkAlt.rounds, hr, Option.bind_some, hrem]
            exact ⟨n, rfl, .one hnr hd hrem k2, k3, k4⟩
        | some p =>
          obtain ⟨s, dir⟩ := p
          refine ⟨⟨⟨d, m, n, 0⟩, g + 1⟩, rfl, rfl, ?_, ?_, ?_⟩
          · intro B' hr'
            simp only [hr, Option.some.injEq, Rule.mk.injEq, true_and, and_true] at hr'
            subst hr'; exact k1
          · intro B' C' hr'; simp [hr] at hr'
          · simp only [WorkAlt.rounds, hr, Option.bind_some, hrem]
            exact ⟨_, rfl, .removed hnr hd hrem k2, by omega, fun h => by rw [h d] at hrem; cases hrem⟩
      · obtain ⟨l, r, hlr⟩ := h2 d m f B C ha hr
        obtain ⟨p, a1, k1, k2, k3, k4⟩ := ih3 d m f B C l r ha hr hlr
        obtain ⟨q, a2, k5, k6, k7, k8⟩ := ih4 d m f B C l r ha hr hlr
        refine ⟨⟨⟨d, m, p, q⟩, a1 + a2⟩, rfl, rfl, ?_, ?_, ?_⟩
        · intro B' hr'; simp [hr] at hr'
        · intro B' C' hr'
          simp only [hr, Option.some.injEq, Rule.mk.injEq, true_and] at hr'
          obtain ⟨rfl, rfl⟩ := hr'
          exact ⟨k1, k5⟩
        · simp only [WorkAlt.rounds, hr, Option.bind_some]
          exact ⟨_, rfl, .rule hlr k2 k6, by omega, fun h => by have := k4 h; have := k8 h; omega⟩
    have hg : ∃ g : Nat × Nat × Nat → WorkAlt × Nat, ∀ a ∈ as, Q a (g a) :=
      ⟨fun a => if h : ∃ x, Q a x then h.choose else ⟨⟨0, 0, 0, 0⟩, 0⟩, fun a ha => by
        simp only [key a ha, dif_pos]; exact (key a ha).choose_spec⟩
    obtain ⟨g, hg⟩ := hg
    have hmap : ((as.map fun a => (g a).1).map fun a => (a.rule, a.split)) = as.map fun a => (a.1, a.2.1) := by
      rw [List.map_map]
      exact List.map_congr_left fun a ha => by simp only [Function.comp, (hg a ha).1, (hg a ha).2.1]
    refine ⟨_, (as.map fun a => (g a).2).sum, .node (as.map fun a => (g a).1) (by rw [hmap]; exact hn) (by rw [hmap]; exact hm)
      (by simpa using hne) ?_ ?_ ?_, ?_, ?_, ?_⟩
    · intro x hx B hr
      obtain ⟨a, ha, rfl⟩ := List.mem_map.1 hx
      rw [(hg a ha).1] at hr
      exact (hg a ha).2.2.1 B hr
    · intro x hx B C hr
      obtain ⟨a, ha, rfl⟩ := List.mem_map.1 hx
      rw [(hg a ha).1] at hr
      rw [(hg a ha).2.1]
      exact ((hg a ha).2.2.2.1 B C hr).1
    · intro x hx B C hr
      obtain ⟨a, ha, rfl⟩ := List.mem_map.1 hx
      rw [(hg a ha).1] at hr
      rw [(hg a ha).2.1]
      exact ((hg a ha).2.2.2.1 B C hr).2
    · have := hE.alts (h := h) (as.map fun a => (a.1, a.2.2, (g a).1.rounds info nr R - 2, (g a).2))
        (by simpa using hne) (by simpa [Function.comp_def] using hv) (by
          intro x hx
          obtain ⟨a, ha, rfl⟩ := List.mem_map.1 hx
          obtain ⟨n, e, h', _⟩ := (hg a ha).2.2.2.2
          simp only [e, Nat.add_sub_cancel]
          exact h')
      have e2 : ((as.map fun a => (g a).1).map fun a => a.rounds info nr R) =
          ((as.map fun a => (a.1, a.2.2, (g a).1.rounds info nr R - 2, (g a).2)).map fun x => x.2.2.1 + 2) := by
        rw [List.map_map, List.map_map]
        refine List.map_congr_left fun a ha => ?_
        obtain ⟨n, e, _⟩ := (hg a ha).2.2.2.2
        simp only [Function.comp, e]; omega
      have e3 : (as.map fun a => (g a).2) =
          ((as.map fun a => (a.1, a.2.2, (g a).1.rounds info nr R - 2, (g a).2)).map fun x => x.2.2.2) := by
        rw [List.map_map]; rfl
      rw [e2, e3]
      simpa only [List.length_map] using this
    · refine Nat.le_trans ?_ (Nat.le_add_right _ _)
      rw [List.map_map]
      refine sum_le_sum_map fun a ha => ?_
      obtain ⟨n, e, _, h', _⟩ := (hg a ha).2.2.2.2
      simp only [Function.comp, e]; omega
    · intro hno
      refine List.sum_eq_zero fun x hx => ?_
      obtain ⟨a, ha, rfl⟩ := List.mem_map.1 hx
      obtain ⟨n, e, _, _, h'⟩ := (hg a ha).2.2.2.2
      exact h' hno

variable {info : ForestInfo} {nr : Nat → Nat} {k : Nat}

namespace Simple

theorem Rd.mono {G G' : List Node} (hp : G <+: G') {h n a : Nat} (hv : Rd info G h n a) : Rd info G' h n a := by
  have hg : ∀ {i : Nat} {x : Node}, G[i]? = some x → G'[i]? = some x := by
    intro i x hi
    obtain ⟨t, rfl⟩ := hp
    rw [List.getElem?_append_left (List.getElem?_eq_some_iff.1 hi).1, hi]
  have hr : ∀ {i : Nat}, i < G.length → (IsRule G' i ↔ IsRule G i) := by
    intro i hi
    unfold IsRule
    rw [hg (List.getElem?_eq_getElem hi), List.getElem?_eq_getElem hi]
  induction hv with
  | leaf h => exact .leaf (hg h)
  | nulling h => exact .nulling (hg h)
  | rule h _ _ ih1 ih2 => exact .rule (hg h) ih1 ih2
  | product e h h2 h3 ih => exact .product e (hg h) (h2.imp (hr h3.lt).2 id) ih
  | removed h h2 h3 h4 h5 h6 _ ih1 ih2 => exact .removed (hg h) (fun h' => h2 ((hr h6.lt).1 h')) h3 h4 h5 ih1 ih2
  | sum h h2 _ ih => exact .sum (hg h) h2 ih

/-- Rounds for the nodes made by `initialize_nulling`. -/
theorem rd_nulling {count : Nat} {G : List Node} (hN : NullRounds info nr) (hc : count = info.maxNullingSymbol.getD 0)
    (hG : NullingOK count info.nullingIntermediate G) (s : Nat) (hs : s ≤ count) : Rd info G s (nr s) 0 := by
  generalize hk : nr s = k
  induction k using Nat.strong_induction_on generalizing s with
  | _ k ih =>
    cases hr : info.nullingRule s with
    | none =>
      rw [← hk, hN.leaf s hr]
      refine .nulling (s := s) (hG.leaf s hs ?_)
      unfold ForestInfo.nullingRule at hr
      simpa using hr
    | some p =>
      obtain ⟨x, y⟩ := p
      have h2 := hN.rule s x y hr
      unfold ForestInfo.nullingRule at hr
      rw [Option.map_eq_some_iff] at hr
      obtain ⟨⟨s', x', y'⟩, h3, h4⟩ := hr
      cases h4
      obtain ⟨i, h5, h6⟩ := hG.product s _ hs h3
      have hle := info.rule_le _ (List.mem_of_getElem? h5)
      dsimp only at hle
      rw [← hc] at hle
      have h7 := hG.rule i _ h5
      have hv : Rd info G (count + 1 + i) (nr x + nr y + 3) 0 :=
        .rule h7 (ih _ (by omega) x hle.2.1 rfl) (ih _ (by omega) y hle.2.2 rfl)
      rw [← hk, h2]
      exact Rd.product 0 h6 (.inl ⟨_, _, h7⟩) hv

/-- What the tables must provide. -/
structure RdTables (info : ForestInfo) (nr : Nat → Nat) (G : List Node) (k : Nat) : Prop where
  elim : info.nullingEliminated.length < 2 ^ 32
  cover : k ≤ info.nullingEliminated.length
  null : ∀ (d s : Nat) dir, info.nullingEliminated[d]? = some (some (s, dir)) → s < 2 ^ 32 ∧ Rd info G s (nr s) 0

theorem rdTables {b : Bocage} {G : List Node} (hb : Bocage.new info = pure b) (hp : b.graph <+: G) (hl : G.length < 2 ^ 32)
    (hN : NullRounds info nr) (hn : info.nullingEliminated.length < 2 ^ 32)
    (hk : k ≤ info.nullingEliminated.length) : RdTables info nr G k := by
  obtain ⟨h1, _, _⟩ := new_eq hb
  have h2 := nullingGraph_nullingOK h1 (Nat.lt_of_le_of_lt hp.length_le hl)
  refine ⟨hn, hk, fun d s dir hs => ?_⟩
  have hle := info.elim_le (List.mem_of_getElem? hs)
  have := (nullingGraph_lt h1).1
  exact ⟨by omega, (rd_nulling hN rfl h2 s hle).mono hp⟩

theorem rd_args {G : List Node} (hT : RdTables info nr G k) {p d f n a : Nat}
    (hp : G[p]? = some (.product d f)) (ha : RdArgs (HasView G) (Rd info G) info nr k d f n a) : Rd info G p (n + 2) a := by
  have hcov := hT.cover
  have hel := hT.elim
  cases ha with
  | rule h1 h2 h3 =>
    cases h1 with
    | rule h1 => exact .product 0 hp (.inl ⟨_, _, h1⟩) (.rule h1 h2 h3)
  | one h1 h2 h3 h4 => exact .product 0 hp (.inr (.inr (removed_none h3 (by omega)))) h4
  | removed h1 h2 h3 h4 =>
    have he := removed_some h3
    obtain ⟨k1, k2⟩ := hT.null _ _ _ he
    refine .removed (b := 0) hp (fun h => ?_) (by unfold nullAction; omega) he k1 h4 k2
    obtain ⟨l, r, h⟩ := hasView_rule.1 h
    exact h1 l r h

theorem rdOK {G : List Node} (hT : RdTables info nr G k) : RdOK (HasView G) (Rd info G) info nr extra k where
  det := HasView.det
  leaf h := by cases h with | leaf h => exact .leaf h
  alts := by
    intro h xs hne hv hx
    generalize has : (xs.map fun x => (x.1, x.2.1)) = as at hv
    cases hv with
    | @product d f hp =>
      rcases xs with _ | ⟨x, _ | ⟨y, xs⟩⟩
      · simp at has
      · simp only [List.map_cons, List.map_nil, List.cons.injEq, and_true, Prod.mk.injEq] at has
        obtain ⟨rfl, rfl⟩ := has
        have := rd_args hT hp (hx x (by simp))
        simpa [extra] using this
      · simp at has
    | @sum nt as hs hk hp =>
      subst has
      simp only [List.length_map] at hs hk hp
      have := Rd.sum (info := info) (G := G) (us := xs.map fun x => (x.2.2.1 + 2, x.2.2.2)) hs
        (by simp) (fun i hi => by
          have hi' : i < xs.length := by simpa using hi
          have h1 := hp i (by simpa using hi')
          simp only [List.getElem_map] at h1 ⊢
          exact rd_args hT h1 (hx _ (List.getElem_mem hi')))
      rw [List.map_map, List.map_map, Nat.add_assoc] at this
      unfold extra
      rw [if_neg (by omega)]
      exact this

end Simple

namespace Compact

theorem rd_nulling {count : Nat} {G0 : List Simple.Node} {G : List Nat} (hN : NullRounds info nr)
    (hc : count = info.maxNullingSymbol.getD 0) (h0 : Simple.NullingOK count info.nullingIntermediate G0)
    (hl : 9 * G0.length < 2 ^ 32) (hG : ∀ (i : Nat) x, G0[i]? = some x → get G (9 * i) = pure (convert x)) (s : Nat)
    (hs : s ≤ count) : Rd info G false (s * 9) (nr s) 0 := by
  have hlen := h0.len
  have h9 : ∀ i, i < G0.length → mul9 i = i * 9 := fun i hi => u32_of_lt (by omega)
  generalize hk : nr s = k
  induction k using Nat.strong_induction_on generalizing s with
  | _ k ih =>
    cases hr : info.nullingRule s with
    | none =>
      rw [← hk, hN.leaf s hr]
      refine .nulling (s := s) ?_
      rw [Nat.mul_comm]
      refine hG s _ (h0.leaf s hs ?_)
      unfold ForestInfo.nullingRule at hr
      simpa using hr
    | some p =>
      obtain ⟨x, y⟩ := p
      have h2 := hN.rule s x y hr
      unfold ForestInfo.nullingRule at hr
      rw [Option.map_eq_some_iff] at hr
      obtain ⟨⟨s', x', y'⟩, h3, h4⟩ := hr
      cases h4
      obtain ⟨i, h5, h6⟩ := h0.product s _ hs h3
      have hi := (List.getElem?_eq_some_iff.1 h5).1
      have hle := info.rule_le _ (List.mem_of_getElem? h5)
      dsimp only at hle
      rw [← hc] at hle
      have h7 := hG _ _ (h0.rule i _ h5)
      have h8 := hG _ _ h6
      simp only [convert] at h7 h8
      rw [h9 _ (by omega), h9 _ (by omega), Nat.mul_comm 9] at h7
      rw [h9 _ (by omega), Nat.mul_comm 9] at h8
      have hv : Rd info G false ((count + 1 + i) * 9) (nr x + nr y + 3) 0 :=
        .rule h7 (ih _ (by omega) x hle.2.1 rfl) (ih _ (by omega) y hle.2.2 rfl)
      rw [← hk, h2]
      exact Rd.product h8 (.inl ⟨_, _, h7⟩) hv

structure RdTables (info : ForestInfo) (nr : Nat → Nat) (G : List Nat) (k : Nat) : Prop where
  elim : info.nullingEliminated.length < 2 ^ 32
  cover : k ≤ info.nullingEliminated.length
  null : ∀ (d s : Nat) dir, info.nullingEliminated[d]? = some (some (s, dir)) →
    s * 9 < 2 ^ 32 ∧ Rd info G false (s * 9) (nr s) 0

theorem rdTables {b : Bocage} {G : List Nat} (hb : Bocage.new info = pure b) (hp : b.graph <+: G) (hl : G.length < 2 ^ 32)
    (hN : NullRounds info nr) (hn : info.nullingEliminated.length < 2 ^ 32)
    (hk : k ≤ info.nullingEliminated.length) : RdTables info nr G k := by
  obtain ⟨_, _, G0, h1, h2⟩ := new_eq hb
  have hl0 := expandNulling_length h2
  have hl1 := hp.length_le
  simp only [List.length_nil, Nat.zero_add] at hl0
  have h3 := Simple.nullingGraph_nullingOK h1 (by omega)
  obtain ⟨hc, hlen⟩ := Simple.nullingGraph_lt h1
  obtain ⟨g, e1, _, _, e4⟩ := expand_fold hc G0 [] (by
    intro x hx
    obtain ⟨i, hi⟩ := List.mem_iff_getElem?.1 hx
    rcases h3.kinds i x hi with h | ⟨f, h, _⟩ | ⟨l, r, h, _⟩
    · exact .inl h
    · exact .inr (.inl ⟨f, h⟩)
    · exact .inr (.inr ⟨l, r, h⟩))
  rw [h2] at e1
  cases pure_inj_M e1
  simp only [List.length_nil, Nat.zero_add] at e4
  refine ⟨hn, hk, fun d s dir hs => ?_⟩
  have hle := info.elim_le (List.mem_of_getElem? hs)
  exact ⟨by omega, (rd_nulling hN rfl h3 (by omega) e4 s hle).mono hp⟩

theorem rd_chain {G : List Nat} (hT : RdTables info nr G k) : ∀ (xs : List (Nat × Nat × Nat × Nat)) (h : Nat),
    Chain G h (xs.map fun x => (x.1, x.2.1)) →
    (∀ x ∈ xs, RdArgs (HasView G) (Rd info G false) info nr k x.1 x.2.1 x.2.2.1 x.2.2.2) →
    Rd info G true h ((xs.map fun x => x.2.2.1 + 2).sum + 1) (xs.map fun x => x.2.2.2).sum
  | [], h, hc, _ => by
    cases hc with
    | done h => exact .endSum h
  | (d, f, n, a) :: xs, h, hc, hx => by
    have hcov := hT.cover
    have hel := hT.elim
    cases hc with
    | summand h1 h2 h3 =>
      have ih := rd_chain hT xs _ h3 fun x hx' => hx x (List.mem_cons_of_mem _ hx')
      have ha := hx _ List.mem_cons_self
      simp only at ha
      rw [List.map_cons, List.map_cons, List.sum_cons, List.sum_cons, Nat.add_assoc (n + 2)]
      cases ha with
      | rule g1 g2 g3 =>
        cases g1 with
        | rule g1 => exact .summand h1 h2 (.inl ⟨_, _, g1⟩) (.rule g1 g2 g3) ih
      | one g1 g2 g3 g4 => exact .summand h1 h2 (.inr (.inr (removed_none g3 (by omega)))) g4 ih
      | removed g1 g2 g3 g4 =>
        have he := removed_some g3
        obtain ⟨k1, k2⟩ := hT.null _ _ _ he
        refine .removed (b := 0) h1 h2 (fun h => ?_) (by unfold nullAction; omega) he k1 g4 k2 ih
        obtain ⟨l, r, h⟩ := hasView_rule.1 h
        exact g1 l r h

theorem rdOK {G : List Nat} (hT : RdTables info nr G k) : RdOK (HasView G) (Rd info G false) info nr extra k where
  det := HasView.det
  leaf h := by cases h with | leaf h => exact .leaf h
  alts := by
    intro h xs hne hv hx
    generalize has : (xs.map fun x => (x.1, x.2.1)) = as at hv
    have hlen := congrArg List.length has
    rw [List.length_map] at hlen
    cases hv with
    | single hc =>
      have := hc.first
      have := Rd.single this (rd_chain hT xs _ (has ▸ hc) hx)
      unfold extra
      rw [if_pos (show xs.length = 1 from hlen)]
      exact this
    | beginSum hb hk hc =>
      rcases as with _ | ⟨⟨d, f⟩, as⟩
      · simp at hk
      · have := Rd.beginSum hb hc.first (rd_chain hT xs _ (has ▸ hc) hx)
        unfold extra
        rw [if_neg (by omega)]
        exact this

end Compact
end Gearley
