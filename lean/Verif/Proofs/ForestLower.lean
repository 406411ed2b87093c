import Verif.Props.Packed
import Verif.Props.Size

/-!
# Each alternative of a packed forest has an entry of its own

The leaves of a handle tell its range, if tokens at different positions differ. So an entry of the graph belongs to one
alternative only.
-/

namespace Gearley
open Gearley.Spec

/-- Tokens at different positions differ (in symbol or value). -/
def TokensDiffer (inp : Input) : Prop := ∀ i j p, p ∈ inp i → p ∈ inp j → i = j

section
variable {V : Nat → View → Prop} {R : Rules} {inp : Input}

theorem mem_alternative {as : List (Nat × Nat × Nat)} {d m : Nat} (h : (d, m) ∈ as.map fun a => (a.1, a.2.1)) :
    ∃ f, (d, m, f) ∈ as := by
  obtain ⟨⟨d', m', f⟩, hmem, e⟩ := List.mem_map.1 h
  cases e
  exact ⟨f, hmem⟩

/-- A handle is packed for one range only. -/
theorem packs_range (hV : ∀ h a b, V h a → V h b → a = b) (hd : TokensDiffer inp) {A i j h : Nat}
    (hp : Packs V R inp A i j h) : ∀ {i' j'}, Packs V R inp A i' j' h → i = i' ∧ j = j' := by
  induction hp with
  | leaf hv hm =>
    intro i' j' hp'
    cases hp' with
    | leaf hv' hm' =>
      cases hV _ _ _ hv hv'
      have := hd _ _ _ hm hm'
      omega
    | node as hv' => cases hV _ _ _ hv hv'
  | @node A i j h as hv hn hm hne h1 h2 h3 h4 ih1 ih3 ih4 =>
    intro i' j' hp'
    cases hp' with
    | leaf hv' => cases hV _ _ _ hv hv'
    | node bs hv' hn' hm' hne' h1' h2' h3' h4' =>
      have e := hV _ _ _ hv hv'
      simp only [View.alts.injEq] at e
      obtain ⟨⟨d, m, f⟩, hmem⟩ := List.exists_mem_of_ne_nil _ hne
      obtain ⟨m', hmem'⟩ : ∃ m', (d, m', f) ∈ bs := by
        have : ((d, f) : Nat × Nat) ∈ bs.map fun a => (a.1, a.2.2) := by
          rw [← e]; exact List.mem_map.2 ⟨_, hmem, rfl⟩
        obtain ⟨⟨d', m', f'⟩, k, e⟩ := List.mem_map.1 this
        cases e
        exact ⟨m', k⟩
      rcases (hm d m).1 (List.mem_map.2 ⟨_, hmem, rfl⟩) with ⟨B, hr, _⟩ | ⟨B, C, hr, _⟩
      · exact ih1 d m f B hmem hr (h1' d m' f B hmem' hr)
      · obtain ⟨l, r, hlr⟩ := h2 d m f B C hmem hr
        exact ⟨(ih3 d m f B C l r hmem hr hlr (h3' d m' f B C l r hmem' hr hlr)).1,
          (ih4 d m f B C l r hmem hr hlr (h4' d m' f B C l r hmem' hr hlr)).2⟩

/-- Everything that is part of a derivation of the whole input has a packed handle. -/
theorem packs_ctx {start n x : Nat} (hp : Packs V R inp start 0 n x) (hpl : ∀ i, ∀ p ∈ inp i, Terminal R p.1) {A i j : Nat}
    (hc : Ctx R start inp n A i j) : (∃ t, TreeOf R inp t A i j) → ∃ h, Packs V R inp A i j h := by
  induction hc with
  | root => exact fun _ => ⟨x, hp⟩
  | @unary d A B i j hr _ ih =>
    rintro ⟨t, ht⟩
    obtain ⟨h, hA⟩ := ih ⟨_, .unary hr ht⟩
    cases hA with
    | leaf _ hm => exact absurd rfl (hpl _ _ hm _ (List.mem_of_getElem? hr))
    | node as _ _ hm _ h1 =>
      obtain ⟨f, hmem⟩ := mem_alternative ((hm d j).2 (.inl ⟨B, hr, rfl, t, ht⟩))
      exact ⟨f, h1 d j f B hmem hr⟩
  | @left d A B C i k j r hr _ hr' ih =>
    rintro ⟨t, ht⟩
    obtain ⟨h, hA⟩ := ih ⟨_, .binary hr ht hr'⟩
    cases hA with
    | leaf _ hm => exact absurd rfl (hpl _ _ hm _ (List.mem_of_getElem? hr))
    | node as _ _ hm _ _ h2 h3 _ =>
      obtain ⟨f, hmem⟩ := mem_alternative ((hm d k).2 (.inr ⟨B, C, hr, ⟨t, ht⟩, ⟨r, hr'⟩⟩))
      obtain ⟨x, y, hxy⟩ := h2 d k f B C hmem hr
      exact ⟨x, h3 d k f B C x y hmem hr hxy⟩
  | @right d A B C i k j l hr _ hl ih =>
    rintro ⟨t, ht⟩
    obtain ⟨h, hA⟩ := ih ⟨_, .binary hr hl ht⟩
    cases hA with
    | leaf _ hm => exact absurd rfl (hpl _ _ hm _ (List.mem_of_getElem? hr))
    | node as _ _ hm _ _ h2 _ h4 =>
      obtain ⟨f, hmem⟩ := mem_alternative ((hm d k).2 (.inr ⟨B, C, hr, ⟨l, hl⟩, ⟨t, ht⟩⟩))
      obtain ⟨x, y, hxy⟩ := h2 d k f B C hmem hr
      exact ⟨y, h4 d k f B C x y hmem hr hxy⟩

/-- The rule `d` over `i .. j`, with the end of its first symbol at `m`, is part of a derivation of the whole input. -/
def UsefulAlternative (R : Rules) (start : Nat) (inp : Input) (n : Nat) (i j d m : Nat) : Prop :=
  ∃ A, Ctx R start inp n A i j ∧ Alternative R inp A i j d m

theorem alternative_tree {A i j d m : Nat} (h : Alternative R inp A i j d m) : ∃ t, TreeOf R inp t A i j := by
  rcases h with ⟨B, hr, rfl, t, ht⟩ | ⟨B, C, hr, ⟨l, hl⟩, ⟨r, hr'⟩⟩
  · exact ⟨_, .unary hr ht⟩
  · exact ⟨_, .binary hr hl hr'⟩

theorem alternatives_le (hV : ∀ h a b, V h a → V h b → a = b) (hd : TokensDiffer inp) {P : Nat → Nat → Nat → Prop} {L : Nat}
    (hP1 : ∀ h as, V h (.alts as) → ∀ a ∈ as, ∃ p, P p a.1 a.2)
    (hP2 : ∀ p d f d' f', P p d f → P p d' f' → d = d' ∧ f = f') (hP3 : ∀ p d f, P p d f → p < L) {start n x : Nat}
    (hp : Packs V R inp start 0 n x) (hpl : ∀ i, ∀ p ∈ inp i, Terminal R p.1) {K : Finset (Nat × Nat × Nat × Nat)}
    (hK : ∀ a ∈ K, UsefulAlternative R start inp n a.1 a.2.1 a.2.2.1 a.2.2.2) : K.card ≤ L := by
  -- the entry of an alternative
  have key : ∀ a ∈ K, ∃ p f, P p a.2.2.1 f ∧
      ((∃ A B, R[a.2.2.1]? = some ⟨A, B, none⟩ ∧ a.2.2.2 = a.2.1 ∧ Packs V R inp B a.1 a.2.1 f) ∨
        ∃ A B C l r, R[a.2.2.1]? = some ⟨A, B, some C⟩ ∧ V f (.rule l r) ∧ Packs V R inp B a.1 a.2.2.2 l ∧
          Packs V R inp C a.2.2.2 a.2.1 r) := by
    rintro ⟨i, j, d, m⟩ ha
    obtain ⟨A, hc, halt⟩ := hK _ ha
    obtain ⟨h, hA⟩ := packs_ctx hp hpl hc (alternative_tree halt)
    change Packs V R inp A i j h at hA
    change Alternative R inp A i j d m at halt
    simp only
    cases hA with
    | leaf _ hm =>
      rcases halt with ⟨B, hr, _⟩ | ⟨B, C, hr, _⟩ <;> exact absurd rfl (hpl _ _ hm _ (List.mem_of_getElem? hr))
    | node as hv _ hm _ h1 h2 h3 h4 =>
      obtain ⟨f, hmem⟩ := mem_alternative ((hm d m).2 halt)
      obtain ⟨p, hp⟩ := hP1 h _ hv (d, f) (List.mem_map.2 ⟨_, hmem, rfl⟩)
      refine ⟨p, f, hp, ?_⟩
      rcases halt with ⟨B, hr, rfl, _⟩ | ⟨B, C, hr, _⟩
      · exact .inl ⟨A, B, hr, rfl, h1 _ _ _ _ hmem hr⟩
      · obtain ⟨l, r, hlr⟩ := h2 _ _ _ _ _ hmem hr
        exact .inr ⟨A, B, C, l, r, hr, hlr, h3 _ _ _ _ _ _ _ hmem hr hlr, h4 _ _ _ _ _ _ _ hmem hr hlr⟩
  choose! F G hG using key
  have := Finset.card_le_card_of_injOn (s := K) (t := Finset.range L) F (fun a ha => by
      simpa using hP3 _ _ _ (hG a ha).1) (by
    rintro ⟨i, j, d, m⟩ ha ⟨i', j', d', m'⟩ ha' e
    obtain ⟨h1, h2⟩ := hG _ ha
    obtain ⟨h1', h2'⟩ := hG _ ha'
    rw [e] at h1
    obtain ⟨e1, e2⟩ := hP2 _ _ _ _ _ h1 h1'
    simp only at e1 h2 h2'
    subst e1
    rw [e2] at h2
    rcases h2 with ⟨A, B, hr, rfl, k⟩ | ⟨A, B, C, l, r, hr, hv, k, k'⟩ <;>
      rcases h2' with ⟨A', B', hr', rfl, q⟩ | ⟨A', B', C', l', r', hr', hv', q, q'⟩ <;> rw [hr] at hr' <;> cases hr'
    · obtain ⟨rfl, rfl⟩ := packs_range hV hd k q
      rfl
    · cases hV _ _ _ hv hv'
      obtain ⟨rfl, rfl⟩ := packs_range hV hd k q
      obtain ⟨-, rfl⟩ := packs_range hV hd k' q'
      rfl)
  simpa using this

end

theorem Simple.alts_at {G : List Simple.Node} {h : Nat} {as : List (Nat × Nat)} (hv : Simple.HasView G h (.alts as)) :
    ∀ a ∈ as, ∃ p : Nat, G[p]? = some (Simple.Node.product a.1 a.2) := by
  intro a ha
  cases hv with
  | product hg => cases List.mem_singleton.1 ha; exact ⟨_, hg⟩
  | sum _ _ hall =>
    obtain ⟨i, hi, rfl⟩ := List.getElem_of_mem ha
    exact ⟨_, hall i hi⟩

theorem Compact.chain_at {G : List Nat} {h : Nat} {as : List (Nat × Nat)} (hc : Compact.Chain G h as) :
    ∀ a ∈ as, ∃ p, Compact.get G p = pure (.summand a.1 a.2) := by
  induction hc with
  | done => simp
  | summand hg _ _ ih =>
    intro a ha
    rcases List.mem_cons.1 ha with rfl | ha
    · exact ⟨_, hg⟩
    · exact ih a ha

theorem Compact.alts_at {G : List Nat} {h : Nat} {as : List (Nat × Nat)} (hv : Compact.HasView G h (.alts as)) :
    ∀ a ∈ as, ∃ p, Compact.get G p = pure (.summand a.1 a.2) := by
  cases hv with
  | single hc => exact Compact.chain_at hc
  | beginSum _ _ hc => exact Compact.chain_at hc

end Gearley
