import Verif.Proofs.Seen
import Verif.Spec.Ahead

/-! # The exact contents of the chart, with any hints -/

namespace Gearley
open Gearley.Spec
variable {g : DefaultGrammar} {R : Rules} {root : Nat → Nat}

/-- What the recognizer for `g` works with. -/
abbrev DefaultGrammar.guided (g : DefaultGrammar) (R : Rules) (W : Input) (hint : Nat → Option Nat) : Guided :=
  ⟨R, g.startSym, g.syms, g.firstHas, g.followHas, W, hint⟩

theorem Spec.Guided.Pred.corners {G : Guided} {p A B : Nat} (hA : G.Pred p A)
    (hc : Relation.ReflTransGen (Corner G.rules) A B) : G.Pred p B := by
  induction hc with
  | refl => exact hA
  | tail _ hc ih => exact .corner ih hc

theorem Spec.Guided.Found.tree {G : Guided} {b A a : Nat} {t : PTree} (h : G.Found b A a t) :
    TreeOf G.rules G.inp t A a b := by
  induction h using Guided.Found.rec (motive_1 := fun _ _ _ => True) with
  | start => trivial
  | corner => trivial
  | next => trivial
  | token h => exact .leaf h
  | unary h _ _ _ _ ih => exact .unary h ih
  | binary h _ _ _ _ _ _ ih1 ih2 => exact .binary h ih1 ih2

theorem Spec.Guided.Pred.pred {G : Guided} {a A : Nat} (h : G.Pred a A) : Spec.Pred G.rules G.start G.inp a A := by
  induction h using Guided.Pred.rec (motive_2 := fun _ _ _ _ _ => True) with
  | start => exact (pred_predOK (R := G.rules) G.start G.inp).start
  | corner _ hc ih => exact (pred_predOK (R := G.rules) G.start G.inp).corner _ _ _ ih hc
  | next hr _ hf _ ih => exact (pred_predOK (R := G.rules) G.start G.inp).medial _ _ _ _ _ _ _ hr ih hf.tree
  | token => trivial
  | unary => trivial
  | binary => trivial

/-- A predicted symbol is reached from a predicted symbol that is no part of a rule. -/
theorem Guided.Pred.base (hg : GrammarOK g R root) {W : Input} {hint : Nat → Option Nat} {a A : Nat}
    (h : (g.guided R W hint).Pred a A) :
    ∃ Y, Y < g.syms ∧ (g.guided R W hint).Pred a Y ∧ Relation.ReflTransGen (Corner R) Y A := by
  induction h using Guided.Pred.rec (motive_2 := fun _ _ _ _ _ => True) with
  | start => exact ⟨_, hg.start_lt, .start, .refl⟩
  | corner _ hc ih => obtain ⟨Y, h1, h2, h3⟩ := ih; exact ⟨Y, h1, h2, h3.tail hc⟩
  | next hr hp hf he => exact ⟨_, hg.rhs1_lt _ (List.mem_of_getElem? hr) _ rfl, .next hr hp hf he, .refl⟩
  | token => trivial
  | unary => trivial
  | binary => trivial

theorem okM_iff {la : Bool} {look h' : Option Nat} {d : Nat} {r : Rule} (hr : R[d]? = some r)
    (hh : h' = if la then look else none) :
    okM g R la look d = true ↔ g.syms ≤ r.lhs ∨ ∀ h, h' = some h → g.followHas r.lhs h := by
  refine ⟨okM_follow hr hh, ?_⟩
  subst hh
  cases la <;> cases look <;> simp [okM, useM, hr, DefaultGrammar.followHas]

theorem okP_unary_iff {la : Bool} {look h' : Option Nat} {d A B : Nat} (hr : R[d]? = some ⟨A, B, none⟩)
    (hh : h' = if la then look else none) :
    okP g R la look d = true ↔ g.syms ≤ A ∨ ∀ h, h' = some h → g.followHas A h := by
  refine ⟨okP_unary hr hh, ?_⟩
  subst hh
  cases la <;> cases look <;> simp [okP, useP, hr, DefaultGrammar.followHas]

theorem okP_binary_iff {la : Bool} {look h' : Option Nat} {d A B C : Nat} (hr : R[d]? = some ⟨A, B, some C⟩)
    (hh : h' = if la then look else none) :
    okP g R la look d = true ↔ ∀ h, h' = some h → g.firstHas C h := by
  refine ⟨okP_binary hr hh, ?_⟩
  subst hh
  cases la <;> cases look <;> simp [okP, useP, hr, DefaultGrammar.firstHas]

/-- The state after some positions holds exactly what is found with the hints. -/
structure AheadAt (g : DefaultGrammar) (R : Rules) (W : Input) (hint : Nat → Option Nat) (s : TRec) (e : Nat)
    (S : List (List TItem)) (loc : List Nat) : Prop where
  rest : Rest g R s S
  sound : Sound R W (Pred R g.startSym W) (fun _ => False) s.predicted S loc e
  items : ∀ (k : Nat) l b, S[k]? = some l → loc[k]? = some b → ∀ d a t,
    (∃ o, loc[o]? = some a ∧ (d, o, t) ∈ facts l) ↔ (g.guided R W hint).Item b d a t
  rows : ∀ (k : Nat) b, loc[k]? = some b → ∀ X, s.predicted.bit k X = true ↔ X < g.syms ∧ (g.guided R W hint).Pred b X

variable {W : Input} {hint : Nat → Option Nat} {s : TRec} {e : Nat} {S : List (List TItem)} {loc : List Nat}

section
variable {la : Bool} {sorter : Sorter} {Fd : Multiset Done} {cur : List TItem}

theorem AheadAt.gate (h : AheadAt g R W hint s e S loc) {o a X : Nat} (ho : loc[o]? = some a)
    (hp : (g.guided R W hint).Pred a X) : gate g s.predicted o X = true := by
  simp only [Gearley.gate, Bool.or_eq_true, decide_eq_true_eq]
  by_cases hX : g.syms ≤ X
  · exact .inl hX
  · exact .inr ((h.rows o a ho X).2 ⟨by omega, hp⟩)

theorem AheadAt.rootBit (hg : GrammarOK g R root) (h : AheadAt g R W hint s e S loc) {o a : Nat} {r : Rule}
    (hr : r ∈ R) (ho : loc[o]? = some a) (hp : (g.guided R W hint).Pred a r.lhs) :
    s.predicted.bit o (root r.lhs) = true := by
  obtain ⟨Y, h1, h2, h3⟩ := Guided.Pred.base hg hp
  exact (h.rows o a ho _).2 ⟨hg.root_lt r hr, h2.corners (hg.corner_root h1 h3)⟩

theorem AheadAt.predOfBit (hg : GrammarOK g R root) (h : AheadAt g R W hint s e S loc) {o a : Nat} {r : Rule}
    (hr : r ∈ R) (ho : loc[o]? = some a) (hb : s.predicted.bit o (root r.lhs) = true) :
    (g.guided R W hint).Pred a r.lhs :=
  ((h.rows o a ho _).1 hb).2.corners (hg.root_corner r hr)

/-- Only what is found with the hints gets completed. -/
theorem AheadAt.fd_sound (hg : GrammarOK g R root) (h : AheadAt g R W hint s e S loc)
    (hh : hint (e + 1) = if la then s.lookahead else none)
    (hf : (ctxOf g R root la sorter s S).Fixed (scansOf (S.length - 1) (W e)) Fd cur) :
    ∀ (t : PTree) A o, (A, o, t) ∈ Fd → ∃ a, loc[o]? = some a ∧ (g.guided R W hint).Found (e + 1) A a t := by
  have hsize : ∀ n, ∀ t : PTree, sizeOf t ≤ n → ∀ A o, (A, o, t) ∈ Fd →
      ∃ a, loc[o]? = some a ∧ (g.guided R W hint).Found (e + 1) A a t := by
    intro n
    induction n with
    | zero => intro t ht; cases t <;> simp at ht
    | succ n ih =>
      intro t ht A o hz
      rw [hf.fd] at hz
      rcases Multiset.mem_add.1 hz with hz | hz
      · simp only [scansOf, Multiset.mem_map, Multiset.mem_coe, Prod.mk.injEq] at hz
        obtain ⟨⟨a, v⟩, hav, rfl, rfl, rfl⟩ := hz
        exact ⟨e, h.sound.last, .token hav⟩
      · simp only [Multiset.mem_map, Multiset.mem_bind] at hz
        obtain ⟨x, ⟨⟨C, o', t'⟩, hz', hx⟩, hfx⟩ := hz
        obtain ⟨_, h0 | h0⟩ := EC.mem_consH.1 hx
        · obtain ⟨it, hit, f, hfn, hr1, hok, rfl⟩ := h0
          simp only [fire, Prod.mk.injEq] at hfx
          obtain ⟨rfl, rfl, rfl⟩ := hfx
          simp only [PTree.node.sizeOf_spec, PTree.pair.sizeOf_spec] at ht
          obtain ⟨m, hm, ht'⟩ := ih t' (by omega) C o' hz'
          simp only [ctxOf] at hit hr1 hok
          cases hS : S[o']? with
          | none => rw [hS] at hit; simp at hit
          | some l =>
            rw [hS, Option.getD_some] at hit
            have hfact : (it.dot, it.origin, f) ∈ facts l := mem_facts.2 ⟨it, hit, rfl, rfl, hfn⟩
            obtain ⟨_, _, _, a, _, _, h1, _⟩ := h.sound.fact o' l hS _ hfact
            simp only at h1
            obtain ⟨A, B, C', hR, hp, hl, he⟩ := (h.items o' l m hS hm it.dot a f).1 ⟨_, h1, hfact⟩
            simp only at hR
            simp only [rhs1Of, hR, Option.bind_some, Option.some.injEq] at hr1
            subst hr1
            refine ⟨a, h1, ?_⟩
            simp only [ctxOf, lhsOf_eq hR]
            exact .binary hR hp hl he ht' ((okM_iff hR hh).1 hok)
        · obtain ⟨r, hR, h0, h1, hbit, hok, hxe⟩ := h0
          rw [hxe] at hfx
          simp only [fire, Prod.mk.injEq] at hfx
          obtain ⟨rfl, rfl, rfl⟩ := hfx
          simp only [PTree.node.sizeOf_spec] at ht
          obtain ⟨a', ha', ht'⟩ := ih t' (by omega) C o' hz'
          refine ⟨a', ha', ?_⟩
          simp only [ctxOf] at hR hbit hok ⊢
          have hp := h.predOfBit hg (List.mem_of_getElem? hR) ha' hbit
          rw [lhsOf_eq hR]
          simp only at h0
          obtain ⟨A, B, C1⟩ := r
          simp only at h0 h1
          subst h0; subst h1
          exact .unary hR hp ht' (hok.imp id fun hok => (okP_unary_iff hR hh).1 hok)
  exact fun t => hsize _ t (Nat.le_refl _)

/-- Everything that is found with the hints, and that the rules predicted there begin with, gets completed. -/
theorem AheadAt.fd_complete (hg : GrammarOK g R root) (h : AheadAt g R W hint s e S loc)
    (hh : hint (e + 1) = if la then s.lookahead else none)
    (hf : (ctxOf g R root la sorter s S).Fixed (scansOf (S.length - 1) (W e)) Fd cur) {b A a : Nat} {t : PTree}
    (ht : (g.guided R W hint).Found b A a t) : b = e + 1 → ∃ o, loc[o]? = some a ∧ (A, o, t) ∈ Fd := by
  induction ht using Guided.Found.rec (motive_1 := fun _ _ _ => True) with
  | start => trivial
  | corner => trivial
  | next => trivial
  | @token A v i hm =>
    intro hb
    have hi : i = e := by omega
    subst hi
    refine ⟨S.length - 1, h.sound.last, ?_⟩
    rw [hf.fd]
    refine Multiset.mem_add.2 (Or.inl ?_)
    simp only [scansOf, Multiset.mem_map, Multiset.mem_coe]
    exact ⟨(A, v), hm, rfl⟩
  | @unary d A B a b t hR hp _ hok _ ih =>
    intro hb
    subst hb
    obtain ⟨o, ho, hz⟩ := ih rfl
    refine ⟨o, ho, ?_⟩
    rw [hf.fd]
    refine Multiset.mem_add.2 (Or.inr ?_)
    simp only at hR
    refine Multiset.mem_map.2 ⟨(d, o, t), Multiset.mem_bind.2 ⟨_, hz, ?_⟩, by simp [fire, ctxOf, lhsOf_eq hR]⟩
    refine EC.mem_consH.2 ⟨h.gate ho (hp.corner ⟨_, List.mem_of_getElem? hR, rfl, rfl⟩), Or.inr ⟨_, hR, rfl, rfl, ?_, ?_, rfl⟩⟩
    · exact h.rootBit hg (List.mem_of_getElem? hR) ho hp
    · exact hok.imp id fun hok => (okP_unary_iff hR hh).2 hok
  | @binary d A B C a m b l r hR hp hl he _ hend _ ih1 ih2 =>
    intro hb
    subst hb
    obtain ⟨o', ho', hz⟩ := ih2 rfl
    have hol : o' < S.length := by
      have := (List.getElem?_eq_some_iff.1 ho').1
      rw [h.sound.locLen] at this; exact this
    simp only at hR
    obtain ⟨o, ho, hfact⟩ := (h.items o' S[o'] m (by simp [hol]) ho' d a l).2 ⟨A, B, C, hR, hp, hl, he⟩
    obtain ⟨it, hit, e1, e2, e3⟩ := mem_facts.1 hfact
    simp only at e1 e2 e3
    refine ⟨o, ho, ?_⟩
    rw [hf.fd]
    refine Multiset.mem_add.2 (Or.inr ?_)
    refine Multiset.mem_map.2 ⟨(d, o, .pair l r), Multiset.mem_bind.2 ⟨_, hz, ?_⟩, by simp [fire, ctxOf, lhsOf_eq hR]⟩
    refine EC.mem_consH.2 ⟨h.gate ho' (.next hR hp hl he), Or.inl ⟨it, ?_, l, e3, ?_, ?_, by rw [e1, e2]⟩⟩
    · simp [ctxOf, hol, hit]
    · simp [ctxOf, ← e1, rhs1Of, hR]
    · rw [← e1]; exact (okM_iff hR hh).2 hend

theorem AheadAt.cur_iff (hg : GrammarOK g R root) (h : AheadAt g R W hint s e S loc)
    (hh : hint (e + 1) = if la then s.lookahead else none)
    (hf : (ctxOf g R root la sorter s S).Fixed (scansOf (S.length - 1) (W e)) Fd cur) (d a : Nat) (t : PTree) :
    (∃ o, loc[o]? = some a ∧ (d, o, t) ∈ facts cur) ↔ (g.guided R W hint).Item (e + 1) d a t := by
  constructor
  · rintro ⟨o, ho, hx⟩
    rw [hf.cf] at hx
    simp only [Multiset.mem_bind] at hx
    obtain ⟨⟨B, o', t'⟩, hz, hx⟩ := hx
    obtain ⟨_, r, hR, h0, h1, hbit, hok, hxe⟩ := EC.mem_consM.1 hx
    simp only [Prod.mk.injEq, true_and] at hxe
    obtain ⟨rfl, rfl⟩ := hxe
    obtain ⟨a', ha', hfo⟩ := h.fd_sound hg hh hf t B o hz
    rw [ho] at ha'
    simp only [Option.some.injEq] at ha'
    subst ha'
    obtain ⟨C, hC⟩ := Option.isSome_iff_exists.1 h1
    simp only [ctxOf] at hR hbit hok
    have hp := h.predOfBit hg (List.mem_of_getElem? hR) ho hbit
    obtain ⟨A, B', C'⟩ := r
    simp only at h0 hC
    subst h0; subst hC
    exact ⟨A, B', C, hR, hp, hfo, hok.imp id fun hok => (okP_binary_iff hR hh).1 hok⟩
  · rintro ⟨A, B, C, hR, hp, hfo, hen⟩
    simp only at hR
    obtain ⟨o, ho, hz⟩ := h.fd_complete hg hh hf hfo rfl
    refine ⟨o, ho, ?_⟩
    rw [hf.cf]
    refine Multiset.mem_bind.2 ⟨_, hz, EC.mem_consM.2 ⟨h.gate ho (hp.corner ⟨_, List.mem_of_getElem? hR, rfl, rfl⟩), _, hR,
      rfl, rfl, h.rootBit hg (List.mem_of_getElem? hR) ho hp, hen.imp id fun hok => (okP_binary_iff hR hh).2 hok, rfl⟩⟩

theorem AheadAt.next (hg : GrammarOK g R root) (h : AheadAt g R W hint s e S loc)
    (hh : hint (e + 1) = if la then s.lookahead else none)
    (hf : (ctxOf g R root la sorter s S).Fixed (scansOf (S.length - 1) (W e)) Fd cur) {s' cur' keep}
    (ha : Advanced g R s.predicted S cur s' cur' keep) (hl : s'.lookahead = none) :
    AheadAt g R W hint s' (e + 1) (S.take keep ++ [cur']) (nextLoc loc keep e) := by
  have hP := pred_predOK (R := R) g.startSym W
  have hkl : keep ≤ loc.length := by rw [h.sound.locLen]; exact ha.keep_le
  have horig : ∀ it ∈ cur, it.origin < keep := by
    intro it hit
    rcases ha.keep_max with h1 | ⟨_, _, h2⟩
    · rw [h1]; exact (hf.citems it hit).2.1
    · exact h2 it hit
  refine ⟨h.rest.next hf ha hl, h.sound.next hg hP hf ha, ?_, ?_⟩
  · intro k l b hk hb d a t
    rcases nextS_inv ha.keep_le hk with ⟨hlt, h'⟩ | ⟨rfl, rfl⟩
    · rcases nextLoc_inv hkl hb with ⟨_, h''⟩ | ⟨h'', _⟩
      · rw [← h.items k l b h' h'' d a t]
        constructor
        · rintro ⟨o, ho, hx⟩
          refine ⟨o, ?_, hx⟩
          obtain ⟨it, hit, _, e2, _⟩ := mem_facts.1 hx
          have := h.rest.origin k l h' it hit
          simp only at e2
          rwa [nextLoc_get (by omega) hkl] at ho
        · rintro ⟨o, ho, hx⟩
          obtain ⟨it, hit, _, e2, _⟩ := mem_facts.1 hx
          have := h.rest.origin k l h' it hit
          simp only at e2
          exact ⟨o, nextLoc_lt (by omega) ho, hx⟩
      · omega
    · rcases nextLoc_inv hkl hb with ⟨h'', _⟩ | ⟨_, rfl⟩
      · omega
      · rw [← h.cur_iff hg hh hf d a t, facts_perm ha.perm]
        constructor
        · rintro ⟨o, ho, hx⟩
          obtain ⟨it, hit, _, e2, _⟩ := mem_facts.1 hx
          have := horig it hit
          simp only at e2
          rw [nextLoc_get (by omega) hkl] at ho
          exact ⟨o, ho, hx⟩
        · rintro ⟨o, ho, hx⟩
          obtain ⟨it, hit, _, e2, _⟩ := mem_facts.1 hx
          have := horig it hit
          simp only at e2
          exact ⟨o, nextLoc_lt (by omega) ho, hx⟩
  · intro k b hb X
    rcases nextLoc_inv hkl hb with ⟨hlt, h'⟩ | ⟨rfl, rfl⟩
    · rw [ha.old k X hlt]; exact h.rows k b h' X
    · constructor
      · intro hbit
        have hX := (bit_lt ha.rowLen hbit).2
        refine ⟨hX, ?_⟩
        rcases (ha.new X hX).1 hbit with ⟨h1, h2⟩ | ⟨it, hit, C, h1, h2⟩
        · exact (h.sound.stale _ X (by omega) h2).elim
        · have hn := (hf.citems it hit).1
          obtain ⟨f, fs, hfe⟩ := List.exists_cons_of_ne_nil hn
          have hx : (it.dot, it.origin, f) ∈ facts cur := mem_facts.2 ⟨it, hit, rfl, rfl, by rw [hfe]; simp⟩
          obtain ⟨_, _, _, a, _, e2, _⟩ := hf.sound_cur hg h.sound hP hx
          obtain ⟨A, B, C', hR, hp, hfo, hen⟩ := (h.cur_iff hg hh hf it.dot a f).1 ⟨_, e2, hx⟩
          simp only at hR
          simp only [rhs1Of, hR, Option.bind_some, Option.some.injEq] at h1
          subst h1
          exact (Guided.Pred.next hR hp hfo hen).corners h2
      · rintro ⟨hX, hp⟩
        have hpr : ∀ b X, (g.guided R W hint).Pred b X → b = e + 1 →
            ∃ it ∈ cur, ∃ C, rhs1Of R it.dot = some C ∧ Relation.ReflTransGen (Corner R) C X := by
          intro b X hp
          induction hp using Guided.Pred.rec (motive_2 := fun _ _ _ _ _ => True) with
          | start => intro h; omega
          | corner _ hc ih =>
            intro h
            obtain ⟨it, h1, C, h2, h3⟩ := ih h
            exact ⟨it, h1, C, h2, h3.tail hc⟩
          | next hR hp hfo hen =>
            intro hb
            subst hb
            simp only at hR
            obtain ⟨o, ho, hx⟩ := (h.cur_iff hg hh hf _ _ _).2 ⟨_, _, _, hR, hp, hfo, hen⟩
            obtain ⟨it, hit, e1, _, _⟩ := mem_facts.1 hx
            simp only at e1
            exact ⟨it, hit, _, by rw [← e1]; simp [rhs1Of, hR], .refl⟩
          | token => trivial
          | unary => trivial
          | binary => trivial
        exact (ha.new X hX).2 (.inr (hpr _ X hp rfl))

end
end Gearley
