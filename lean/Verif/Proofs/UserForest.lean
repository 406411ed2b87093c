import Verif.Proofs.UserCycle
import Verif.Proofs.UserPackedParse

/-! # Forests of the user's grammar, whenever the parser returns -/

namespace Gearley.Props
open Gearley.Spec Build
variable {U : URules} {N : Names U} {w : WrappedRoot} {g0 : Nat} {c nulling : Cfg} {X : CfgCrate} {σ : Type}
  {E : Env σ Nat} {toks ext : List Nat} {c' : Cfg} {n : Nat}

/-- A session that does not diverge terminates. -/
theorem PlainParse.terminates {nullable : Prop} {steps : List Step} {f : σ} (h : PlainParse E c n w nullable steps g0)
    (hF : ∀ dots syms, SafeStart E.F f dots syms) (hd : (Rec.new E f >>= Rec.session E steps) ≠ diverge) :
    GoodParse E c n w nullable steps g0 := by
  refine ⟨h, ?_⟩
  obtain ⟨root, g1, hR⟩ := h.prepared.ready0
  have := h.len
  rcases session_no_panic (la := E.lookahead) (so := E.sorter) hR.ok (by omega) (stepsOK_of0 hR h.tokens h.hints) [] with ⟨r, hr, _⟩ | ⟨_, hr⟩
  · exact ⟨r, hr⟩
  · exact absurd ((safe_rel h.leo hR (hF _ _) h.tokens []).diverges hr) hd

/-- If `parse` returned, everything about the parse of strings of tokens holds. -/
theorem ParserOf.ours {f : σ} {s0 : Rec σ Nat} {r : Rec σ Nat × _} (h : ParserOf X U N w g0 c nulling E.g) (hk : EmptyKept U N c nulling E.g) (hleo : E.leo = false)
    (hF : ∀ dots syms, SafeStart E.F f dots syms) (hr32 : c.rules.length < 2 ^ 32) (hs32 : c.numSyms ≤ 2 ^ 32) (ht : Tokens U c toks)
    (hlen : toks.length + 1 < 2 ^ 64 - 1) (h0 : Rec.new E f = pure s0) (hp : Rec.parse E s0 toks = pure r) :
    ∃ ext c' n, Ours U N w g0 c E toks ext c' n := by
  obtain ⟨ext, c', n, hN⟩ := h.numbered hk ht
  refine ⟨ext, c', n, hN.ours h hk ((hN.plain hleo hr32 hs32 hlen).terminates hF fun hd => ?_)⟩
  rw [h0, pure_bind] at hd
  rw [parse_diverges hN.internals hd] at hp
  exact diverge_ne_pure hp

/-- The tree `t` of a finished node is the tree `u` of the user's grammar: behind the start marker is a binarized tree which is
`u` once the rules made by binarization are flattened and removed nullable symbols are put back. -/
def ReadsAs (N : Names U) (ext : List Nat) (info : ForestInfo) (t : PTree) (u : UTree) : Prop :=
  ∃ d t', t = .node d (.pair (.leaf info.sof 0) t') ∧ flat (N.rename (ext_int ext)) info t' = [u.rename (intNum ext)]

theorem UTree.rename_inj {a b : UTree} (h : a.rename (intNum ext) = b.rename (intNum ext)) : a = b := by
  rw [← UTree.rename_back (ext_int ext) a, h, UTree.rename_back (ext_int ext)]

theorem exists_forall2 {α β : Type} {P : α → β → Prop} : (l : List α) → (∀ a ∈ l, ∃ b, P a b) → ∃ l', List.Forall₂ P l l'
  | [], _ => ⟨[], .nil⟩
  | a :: l, h => by
    obtain ⟨b, hb⟩ := h a (by simp)
    obtain ⟨l', hl⟩ := exists_forall2 l fun a ha => h a (by simp [ha])
    exact ⟨b :: l', .cons hb hl⟩

theorem forall2_mem {α β : Type} {P : α → β → Prop} {l : List α} {l' : List β} (h : List.Forall₂ P l l') :
    (∀ b ∈ l', ∃ a ∈ l, P a b) ∧ ∀ a ∈ l, ∃ b ∈ l', P a b := by
  induction h with
  | nil => simp
  | cons h _ ih =>
    refine ⟨fun b hb => ?_, fun a ha => ?_⟩
    · rcases List.mem_cons.1 hb with rfl | hb
      · exact ⟨_, by simp, h⟩
      · obtain ⟨a, h1, h2⟩ := ih.1 b hb
        exact ⟨a, by simp [h1], h2⟩
    · rcases List.mem_cons.1 ha with rfl | ha
      · exact ⟨_, by simp, h⟩
      · obtain ⟨b, h1, h2⟩ := ih.2 a ha
        exact ⟨b, by simp [h1], h2⟩

theorem forall2_nodup {α β : Type} {P : α → β → Prop} {l : List α} {l' : List β} (h : List.Forall₂ P l l') (hn : l.Nodup)
    (hinj : ∀ a ∈ l, ∀ a' ∈ l, ∀ b, P a b → P a' b → a = a') : l'.Nodup := by
  induction h with
  | nil => exact List.nodup_nil
  | @cons a b l l' h hl ih =>
    rw [List.nodup_cons] at hn ⊢
    refine ⟨fun hb => ?_, ih hn.2 fun a ha a' ha' => hinj a (by simp [ha]) a' (by simp [ha'])⟩
    obtain ⟨a', h1, h2⟩ := (forall2_mem hl).1 b hb
    have := hinj a (by simp) a' (by simp [h1]) b h h2
    subst this
    exact hn.1 h1

/-- The trees of the whole input read as the trees of the user's grammar. -/
theorem Ours.reads (h : Ours U N w g0 c E toks ext c' n) (ht : Tokens U c toks) (hp : N.parts w.innerRoot = none) (hI : Inner w g0 w.innerRoot)
    (hne : toks ≠ []) {ts : List PTree} (hn : ts.Nodup) (hts : ∀ t, t ∈ ts ↔ TreeOf (rulesOf c')
      (inputOf (parseSteps E.g.sofSym (toks.map (intNum ext)))) t (intNum ext g0) 0 (parseSteps E.g.sofSym (toks.map (intNum ext))).length) :
    ∃ us : List UTree, us.Nodup ∧ (∀ u, u ∈ us ↔ UTreeOf U (tokInput toks) u w.innerRoot 0 toks.length) ∧
      List.Forall₂ (ReadsAs N ext E.g.forestInfo) ts us := by
  obtain ⟨f1, f2, f3, _⟩ := built_forestInfo h.good.prepared
  have hin := h.inputOK ht
  have hin' := fun i p hp => (hin i p hp).2
  have hinj : ∀ {a b : Nat}, intNum ext a = intNum ext b → a = b := fun {a b} h => by rw [← ext_int ext a, h, ext_int]
  have hp' : (N.rename (ext_int ext)).parts (intNum ext w.innerRoot) = none := by
    show N.parts (extNum ext (intNum ext w.innerRoot)) = none
    rw [ext_int]
    exact hp
  have hI' : Inner (renRoot (intNum ext) w) (intNum ext g0) (intNum ext w.innerRoot) := ⟨fun e => hI.1 (hinj e), fun e => hI.2 (hinj e)⟩
  obtain ⟨d, hd⟩ := h.whole hne
  obtain ⟨us, hus⟩ := exists_forall2 (P := fun t u => ReadsAs N ext E.g.forestInfo t u ∧
      UTreeOf U (tokInput toks) u w.innerRoot 0 toks.length) ts fun t hm => by
    obtain ⟨t', rfl, ht'⟩ := (hd t).1 ((hts t).1 hm)
    obtain ⟨_, u', h1, h2⟩ := (h.bin.flat_sound f1 f2 hin' t' ht' hI').user hp'
    obtain ⟨u, j, e1, e2, h3⟩ := h2.reflect (ext_int ext) (Ours.input_of ext toks E.g.sofSym) w.innerRoot 0 rfl rfl
    have : j = toks.length := by omega
    subst this
    exact ⟨u, ⟨d, t', by rw [f3], by rw [h1, e1]⟩, h3⟩
  have hfun : ∀ t ∈ ts, ∀ t' ∈ ts, ∀ u, ReadsAs N ext E.g.forestInfo t u → ReadsAs N ext E.g.forestInfo t' u → t = t' := by
    intro t hm t' hm' u hr hr'
    obtain ⟨t1, rfl, h1⟩ := (hd t).1 ((hts t).1 hm)
    obtain ⟨t2, rfl, h2⟩ := (hd t').1 ((hts t').1 hm')
    obtain ⟨_, _, e1, h3⟩ := hr
    obtain ⟨_, _, e2, h4⟩ := hr'
    simp only [PTree.node.injEq, PTree.pair.injEq] at e1 e2
    obtain ⟨rfl, -, rfl⟩ := e1
    obtain ⟨_, -, rfl⟩ := e2
    rw [h.bin.flat_inj f1 f2 hin' t1 h1 hI' t2 h2 (h3.trans h4.symm)]
  refine ⟨us, forall2_nodup hus hn fun t hm t' hm' u h1 h2 => hfun t hm t' hm' u h1.1 h2.1, fun u => ⟨fun hu => ?_, fun hu => ?_⟩,
    hus.imp fun _ _ h => h.1⟩
  · obtain ⟨_, _, _, h1⟩ := (forall2_mem hus).1 u hu
    exact h1
  · obtain ⟨t, h1, h2⟩ := h.bin.complete_tree f1 f2 hin (hu.rename (f := intNum ext) (Ours.input_to ext toks E.g.sofSym))
      (by have := List.length_pos_iff.2 hne; omega)
    obtain ⟨u', h3, ⟨_, _, e, h4⟩, _⟩ := (forall2_mem hus).2 _ ((hts _).2 ((hd _).2 ⟨t, rfl, h1⟩))
    simp only [PTree.node.injEq, PTree.pair.injEq] at e
    obtain ⟨rfl, -, rfl⟩ := e
    rw [h2] at h4
    rwa [UTree.rename_inj (List.cons.inj h4).1]

/-- The tree of the empty input. -/
theorem Ours.empty (h : Ours U N w g0 c E [] ext c' n) (hn : UNullable U w.innerRoot) :
    ∃ d, ∀ t', TreeOf (rulesOf c') (inputOf (parseSteps E.g.sofSym (([] : List Nat).map (intNum ext)))) t' (intNum ext g0) 0
        (parseSteps E.g.sofSym (([] : List Nat).map (intNum ext))).length ↔ t' = .node d (.leaf (renRoot (intNum ext) w).sof 0) := by
  obtain ⟨g1, ⟨w1, w2⟩, w3, w4, w5⟩ := h.good.wrapping.rules
  have := h.good.root_eq w1
  subst this
  obtain ⟨d, hd⟩ := List.getElem?_of_mem (w4.2 hn)
  have hv : ∀ v, (intNum ext w.sof, v) ∈ inputOf (parseSteps E.g.sofSym (([] : List Nat).map (intNum ext))) 0 ↔ v = 0 := by
    intro v
    rw [h.sof]
    simp [inputOf, parseSteps]
  refine ⟨d, fun t' => ⟨fun ht' => ?_, ?_⟩⟩
  · rcases h.good.tree_form ht' with ⟨_, _, _, _, h1⟩ | ⟨d', v, rfl, _⟩
    · have := h1.lt
      rw [parseSteps_length] at this
      exact absurd this (by simp)
    · cases ht' with
      | @unary d' A B f i j hr hf =>
        have hv0 : v = 0 := by
          cases hf with
          | leaf hm => exact (hv v).1 hm
        subst hv0
        have hB : B = (renRoot (intNum ext) w).sof := by
          cases hf with
          | leaf hm => rfl
        subst hB
        congr 1
        unfold rulesOf at hr hd
        rw [List.getElem?_map, Option.map_eq_some_iff] at hr hd
        obtain ⟨q, hq, e1⟩ := hr
        obtain ⟨r, hr, e2⟩ := hd
        have hlen2 : ∀ x ∈ c'.rules, x.rhs.length = 1 ∨ x.rhs.length = 2 := by
          obtain ⟨depth, hP⟩ := h.good.prepared.processed
          exact hP.len
        have form : ∀ {x : CfgRule} {A B : Nat}, x ∈ c'.rules → ruleOf x = ⟨A, B, none⟩ → x.lhs = A ∧ x.rhs = [B] := by
          intro x A B hx e
          unfold ruleOf at e
          simp only [Rule.mk.injEq] at e
          obtain ⟨rfl, e3, e4⟩ := e
          refine ⟨rfl, ?_⟩
          match hxr : x.rhs, hlen2 x hx with
          | [a], _ =>
            rw [hxr] at e3
            simp at e3
            rw [e3]
          | [a, b], _ =>
            rw [hxr] at e4
            simp at e4
        obtain ⟨a1, a2⟩ := form (List.mem_of_getElem? hq) e1
        obtain ⟨b1, b2⟩ := form (List.mem_of_getElem? hr) e2
        exact bare_index h.bin.nodup hq hr (h.bin.once q (List.mem_of_getElem? hq) r (List.mem_of_getElem? hr) a1 b1 (by rw [a2, b2]))
  · rintro rfl
    exact .unary hd (.leaf ((hv 0).2 rfl))

end Gearley.Props
