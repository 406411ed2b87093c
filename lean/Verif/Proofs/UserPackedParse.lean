import Verif.Proofs.UserPackedRename
import Verif.Proofs.UserExists
import Verif.Props.Packed

/-! # Values of ambiguous inputs: the parser of the user's grammar -/

namespace Gearley.Props
open Gearley.Spec Build
variable {U : URules} {N : Names U} {w : WrappedRoot} {g0 : Nat} {c nulling : Cfg} {X : CfgCrate} {σ α : Type}
  {E : Env σ Nat} {toks ext : List Nat} {c' : Cfg} {n : Nat}

/-- In every rule with one symbol, the number the parser gives to the left-hand side is smaller than that of the symbol. -/
def UnaryDown (c : Cfg) (g : DefaultGrammar) : Prop :=
  ∀ r ∈ c.rules, ∀ B, r.rhs = [B] → ∀ x y, g.toInternal r.lhs = pure (some x) → g.toInternal B = pure (some y) → x < y

theorem Ours.unaryOrdered (h : Ours U N w g0 c E toks ext c' n) (hne : ∀ r ∈ c.rules, r.rhs ≠ []) (ho : UnaryDown c E.g) :
    UnaryOrdered (rulesOf c') := by
  intro r' hr' h1
  obtain ⟨q', hq', rfl⟩ := List.mem_map.1 hr'
  obtain ⟨q, hq, rfl⟩ := List.mem_map.1 (h.perm.mem_iff.1 hq')
  match hr : q.rhs, hne q hq with
  | [B], _ =>
    simp only [ruleOf, renRule, hr, List.map_cons, List.map_nil, List.headD_cons]
    exact ho q hq B hr _ _ (h.known _ ⟨q, hq, .inl rfl⟩) (h.known _ ⟨q, hq, .inr (by rw [hr]; simp)⟩)
  | A :: B :: l, _ => simp [ruleOf, renRule, hr] at h1

theorem Ours.wrappedOnce (h : Ours U N w g0 c E toks ext c' n) : WrappedOnce (rulesOf c') (renRoot (intNum ext) w) (intNum ext g0) := by
  intro d' d hr hd
  unfold rulesOf at hr hd
  rw [List.getElem?_map, Option.map_eq_some_iff] at hr hd
  obtain ⟨q, hq, e1⟩ := hr
  obtain ⟨r, hr, e2⟩ := hd
  have hlen2 : ∀ x ∈ c'.rules, x.rhs.length = 1 ∨ x.rhs.length = 2 := by
    obtain ⟨depth, hP⟩ := h.good.prepared.processed
    exact hP.len
  have form : ∀ {x : CfgRule} {A B C : Nat}, x ∈ c'.rules → ruleOf x = ⟨A, B, some C⟩ → x.lhs = A ∧ x.rhs = [B, C] := by
    intro x A B C hx e
    unfold ruleOf at e
    simp only [Rule.mk.injEq] at e
    obtain ⟨rfl, e3, e4⟩ := e
    refine ⟨rfl, ?_⟩
    rcases hlen2 x hx with hl | hl
    · rw [List.getElem?_eq_none (by omega)] at e4
      cases e4
    · match hxr : x.rhs, hl with
      | [a, b], _ =>
        rw [hxr] at e3 e4
        simp at e3 e4
        rw [e3, e4]
  obtain ⟨a1, a2⟩ := form (List.mem_of_getElem? hq) e1
  obtain ⟨b1, b2⟩ := form (List.mem_of_getElem? hr) e2
  exact bare_index h.bin.nodup hq hr (h.bin.once q (List.mem_of_getElem? hq) r (List.mem_of_getElem? hr) a1 b1 (by rw [a2, b2]))

theorem Ours.input_to (ext : List Nat) (toks : List Nat) (s : Nat) (i a v : Nat) (hm : (a, v) ∈ tokInput toks i) :
    (intNum ext a, v) ∈ inputOf (parseSteps s (toks.map (intNum ext))) (i + 1) := by
  rw [parseSteps_tok]
  exact List.mem_map_of_mem (f := fun p => (intNum ext p.1, p.2)) hm

theorem Ours.input_of (ext : List Nat) (toks : List Nat) (s : Nat) (i a' v : Nat)
    (hm : (a', v) ∈ inputOf (parseSteps s (toks.map (intNum ext))) (i + 1)) : ∃ a, a' = intNum ext a ∧ (a, v) ∈ tokInput toks i := by
  rw [parseSteps_tok] at hm
  obtain ⟨⟨a, v'⟩, h4, h5⟩ := List.mem_map.1 hm
  simp only [Prod.mk.injEq] at h5
  obtain ⟨rfl, rfl⟩ := h5
  exact ⟨a, rfl, h4⟩

theorem Ours.accepts (h : Ours U N w g0 c E toks ext c' n) (ht : Tokens U c toks) (hne : toks ≠ []) (hy : Yields U w.innerRoot toks) :
    Accepts (rulesOf c') (intNum ext g0) (parseSteps E.g.sofSym (toks.map (intNum ext))) := by
  obtain ⟨u, hu⟩ := (yields_iff_tree (ht.user N) w.innerRoot).1 hy
  obtain ⟨f1, f2, _, _⟩ := built_forestInfo h.good.prepared
  have h0 := hu.rename (f := intNum ext) (Ours.input_to ext toks E.g.sofSym)
  obtain ⟨t, t1, _⟩ := h.bin.complete_tree f1 f2 (h.inputOK ht) h0 (by have := List.length_pos_iff.2 hne; omega)
  obtain ⟨g1, ⟨w1, w2⟩, w3, w4, w5⟩ := h.good.wrapping.rules
  have := h.good.root_eq w1
  subst this
  obtain ⟨d, hd⟩ := List.getElem?_of_mem w3
  have hs : (intNum ext w.sof, 0) ∈ inputOf (parseSteps E.g.sofSym (toks.map (intNum ext))) 0 := by
    rw [h.sof]
    simp [inputOf, parseSteps]
  obtain ⟨v, h1, h2, h3⟩ := (TreeOf.binary hd (.leaf hs) t1).derives
  refine ⟨v, ?_, h2, h1⟩
  rw [parseSteps_length, List.length_map]
  omega

/-- The values of the packed forest, in terms of the user's grammar. -/
theorem Ours.uvals (h : Ours U N w g0 c E toks ext c' n) (ht : Tokens U c toks) (hp : N.parts w.innerRoot = none) (hI : Inner w g0 w.innerRoot)
    {ev : Evaluator α} {nul : Nat → α} {nv : Nat → List α} {nc : Nat → Nat} {vs : List α} {k : Nat}
    (hv : ∀ r ∈ c'.rules, Inner (renRoot (intNum ext) w) (intNum ext g0) r.lhs → ∀ s b, r.nullable = some (s, b) →
      EmptyVals (N.rename (ext_int ext)) ev nul nv nc s)
    (hvs : PackedVals E.g.forestInfo ev nv nc (rulesOf c') (inputOf (parseSteps E.g.sofSym (toks.map (intNum ext))))
      (renRoot (intNum ext) w).innerRoot 1 (parseSteps E.g.sofSym (toks.map (intNum ext))).length vs k) :
    ∃ K, k + 1 ≤ 2 * K ∧ UVals U { ev with leaf := fun s v => ev.leaf (intNum ext s) v } (fun s => nul (intNum ext s)) (tokInput toks)
      w.innerRoot 0 toks.length vs K := by
  obtain ⟨f1, f2, _, _⟩ := built_forestInfo h.good.prepared
  have hinj : ∀ {a b : Nat}, intNum ext a = intNum ext b → a = b := fun {a b} h => by rw [← ext_int ext a, h, ext_int]
  have hp' : (N.rename (ext_int ext)).parts (intNum ext w.innerRoot) = none := by
    show N.parts (extNum ext (intNum ext w.innerRoot)) = none
    rw [ext_int]
    exact hp
  obtain ⟨K, hK, h1⟩ := h.bin.packed f1 f2 (h.inputOK ht) hv hvs ⟨fun e => hI.1 (hinj e), fun e => hI.2 (hinj e)⟩
  obtain ⟨j, e, h2⟩ := (h1.user hp').reflect (E' := { ev with leaf := fun s v => ev.leaf (intNum ext s) v }) (ext_int ext)
    (Ours.input_of ext toks E.g.sofSym) (Ours.input_to ext toks E.g.sofSym) (fun _ _ => rfl) rfl w.innerRoot 0 rfl rfl
  rw [parseSteps_length, List.length_map] at e
  have : j = toks.length := by omega
  subst this
  exact ⟨K, hK, h2⟩

/-! ### Trees and values -/

variable {inp : Input}

mutual
/-- A tree determines how much of the input it covers. -/
theorem UTreeOf.span {t : UTree} {A A' i j j' : Nat} (h : UTreeOf U inp t A i j) (h' : UTreeOf U inp t A' i j') : j = j' :=
  match h with
  | .leaf _ => by cases h'; rfl
  | .empty _ => by cases h'; rfl
  | .node hk hkids _ => by
    cases h' with
    | node hk' hkids' _ =>
      rw [hk] at hk'
      cases hk'
      exact UKids.span hkids hkids'
theorem UKids.span {ts : List UTree} {ss ss' : List Nat} {i j j' : Nat} (h : UKids U inp ts ss i j) (h' : UKids U inp ts ss' i j') : j = j' :=
  match h with
  | .nil => by cases h'; rfl
  | .cons h1 h2 => by
    cases h' with
    | cons h1' h2' =>
      have := UTreeOf.span h1 h1'
      subst this
      exact UKids.span h2 h2'
end

theorem UKids.unsnoc {us : List UTree} {ss : List Nat} {y i j : Nat} (h : UKids U inp us (ss ++ [y]) i j) :
    ∃ ts t p, us = ts ++ [t] ∧ UKids U inp ts ss i p ∧ UTreeOf U inp t y p j := by
  induction ss generalizing us i with
  | nil =>
    cases h with
    | cons h1 h2 =>
      cases h2
      exact ⟨[], _, i, rfl, .nil, h1⟩
  | cons s ss ih =>
    cases h with
    | cons h1 h2 =>
      obtain ⟨ts, t, p, rfl, h3, h4⟩ := ih h2
      exact ⟨_ :: ts, t, p, rfl, .cons h1 h3, h4⟩

variable {ev : Evaluator α} {nul : Nat → α}

mutual
/-- If there is one tree, there is one value. -/
theorem UVals.unique {A i j k : Nat} {vs : List α} (h : UVals U ev nul inp A i j vs k) :
    ∀ t, (∀ t', UTreeOf U inp t' A i j ↔ t' = t) → vs = [uval ev nul t] :=
  match h with
  | .leaf hm => by
    intro t ht
    rw [← (ht _).1 (.leaf hm)]
    rfl
  | .empty hn => by
    intro t ht
    rw [← (ht _).1 (.empty hn)]
    rfl
  | .node as hij hne hnd hall hleft hright => by
    have ihl := fun a ha ss y hU => UPrefix.unique (hleft a ha ss y hU)
    have ihr := fun a ha ss y hU => UVals.unique (hright a ha ss y hU)
    intro t ht
    have tree : ∀ {k p ss y ts u}, U[k]? = some (A, ss ++ [y]) → UKids U inp ts ss i p → UTreeOf U inp u y p j → .node k (ts ++ [u]) = t :=
      fun h1 h2 h3 => (ht _).1 (.node h1 (h2.append (.cons h3 .nil)) hij)
    match as, hne with
    | [a], _ =>
      obtain ⟨ss, y, ts, u, h1, h2, h3⟩ := (hall a.rule a.split).1 (by simp)
      have e := tree h1 h2 h3
      have e1 := ihl a (by simp) ss y h1 ts (fun ts' => ⟨fun h => by
        have := (tree h1 h h3).trans e.symm
        simpa using this, fun h => h ▸ h2⟩)
      have e2 := ihr a (by simp) ss y h1 u (fun u' => ⟨fun h => by
        have := (tree h1 h2 h).trans e.symm
        simpa using this, fun h => h ▸ h3⟩)
      rw [List.map_cons, List.map_nil, e1, e2, ← e]
      show _ = [ev.product a.rule (uvals ev nul (ts ++ [u]))]
      rw [uvals_append]
      rfl
    | a :: b :: as, _ =>
      exfalso
      obtain ⟨ss, y, ts, u, h1, h2, h3⟩ := (hall a.rule a.split).1 (by simp)
      obtain ⟨ss', y', ts', u', h1', h2', h3'⟩ := (hall b.rule b.split).1 (by simp)
      have e := (tree h1 h2 h3).trans (tree h1' h2' h3').symm
      simp only [UTree.node.injEq, List.append_singleton_inj] at e
      obtain ⟨e1, rfl, rfl⟩ := e
      have := UKids.span h2 h2'
      simp [e1, this] at hnd
theorem UPrefix.unique {ss : List Nat} {i j k : Nat} {vs : List α} (h : UPrefix U ev nul inp ss i j vs k) :
    ∀ ts, (∀ ts', UKids U inp ts' ss i j ↔ ts' = ts) → vs = uvals ev nul ts :=
  match h with
  | .nil => by
    intro ts ht
    rw [← (ht _).1 .nil]
    rfl
  | .snoc (ss := ss) (y := y) as hne hnd hall hleft hright => by
    have ihl := fun a ha => UPrefix.unique (hleft a ha)
    have ihr := fun a ha => UVals.unique (hright a ha)
    intro t ht
    have tree : ∀ {p ts u}, UKids U inp ts ss i p → UTreeOf U inp u y p j → ts ++ [u] = t :=
      fun h2 h3 => (ht _).1 (h2.append (.cons h3 .nil))
    match as, hne with
    | [a], _ =>
      obtain ⟨ts, u, h2, h3⟩ := (hall a.split).1 (by simp)
      have e := tree h2 h3
      have e1 := ihl a (by simp) ts (fun ts' => ⟨fun h => by
        have := (tree h h3).trans e.symm
        simpa using this, fun h => h ▸ h2⟩)
      have e2 := ihr a (by simp) u (fun u' => ⟨fun h => by
        have := (tree h2 h).trans e.symm
        simpa using this, fun h => h ▸ h3⟩)
      rw [List.flatMap_cons, List.flatMap_nil, List.append_nil, e1, e2, ← e, uvals_append]
      rfl
    | a :: b :: as, _ =>
      exfalso
      obtain ⟨ts, u, h2, h3⟩ := (hall a.split).1 (by simp)
      obtain ⟨ts', u', h2', h3'⟩ := (hall b.split).1 (by simp)
      have e := (tree h2 h3).trans (tree h2' h3').symm
      simp only [List.append_singleton_inj] at e
      obtain ⟨rfl, rfl⟩ := e
      have := UKids.span h2 h2'
      simp [this] at hnd
end

end Gearley.Props
