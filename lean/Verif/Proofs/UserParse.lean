import Verif.Proofs.UserRename
import Verif.Props.FromGrammar
import Verif.Props.Evaluate

/-! # Parsing with the user's grammar -/

namespace Gearley.Spec
open Gearley Build
variable {U : URules} {N : Names U} {inp : Input}

/-! ### Strings and trees -/

theorem yieldsAll_append {ss ss' u v : List Nat} (h : YieldsAll U ss u) (h' : YieldsAll U ss' v) : YieldsAll U (ss ++ ss') (u ++ v) := by
  induction ss generalizing u with
  | nil => cases h; exact h'
  | cons s ss ih =>
    cases h with
    | cons h1 h2 =>
      rw [List.cons_append, List.append_assoc]
      exact .cons h1 (ih h2)

theorem Reads.split {i j : Nat} {u v : List Nat} (h : Reads inp i j (u ++ v)) : ∃ k, Reads inp i k u ∧ Reads inp k j v := by
  induction u generalizing i with
  | nil => exact ⟨i, .nil, h⟩
  | cons a u ih =>
    rw [List.cons_append] at h
    cases h with
    | cons h1 h2 =>
      obtain ⟨k, h3, h4⟩ := ih h2
      exact ⟨k, .cons h1 h3, h4⟩

mutual
theorem Yields.tree {A : Nat} {u : List Nat} (h : Yields U A u) : ∀ i j, Reads inp i j u → ∃ t, UTreeOf U inp t A i j :=
  match h with
  | .token _ => fun i j hr => by
    cases hr with
    | cons h1 h2 =>
      cases h2
      exact ⟨_, .leaf h1⟩
  | .rule (k := k) hk hy => fun i j hr => by
    obtain ⟨ts, hts⟩ := hy.kids i j hr
    by_cases hij : i < j
    · exact ⟨.node k ts, .node hk hts hij⟩
    · have := hts.le
      have : i = j := by omega
      subst this
      exact ⟨.empty _, .empty (.rule hk hts.eq_empties.2)⟩
theorem YieldsAll.kids {ss : List Nat} {u : List Nat} (h : YieldsAll U ss u) : ∀ i j, Reads inp i j u → ∃ ts, UKids U inp ts ss i j :=
  match h with
  | .nil => fun i j hr => by
    cases hr
    exact ⟨[], .nil⟩
  | .cons h1 h2 => fun i j hr => by
    obtain ⟨k, hr1, hr2⟩ := hr.split
    obtain ⟨t, ht⟩ := h1.tree i k hr1
    obtain ⟨ts, hts⟩ := h2.kids k j hr2
    exact ⟨t :: ts, .cons ht hts⟩
end

theorem UNullable.iff_yields {s : Nat} : UNullable U s ↔ Yields U s [] ∧ ¬ UTerminal U s := by
  constructor
  · intro h
    refine ⟨h.yields, fun ht => ?_⟩
    cases h with
    | rule hk _ => exact ht _ (List.mem_of_getElem? hk) rfl
  · rintro ⟨h, _⟩
    obtain ⟨t, ht⟩ := h.tree (inp := fun _ => []) 0 0 .nil
    exact (ht.eq_empty rfl).2

theorem reads_tokInput {toks : List Nat} : ∀ {i j : Nat} {u : List Nat}, Reads (tokInput toks) i j u → u <+: toks.drop i := by
  intro i j u h
  induction h with
  | nil => exact List.nil_prefix
  | @cons i j a v u h1 _ ih =>
    unfold tokInput at h1
    split at h1
    · next t ht =>
      simp only [List.mem_singleton, Prod.mk.injEq] at h1
      obtain ⟨hi, hl⟩ := List.getElem?_eq_some_iff.1 ht
      rw [List.drop_eq_getElem_cons hi, hl, h1.1]
      exact List.cons_prefix_cons.2 ⟨rfl, ih⟩
    · simp at h1

theorem reads_all {toks : List Nat} : ∀ {l : List Nat} {i : Nat}, toks.drop i = l → Reads (tokInput toks) i (i + l.length) l := by
  intro l
  induction l with
  | nil => exact fun _ => .nil
  | cons a l ih =>
    intro i h
    have hi : i < toks.length := by
      by_contra hn
      rw [List.drop_eq_nil_of_le (by omega)] at h
      cases h
    rw [List.drop_eq_getElem_cons hi] at h
    simp only [List.cons.injEq] at h
    have := ih h.2
    rw [List.length_cons, show i + (l.length + 1) = i + 1 + l.length by omega]
    refine .cons (v := i % 2 ^ 32) ?_ this
    unfold tokInput
    rw [List.getElem?_eq_getElem hi, h.1]
    simp

/-- The trees over the whole input and the derivations of the input. -/
theorem yields_iff_tree {toks : List Nat} (ht : ∀ t ∈ toks, UTerminal U t ∧ N.parts t = none) (A : Nat) :
    Yields U A toks ↔ ∃ t, UTreeOf U (tokInput toks) t A 0 toks.length := by
  constructor
  · intro h
    have := reads_all (toks := toks) (i := 0) (l := toks) rfl
    rw [Nat.zero_add] at this
    exact h.tree _ _ this
  · rintro ⟨t, h⟩
    have hin : InputOK U N (tokInput toks) := by
      intro i p hp
      unfold tokInput at hp
      split at hp
      · next t h =>
        simp only [List.mem_singleton] at hp
        subst hp
        exact ht _ (List.mem_of_getElem? h)
      · simp at hp
    obtain ⟨u, h1, h2⟩ := h.yields hin
    have e := reads_tokInput h2
    have l := h2.length
    rw [List.drop_zero] at e
    rw [e.eq_of_length (by omega)] at h1
    exact h1

theorem inputOK_tok {toks : List Nat} (ht : ∀ t ∈ toks, UTerminal U t ∧ N.parts t = none) : InputOK U N (tokInput toks) := by
  intro i p hp
  unfold tokInput at hp
  split at hp
  · next t h =>
    simp only [List.mem_singleton] at hp
    subst hp
    exact ht _ (List.mem_of_getElem? h)
  · simp at hp

theorem picks_tok {toks : List Nat} : Picks (tokInput toks) 0 toks := by
  refine picks_of_get fun k a h => ⟨k % 2 ^ 32, ?_⟩
  unfold tokInput
  rw [Nat.zero_add, h]
  simp

theorem picks_tok_unique {toks u : List Nat} (h : Picks (tokInput toks) 0 u) (hl : u.length = toks.length) : u = toks := by
  have key : ∀ (u : List Nat) i, Picks (tokInput toks) i u → Reads (tokInput toks) i (i + u.length) u := by
    intro u
    induction u with
    | nil => exact fun i _ => .nil
    | cons a u ih =>
      rintro i ⟨⟨v, hv⟩, h⟩
      have := ih (i + 1) h
      rw [List.length_cons, show i + (u.length + 1) = i + 1 + u.length by omega]
      exact .cons hv this
  have := reads_tokInput (key u 0 h)
  rw [List.drop_zero] at this
  exact this.eq_of_length hl

variable {w : WrappedRoot} {g0 : Nat} {c : Cfg}

/-- The part of the tables that evaluation needs. -/
def infoOf (c : Cfg) : ForestInfo := { eval := c.rules.map (·.origin), nullingEliminated := c.rules.map (·.nullable), sof := 0, eof := 0, start := 0 }

theorem Binarizes.derives_iff (hb : Binarizes U N w g0 c) {A : Nat} (hA : Inner w g0 A) (hp : N.parts A = none) {toks : List Nat}
    (ht : ∀ t ∈ toks, UTerminal U t ∧ N.parts t = none) : Derives (rulesOf c) A toks ↔ toks ≠ [] ∧ Yields U A toks := by
  have hin := inputOK_tok (N := N) ht
  constructor
  · intro h
    obtain ⟨t, h1⟩ := h.tree 0 picks_tok
    rw [Nat.zero_add] at h1
    obtain ⟨h2, u, _, h3⟩ := (hb.flat_sound (info := infoOf c) rfl rfl (fun i p hp => (hin i p hp).2) t h1 hA).user hp
    exact ⟨by rintro rfl; simp at h2, (yields_iff_tree ht A).2 ⟨u, h3⟩⟩
  · rintro ⟨h1, h2⟩
    obtain ⟨u, hu⟩ := (yields_iff_tree ht A).1 h2
    obtain ⟨p, h3, _⟩ := hb.complete_tree (info := infoOf c) rfl rfl hin hu (List.length_pos_iff.2 h1)
    obtain ⟨v, h4, h5, h6⟩ := h3.derives
    rw [Nat.zero_add] at h6
    rw [picks_tok_unique h5 h6] at h4
    exact h4

/-- Tokens of the user's grammar have no rules. -/
theorem Binarizes.terminal (hb : Binarizes U N w g0 c) {t : Nat} (ht : UTerminal U t) (hp : N.parts t = none) (hi : Inner w g0 t) :
    Terminal (rulesOf c) t := by
  intro r hr e
  obtain ⟨q, hq, rfl⟩ := List.mem_map.1 hr
  have e : q.lhs = t := e
  rcases hb.sound q hq with h | h | h
  · exact hi.1 (e.symm.trans h)
  · exact hi.2 (e.symm.trans h)
  · have key : ∀ {k A j y : Nat} {rhs : List Nat}, U[k]? = some (A, rhs) → 1 ≤ j → rhs[j]? = some y →
        (if j + 1 = rhs.length then A else N.name k (j + 1)) ≠ t := by
      intro k A j y rhs hk hj hy e
      split at e
      · exact ht _ (List.mem_of_getElem? hk) e
      · have := getElem?_lt hy
        have := N.parts_name k A rhs (j + 1) hk (by omega) (by omega)
        rw [e, hp] at this
        cases this
    cases h with
    | single hk => exact ht _ (List.mem_of_getElem? hk) e
    | both hk hj hy => exact key hk hj hy e
    | dropRight hk hj hy _ => exact key hk hj hy e
    | dropLeft hk hj hy _ => exact key hk hj hy e

/-! ### Values of empty symbols -/

/-- What the table of rules for empty symbols has to be. -/
structure EmptyRules (U : URules) (N : Names U) (info : ForestInfo) : Prop where
  sound : ∀ s x y, info.nullingRule s = some (x, y) → ∃ k A rhs j, U[k]? = some (A, rhs) ∧ 1 ≤ j ∧ j + 1 < rhs.length ∧
    rhs[j]? = some y ∧ s = N.name k (j + 1) ∧ x = N.pre k rhs j
  complete : ∀ k A rhs j y, U[k]? = some (A, rhs) → 1 ≤ j → j + 1 < rhs.length → rhs[j]? = some y → (∀ s ∈ rhs.take (j + 1), UNullable U s) →
    info.nullingRule (N.name k (j + 1)) = some (N.pre k rhs j, y)

/-- The values of an empty symbol, unfolding rules `n` times. -/
def nvFuel {α : Type} (info : ForestInfo) (nul : Nat → α) : Nat → Nat → List α
  | 0, s => [nul s]
  | n + 1, s => match info.nullingRule s with
    | none => [nul s]
    | some (x, y) => nvFuel info nul n x ++ nvFuel info nul n y

def ncFuel (info : ForestInfo) : Nat → Nat → Nat
  | 0, _ => 1
  | n + 1, s => match info.nullingRule s with
    | none => 1
    | some (x, y) => ncFuel info n x + ncFuel info n y + 1

def nameDepth (N : Names U) (s : Nat) : Nat := match N.parts s with
  | none => 0
  | some (_, j) => j

variable {info : ForestInfo}

theorem EmptyRules.user (h : EmptyRules U N info) {s : Nat} (hp : N.parts s = none) : info.nullingRule s = none := by
  cases hr : info.nullingRule s with
  | none => rfl
  | some p =>
    obtain ⟨k, A, rhs, j, h1, h2, h3, h4, h5, h6⟩ := h.sound s p.1 p.2 hr
    rw [h5, N.parts_name k A rhs (j + 1) h1 (by omega) h3] at hp
    cases hp

theorem EmptyRules.nullEval (h : EmptyRules U N info) {α : Type} {E : Evaluator α} {nul : Nat → α}
    (hE : ∀ s rs, E.nulling s rs = rs ++ [nul s]) :
    ∃ nv nc, NullEval info E nv nc ∧ (∀ s, info.nullingRule s = none → nv s = [nul s] ∧ nc s = 1) := by
  have one : ∀ n s, info.nullingRule s = none → nvFuel info nul n s = [nul s] ∧ ncFuel info n s = 1 := by
    intro n s hs
    cases n with
    | zero => exact ⟨rfl, rfl⟩
    | succ n => unfold nvFuel ncFuel; rw [hs]; exact ⟨rfl, rfl⟩
  refine ⟨fun s => nvFuel info nul (nameDepth N s) s, fun s => ncFuel info (nameDepth N s) s, ⟨fun s hs => ?_, fun s x y hs => ?_⟩, fun s hs => one _ s hs⟩
  · obtain ⟨h1, h2⟩ := one (nameDepth N s) s hs
    exact ⟨nul s, [], h1, h2, hE s⟩
  · obtain ⟨k, A, rhs, j, h1, h2, h3, h4, h5, h6⟩ := h.sound s x y hs
    have hd : nameDepth N s = j + 1 := by
      unfold nameDepth
      rw [h5, N.parts_name k A rhs (j + 1) h1 (by omega) h3]
    have hmem := List.mem_of_getElem? h1
    have hy := h.user ((N.user _ hmem).2 y (List.mem_of_getElem? h4))
    have hx : nvFuel info nul j x = nvFuel info nul (nameDepth N x) x ∧ ncFuel info j x = ncFuel info (nameDepth N x) x := by
      by_cases hj : j = 1
      · subst hj
        have : info.nullingRule x = none := by
          refine h.user ?_
          rw [h6]
          cases rhs with
          | nil => simp at h3
          | cons z zs => exact (N.user _ hmem).2 z (by simp)
        exact ⟨(one _ x this).1.trans (one _ x this).1.symm, (one _ x this).2.trans (one _ x this).2.symm⟩
      · have : nameDepth N x = j := by
          unfold nameDepth
          rw [h6, N.pre_ge k rhs (by omega), N.parts_name k A rhs j h1 (by omega) (by omega)]
        rw [this]
        exact ⟨rfl, rfl⟩
    rw [hd]
    simp only [nvFuel, ncFuel, hs]
    rw [hx.1, hx.2, (one j y hy).1, (one j y hy).2, (one (nameDepth N y) y hy).1, (one (nameDepth N y) y hy).2]
    exact ⟨rfl, rfl⟩

theorem Binarizes.emptyVals (hb : Binarizes U N w g0 c) (h : EmptyRules U N info) {α : Type} {E : Evaluator α} {nul : Nat → α}
    {nv : Nat → List α} {nc : Nat → Nat} (hN : NullEval info E nv nc) (h0 : ∀ s, info.nullingRule s = none → nv s = [nul s] ∧ nc s = 1) :
    ∀ r ∈ c.rules, Inner w g0 r.lhs → ∀ s b, r.nullable = some (s, b) → EmptyVals N E nul nv nc s := by
  have user : ∀ s, N.parts s = none → EmptyVals N E nul nv nc s := by
    intro s hp
    obtain ⟨h1, h2⟩ := h0 s (h.user hp)
    unfold EmptyVals
    rw [emptyKids_user hp, h1, h2]
    exact ⟨rfl, by simp⟩
  have pre : ∀ {k A : Nat} {rhs : List Nat}, U[k]? = some (A, rhs) → ∀ j, 1 ≤ j → j < rhs.length → (∀ s ∈ rhs.take j, UNullable U s) →
      nv (N.pre k rhs j) = (rhs.take j).map nul ∧ nc (N.pre k rhs j) + 1 ≤ 2 * j := by
    intro k A rhs hk j
    induction j with
    | zero => intro h; omega
    | succ j ih =>
      intro _ hlt hnul
      have hmem := List.mem_of_getElem? hk
      by_cases hj : j = 0
      · subst hj
        cases rhs with
        | nil => simp at hlt
        | cons s rhs =>
          obtain ⟨h1, h2⟩ := h0 s (h.user ((N.user _ hmem).2 s (by simp)))
          rw [Names.pre_one, h1, h2]
          exact ⟨rfl, by omega⟩
      · have hy : rhs[j]? = some rhs[j] := List.getElem?_eq_getElem (by omega)
        have hr := h.complete k A rhs j _ hk (by omega) hlt hy hnul
        obtain ⟨h1, h2⟩ := hN.rule _ _ _ hr
        rw [take_snoc hy] at hnul
        obtain ⟨a1, a2⟩ := ih (by omega) (by omega) fun s hs => hnul s (List.mem_append_left _ hs)
        obtain ⟨b1, b2⟩ := h0 rhs[j] (h.user ((N.user _ hmem).2 _ (List.getElem_mem _)))
        rw [N.pre_ge k rhs (by omega), h1, h2, take_snoc hy, a1, b1, b2]
        refine ⟨by rw [List.map_append]; rfl, by omega⟩
  intro r hr hl s b hs
  rcases hb.sound r hr with e | e | e
  · exact absurd e hl.1
  · exact absurd e hl.2
  · cases e with
    | single => cases hs
    | both => cases hs
    | dropRight hk hj hy _ =>
      cases hs
      exact user _ ((N.user _ (List.mem_of_getElem? hk)).2 _ (List.mem_of_getElem? hy))
    | @dropLeft k A j y rhs dots hk hj hy hn =>
      cases hs
      have hlt := getElem?_lt hy
      obtain ⟨h1, h2⟩ := pre hk j hj hlt hn
      unfold EmptyVals
      rw [emptyKids_pre hk hj hlt, h1, uvals_map_empty, List.length_map, List.length_take]
      exact ⟨rfl, by omega⟩

end Gearley.Spec
