import Verif.Proofs.LRSingle
import Verif.Proofs.UserExists
import Verif.Proofs.Follow

/-! # LR(1) grammars have no cycles; rules of the binarized grammar in reach -/

namespace Gearley.Spec
variable {P U : URules} {S : Nat}

theorem UReached.form {w : WrappedRoot} (hp : Productive (augmented U w)) (heof : UTerminal (augmented U w) w.eof) {A : Nat}
    (h : UReached U w.innerRoot A) : ∃ γ x, Toks (augmented U w) x ∧ RForm (augmented U w) w.root (γ ++ A :: x) := by
  induction h with
  | root =>
    refine ⟨[w.sof], [w.eof], fun t ht => by rw [List.mem_singleton.1 ht]; exact heof, ?_⟩
    have := RStep.mk (P := augmented U w) (A := w.root) (β := [w.sof, w.innerRoot, w.eof]) (γ := []) (x := []) (List.mem_cons_self ..) (by simp)
    exact .single (by simpa using this)
  | @rule A s rhs _ hr hs ih =>
    obtain ⟨γ, x, h1, h2⟩ := ih
    obtain ⟨α, β, rfl⟩ := List.append_of_mem hs
    have hr' : (A, α ++ s :: β) ∈ augmented U w := List.mem_cons_of_mem _ hr
    obtain ⟨v, hv, hs'⟩ := hp.all hr' β (fun s hs => by simp [hs])
    refine ⟨γ ++ α, v ++ x, hv.append h1, ?_⟩
    have s1 := h2.tail (RStep.mk hr' h1)
    have s2 := (hs'.left (γ ++ α ++ [s])).right h1
    have := s1.trans (by simpa using s2)
    simpa [RForm] using this

/-- What a chain of rules with empty neighbours gives. -/
theorem ustep_steps (hUP : ∀ r ∈ U, r ∈ P) {B A : Nat} (h : Relation.TransGen (UStep U) B A) :
    ∃ μ φ, RSteps P μ [] ∧ RStep P [A] φ ∧ RSteps P φ (μ ++ [B]) := by
  have hnul : ∀ {A : Nat}, UNullable U A → RSteps P [A] [] := by
    intro A h
    induction h with
    | @rule k A rhs hk _ ih =>
      refine .head ?_ (Nul.steps ih)
      have := RStep.mk (P := P) (γ := []) (x := []) (hUP _ (List.mem_of_getElem? hk)) (by simp)
      simpa using this
  have one : ∀ {B A : Nat}, UStep U B A → ∃ μ φ, RSteps P μ [] ∧ RStep P [A] φ ∧ RSteps P φ (μ ++ [B]) := by
    rintro B A ⟨k, rhs, j, hk, hj, hn⟩
    obtain ⟨hjl, hj'⟩ := List.getElem?_eq_some_iff.1 hj
    refine ⟨rhs.take j, rhs, Nul.steps fun s hs => ?_, ?_, ?_⟩
    · obtain ⟨i, hi⟩ := List.getElem?_of_mem hs
      rw [List.getElem?_take] at hi
      split at hi
      · exact hnul (hn i s (by omega) hi)
      · cases hi
    · have := RStep.mk (P := P) (γ := []) (x := []) (hUP _ (List.mem_of_getElem? hk)) (by simp)
      simpa using this
    · have h1 : RSteps P (rhs.drop (j + 1)) [] := Nul.steps fun s hs => by
        obtain ⟨i, hi⟩ := List.getElem?_of_mem hs
        rw [List.getElem?_drop] at hi
        exact hnul (hn _ s (by omega) hi)
      have h2 := h1.left (rhs.take j ++ [B])
      have e : rhs.take j ++ [B] ++ rhs.drop (j + 1) = rhs := by
        rw [List.append_assoc, List.singleton_append, ← hj', List.cons_getElem_drop_succ, List.take_append_drop]
      rwa [e, List.append_nil] at h2
  induction h with
  | single h => exact one h
  | tail _ h ih =>
    obtain ⟨μ, φ, h1, h2, h3⟩ := ih
    obtain ⟨μ', φ', h1', h2', h3'⟩ := one h
    refine ⟨μ' ++ μ, φ', (h1.left μ').trans (by simpa using h1'), h2', h3'.trans ?_⟩
    have := RSteps.left (Relation.ReflTransGen.head h2 h3) μ'
    simpa using this

/-- A symbol of an LR(1) grammar does not derive itself. -/
theorem LRGrammar.no_cycle (hG : LRGrammar P S) (hUP : ∀ r ∈ U, r ∈ P) {A : Nat} {γ x v : List Nat} (hx : Toks P x) (hf : RForm P S (γ ++ A :: x))
    (hA : RSteps P [A] v) (hv : Toks P v) : ¬ UCyclic U A := by
  intro h
  obtain ⟨μ, φ, h1, h2, h3⟩ := ustep_steps hUP h
  by_cases hμ : μ = []
  · subst hμ
    obtain ⟨k, hk⟩ := RAt.of_form hf
    have k1 := hk.succ (by simpa using h2.ctx γ hx : RStep P (γ ++ A :: x) (γ ++ φ ++ x))
    obtain ⟨j, hj, h4⟩ := k1.deeper (h3.ctx γ hx)
    have := hG.at_unique hk (by simpa using hj)
    omega
  · have hstep : RSteps P [A] (μ ++ [A]) := .head h2 h3
    let rep : Nat → List Nat := fun n => (List.replicate n μ).flatten
    have rep_succ : ∀ n, rep (n + 1) = rep n ++ μ := by
      intro n
      show (List.replicate (n + 1) μ).flatten = (List.replicate n μ).flatten ++ μ
      rw [List.replicate_succ', List.flatten_append]
      simp
    have hrep : ∀ n, RSteps P [A] (rep n ++ [A]) := by
      intro n
      induction n with
      | zero => exact .refl
      | succ n ih =>
        rw [rep_succ, List.append_assoc]
        exact ih.trans (hstep.left (rep n))
    have hnul : ∀ n, RSteps P (rep n) [] := by
      intro n
      induction n with
      | zero => exact .refl
      | succ n ih =>
        rw [rep_succ]
        exact (h1.left (rep n)).trans (by simpa using ih)
    have hlen : ∀ n, (rep n).length = n * μ.length := by
      intro n
      show ((List.replicate n μ).flatten).length = _
      simp
    refine hG.finite (t := γ ++ v ++ x) (fun n => γ ++ (rep n ++ [A]) ++ x) ?_ ?_ ?_
    · intro i j e
      have := congrArg List.length e
      simp only [List.length_append, hlen, List.length_cons, List.length_nil] at this
      have hpos : 0 < μ.length := List.length_pos_iff.2 hμ
      exact Nat.eq_of_mul_eq_mul_right hpos (by omega)
    · intro n
      exact hf.trans (by simpa using (hrep n).ctx γ hx)
    · intro n
      have h5 : RSteps P (rep n ++ [A]) v := (hA.left (rep n)).trans (by simpa using (hnul n).right hv)
      exact h5.ctx γ hx

end Gearley.Spec

namespace Gearley.Props
open Gearley.Spec Build
variable {U : URules} {m L root : Nat}

/-- The symbol is in reach. -/
def SymReached (R : Rules) (start X : Nat) : Prop := ∃ α β, Derives R start (α ++ X :: β)

theorem SymReached.step {R : Rules} {start : Nat} {r : Rule} (h : SymReached R start r.lhs) (hr : r ∈ R) {Y : Nat}
    (hY : r.rhs0 = Y ∨ r.rhs1 = some Y) : SymReached R start Y := by
  obtain ⟨α, β, h3⟩ := h
  have : ∃ α' β', Derives R r.lhs (α' ++ Y :: β') := by
    cases hq1 : r.rhs1 with
    | none =>
      rcases hY with h2 | h2
      · exact ⟨[], [], .unary hr hq1 (by rw [h2]; exact .refl _)⟩
      · rw [hq1] at h2; cases h2
    | some C =>
      have := Derives.binary hr hq1 (.refl _) (.refl _)
      rcases hY with h2 | h2
      · exact ⟨[], [C], by rw [h2] at this; exact this⟩
      · rw [hq1, Option.some.injEq] at h2
        exact ⟨[r.rhs0], [], by rw [h2] at this; exact this⟩
  obtain ⟨α', β', h4⟩ := this
  exact ⟨α ++ α', β' ++ β, by simpa using Derives.subst h4 h3 α β rfl⟩

/-- If every rule of the user is in reach, then so is every rule of the standard binarized grammar. -/
theorem std_reached (hm : ∀ r ∈ U, r.1 < m ∧ ∀ s ∈ r.2, s < m) (hL : ∀ r ∈ U, r.2.length < L) (h : ∀ r ∈ U, UReached U root r.1) :
    Reached (rulesOf (standardCfg U (standardNames U m L hm hL) m L root)) m := by
  have hroot : SymReached (rulesOf (standardCfg U (standardNames U m L hm hL) m L root)) m m := ⟨[], [], .refl _⟩
  have hg0 : SymReached (rulesOf (standardCfg U (standardNames U m L hm hL) m L root)) m (m + 3) :=
    hroot.step (r := ⟨m, m + 3, some (m + 2)⟩) (List.mem_map.2 ⟨wrapRoot m, mem_standard.2 (.inl rfl), rfl⟩) (.inl rfl)
  have hinner : SymReached (rulesOf (standardCfg U (standardNames U m L hm hL) m L root)) m root :=
    hg0.step (r := ⟨m + 3, m + 1, some root⟩) (List.mem_map.2 ⟨wrapBoth m root, mem_standard.2 (.inr (.inl rfl)), rfl⟩) (.inr rfl)
  -- beginnings of a rule
  have pre : ∀ {k A : Nat} {rhs : List Nat}, U[k]? = some (A, rhs) → SymReached (rulesOf (standardCfg U (standardNames U m L hm hL) m L root)) m A →
      ∀ d j, 1 ≤ j → j + d + 1 = rhs.length →
        SymReached (rulesOf (standardCfg U (standardNames U m L hm hL) m L root)) m (if j + 1 = rhs.length then A else (standardNames U m L hm hL).name k (j + 1)) := by
    intro k A rhs hk hA d
    induction d with
    | zero => intro j _ e; rw [if_pos (by omega)]; exact hA
    | succ d ih =>
      intro j h1 e
      rw [if_neg (by omega)]
      have hlt : j + 1 < rhs.length := by omega
      refine (ih (j + 1) (by omega) (by omega)).step (r := ⟨_, (standardNames U m L hm hL).pre k rhs (j + 1), some rhs[j + 1]⟩)
        (List.mem_map.2 ⟨_, mem_standard.2 (.inr (.inr (.inr ⟨Expected.both (dots := Example.dots3) hk (by omega) (List.getElem?_eq_getElem hlt), rfl⟩))), rfl⟩)
        (.inl ?_)
      simp only [Names.pre]
      rw [if_neg (by omega)]
  have rule : ∀ {k A j y : Nat} {rhs : List Nat}, U[k]? = some (A, rhs) → SymReached (rulesOf (standardCfg U (standardNames U m L hm hL) m L root)) m A →
      1 ≤ j → rhs[j]? = some y → SymReached (rulesOf (standardCfg U (standardNames U m L hm hL) m L root)) m y ∧
        SymReached (rulesOf (standardCfg U (standardNames U m L hm hL) m L root)) m ((standardNames U m L hm hL).pre k rhs j) := by
    intro k A j y rhs hk hA h1 hy
    have hlt := (List.getElem?_eq_some_iff.1 hy).1
    have h2 := pre hk hA (rhs.length - j - 1) j h1 (by omega)
    have h3 : (⟨if j + 1 = rhs.length then A else (standardNames U m L hm hL).name k (j + 1), (standardNames U m L hm hL).pre k rhs j, some y⟩ : Rule) ∈
        rulesOf (standardCfg U (standardNames U m L hm hL) m L root) :=
      List.mem_map.2 ⟨_, mem_standard.2 (.inr (.inr (.inr ⟨Expected.both (dots := Example.dots3) hk h1 hy, rfl⟩))), rfl⟩
    exact ⟨h2.step h3 (.inr rfl), h2.step h3 (.inl rfl)⟩
  have user : ∀ {A : Nat}, UReached U root A → SymReached (rulesOf (standardCfg U (standardNames U m L hm hL) m L root)) m A := by
    intro A hA
    induction hA with
    | root => exact hinner
    | @rule A s rhs _ hr hs ih =>
      obtain ⟨k, hk⟩ := List.getElem?_of_mem hr
      obtain ⟨j, hj⟩ := List.getElem?_of_mem hs
      cases j with
      | succ j => exact (rule hk ih (by omega) hj).1
      | zero =>
        match rhs, hj with
        | [x], hj =>
          cases hj
          exact ih.step (r := ⟨A, s, none⟩)
            (List.mem_map.2 ⟨_, mem_standard.2 (.inr (.inr (.inr ⟨Expected.single (dots := Example.dots3) hk, rfl⟩))), rfl⟩) (.inl rfl)
        | x :: y :: l, hj =>
          cases hj
          exact (rule hk ih (Nat.le_refl 1) rfl).2
  intro r hr
  obtain ⟨q, hq, rfl⟩ := List.mem_map.1 hr
  show SymReached _ m q.lhs
  rcases mem_standard.1 hq with rfl | rfl | ⟨_, rfl⟩ | ⟨he, _⟩
  · exact hroot
  · exact hg0
  · exact hg0
  · rcases expected_form he with ⟨k, A, s, hk, e, _⟩ | ⟨k, A, rhs, j, y, hk, hj, hy, e, _⟩
    · rw [e]
      exact user (h _ (List.mem_of_getElem? hk))
    · rw [e]
      have hlt := (List.getElem?_eq_some_iff.1 hy).1
      exact pre hk (user (h _ (List.mem_of_getElem? hk))) (rhs.length - j - 1) j hj (by omega)

end Gearley.Props
