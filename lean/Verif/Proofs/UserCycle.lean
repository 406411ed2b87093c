import Verif.Proofs.UserExists
import Verif.Proofs.Cycle

/-! # Cycles of the user's grammar and of the binarized grammar -/

namespace Gearley.Spec
open Gearley Build Relation
variable {U : URules} {N : Names U} {w : WrappedRoot} {g0 : Nat} {c : Cfg}

/-- Where a path of one-symbol rules gets: to a symbol of the user's grammar with `Q`, or to the beginning of a rule, where one
of its symbols has `P` and the others are nullable. -/
def Above (U : URules) (N : Names U) (P Q : Nat → Prop) (Y : Nat) : Prop :=
  (N.parts Y = none ∧ Q Y) ∨ ∃ (k j A : Nat) (rhs : List Nat) (i B : Nat), N.parts Y = some (k, j) ∧ U[k]? = some (A, rhs) ∧ P B ∧ rhs[i]? = some B ∧
    i < j ∧ ∀ i' s, i' ≠ i → i' < j → rhs[i']? = some s → UNullable U s

theorem Above.close {P Q : Nat → Prop} (hPQ : ∀ a b, P a → UStep U a b → Q b) {k A j B i : Nat} {rhs : List Nat}
    (hk : U[k]? = some (A, rhs)) (hj : 1 ≤ j) (hjl : j < rhs.length) (hP : P B) (hi : rhs[i]? = some B) (hij : i < j + 1)
    (hn : ∀ i' s, i' ≠ i → i' < j + 1 → rhs[i']? = some s → UNullable U s) :
    Above U N P Q (if j + 1 = rhs.length then A else N.name k (j + 1)) := by
  by_cases hc : j + 1 = rhs.length
  · rw [if_pos hc]
    refine .inl ⟨(N.user _ (List.mem_of_getElem? hk)).1, hPQ _ _ hP ⟨k, rhs, i, hk, hi, fun i' s h1 h2 => hn i' s h1 ?_ h2⟩⟩
    rw [hc]
    exact getElem?_lt h2
  · rw [if_neg hc]
    exact .inr ⟨k, j + 1, A, rhs, i, B, N.parts_name k A rhs (j + 1) hk (by omega) (by omega), hk, hP, hi, hij, hn⟩

/-- One rule further up. -/
theorem Binarizes.above (hb : Binarizes U N w g0 c) {P Q : Nat → Prop} (hPQ : ∀ a b, P a → UStep U a b → Q b) {X Y : Nat}
    (h : Above U N P P X) (hs : UnaryStep (rulesOf c) X Y) (hY : Inner w g0 Y) : Above U N P Q Y := by
  obtain ⟨q, hq, h0, h1, h2⟩ := hs
  obtain ⟨r, hr, rfl⟩ := List.mem_map.1 hq
  have h2 : r.lhs = Y := h2
  have hexp : Expected U N r := by
    rcases hb.sound r hr with h' | h' | h'
    · exact absurd (h2.symm.trans h') hY.1
    · exact absurd (h2.symm.trans h') hY.2
    · exact h'
  have hrhs0 : ∀ {s : Nat}, r.rhs = [s] → s = X := by
    intro s h
    rw [← h0]
    unfold ruleOf
    rw [h]
    rfl
  rcases Props.expected_form hexp with ⟨k, A, s, hk, h3, h4, _⟩ | ⟨k, A, rhs, j, y, hk, hj, hy, h3, _, h4⟩
  · have hX := hrhs0 h4
    rw [← hX] at h
    rw [← h2, h3]
    have hu := N.user _ (List.mem_of_getElem? hk)
    rcases h with ⟨_, hP⟩ | ⟨_, _, _, _, _, _, h5, _⟩
    · refine .inl ⟨hu.1, hPQ _ _ hP ⟨k, [s], 0, hk, rfl, fun i s' hi hs' => ?_⟩⟩
      cases i with
      | zero => exact absurd rfl hi
      | succ i => cases hs'
    · rw [hu.2 s (by simp)] at h5
      cases h5
  · have hlt := getElem?_lt hy
    have hu := N.user _ (List.mem_of_getElem? hk)
    rw [← h2, h3]
    rcases h4 with ⟨h4, _⟩ | ⟨h4, h5, _⟩ | ⟨h4, h5, _⟩
    · unfold ruleOf at h1
      rw [h4] at h1
      simp at h1
    · -- the last symbol of the beginning is nullable
      have hX := hrhs0 h4
      by_cases hj1 : j = 1
      · subst hj1
        obtain ⟨s, l, rfl⟩ : ∃ s l, rhs = s :: l := by
          cases rhs with
          | nil => simp at hlt
          | cons s l => exact ⟨s, l, rfl⟩
        rw [Names.pre_one] at hX
        subst hX
        rcases h with ⟨_, hP⟩ | ⟨_, _, _, _, _, _, h6, _⟩
        · refine Above.close hPQ hk hj hlt hP (i := 0) rfl (by omega) fun i' s' h7 h8 h9 => ?_
          have : i' = 1 := by omega
          subst this
          rw [hy] at h9
          cases h9
          exact h5
        · rw [hu.2 s (by simp)] at h6
          cases h6
      · rw [N.pre_ge k rhs (by omega)] at hX
        have hp := N.parts_name k A rhs j hk (by omega) hlt
        rw [hX] at hp
        rcases h with ⟨h6, _⟩ | ⟨k', j', A', rhs', i, B', h6, h7, hP, h8, h9, h10⟩
        · rw [hp] at h6
          cases h6
        · rw [hp] at h6
          cases h6
          rw [hk] at h7
          cases h7
          refine Above.close hPQ hk hj hlt hP h8 (by omega) fun i' s' a1 a2 a3 => ?_
          by_cases hi' : i' = j
          · subst hi'
            rw [hy] at a3
            cases a3
            exact h5
          · exact h10 i' s' a1 (by omega) a3
    · -- the symbols before are nullable
      have hX := hrhs0 h4
      subst hX
      rcases h with ⟨_, hP⟩ | ⟨_, _, _, _, _, _, h6, _⟩
      · refine Above.close hPQ hk hj hlt hP hy (by omega) fun i' s' a1 a2 a3 => ?_
        refine h5 s' (List.mem_of_getElem? (i := i') ?_)
        rw [List.getElem?_take_of_lt (by omega)]
        exact a3
      · rw [hu.2 y (List.mem_of_getElem? hy)] at h6
        cases h6

theorem Binarizes.above_path (hb : Binarizes U N w g0 c) {B Y : Nat} (hB : N.parts B = none)
    (hin : ∀ Y, TransGen (UnaryStep (rulesOf c)) B Y → Inner w g0 Y) (h : TransGen (UnaryStep (rulesOf c)) B Y) :
    Above U N (ReflTransGen (UStep U) B) (TransGen (UStep U) B) Y := by
  have hPQ : ∀ a b, ReflTransGen (UStep U) B a → UStep U a b → TransGen (UStep U) B b := fun a b h1 h2 => .tail' h1 h2
  induction h with
  | single h => exact hb.above hPQ (.inl ⟨hB, .refl⟩) h (hin _ (.single h))
  | tail h1 h2 ih =>
    refine hb.above hPQ ?_ h2 (hin _ (.tail h1 h2))
    exact ih.imp (fun h => ⟨h.1, h.2.to_reflTransGen⟩) id

/-- From the beginning of a rule a path gets to a symbol of the user's grammar or to a longer beginning. -/
theorem Binarizes.leave_names (hb : Binarizes U N w g0 c) {A Y k j : Nat} (hA : N.parts A = some (k, j))
    (hin : ∀ Y, TransGen (UnaryStep (rulesOf c)) A Y → Inner w g0 Y) (h : TransGen (UnaryStep (rulesOf c)) A Y) :
    (∃ B, N.parts B = none ∧ TransGen (UnaryStep (rulesOf c)) A B ∧ ReflTransGen (UnaryStep (rulesOf c)) B Y) ∨
    ∃ k' j', N.parts Y = some (k', j') ∧ j < j' := by
  have step : ∀ {X Y k j : Nat}, N.parts X = some (k, j) → UnaryStep (rulesOf c) X Y → Inner w g0 Y →
      N.parts Y = none ∨ ∃ k' j', N.parts Y = some (k', j') ∧ j < j' := by
    rintro X Y k j hX ⟨q, hq, h0, h1, h2⟩ hY
    obtain ⟨r, hr, rfl⟩ := List.mem_map.1 hq
    have h2 : r.lhs = Y := h2
    have hexp : Expected U N r := by
      rcases hb.sound r hr with h' | h' | h'
      · exact absurd (h2.symm.trans h') hY.1
      · exact absurd (h2.symm.trans h') hY.2
      · exact h'
    have hrhs0 : ∀ {s : Nat}, r.rhs = [s] → s = X := by
      intro s h
      rw [← h0]
      unfold ruleOf
      rw [h]
      rfl
    rcases Props.expected_form hexp with ⟨k, A, s, hk, h3, h4, _⟩ | ⟨k', A, rhs, j', y, hk, hj, hy, h3, _, h4⟩
    · exact .inl (by rw [← h2, h3]; exact (N.user _ (List.mem_of_getElem? hk)).1)
    · have hlt := getElem?_lt hy
      have hu := N.user _ (List.mem_of_getElem? hk)
      rcases h4 with ⟨h4, _⟩ | ⟨h4, h5, _⟩ | ⟨h4, h5, _⟩
      · unfold ruleOf at h1
        rw [h4] at h1
        simp at h1
      · rw [← h2, h3]
        by_cases hc : j' + 1 = rhs.length
        · rw [if_pos hc]
          exact .inl hu.1
        · rw [if_neg hc]
          refine .inr ⟨k', j' + 1, N.parts_name k' A rhs (j' + 1) hk (by omega) (by omega), ?_⟩
          have hX' := hrhs0 h4
          by_cases hj1 : j' = 1
          · subst hj1
            obtain ⟨s, l, rfl⟩ : ∃ s l, rhs = s :: l := by
              cases rhs with
              | nil => simp at hlt
              | cons s l => exact ⟨s, l, rfl⟩
            rw [Names.pre_one] at hX'
            rw [← hX', hu.2 s (by simp)] at hX
            cases hX
          · rw [N.pre_ge k' rhs (by omega)] at hX'
            have hp := N.parts_name k' A rhs j' hk (by omega) hlt
            rw [hX', hX] at hp
            cases hp
            omega
      · have hX' := hrhs0 h4
        rw [← hX', hu.2 y (List.mem_of_getElem? hy)] at hX
        cases hX
  induction h with
  | @single Y h =>
    rcases step hA h (hin _ (.single h)) with h1 | h1
    · exact .inl ⟨Y, h1, .single h, .refl⟩
    · exact .inr h1
  | @tail X Y h1 h2 ih =>
    rcases ih with ⟨B, h3, h4, h5⟩ | ⟨k', j', h3, h4⟩
    · exact .inl ⟨B, h3, h4, .tail h5 h2⟩
    · rcases step h3 h2 (hin _ (.tail h1 h2)) with h5 | ⟨k2, j2, h5, h6⟩
      · exact .inl ⟨Y, h5, .tail h1 h2, .refl⟩
      · exact .inr ⟨k2, j2, h5, by omega⟩

/-- Every cycle of the binarized grammar goes through a symbol of the user's grammar that derives itself. -/
theorem Binarizes.cycle (hb : Binarizes U N w g0 c) {nullable : Prop} (hW : Props.Wrapping (rulesOf c) w nullable)
    (hrule : ⟨w.root, g0, some w.eof⟩ ∈ rulesOf c) {A : Nat} (h : OnCycle (rulesOf c) A) :
    ∃ B, Inner w g0 B ∧ N.parts B = none ∧ TransGen (UnaryStep (rulesOf c)) A B ∧ UCyclic U B := by
  obtain ⟨g1, ⟨h1, h2⟩, h3, _, h4⟩ := hW.rules
  have hg : g1 = g0 := by
    have := h2 _ hrule rfl
    simp only [Rule.mk.injEq, true_and, and_true] at this
    exact this.symm
  subst hg
  have hroot : ∀ {X}, ¬ UnaryStep (rulesOf c) X w.root := by
    rintro X ⟨r, hr, _, h6, h7⟩
    rw [h2 r hr h7] at h6
    cases h6
  have hg0 : ∀ {X}, UnaryStep (rulesOf c) X g1 → X = w.sof := by
    rintro X ⟨r, hr, h5, h6, h7⟩
    rcases h4 r hr h7 with h8 | h8
    · rw [h8] at h6
      cases h6
    · rw [h8] at h5
      exact h5.symm
  have hsof : ∀ {X}, ¬ UnaryStep (rulesOf c) X w.sof := by
    rintro X ⟨r, hr, _, _, h7⟩
    exact hW.sof r hr h7
  have last : ∀ {X Y}, TransGen (UnaryStep (rulesOf c)) X Y → ∃ Z, UnaryStep (rulesOf c) Z Y := by
    intro X Y h
    cases h with
    | single h => exact ⟨_, h⟩
    | tail _ h => exact ⟨_, h⟩
  have hin : ∀ {A}, OnCycle (rulesOf c) A → ∀ Y, TransGen (UnaryStep (rulesOf c)) A Y → Inner w g1 Y := by
    intro A hA Y hY
    constructor
    · rintro rfl
      obtain ⟨Z, hZ⟩ := last hY
      exact hroot hZ
    · rintro rfl
      have : TransGen (UnaryStep (rulesOf c)) A w.sof := by
        cases hY with
        | single h5 =>
          rw [← hg0 h5]
          exact hA
        | tail h5 h6 =>
          rw [← hg0 h6]
          exact h5
      obtain ⟨Z, hZ⟩ := last this
      exact hsof hZ
  have fin : ∀ {B}, N.parts B = none → OnCycle (rulesOf c) B → UCyclic U B := by
    intro B hB hc
    rcases hb.above_path hB (hin hc) hc with ⟨_, h5⟩ | ⟨_, _, _, _, _, _, h5, _⟩
    · exact h5
    · rw [hB] at h5
      cases h5
  cases hp : N.parts A with
  | none => exact ⟨A, hin h A h, hp, h, fin hp h⟩
  | some kj =>
    obtain ⟨k, j⟩ := kj
    rcases hb.leave_names hp (hin h) h with ⟨B, h5, h6, h7⟩ | ⟨k', j', h5, h6⟩
    · exact ⟨B, hin h B h6, h5, h6, fin h5 (TransGen.trans_right h7 h6)⟩
    · rw [hp] at h5
      cases h5
      omega

/-! ### Trees -/

variable {inp : Input}

mutual
/-- A tree begins with a token of the input that occurs in a rule. -/
theorem UTreeOf.first {t : UTree} {A i j : Nat} (h : UTreeOf U inp t A i j) : i < j → ∃ a v, (a, v) ∈ inp i ∧ (a = A ∨ ∃ r ∈ U, a ∈ r.2) :=
  match h with
  | .leaf h => fun _ => ⟨_, _, h, .inl rfl⟩
  | .empty _ => fun h => absurd h (by omega)
  | .node hk hkids _ => fun hij => by
    obtain ⟨a, v, h1, h2⟩ := hkids.first hij
    exact ⟨a, v, h1, .inr (h2.elim (fun h => ⟨_, List.mem_of_getElem? hk, h⟩) id)⟩
theorem UKids.first {ts : List UTree} {ss : List Nat} {i j : Nat} (h : UKids U inp ts ss i j) :
    i < j → ∃ a v, (a, v) ∈ inp i ∧ (a ∈ ss ∨ ∃ r ∈ U, a ∈ r.2) :=
  match h with
  | .nil => fun h => absurd h (by omega)
  | .cons (k := k) h1 h2 => fun hij => by
    by_cases hk : i < k
    · obtain ⟨a, v, h3, h4⟩ := h1.first hk
      exact ⟨a, v, h3, h4.imp (fun h => by simp [h]) id⟩
    · have := h1.le
      have : i = k := by omega
      subst this
      obtain ⟨a, v, h3, h4⟩ := h2.first hij
      exact ⟨a, v, h3, h4.imp (fun h => by simp [h]) id⟩
end

mutual
theorem UTree.rename_back {f g : Nat → Nat} (hfg : ∀ s, g (f s) = s) : (t : UTree) → (t.rename f).rename g = t
  | .leaf _ _ => by simp only [UTree.rename, hfg]
  | .empty _ => by simp only [UTree.rename, hfg]
  | .node k kids => by simp only [UTree.rename, UTree.renames_back hfg kids]
theorem UTree.renames_back {f g : Nat → Nat} (hfg : ∀ s, g (f s) = s) : (ts : List UTree) → UTree.renames g (UTree.renames f ts) = ts
  | [] => rfl
  | t :: ts => by simp only [UTree.renames, UTree.rename_back hfg t, UTree.renames_back hfg ts]
end

theorem UStep.reflect {f g : Nat → Nat} (hfg : ∀ s, g (f s) = s) {A B : Nat} (h : UStep (URules.rename f U) A B) : UStep U (g A) (g B) := by
  obtain ⟨k, rhs', j, h1, h2, h3⟩ := h
  obtain ⟨A', rhs, h4, rfl, rfl⟩ := URules.of_rename h1
  rw [List.getElem?_map, Option.map_eq_some_iff] at h2
  obtain ⟨y, h5, rfl⟩ := h2
  rw [hfg, hfg]
  refine ⟨k, rhs, j, h4, h5, fun i s h6 h7 => ?_⟩
  have := h3 i (f s) h6 (by rw [List.getElem?_map, h7]; rfl)
  exact (UNullable.iff hfg).1 this

theorem UCyclic.reflect {f g : Nat → Nat} (hfg : ∀ s, g (f s) = s) {A : Nat} (h : UCyclic (URules.rename f U) A) :
    UCyclic U (g A) ∧ ∃ r ∈ U, A = f r.1 := by
  refine ⟨TransGen.lift (r := UStep (URules.rename f U)) (p := UStep U) g (fun _ _ h => UStep.reflect hfg h) _ _ h, ?_⟩
  obtain ⟨X, k, rhs', j, h1, _⟩ : ∃ X, UStep (URules.rename f U) X A := by
    cases h with
    | single h => exact ⟨_, h⟩
    | tail _ h => exact ⟨_, h⟩
  obtain ⟨A', rhs, h4, rfl, _⟩ := URules.of_rename h1
  exact ⟨_, List.mem_of_getElem? h4, rfl⟩

/-- A tree can be put below a rule whose other symbols are nullable. -/
theorem UStep.tree {A B : Nat} (h : UStep U B A) {t : UTree} {i j : Nat} (ht : UTreeOf U inp t B i j) (hij : i < j) :
    ∃ t', UTreeOf U inp t' A i j ∧ t.size < t'.size := by
  obtain ⟨k, rhs, m, hk, hm, hn⟩ := h
  obtain ⟨hlt, hB⟩ := List.getElem?_eq_some_iff.1 hm
  have hsplit : rhs.take m ++ B :: rhs.drop (m + 1) = rhs := by
    rw [← hB, ← List.drop_eq_getElem_cons hlt, List.take_append_drop]
  have h1 : UKids U inp ((rhs.take m).map .empty) (rhs.take m) i i := UKids.empties (by
    intro s hs
    obtain ⟨n, hn'⟩ := List.getElem?_of_mem hs
    have hl := getElem?_lt hn'
    rw [List.length_take] at hl
    rw [List.getElem?_take_of_lt (by omega)] at hn'
    exact hn n s (by omega) hn') i
  have h2 : UKids U inp ((rhs.drop (m + 1)).map .empty) (rhs.drop (m + 1)) j j := UKids.empties (by
    intro s hs
    obtain ⟨n, hn'⟩ := List.getElem?_of_mem hs
    rw [List.getElem?_drop] at hn'
    exact hn _ s (by omega) hn') j
  have h3 := h1.append (UKids.cons ht h2)
  rw [hsplit] at h3
  refine ⟨.node k _, .node hk h3 hij, ?_⟩
  rw [UTree.size, UTree.sizes_append, UTree.sizes]
  omega

theorem UCyclic.tree {A B : Nat} (h : TransGen (UStep U) B A) {t : UTree} {i j : Nat} (ht : UTreeOf U inp t B i j) (hij : i < j) :
    ∃ t', UTreeOf U inp t' A i j ∧ t.size < t'.size := by
  induction h with
  | single h => exact h.tree ht hij
  | tail _ h2 ih =>
    obtain ⟨t1, a1, a2⟩ := ih
    obtain ⟨t2, b1, b2⟩ := h2.tree a1 hij
    exact ⟨t2, b1, by omega⟩

/-- A symbol that derives itself has infinitely many trees over a part of the input if it has one. -/
theorem UCyclic.infinite {A : Nat} (h : UCyclic U A) {t : UTree} {i j : Nat} (ht : UTreeOf U inp t A i j) (hij : i < j) :
    {t | UTreeOf U inp t A i j}.Infinite := by
  intro hf
  have hbig : ∀ m, ∃ t', UTreeOf U inp t' A i j ∧ m ≤ t'.size := by
    intro m
    induction m with
    | zero => exact ⟨t, ht, by omega⟩
    | succ m ih =>
      obtain ⟨t1, a1, a2⟩ := ih
      obtain ⟨t2, b1, b2⟩ := UCyclic.tree h a1 hij
      exact ⟨t2, b1, by omega⟩
  obtain ⟨t', h1, h2⟩ := hbig (hf.toFinset.sup UTree.size + 1)
  have := Finset.le_sup (f := UTree.size) (hf.mem_toFinset.2 h1)
  omega

mutual
theorem Yields.rename {f g : Nat → Nat} (hfg : ∀ s, g (f s) = s) {s : Nat} {u : List Nat} (h : Yields U s u) : Yields (URules.rename f U) (f s) (u.map f) :=
  match h with
  | .token h => .token ((UTerminal.iff hfg).2 h)
  | .rule hk hy => .rule (URules.rename_some hk) (hy.rename hfg)
theorem YieldsAll.rename {f g : Nat → Nat} (hfg : ∀ s, g (f s) = s) {ss u : List Nat} (h : YieldsAll U ss u) :
    YieldsAll (URules.rename f U) (ss.map f) (u.map f) :=
  match h with
  | .nil => .nil
  | .cons h1 h2 => by
    rw [List.map_append]
    exact .cons (h1.rename hfg) (h2.rename hfg)
end

theorem Live.rename {f g : Nat → Nat} (hfg : ∀ s, g (f s) = s) {s : Nat} (h : Live U s) : Live (URules.rename f U) (f s) := by
  obtain ⟨a, u, h⟩ := h
  exact ⟨_, _, h.rename hfg⟩

end Gearley.Spec
