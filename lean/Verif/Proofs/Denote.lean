import Verif.Proofs.Evaluate
import Verif.Proofs.Below

/-! # The trees of a concrete graph, computed -/

namespace Gearley
open Gearley.Spec

/-- The trees of a node, with fuel. -/
def Simple.denote (G : List Simple.Node) : Nat → Nat → Option (List PTree)
  | 0, _ => none
  | n + 1, h =>
    match G[h]? with
    | some (.leaf s v) => some [.leaf s v]
    | some (.nullingLeaf s) => some [.nulling s]
    | some (.product d f) => (denote G n f).map fun ts => ts.map (.node d)
    | some (.rule l r) =>
      match denote G n l, denote G n r with
      | some ls, some rs => some (pairs ls rs)
      | _, _ => none
    | some (.sum _ k) =>
      if 1 < k ∧ ((List.range k).all fun i => match G[h + 1 + i]? with | some (.product _ _) => true | _ => false) then
        ((List.range k).mapM fun i => denote G n (h + 1 + i)).map List.flatten
      else none
    | none => none

theorem mapM_option {α β : Type} {f : α → Option β} {l : List α} {r : List β} (h : l.mapM f = some r) :
    r.length = l.length ∧ ∀ i (h1 : i < l.length) (h2 : i < r.length), f l[i] = some r[i] := by
  induction l generalizing r with
  | nil =>
    simp only [List.mapM_nil, Option.pure_def, Option.some.injEq] at h
    subst h
    exact ⟨rfl, fun i h1 => absurd h1 (by simp)⟩
  | cons a l ih =>
    simp only [List.mapM_cons, Option.pure_def, Option.bind_eq_bind, Option.bind_eq_some_iff, Option.some.injEq] at h
    obtain ⟨b, h1, bs, h2, rfl⟩ := h
    obtain ⟨h3, h4⟩ := ih h2
    refine ⟨by simp [h3], fun i i1 i2 => ?_⟩
    match i with
    | 0 => exact h1
    | i + 1 => exact h4 i _ _

theorem Simple.denote_den {G : List Simple.Node} {n h : Nat} {ts : List PTree} (hd : Simple.denote G n h = some ts) :
    Simple.Den G h ts := by
  induction n generalizing h ts with
  | zero => cases hd
  | succ n ih =>
    unfold Simple.denote at hd
    split at hd
    · next hh => cases hd; exact .leaf hh
    · next hh => cases hd; exact .nulling hh
    · next hh =>
      rw [Option.map_eq_some_iff] at hd
      obtain ⟨us, h1, rfl⟩ := hd
      exact .product hh (ih h1)
    · next hh =>
      split at hd
      · next h1 h2 => cases hd; exact .rule hh (ih h1) (ih h2)
      · cases hd
    · next nt k hh =>
      split at hd
      · next hc =>
        rw [Option.map_eq_some_iff] at hd
        obtain ⟨us, h1, rfl⟩ := hd
        obtain ⟨h2, h3⟩ := mapM_option h1
        rw [List.length_range] at h2
        refine .sum hh hc.1 h2 ?_ ?_
        · intro i hi
          have := List.all_eq_true.1 hc.2 i (List.mem_range.2 hi)
          split at this
          · next h => exact ⟨_, _, h⟩
          · cases this
        · intro i hi
          have := h3 i (by simpa [← h2] using hi) hi
          rw [List.getElem_range] at this
          exact ih this
      · cases hd
    · cases hd

/-- The trees of a node of the compact bocage (`false`) or of the rest of its summands (`true`), with fuel. -/
def Compact.denote (G : List Nat) : Nat → Bool → Nat → Option (List PTree)
  | 0, _, _ => none
  | n + 1, false, h =>
    match Compact.get G h with
    | some (.ok (.leaf s v)) => some [.leaf s v]
    | some (.ok (.nullingLeaf s)) => some [.nulling s]
    | some (.ok (.product d f)) => if d = nullAction then (denote G n false f).map fun ts => ts.map (.node nullAction) else none
    | some (.ok (.rule l r)) =>
      match denote G n false l, denote G n false r with
      | some ls, some rs => some (pairs ls rs)
      | _, _ => none
    | some (.ok (.summand _ _)) => denote G n true h
    | some (.ok .beginSum) =>
      match Compact.get G (h + 1) with
      | some (.ok (.summand _ _)) =>
        match denote G n true (h + 1) with
        | some ts => if 1 < ts.length then some ts else none
        | none => none
      | _ => none
    | _ => none
  | n + 1, true, h =>
    match Compact.get G h with
    | some (.ok .endSum) => some []
    | some (.ok (.summand d f)) =>
      match Compact.getNodeSize G h with
      | some (.ok s) =>
        match denote G n false f, denote G n true (h + s) with
        | some ts, some us => some (ts.map (.node d) ++ us)
        | _, _ => none
      | _ => none
    | _ => none

theorem Compact.denote_den {G : List Nat} {n h : Nat} {c : Bool} {ts : List PTree} (hd : Compact.denote G n c h = some ts) :
    Compact.DenAt G c h ts := by
  induction n generalizing h c ts with
  | zero => cases hd
  | succ n ih =>
    cases c with
    | false =>
      unfold Compact.denote at hd
      split at hd
      · next hh => cases hd; exact .leaf hh
      · next hh => cases hd; exact .nulling hh
      · next d f hh =>
        split at hd
        · next he =>
          subst he
          rw [Option.map_eq_some_iff] at hd
          obtain ⟨us, h1, rfl⟩ := hd
          exact .product hh (ih h1)
        · cases hd
      · next hh =>
        split at hd
        · next h1 h2 => cases hd; exact .rule hh (ih h1) (ih h2)
        · cases hd
      · next hh => exact .single hh (ih hd)
      · next hh =>
        split at hd
        · next h1 =>
          split at hd
          · next h2 =>
            split at hd
            · next hl => cases hd; exact .beginSum hh h1 (ih h2) hl
            · cases hd
          · cases hd
        · cases hd
      · cases hd
    | true =>
      unfold Compact.denote at hd
      split at hd
      · next hh => cases hd; exact .endSum hh
      · next hh =>
        split at hd
        · next hs =>
          split at hd
          · next h1 h2 => cases hd; exact .summand hh hs (ih h1) (ih h2)
          · cases hd
        · cases hd
      · cases hd

theorem _root_.Gearley.Compact.DenAt.get {G : List Nat} {c : Bool} {h : Nat} {ts : List PTree} (hd : Compact.DenAt G c h ts) :
    ∃ x, Compact.get G h = pure x := by
  cases hd with
  | leaf h | nulling h | product h _ | rule h _ _ | single h _ | beginSum h _ _ _ | endSum h | summand h _ _ _ => exact ⟨_, h⟩

theorem Simple.evaluate_below {α : Type} (n : Nat) (E : Evaluator α) (b : Simple.Bocage) (x : Nat) :
    Below (b.evaluateFuel n E x) (b.evaluate E x) := by
  unfold Simple.Bocage.evaluateFuel Simple.Bocage.evaluate Simple.Bocage.evaluateWith
  refine .bind (.refl _) fun r => ?_
  cases r with
  | inl r => exact .bind (loopFuel_below _ n _) fun _ => .refl _
  | inr r => exact .refl _

theorem Compact.evaluate_below {α : Type} (n : Nat) (E : Evaluator α) (b : Compact.Bocage) (x : Nat) :
    Below (b.evaluateFuel n E x) (b.evaluate E x) := by
  unfold Compact.Bocage.evaluateFuel Compact.Bocage.evaluate Compact.Bocage.evaluateWith
  refine .bind (.refl _) fun r => ?_
  cases r with
  | inl r => exact .bind (loopFuel_below _ n _) fun _ => .refl _
  | inr r => exact .refl _

end Gearley
