import Verif.Model.Drivers
import Verif.Model.Api
import Verif.Proofs.Effects

/-! # Concrete runs: whatever the fuelled functions return, the real ones return -/

namespace Gearley

/-- If `x` returns then `y` returns the same. -/
def Below {α} (x y : M α) : Prop := ∀ a, x = pure a → y = pure a

theorem Below.refl {α} (x : M α) : Below x x := fun _ h => h

theorem Below.bind {α β} {x y : M α} {f g : α → M β} (h : Below x y) (hf : ∀ a, Below (f a) (g a)) :
    Below (x >>= f) (y >>= g) := by
  intro b hb
  obtain ⟨a, h1, h2⟩ := bind_eq_pure hb
  rw [h a h1, pure_bind]
  exact hf a b h2

theorem Below.foldlM {α β} {f g : β → α → M β} (h : ∀ b a, Below (f b a) (g b a)) (l : List α) (b : β) :
    Below (l.foldlM f b) (l.foldlM g b) := by
  induction l generalizing b with
  | nil => exact .refl _
  | cons a l ih =>
    simp only [List.foldlM_cons]
    exact (h b a).bind fun b' => ih b'

theorem Below.mapM {α β} {f g : α → M β} (h : ∀ a, Below (f a) (g a)) (l : List α) : Below (l.mapM f) (l.mapM g) := by
  induction l with
  | nil => exact .refl _
  | cons a l ih =>
    simp only [List.mapM_cons]
    exact (h a).bind fun b => ih.bind fun bs => .refl _

theorem Below.ite {α} {p : Prop} [Decidable p] {a b c d : M α} (h1 : Below a c) (h2 : Below b d) :
    Below (if p then a else b) (if p then c else d) := by split <;> assumption

theorem loopFuel_below {α β} (f : α → M (α ⊕ β)) (n : Nat) (a : α) : Below (loopFuel f n a) (loop f a) :=
  fun _ h => loop_of_loopFuel h

namespace Build

/-- `rootOf` with fuel, for concrete grammars. -/
def rootOfFuel (n : Nat) (byRhs0 : List CfgRule) (syms lhs : Nat) : M Nat := loopFuel (rootStep byRhs0 syms) n lhs

end Build

/-- Building a concrete grammar. -/
theorem fromProcessed_below (n : Nat) (c : Cfg) (maps : Mapping) (nulling : Cfg) (first follow : List (Nat × List Nat)) :
    Below (fromProcessedWith (Build.rootOfFuel n) c maps nulling first follow)
      (fromProcessed c maps nulling first follow) := by
  have root : ∀ L syms A, Below (Build.rootOfFuel n L syms A) (Build.rootOf L syms A) := fun L syms A =>
    loopFuel_below _ n A
  have pm : ∀ L syms c, Below (Build.predictionMatrix (Build.rootOfFuel n L syms) syms c)
      (Build.predictionMatrix (Build.rootOf L syms) syms c) := by
    intro L syms c
    refine Below.bind (Below.foldlM (fun m r => Below.bind (.refl _) fun r0 => Below.ite (Below.bind (root _ _ _)
      fun _ => .refl _) (.refl _)) _ _) fun _ => .refl _
  have ct : ∀ L syms gensyms c, Below (Build.completionTable (Build.rootOfFuel n L syms) syms gensyms c)
      (Build.completionTable (Build.rootOf L syms) syms gensyms c) := by
    intro L syms gensyms c
    refine Below.bind (Below.mapM (fun p => Below.bind (.refl _) fun r0 => Below.bind (root _ _ _) fun _ => .refl _) _)
      fun _ => .refl _
  unfold fromProcessed fromProcessedWith
  exact .bind (.refl _) fun _ => .bind (.refl _) fun _ => .bind (.refl _) fun _ => .bind (.refl _) fun _ =>
    .bind (.refl _) fun _ => .bind (.refl _) fun _ => .bind (.refl _) fun _ => .bind (.refl _) fun _ =>
    .bind (pm _ _ _) fun _ => .bind (.refl _) fun _ => .bind (ct _ _ _ _) fun _ => .refl _

namespace Rec
variable {σ ν : Type} {E : Env σ ν}

theorem completeAll_below (k : Nat) (s : Rec σ ν) : Below (completeAllFuel E k s) (completeAll E s) :=
  loopFuel_below _ k s

theorem endEarleme_below (k : Nat) (s : Rec σ ν) :
    Below (endEarlemeWith E (completeAllFuel E k) s) (endEarlemeWith E (completeAll E) s) := by
  unfold endEarlemeWith
  exact .bind (.refl _) fun b => Below.ite (.refl _) (.bind (completeAll_below k s) fun _ => .refl _)

theorem position_below (k : Nat) (s : Rec σ ν) (toks : List (Nat × Nat)) :
    Below (positionWith E (completeAllFuel E k) s toks) (position E s toks) :=
  .bind (.refl _) fun _ => endEarleme_below k _

theorem session_below (k : Nat) (steps : List (HintOp × List (Nat × Nat))) (s : Rec σ ν) :
    Below (sessionWith E (completeAllFuel E k) steps s) (session E steps s) := by
  induction steps generalizing s with
  | nil => exact .refl _
  | cons st rest ih =>
    obtain ⟨h, toks⟩ := st
    refine .bind (position_below k _ toks) ?_
    rintro ⟨s', ok⟩
    exact Below.ite (ih s') (.refl _)

theorem parseLoop_below (k i : Nat) (toks : List Nat) (s : Rec σ ν) :
    Below (parseLoop E (completeAllFuel E k) i toks s) (parseLoop E (completeAll E) i toks s) := by
  induction toks generalizing i s with
  | nil => exact .refl _
  | cons t toks ih =>
    refine .bind (.refl _) fun _ => .bind (.refl _) fun _ => .bind (.refl _) fun _ => .bind (endEarleme_below k _) ?_
    rintro ⟨s', ok⟩
    exact Below.ite (ih _ s') (.refl _)

theorem parse_below (k : Nat) (s : Rec σ ν) (toks : List Nat) :
    Below (parseWith E (completeAllFuel E k) s toks) (parse E s toks) := by
  refine .bind (.bind (.refl _) fun _ => endEarleme_below k _) ?_
  rintro ⟨s', ok⟩
  exact Below.ite (parseLoop_below k 0 toks s') (.refl _)

theorem call_below (k : Nat) (s : Rec σ ν) (c : Call) : Below (callWith E (completeAllFuel E k) s c) (call E s c) := by
  cases c with
  | endEarleme => exact .bind (endEarleme_below k s) fun _ => .refl _
  | _ => exact .refl _

theorem calls_below (k : Nat) (cs : List Call) (s : Rec σ ν) :
    Below (callsWith E (completeAllFuel E k) cs s) (calls E cs s) := by
  induction cs generalizing s with
  | nil => exact .refl _
  | cons c cs ih => exact .bind (call_below k s c) fun p => .bind (ih p.1) fun _ => .refl _

end Rec
end Gearley
