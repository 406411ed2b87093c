import Verif.Model.Vec2d
import Verif.Proofs.Effects

/-! # `Vec2d` behaves as a list of sets: lemmas -/

namespace Gearley.Vec2d
variable {α : Type}

attribute [-simp] List.length_flatten

/-- Start offsets of the sets `S` when the first starts at `n`. -/
def starts : Nat → List (List α) → List Nat
  | _, [] => []
  | n, s :: r => n :: starts (n + s.length) r

/-- The `Vec2d` that represents the (non-empty) list of sets `S`. -/
def ofSets (S : List (List α)) : Vec2d α := ⟨S.flatten, starts 0 S⟩

@[simp] theorem starts_length (n : Nat) (S : List (List α)) : (starts n S).length = S.length := by
  induction S generalizing n with
  | nil => rfl
  | cons s r ih => simp [starts, ih]

theorem starts_append (n : Nat) (S T : List (List α)) :
    starts n (S ++ T) = starts n S ++ starts (n + S.flatten.length) T := by
  induction S generalizing n with
  | nil => simp [starts]
  | cons s r ih => simp [starts, ih, Nat.add_assoc]

theorem starts_getElem? (n : Nat) (S : List (List α)) (i : Nat) (h : i < S.length) :
    (starts n S)[i]? = some (n + (S.take i).flatten.length) := by
  induction S generalizing n i with
  | nil => simp at h
  | cons s r ih =>
    cases i with
    | zero => simp [starts]
    | succ i =>
      simp only [starts, List.getElem?_cons_succ, List.take_succ_cons, List.flatten_cons, List.length_append]
      rw [ih]
      · simp [Nat.add_assoc]
      · simpa using h

theorem starts_take (n : Nat) (S : List (List α)) (i : Nat) :
    (starts n S).take i = starts n (S.take i) := by
  induction S generalizing n i with
  | nil => simp [starts]
  | cons s r ih =>
    cases i with
    | zero => simp [starts]
    | succ i => simp [starts, ih]

theorem ofSets_snoc (S : List (List α)) (l : List α) :
    ofSets (S ++ [l]) = ⟨S.flatten ++ l, starts 0 S ++ [S.flatten.length]⟩ := by
  simp [ofSets, starts_append, starts]

theorem new_eq : (new : Vec2d α) = ofSets [[]] := rfl

theorem clear_eq (v : Vec2d α) : v.clear = ofSets [[]] := rfl

theorem nextSet_eq (S : List (List α)) : (ofSets S).nextSet = ofSets (S ++ [[]]) := by
  rw [ofSets_snoc]; simp [nextSet, ofSets]

theorem pushItem_eq (S : List (List α)) (l : List α) (x : α) :
    (ofSets (S ++ [l])).pushItem x = ofSets (S ++ [l ++ [x]]) := by
  simp [ofSets_snoc, pushItem]

theorem popItem_eq (S : List (List α)) (l : List α) (x : α) :
    (ofSets (S ++ [l ++ [x]])).popItem = (ofSets (S ++ [l]), some x) := by
  simp only [ofSets_snoc, popItem, ← List.append_assoc, List.dropLast_concat, List.getLast?_concat]

theorem extendWithSet_eq (S : List (List α)) (l s : List α) :
    (ofSets (S ++ [l])).extendWithSet s = ofSets (S ++ [l ++ s] ++ [[]]) := by
  rw [ofSets_snoc, extendWithSet]
  simp only [nextSet, ofSets, starts_append, starts, List.flatten_append, List.flatten_cons, List.flatten_nil,
    List.append_nil, List.length_append, List.append_assoc, Nat.zero_add]

theorem len_eq (S : List (List α)) : (ofSets S).len = S.length := by simp [len, ofSets]

theorem itemCount_eq (S : List (List α)) : (ofSets S).itemCount = S.flatten.length := rfl

theorem getItem_eq (S : List (List α)) (i : Nat) : (ofSets S).getItem i = S.flatten[i]? := rfl

theorem last_eq (S : List (List α)) (l : List α) : (ofSets (S ++ [l])).last = pure l := by
  rw [ofSets_snoc]
  simp [last, unwrapM_some, sliceFromM_eq]

theorem modifyLast_eq (S : List (List α)) (l l' : List α) (f : List α → M (List α)) (h : f l = pure l') :
    (ofSets (S ++ [l])).modifyLast f = pure (ofSets (S ++ [l'])) := by
  rw [ofSets_snoc, ofSets_snoc]
  simp [modifyLast, unwrapM_some, sliceFromM_eq, h]

theorem truncateChart_eq (S : List (List α)) (l : List α) (n : Nat) :
    (ofSets (S ++ [l])).truncateChart (S.flatten.length + n) = ofSets (S ++ [l.take n]) := by
  rw [ofSets_snoc, ofSets_snoc]
  simp [truncateChart, List.take_append, List.take_of_length_le]

theorem index_eq (S : List (List α)) (i : Nat) (s : List α) (hi : i + 1 < S.length) (hs : S[i]? = some s) :
    (ofSets S).index i = pure s := by
  have h1 := starts_getElem? 0 S i (by omega)
  have h2 := starts_getElem? 0 S (i+1) hi
  have hlt : i < S.length := by omega
  have hs' : s = S[i] := by
    rw [List.getElem?_eq_getElem hlt] at hs; simpa using hs.symm
  have htake : S.take (i+1) = S.take i ++ [s] := by
    rw [List.take_add_one, hs]; rfl
  have hlen : ((S.take (i+1)).flatten).length = (S.take i).flatten.length + s.length := by
    rw [htake]; simp
  have hsplit : S.flatten = (S.take (i+1)).flatten ++ (S.drop (i+1)).flatten := by
    rw [← List.flatten_append, List.take_append_drop]
  simp only [index, ofSets, indexM_eq h1, indexM_eq h2, pure_bind, Nat.zero_add]
  rw [sliceM_eq (by omega) (by rw [hsplit]; simp)]
  congr 1
  rw [hsplit, List.take_left, htake]
  simp

theorem index_panic (S : List (List α)) (i : Nat) (hi : S.length ≤ i + 1) :
    (ofSets S).index i = panicM .index := by
  simp only [index, ofSets]
  by_cases h : i < S.length
  · rw [indexM_lt (by simpa using h), pure_bind, indexM_panic (by simpa using hi)]
    rfl
  · rw [indexM_panic (by simp; omega)]
    rfl

theorem indexAt_eq (S : List (List α)) (i : Nat) (hi : i < S.length) :
    (ofSets S).indexAt i = pure (S.take i).flatten.length := by
  rw [indexAt, ofSets, indexM_eq (starts_getElem? 0 S i hi), Nat.zero_add]

theorem truncate_eq (S : List (List α)) (l : List α) (n : Nat) (hn : n ≤ S.length) :
    (ofSets (S ++ [l])).truncate n = pure (ofSets (S.take n ++ [l])) := by
  have h1 := starts_getElem? 0 (S ++ [l]) n (by simp; omega)
  have hle : ((S.take n).flatten).length ≤ S.flatten.length := by
    have : S.flatten = (S.take n).flatten ++ (S.drop n).flatten := by
      rw [← List.flatten_append, List.take_append_drop]
    rw [this, List.length_append]; omega
  have htk : (S ++ [l]).take n = S.take n := by
    rw [List.take_append_of_le_length hn]
  rw [htk, Nat.zero_add] at h1
  have hidx : (ofSets (S ++ [l])).indices = starts 0 (S ++ [l]) := rfl
  have hchart : (ofSets (S ++ [l])).chart = S.flatten ++ l := by simp [ofSets]
  have hlast : (starts 0 (S ++ [l])).getLast? = some S.flatten.length := by
    rw [starts_append]; simp [starts]
  have hpre : S.flatten = (S.take n).flatten ++ (S.drop n).flatten := by
    rw [← List.flatten_append, List.take_append_drop]
  have htakeflat : (S.flatten ++ l).take (S.take n).flatten.length = (S.take n).flatten := by
    rw [List.take_append_of_le_length hle, hpre, List.take_left]
  simp only [truncate, hidx, hchart, hlast, indexM_eq h1, unwrapM_some, pure_bind]
  rw [copyWithin, if_pos (by simp; omega), pure_bind, subM_eq (by simp; omega), pure_bind]
  congr 1
  rw [ofSets_snoc]
  congr 1
  · rw [htakeflat]
    simp only [List.drop_left, List.length_append, List.length_drop]
    rw [List.take_append_of_le_length (by simp; omega)]
    apply List.take_of_length_le
    simp; omega
  · rw [starts_take, show n + 1 = n + 1 from rfl, ← starts_take, List.take_add_one, h1, starts_take, htk]
    rfl

theorem truncate_panic (S : List (List α)) (n : Nat) (hn : S.length ≤ n) :
    (ofSets S).truncate n = panicM .index := by
  simp only [truncate]
  rw [indexM_panic (by simpa [ofSets] using hn)]
  rfl

theorem extend_eq (S : List (List α)) (T : List (List α)) :
    (ofSets (S ++ [[]])).extend T = ofSets (S ++ T ++ [[]]) := by
  induction T generalizing S with
  | nil => simp [extend]
  | cons t T ih =>
    have h := extendWithSet_eq S [] t
    simp only [List.nil_append] at h
    have : extend (ofSets (S ++ [[]])) (t :: T) = extend ((ofSets (S ++ [[]])).extendWithSet t) T := rfl
    rw [this, h, ih (S ++ [t])]
    simp

theorem fromIter_eq (T : List (List α)) : fromIter T = ofSets (T ++ [[]]) := by
  have := extend_eq ([] : List (List α)) T
  simpa [fromIter, new_eq] using this

theorem ofSets_injective {S T : List (List α)} (h : ofSets S = ofSets T) : S = T := by
  have hlen : S.length = T.length := by
    have := congrArg (fun v => v.indices.length) h
    simpa [ofSets] using this
  have hgen : ∀ (n : Nat) (S T : List (List α)), S.length = T.length → S.flatten = T.flatten →
      starts n S = starts n T → S = T := by
    intro n S
    induction S generalizing n with
    | nil => intro T hl _ _; cases T with
      | nil => rfl
      | cons => simp at hl
    | cons s r ih =>
      intro T hl hf hs
      cases T with
      | nil => simp at hl
      | cons t u =>
        simp only [starts, List.cons.injEq, true_and] at hs
        have hsl : s.length = t.length := by
          cases r with
          | nil =>
            cases u with
            | nil => simp at hf; rw [hf]
            | cons => simp at hl
          | cons r0 r =>
            cases u with
            | nil => simp at hl
            | cons u0 u =>
              simp only [starts, List.cons.injEq] at hs
              omega
        simp only [List.flatten_cons] at hf
        obtain ⟨h1, h2⟩ := List.append_inj hf hsl
        subst h1
        rw [ih (n + s.length) u (by simpa using hl) h2 hs]
  exact hgen 0 S T hlen (congrArg Vec2d.chart h) (congrArg Vec2d.indices h)

end Gearley.Vec2d
