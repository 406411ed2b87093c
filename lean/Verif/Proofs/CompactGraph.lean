import Verif.Model.CompactGraph
import Verif.Proofs.Effects

/-!
# The byte encoding of the compact graph round-trips
-/

namespace Gearley.Compact

theorem u32_lt (x : Nat) : u32 x < 2 ^ 32 := Nat.mod_lt _ (by decide)

theorem u32_of_lt {x : Nat} (h : x < 2 ^ 32) : u32 x = x := Nat.mod_eq_of_lt h

theorem countBytes_pos {x : Nat} (h : x ≠ 0) : countBytes x = countBytes (x / 256) + 1 := by
  rw [countBytes, if_neg h]

theorem countBytes_zero : countBytes 0 = 0 := by rw [countBytes]; rfl

/-- The four cases of the length of a 32-bit number. -/
theorem byteLen_cases {x : Nat} (h : x < 2 ^ 32) :
    (byteLen x = 1 ∧ x < 2 ^ 8) ∨ (byteLen x = 2 ∧ x < 2 ^ 16) ∨ (byteLen x = 3 ∧ x < 2 ^ 24) ∨ byteLen x = 4 := by
  unfold byteLen
  by_cases h0 : x = 0
  · subst h0; rw [countBytes_zero]; left; decide
  rw [countBytes_pos h0]
  by_cases h1 : x / 256 = 0
  · rw [h1, countBytes_zero]; left; exact ⟨rfl, by omega⟩
  rw [countBytes_pos h1]
  by_cases h2 : x / 256 / 256 = 0
  · rw [h2, countBytes_zero]; right; left; exact ⟨rfl, by omega⟩
  rw [countBytes_pos h2]
  by_cases h3 : x / 256 / 256 / 256 = 0
  · rw [h3, countBytes_zero]; right; right; left; exact ⟨rfl, by omega⟩
  rw [countBytes_pos h3]
  have h4 : x / 256 / 256 / 256 / 256 = 0 := by omega
  rw [h4, countBytes_zero]
  right; right; right; rfl

theorem byteLen_bound {x : Nat} (h : x < 2 ^ 32) : 1 ≤ byteLen x ∧ byteLen x ≤ 4 := by
  rcases byteLen_cases h with h | h | h | h <;> omega

theorem leBytes_length (x : Nat) : (leBytes x).length = 4 := rfl

theorem fromLe_leBytes {x : Nat} (h : x < 2 ^ 32) : fromLe (leBytes x) = x := by
  simp only [leBytes, fromLe]; omega

theorem fromLe_take {x : Nat} (h : x < 2 ^ 32) : fromLe ((leBytes x).take (byteLen x)) = x := by
  rcases byteLen_cases h with ⟨e, h⟩ | ⟨e, h⟩ | ⟨e, h⟩ | e <;> rw [e] <;>
    simp only [leBytes, fromLe, List.take_succ_cons, List.take_zero] <;> omega

theorem take_length {x : Nat} (h : x < 2 ^ 32) : ((leBytes x).take (byteLen x)).length = byteLen x := by
  rw [List.length_take, leBytes_length]
  exact Nat.min_eq_left (byteLen_bound h).2

/-- The head byte and its parts. -/
def headByte (discr l r : Nat) : Nat := discr ||| (l <<< 3) ||| (r <<< 5)

theorem head_parts {discr l r : Nat} (hd : discr < 8) (hl : l < 4) (hr : r < 4) :
    headByte discr l r &&& 0b111 = discr ∧ (headByte discr l r >>> 3) &&& 0b11 = l ∧
      (headByte discr l r >>> 5) &&& 0b11 = r := by
  have : ∀ d < 8, ∀ l < 4, ∀ r < 4, headByte d l r &&& 0b111 = d ∧ (headByte d l r >>> 3) &&& 0b11 = l ∧
      (headByte d l r >>> 5) &&& 0b11 = r := by decide
  exact this discr hd l hl r hr

theorem sliceM_app {α} (a b c : List α) {i j : Nat} (hi : i = a.length) (hj : j = a.length + b.length) :
    sliceM (a ++ b ++ c) i j = pure b := by
  subst hi hj
  unfold sliceM
  rw [if_pos (by simp)]
  congr 1
  rw [List.take_append_of_le_length (by simp), List.take_of_length_le (by simp), List.drop_left]

theorem indexM_app {α} (a : List α) (x : α) (c : List α) : indexM (a ++ x :: c) a.length = pure x := by
  unfold indexM; simp

/-- Decoding of a three-part node: head, `l`, `r`. -/
theorem get_words (a : List Nat) {discr L R : Nat} {l r : List Nat} (c : List Nat) (hd : 1 < discr) (hd' : discr < 8)
    (hl : l.length = L + 1) (hL : L < 4) (hr : r.length = R + 1) (hR : R < 4) :
    get (a ++ headByte discr L R :: (l ++ r) ++ c) a.length = decode discr (fromLe l) (fromLe r) := by
  obtain ⟨e1, e2, e3⟩ := head_parts hd' hL hR
  unfold get
  rw [show a ++ headByte discr L R :: (l ++ r) ++ c = a ++ headByte discr L R :: (l ++ r ++ c) by simp,
    indexM_app]
  simp only [pure_bind, e1, e2, e3, if_pos hd]
  rw [show a ++ headByte discr L R :: (l ++ r ++ c) = (a ++ [headByte discr L R]) ++ l ++ (r ++ c) by simp,
    sliceM_app _ _ _ (by simp) (by simp; omega)]
  simp only [pure_bind]
  rw [show (a ++ [headByte discr L R]) ++ l ++ (r ++ c) = (a ++ [headByte discr L R] ++ l) ++ r ++ c by simp,
    sliceM_app _ _ _ (by simp; omega) (by simp; omega)]
  simp only [pure_bind]

theorem size_words (a : List Nat) {discr L R : Nat} {l r : List Nat} (c : List Nat) (hd : 1 < discr) (hd' : discr < 8)
    (hl : l.length = L + 1) (hL : L < 4) (hr : r.length = R + 1) (hR : R < 4) :
    getNodeSize (a ++ headByte discr L R :: (l ++ r) ++ c) a.length =
      pure (headByte discr L R :: (l ++ r)).length := by
  obtain ⟨e1, e2, e3⟩ := head_parts hd' hL hR
  unfold getNodeSize
  rw [show a ++ headByte discr L R :: (l ++ r) ++ c = a ++ headByte discr L R :: (l ++ r ++ c) by simp,
    indexM_app]
  simp only [pure_bind, e1, e2, e3]
  rw [if_neg (by omega)]
  congr 1
  simp; omega

/-- The payload of a node fits in 32 bits. -/
def Node.Fits : Node → Prop
  | .beginSum => True
  | .endSum => True
  | .summand a b => a < 2 ^ 32 ∧ b < 2 ^ 32
  | .product a b => a < 2 ^ 32 ∧ b < 2 ^ 32
  | .rule a b => a < 2 ^ 32 ∧ b < 2 ^ 32
  | .leaf a b => a < 2 ^ 32 ∧ b < 2 ^ 32
  | .nullingLeaf a => a < 2 ^ 32

theorem encode_words {n : Node} {d l r : Nat} (h : n.words = some (d, l, r)) :
    encode n = headByte d (byteLen l - 1) (byteLen r - 1) ::
      ((leBytes l).take (byteLen l) ++ (leBytes r).take (byteLen r)) := by
  cases n <;> simp_all [encode, Node.words, headByte]

theorem encodeExpanded_words {n : Node} {d l r : Nat} (h : n.words = some (d, l, r)) (hd : d < 8) :
    encodeExpanded n = headByte d 3 3 :: (leBytes l ++ leBytes r) := by
  have : ∀ d < 8, d ||| 0b1111000 = headByte d 3 3 := by decide
  rw [← this d hd]
  cases n <;> simp_all [encodeExpanded, Node.words]

theorem words_bounds {n : Node} {d l r : Nat} (h : n.words = some (d, l, r)) :
    1 < d ∧ d < 8 ∧ l < 2 ^ 32 ∧ r < 2 ^ 32 := by
  cases n <;> simp only [Node.words, reduceCtorEq, Option.some.injEq, Prod.mk.injEq] at h <;>
    obtain ⟨rfl, rfl, rfl⟩ := h <;> refine ⟨by decide, by decide, u32_lt _, ?_⟩ <;>
    first | exact u32_lt _ | decide

theorem words_decode {n : Node} (hf : n.Fits) {d l r : Nat} (h : n.words = some (d, l, r)) :
    decode d l r = pure n := by
  cases n <;> simp only [Node.words, reduceCtorEq, Option.some.injEq, Prod.mk.injEq] at h <;>
    obtain ⟨rfl, rfl, rfl⟩ := h <;> simp only [Node.Fits] at hf
  all_goals first
    | rw [u32_of_lt hf.1, u32_of_lt hf.2]; rfl
    | rw [u32_of_lt hf]; rfl

theorem words_none {n : Node} (h : n.words = none) : n = .beginSum ∨ n = .endSum := by
  cases n <;> simp_all [Node.words]

/-- A pushed node reads back. -/
theorem get_encode (a : List Nat) {n : Node} (hf : n.Fits) (c : List Nat) :
    get (a ++ encode n ++ c) a.length = pure n := by
  rcases hw : n.words with _ | ⟨d, l, r⟩
  · rcases words_none hw with rfl | rfl
    all_goals
      unfold get
      rw [show encode _ = [_] from rfl, List.append_assoc, List.singleton_append, indexM_app]
      simp [sliceM]
      rfl
  · obtain ⟨h1, h2, h3, h4⟩ := words_bounds hw
    have b3 := byteLen_bound h3
    have b4 := byteLen_bound h4
    rw [encode_words hw, get_words a c h1 h2 (by rw [take_length h3]; omega) (by omega)
      (by rw [take_length h4]; omega) (by omega), fromLe_take h3, fromLe_take h4]
    exact words_decode hf hw

/-- A node pushed in expanded form reads back. -/
theorem get_encodeExpanded (a : List Nat) {n : Node} (hf : n.Fits) (c : List Nat) :
    get (a ++ encodeExpanded n ++ c) a.length = pure n := by
  rcases hw : n.words with _ | ⟨d, l, r⟩
  · rcases words_none hw with rfl | rfl
    all_goals
      unfold get
      rw [show encodeExpanded _ = [_] from rfl, List.append_assoc, List.singleton_append, indexM_app]
      simp [sliceM]
      rfl
  · obtain ⟨h1, h2, h3, h4⟩ := words_bounds hw
    rw [encodeExpanded_words hw h2, get_words a c h1 h2 (leBytes_length l) (by omega) (leBytes_length r) (by omega),
      fromLe_leBytes h3, fromLe_leBytes h4]
    exact words_decode hf hw

/-- The reported size is the number of bytes written. -/
theorem size_encode (a : List Nat) (n : Node) (c : List Nat) :
    getNodeSize (a ++ encode n ++ c) a.length = pure (encode n).length := by
  rcases hw : n.words with _ | ⟨d, l, r⟩
  · rcases words_none hw with rfl | rfl
    all_goals
      unfold getNodeSize
      rw [show encode _ = [_] from rfl, List.append_assoc, List.singleton_append, indexM_app]
      simp
  · obtain ⟨h1, h2, h3, h4⟩ := words_bounds hw
    have b3 := byteLen_bound h3
    have b4 := byteLen_bound h4
    rw [encode_words hw, size_words a c h1 h2 (by rw [take_length h3]; omega) (by omega)
      (by rw [take_length h4]; omega) (by omega)]

theorem size_encodeExpanded (a : List Nat) (n : Node) (c : List Nat) :
    getNodeSize (a ++ encodeExpanded n ++ c) a.length = pure (encodeExpanded n).length := by
  rcases hw : n.words with _ | ⟨d, l, r⟩
  · rcases words_none hw with rfl | rfl
    all_goals
      unfold getNodeSize
      rw [show encodeExpanded _ = [_] from rfl, List.append_assoc, List.singleton_append, indexM_app]
      simp
  · obtain ⟨h1, h2, h3, h4⟩ := words_bounds hw
    rw [encodeExpanded_words hw h2, size_words a c h1 h2 (leBytes_length l) (by omega) (leBytes_length r) (by omega)]

theorem encode_ne_nil (n : Node) : 0 < (encode n).length := by
  rcases hw : n.words with _ | ⟨d, l, r⟩
  · rcases words_none hw with rfl | rfl <;> decide
  · rw [encode_words hw]; simp

/-- Whatever can be read stays readable when bytes are appended. -/
theorem get_append {g : List Nat} {i : Nat} {n : Node} (h : get g i = pure n) (c : List Nat) :
    get (g ++ c) i = pure n := by
  unfold get at h ⊢
  obtain ⟨head, h1, h⟩ := bind_eq_pure h
  have hi : i < g.length := (List.getElem?_eq_some_iff.1 (indexM_pure h1)).1
  have h1' : indexM (g ++ c) i = pure head := by
    unfold indexM at h1 ⊢; rw [List.getElem?_append_left hi]; exact h1
  rw [h1', pure_bind]
  simp only at h ⊢
  obtain ⟨l, h2, h⟩ := bind_eq_pure h
  obtain ⟨r, h3, h⟩ := bind_eq_pure h
  have key : ∀ {a b : Nat} {x : List Nat}, sliceM g a b = pure x → sliceM (g ++ c) a b = pure x := by
    intro a b x hx
    unfold sliceM at hx ⊢
    by_cases hab : a ≤ b ∧ b ≤ g.length
    · rw [if_pos hab] at hx
      rw [if_pos ⟨hab.1, by simp; omega⟩, List.take_append_of_le_length hab.2]; exact hx
    · rw [if_neg hab] at hx; exact absurd hx panicM_ne_pure
  rw [key h2, pure_bind, key h3, pure_bind]
  exact h

theorem size_append {g : List Nat} {i s : Nat} (h : getNodeSize g i = pure s) (c : List Nat) :
    getNodeSize (g ++ c) i = pure s := by
  unfold getNodeSize at h ⊢
  obtain ⟨head, h1, h⟩ := bind_eq_pure h
  have hi : i < g.length := (List.getElem?_eq_some_iff.1 (indexM_pure h1)).1
  have h1' : indexM (g ++ c) i = pure head := by
    unfold indexM at h1 ⊢; rw [List.getElem?_append_left hi]; exact h1
  rw [h1', pure_bind]
  exact h

end Gearley.Compact
