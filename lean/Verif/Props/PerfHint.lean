import Verif.Model.PerfHint
import Verif.Proofs.Effects

/-!
# C33: capacity hints
-/

namespace Gearley.Spec

/-- A target with at least 32 bits, words of 1 to 16 bytes and items of at most 64 bytes,
`Item<()>` not being empty. -/
structure Target.Usual (t : Target) : Prop where
  bits : 32 ≤ t.bits
  word0 : 0 < t.word
  word : t.word ≤ 16
  itemUnit0 : 0 < t.itemUnit
  itemUnit : t.itemUnit ≤ 64
  itemUsize : t.itemUsize ≤ 64

/-- The documented room for completions. -/
def CompletionRoom (mem n : Nat) : Prop :=
  (mem < 1000 → n = 16) ∧ (1000 ≤ mem → mem < 500000 → n = 32) ∧ (500000 ≤ mem → mem ≤ 2000000 → n = 64) ∧
    (2000000 < mem → n = 128)

/-- `memory_limit` and `num_syms` are at most half of the range, and the table of set starts is addressable. -/
structure HintBound (t : Target) (p : PerfHint) : Prop where
  mem : p.memoryLimit < 2 ^ (t.bits - 1)
  syms : ∀ n, p.numSyms = some n → n < 2 ^ (t.bits - 1)
  tokens : ∀ n, p.tokenLimit = some n → (n + 1) * t.word + 8192 ≤ 2 ^ (t.bits - 1)

end Gearley.Spec

namespace Gearley.Props
open Gearley.Spec PerfHint

theorem C33_completion (p : PerfHint) : CompletionRoom p.memoryLimit p.completionCapacity := by
  unfold CompletionRoom completionCapacity
  refine ⟨?_, ?_, ?_, ?_⟩ <;> intros <;> repeat (first | rw [if_pos (by omega)] | rw [if_neg (by omega)])

theorem completionCapacity_le (p : PerfHint) : p.completionCapacity ≤ 128 := by
  unfold completionCapacity; split
  · omega
  · split
    · omega
    · split <;> omega

theorem pow_bits {t : Target} (h : Target.Usual t) : 2 ^ t.bits = 2 * 2 ^ (t.bits - 1) ∧ 2147483648 ≤ 2 ^ (t.bits - 1) := by
  have hb := h.bits
  constructor
  · obtain ⟨k, hk⟩ := Nat.exists_eq_add_of_le hb
    have : t.bits = (t.bits - 1) + 1 := by omega
    rw [this, Nat.pow_succ]; simp; omega
  · have : (2:Nat) ^ 31 ≤ 2 ^ (t.bits - 1) := Nat.pow_le_pow_right (by omega) (by omega)
    omega

theorem add_eq {t : Target} {a b : Nat} (h : a + b < 2 ^ t.bits) : t.add a b = pure (a + b) := if_pos h
theorem mul_eq {t : Target} {a b : Nat} (h : a * b < 2 ^ t.bits) : t.mul a b = pure (a * b) := if_pos h
theorem toI_eq {t : Target} {a : Nat} (h : a < 2 ^ (t.bits - 1)) : t.toI a = a := if_pos h
theorem subI_eq {t : Target} {a b : Int} (h : -2 ^ (t.bits - 1) ≤ a - b) (h' : a - b < 2 ^ (t.bits - 1)) :
    t.subI a b = pure (a - b) := if_pos ⟨h, h'⟩

/-- The amounts as plain integers. -/
theorem hint_values {t : Target} {p : PerfHint} (ht : Target.Usual t) (hp : HintBound t p) :
    ∃ idx bytes : Nat, indicesCapacity t p = pure idx ∧ bytesPerSet t p = pure bytes ∧
      idx = p.tokenLimit.getD 64 + 1 ∧ bytes = (p.numSyms.getD 128 + 31) / 32 * 4 + 16 * t.itemUnit ∧
      16 ≤ bytes ∧ bytes < 2 ^ (t.bits - 1) ∧
      forestUse t p = pure (p.memoryLimit * 2 / 3) ∧
      chartUse t p = pure ((p.memoryLimit : Int) - (p.memoryLimit * 2 / 3 : Nat) - (idx * t.word : Nat) -
        (p.completionCapacity * t.itemUsize : Nat)) := by
  obtain ⟨hpow, hbig⟩ := pow_bits ht
  have hcap := completionCapacity_le p
  have hmem := hp.mem
  have hu := ht.itemUnit
  have hu0 := ht.itemUnit0
  have hz := ht.itemUsize
  have hw := ht.word
  have hidx : (p.tokenLimit.getD 64 + 1) * t.word + 8192 ≤ 2 ^ (t.bits - 1) := by
    cases h : p.tokenLimit with
    | none =>
      have : (64 + 1) * t.word ≤ 65 * 16 := Nat.mul_le_mul (by omega) hw
      simp only [Option.getD_none]; omega
    | some n => simpa using hp.tokens n h
  have hsyms : p.numSyms.getD 128 < 2 ^ (t.bits - 1) := by
    cases h : p.numSyms with
    | none => simp only [Option.getD_none]; omega
    | some n => simpa using hp.syms n h
  have hcz : p.completionCapacity * t.itemUsize ≤ 128 * 64 := Nat.mul_le_mul hcap hz
  have hBits : (2:Int) ^ (t.bits - 1) = ((2 ^ (t.bits - 1) : Nat) : Int) := by push_cast; rfl
  have hI : indicesCapacity t p = pure (p.tokenLimit.getD 64 + 1) := by
    refine add_eq ?_
    have := Nat.le_mul_of_pos_right (p.tokenLimit.getD 64 + 1) ht.word0
    omega
  have hB : bytesPerSet t p = pure ((p.numSyms.getD 128 + 31) / 32 * 4 + 16 * t.itemUnit) := by
    unfold bytesPerSet
    rw [add_eq (by omega), pure_bind, mul_eq (by omega), pure_bind, mul_eq (by omega), pure_bind, add_eq (by omega)]
  have hF : forestUse t p = pure (p.memoryLimit * 2 / 3) := by
    unfold forestUse
    rw [mul_eq (by omega), pure_bind]
  refine ⟨_, _, hI, hB, rfl, rfl, by omega, by omega, hF, ?_⟩
  unfold chartUse
  rw [hF, pure_bind, toI_eq (by omega), toI_eq (by omega), subI_eq (by omega) (by omega), pure_bind, hI, pure_bind,
    mul_eq (by omega), pure_bind, toI_eq (by omega), subI_eq (by omega) (by omega), pure_bind, mul_eq (by omega), pure_bind,
    toI_eq (by omega), subI_eq (by omega) (by omega)]

theorem setUse_eq {t : Target} {p : PerfHint} (ht : Target.Usual t) (hp : HintBound t p) {idx bytes : Nat}
    (hi : idx = p.tokenLimit.getD 64 + 1) (hb : bytes = (p.numSyms.getD 128 + 31) / 32 * 4 + 16 * t.itemUnit) :
    ∃ n, setUse t p = pure n ∧ 32 ≤ n ∧
      (32 < n → n * bytes + (idx * t.word + p.completionCapacity * t.itemUsize) + p.memoryLimit * 2 / 3 ≤ p.memoryLimit) ∧
      p.memoryLimit < (n + 1) * bytes + (idx * t.word + p.completionCapacity * t.itemUsize) + p.memoryLimit * 2 / 3 := by
  obtain ⟨_, _, h1, h2, rfl, rfl, h3, h4, h5, h6⟩ := hint_values ht hp
  rw [← hb] at h2 h3 h4
  rw [← hi] at h1 h6
  obtain ⟨hpow, hbig⟩ := pow_bits ht
  have hmem := hp.mem
  have hBits : (2:Int) ^ t.bits = ((2 ^ t.bits : Nat) : Int) := by push_cast; rfl
  unfold setUse
  rw [h6, pure_bind, h2, pure_bind, toI_eq h4]
  generalize idx * t.word = x at *
  generalize p.completionCapacity * t.itemUsize = y at *
  generalize hC : ((p.memoryLimit : Int) - (p.memoryLimit * 2 / 3 : Nat) - (x : Nat) - (y : Nat)) = C
  have hd : t.divI C (bytes : Int) = pure (C.tdiv bytes) := by
    unfold Target.divI
    rw [if_neg]
    rintro (h | ⟨_, h⟩) <;> omega
  rw [hd, pure_bind]
  refine ⟨_, rfl, ?_⟩
  rcases Int.lt_or_le C 0 with hneg | hpos
  · have hle : C.tdiv bytes ≤ 0 := by
      have := Int.tdiv_nonneg (a := -C) (b := bytes) (by omega) (by omega)
      rw [Int.neg_tdiv] at this; omega
    have hmax : max (C.tdiv bytes) 32 = 32 := by omega
    have hn : t.toU 32 = 32 := by
      unfold Target.toU
      rw [hBits, Int.emod_eq_of_lt (by omega) (by omega)]; rfl
    rw [hmax, hn]
    exact ⟨Nat.le_refl _, fun h => absurd h (by omega), by omega⟩
  · obtain ⟨c, rfl⟩ := Int.eq_ofNat_of_zero_le hpos
    have hq : (c : Int).tdiv bytes = ((c / bytes : Nat) : Int) := by rfl
    have hcl : c / bytes ≤ c := Nat.div_le_self _ _
    have hmax : max ((c : Int).tdiv bytes) 32 = ((max (c / bytes) 32 : Nat) : Int) := by rw [hq]; omega
    have hn : t.toU ((max (c / bytes) 32 : Nat) : Int) = max (c / bytes) 32 := by
      unfold Target.toU
      rw [hBits, Int.emod_eq_of_lt (by omega) (by omega)]; rfl
    rw [hmax, hn]
    have hdm := Nat.div_add_mod c bytes
    have hml := Nat.mod_lt c (show 0 < bytes by omega)
    refine ⟨Nat.le_max_right _ _, fun h => ?_, ?_⟩
    · have : max (c / bytes) 32 = c / bytes := by omega
      rw [this, Nat.mul_comm]; omega
    · have : bytes * (c / bytes) ≤ max (c / bytes) 32 * bytes := by
        rw [Nat.mul_comm]; exact Nat.mul_le_mul_right _ (Nat.le_max_left _ _)
      rw [Nat.add_mul]; omega

/-- C33. For every hint within the bounds, computing the capacities does not panic. At least 32 sets are reserved, with 16
items each; and the number of sets is the largest one for which the estimate stays within the memory limit, if that is above
32. -/
theorem C33_capacities {t : Target} {p : PerfHint} (ht : Target.Usual t) (hp : HintBound t p) :
    ∃ c, medialCapacity t p = pure c ∧ 32 ≤ c.indices ∧ c.chart = 16 * c.indices ∧
      ∀ bytes other, bytes = (p.numSyms.getD 128 + 31) / 32 * 4 + 16 * t.itemUnit →
        other = (p.tokenLimit.getD 64 + 1) * t.word + p.completionCapacity * t.itemUsize + p.memoryLimit * 2 / 3 →
        (32 < c.indices → c.indices * bytes + other ≤ p.memoryLimit) ∧ p.memoryLimit < (c.indices + 1) * bytes + other := by
  obtain ⟨n, h1, h2, h3, h4⟩ := setUse_eq ht hp rfl rfl
  obtain ⟨hpow, hbig⟩ := pow_bits ht
  have hmem := hp.mem
  have hu0 := ht.itemUnit0
  have hn : n * 16 < 2 ^ t.bits := by
    rcases Nat.lt_or_ge 32 n with h | h
    · have h3 := h3 h
      have : n * 16 ≤ n * ((p.numSyms.getD 128 + 31) / 32 * 4 + 16 * t.itemUnit) := Nat.mul_le_mul_left _ (by omega)
      omega
    · omega
  refine ⟨⟨n * 16, n⟩, ?_, h2, Nat.mul_comm _ _, ?_⟩
  · unfold medialCapacity
    rw [h1, pure_bind, mul_eq hn, pure_bind, pure_bind]
  · rintro bytes other rfl rfl
    exact ⟨fun h => by have := h3 h; simp only at this ⊢; omega, by simp only at h4 ⊢; omega⟩

/-- C33. The reservations made with these capacities stay below `isize::MAX` bytes, if an item of the recognizer has at most
twice the size of `Item<()>`: creating a recognizer does not panic because of the hint. -/
theorem C33_reservations {t : Target} {p : PerfHint} (ht : Target.Usual t) (hp : HintBound t p) {size : Nat}
    (hs : size ≤ 2 * t.itemUnit) : reserveAll t size p = pure () := by
  obtain ⟨⟨n, m⟩, h1, h2, hn, h3⟩ := C33_capacities ht hp
  simp only at hn
  subst hn
  obtain ⟨h3, _⟩ := h3 _ _ rfl rfl
  obtain ⟨hpow, hbig⟩ := pow_bits ht
  have hmem := hp.mem
  have hu0 := ht.itemUnit0
  have hu := ht.itemUnit
  have hw := ht.word
  have hcap := completionCapacity_le p
  unfold reserveAll
  rw [h1, pure_bind]
  simp only at h2 h3 ⊢
  have key : t.word * m < 2 ^ (t.bits - 1) ∧ size * (16 * m) < 2 ^ (t.bits - 1) := by
    rcases Nat.lt_or_ge 32 m with h | h
    · have h3 := h3 h
      have e1 : m * (16 * t.itemUnit) ≤ m * ((p.numSyms.getD 128 + 31) / 32 * 4 + 16 * t.itemUnit) :=
        Nat.mul_le_mul_left _ (by omega)
      have e2 : t.word * m ≤ m * (16 * t.itemUnit) := by
        rw [Nat.mul_comm]; exact Nat.mul_le_mul_left _ (by omega)
      have e3 : size * (16 * m) ≤ 2 * (m * (16 * t.itemUnit)) := by
        calc size * (16 * m) ≤ (2 * t.itemUnit) * (16 * m) := Nat.mul_le_mul_right _ hs
          _ = 2 * (m * (16 * t.itemUnit)) := by
            rw [Nat.mul_assoc, Nat.mul_left_comm t.itemUnit 16 m, Nat.mul_comm t.itemUnit m, Nat.mul_left_comm 16 m]
      constructor <;> omega
    · have : m = 32 := by omega
      subst this
      constructor <;> omega
  have hlast : size * p.completionCapacity < 2 ^ (t.bits - 1) := by
    have := Nat.mul_le_mul (show size ≤ 128 by omega) hcap
    omega
  unfold Target.reserve
  rw [if_pos key.1, pure_bind, if_pos key.2, pure_bind, if_pos hlast]

/-- Beyond the bounds it does panic: a memory limit in the upper half of the range overflows `forest_use` (line 77). -/
theorem C33_memory_overflow {t : Target} {p : PerfHint} (hb : 0 < t.bits) (h : 2 ^ (t.bits - 1) ≤ p.memoryLimit) :
    medialCapacity t p = panicM .overflow := by
  have hpow : 2 ^ t.bits = 2 * 2 ^ (t.bits - 1) := by
    obtain ⟨k, hk⟩ : ∃ k, t.bits = k + 1 := ⟨t.bits - 1, by omega⟩
    rw [hk, Nat.pow_succ]; simp [Nat.mul_comm]
  unfold medialCapacity setUse chartUse forestUse Target.mul
  rw [if_neg (by omega)]; rfl

/-- So does a token count of `usize::MAX` (line 68). -/
theorem C33_token_overflow {t : Target} {mem syms : Nat} (ht : Target.Usual t) (h : mem < 2 ^ (t.bits - 1)) :
    medialCapacity t (withTokenCountAndNumSyms mem (2 ^ t.bits - 1) syms) = panicM .overflow := by
  obtain ⟨hpow, hbig⟩ := pow_bits ht
  have hBits : (2:Int) ^ (t.bits - 1) = ((2 ^ (t.bits - 1) : Nat) : Int) := by push_cast; rfl
  unfold medialCapacity setUse chartUse forestUse indicesCapacity withTokenCountAndNumSyms
  simp only [Option.getD_some]
  rw [mul_eq (by omega), pure_bind, pure_bind, toI_eq (by omega), toI_eq (by omega), subI_eq (by omega) (by omega), pure_bind]
  unfold Target.add
  rw [if_neg (by omega)]; rfl

-- 64-bit target: `Item<()>` has 8 bytes, `Item<usize>` 16
def x64 : Target := { bits := 64, word := 8, itemUnit := 8, itemUsize := 16 }
example : Target.Usual x64 := ⟨by decide, by decide, by decide, by decide, by decide, by decide⟩
example : HintBound x64 (new 8192) := ⟨by decide, by simp [new], by simp [new]⟩
-- the hint of `Recognizer::with_forest` (recognizer.rs:86)
example : medialCapacity x64 (new 8192) = pure ⟨512, 32⟩ := by decide +kernel
example : medialCapacity x64 (new 8192000) = pure ⟨303120, 18945⟩ := by decide +kernel
example : HintBound x64 (withTokenCountAndNumSyms 8192000 100000 64) :=
  ⟨by decide, by simp [withTokenCountAndNumSyms, x64], by simp [withTokenCountAndNumSyms, x64]⟩
example : medialCapacity x64 (withTokenCountAndNumSyms 8192000 100000 64) = pure ⟨226880, 14180⟩ := by decide +kernel

end Gearley.Props
