import Verif.Model.Remap
import Verif.Proofs.Gensyms
import Mathlib.Tactic.Tauto
import Mathlib.Tactic.Set

/-!
# C34: the order of symbols
-/

namespace Gearley.Spec

/-- The rules are over `numSyms` symbols, and there is one wrapped root, with end marker `eof`. -/
structure SymsOK (c : Cfg) (eof : Nat) : Prop where
  lhs_lt : ∀ r ∈ c.rules, r.lhs < c.numSyms
  rhs_lt : ∀ r ∈ c.rules, ∀ s ∈ r.rhs, s < c.numSyms
  root : ∃ w, c.wrappedRoots = [w] ∧ w.eof = eof
  eof_lt : eof < c.numSyms
  eofOrdinary : ¬ Generated c eof

/-- What the relation is meant to be generated by: the end marker before the ordinary symbols, these before the generated
ones, and the two symbols of a one-symbol rule by number. -/
inductive Before (c : Cfg) (eof : Nat) : Nat → Nat → Prop
  | eof {s} : s < c.numSyms → ¬ Generated c s → Before c eof eof s
  | gen {s g} : s < c.numSyms → g < c.numSyms → ¬ Generated c s → Generated c g → Before c eof s g
  | up {r s} : r ∈ c.rules → r.rhs = [s] → r.lhs < s → Before c eof r.lhs s
  | down {r s} : r ∈ c.rules → r.rhs = [s] → s < r.lhs → Before c eof s r.lhs

end Gearley.Spec

namespace Gearley.Props
open Gearley.Spec Build

theorem mem_members {bits : List Bool} {i : Nat} : i ∈ members bits ↔ bits[i]? = some true := by
  unfold members
  rw [List.mem_filter, List.mem_range, beq_iff_eq]
  constructor
  · exact fun h => h.2
  · intro h
    exact ⟨(List.getElem?_eq_some_iff.1 h).1, h⟩

theorem orderRule_returns {order : BitMatrix} {n : Nat} (hm : order.Dim n) (hw : order.width = n) {r : CfgRule}
    (hl : r.lhs < n) (hr : ∀ s ∈ r.rhs, s < n) : Returns (orderRule order r) fun m => m.Dim n ∧ m.width = n ∧
      ∀ a b, m.has a b ↔ order.has a b ∨ (a < b ∧ (r.rhs = [b] ∧ r.lhs = a ∨ r.rhs = [a] ∧ r.lhs = b)) := by
  unfold orderRule
  split
  · next s hs =>
    have hsn : s < n := hr s (by rw [hs]; simp)
    split
    · next hlt =>
      refine (BitMatrix.set_returns hm hl (by omega)).mono fun m hm' => ⟨hm'.1, hm'.2.1.trans hw, fun a b => ?_⟩
      rw [hm'.2.2, hs]
      simp only [List.cons.injEq, and_true]
      constructor
      · rintro (⟨rfl, rfl⟩ | h)
        · exact .inr ⟨hlt, .inl ⟨rfl, rfl⟩⟩
        · exact .inl h
      · rintro (h | ⟨h1, ⟨rfl, rfl⟩ | ⟨rfl, rfl⟩⟩)
        · exact .inr h
        · exact .inl ⟨rfl, rfl⟩
        · omega
    · split
      · next hlt =>
        refine (BitMatrix.set_returns hm hsn (by omega)).mono fun m hm' => ⟨hm'.1, hm'.2.1.trans hw, fun a b => ?_⟩
        rw [hm'.2.2, hs]
        simp only [List.cons.injEq, and_true]
        constructor
        · rintro (⟨rfl, rfl⟩ | h)
          · exact .inr ⟨hlt, .inr ⟨rfl, rfl⟩⟩
          · exact .inl h
        · rintro (h | ⟨h1, ⟨rfl, rfl⟩ | ⟨rfl, rfl⟩⟩)
          · exact .inr h
          · omega
          · exact .inl ⟨rfl, rfl⟩
      · refine returns_pure ⟨hm, hw, fun a b => ?_⟩
        rw [hs]
        simp only [List.cons.injEq, and_true]
        constructor
        · exact .inl
        · rintro (h | ⟨h1, ⟨rfl, rfl⟩ | ⟨rfl, rfl⟩⟩)
          · exact h
          · omega
          · omega
  · next hs =>
    refine returns_pure ⟨hm, hw, fun a b => ?_⟩
    constructor
    · exact .inl
    · rintro (h | ⟨h1, ⟨h2, rfl⟩ | ⟨h2, rfl⟩⟩)
      · exact h
      · exact absurd h2 (hs _)
      · exact absurd h2 (hs _)

theorem orRow_get {a b : List Bool} (h : a.length = b.length) (i : Nat) :
    (BitMatrix.orRow a b)[i]? = some true ↔ a[i]? = some true ∨ b[i]? = some true := by
  unfold BitMatrix.orRow
  rw [List.getElem?_zipWith]
  rcases Nat.lt_or_ge i a.length with hi | hi
  · rw [List.getElem?_eq_getElem hi, List.getElem?_eq_getElem (show i < b.length by omega)]
    simp
  · rw [List.getElem?_eq_none hi, List.getElem?_eq_none (show b.length ≤ i by omega)]
    simp

theorem orderOrdinary_returns {order : BitMatrix} {n : Nat} (hm : order.Dim n) (hw : order.width = n) {gens : List Bool}
    (hg : gens.length = n) {eof s : Nat} (he : eof < n) (hs : s < n) :
    Returns (orderOrdinary gens eof order s) fun m => m.Dim n ∧ m.width = n ∧
      ∀ a b, m.has a b ↔ order.has a b ∨ (a = s ∧ gens[b]? = some true) ∨ (a = eof ∧ b = s) := by
  have hs' : s < order.rows.length := by rw [hm.1]; exact hs
  have hr : order.rows[s].length = n := by rw [hm.2 _ (List.getElem_mem hs'), hw]
  unfold orderOrdinary
  simp only [BitMatrix.row, indexM_lt hs', pure_bind, setM_eq hs']
  have hd : BitMatrix.Dim { order with rows := order.rows.set s (BitMatrix.orRow order.rows[s] gens) } n := by
    refine ⟨by simp [hm.1], fun r h => ?_⟩
    rcases List.mem_or_eq_of_mem_set h with h | rfl
    · exact hm.2 r h
    · simp [BitMatrix.orRow, hr, hg, hw]
  refine (BitMatrix.set_returns hd he (show s < order.width by omega)).mono fun m hm' => ⟨hm'.1, hm'.2.1.trans hw, fun a b => ?_⟩
  rw [hm'.2.2]
  have : BitMatrix.has { order with rows := order.rows.set s (BitMatrix.orRow order.rows[s] gens) } a b ↔
      order.has a b ∨ (a = s ∧ gens[b]? = some true) := by
    simp only [BitMatrix.has_iff]
    by_cases h : a = s
    · subst h
      simp only [List.getElem?_set_self hs', Option.some.injEq, exists_eq_left', List.getElem?_eq_getElem hs', true_and]
      exact orRow_get (by omega) b
    · rw [List.getElem?_set_ne (Ne.symm h)]; simp [h]
  rw [this]
  tauto

/-- The relation before the closure. -/
theorem symbolOrder_returns {c : Cfg} {eof : Nat} (hc : SymsOK c eof) : Returns (symbolOrder c) fun m =>
    m.Dim c.numSyms ∧ m.width = c.numSyms ∧ ∀ a b, m.has a b ↔ Relation.TransGen (Before c eof) a b := by
  obtain ⟨w, hw, rfl⟩ := hc.root
  unfold symbolOrder
  rw [findGensyms_spec c hc.lhs_lt hc.rhs_lt, pure_bind]
  obtain ⟨m1, h1, hd1, hw1, hh1⟩ := foldlM_returns (f := orderRule) (l := c.rules) (b := BitMatrix.new c.numSyms c.numSyms)
    (fun p m => m.Dim c.numSyms ∧ m.width = c.numSyms ∧ ∀ a b, m.has a b ↔
      a < b ∧ ∃ r ∈ p, r.rhs = [b] ∧ r.lhs = a ∨ r.rhs = [a] ∧ r.lhs = b)
    ⟨BitMatrix.new_dim _ _, rfl, fun a b => by simp [BitMatrix.new_has]⟩ (by
      rintro p r s m hl ⟨hd, hw, hh⟩
      have hr : r ∈ c.rules := by rw [hl]; simp
      refine (orderRule_returns hd hw (hc.lhs_lt r hr) (hc.rhs_lt r hr)).mono fun m' hm' => ⟨hm'.1, hm'.2.1, fun a b => ?_⟩
      rw [hm'.2.2, hh]
      simp only [List.mem_append, List.mem_singleton, or_and_right, exists_or, exists_eq_left]
      rw [← and_or_left])
  rw [h1, pure_bind, hw]
  show Returns ((assertM true) >>= _) _
  rw [assertM_true rfl, pure_bind]
  show Returns ((pure w : M _) >>= _) _
  rw [pure_bind]
  set gens := (List.range c.numSyms).map fun A => decide (Generated c A) with hgens
  have hgl : gens.length = c.numSyms := by simp [hgens]
  have hgm : ∀ b, gens[b]? = some true ↔ b < c.numSyms ∧ Generated c b := by
    intro b
    rcases Nat.lt_or_ge b c.numSyms with h | h
    · simp [hgens, h]
    · rw [List.getElem?_eq_none (by omega)]; simp; omega
  have hmem : ∀ s, s ∈ members (gens.map not) ↔ s < c.numSyms ∧ ¬ Generated c s := by
    intro s
    rw [mem_members]
    rcases Nat.lt_or_ge s c.numSyms with h | h
    · simp [hgens, h]
    · rw [List.getElem?_eq_none (by simp; omega)]; simp; omega
  obtain ⟨m2, h2, hd2, hw2, hh2⟩ := foldlM_returns (f := orderOrdinary gens w.eof) (l := members (gens.map not)) (b := m1)
    (fun p m => m.Dim c.numSyms ∧ m.width = c.numSyms ∧ ∀ a b, m.has a b ↔
      m1.has a b ∨ ∃ s ∈ p, (a = s ∧ gens[b]? = some true) ∨ (a = w.eof ∧ b = s))
    ⟨hd1, hw1, fun a b => by simp⟩ (by
      rintro p s q m hl ⟨hd, hw, hh⟩
      have hs : s < c.numSyms := ((hmem s).1 (by rw [hl]; simp)).1
      refine (orderOrdinary_returns hd hw hgl hc.eof_lt hs).mono fun m' hm' => ⟨hm'.1, hm'.2.1, fun a b => ?_⟩
      rw [hm'.2.2, hh]
      simp only [List.mem_append, List.mem_singleton, or_and_right, exists_or, exists_eq_left]
      exact or_assoc)
  rw [h2, pure_bind]
  obtain ⟨t1, t2, t3⟩ := BitMatrix.transitiveClosure_spec hd2 (by omega)
  refine returns_pure ⟨t1, t2.trans hw2, fun a b => ?_⟩
  rw [t3]
  have : ∀ a b, m2.has a b ↔ Before c w.eof a b := by
    intro a b
    rw [hh2, hh1]
    constructor
    · rintro (⟨hlt, r, hr, ⟨h, rfl⟩ | ⟨h, rfl⟩⟩ | ⟨s, hs, ⟨rfl, h⟩ | ⟨rfl, rfl⟩⟩)
      · exact .up hr h hlt
      · exact .down hr h hlt
      · exact .gen ((hmem a).1 hs).1 ((hgm b).1 h).1 ((hmem a).1 hs).2 ((hgm b).1 h).2
      · exact .eof ((hmem b).1 hs).1 ((hmem b).1 hs).2
    · rintro (⟨h1, h2⟩ | ⟨h1, h2, h3, h4⟩ | ⟨h1, h2, h3⟩ | ⟨h1, h2, h3⟩)
      · exact .inr ⟨_, (hmem _).2 ⟨h1, h2⟩, .inr ⟨rfl, rfl⟩⟩
      · exact .inr ⟨_, (hmem _).2 ⟨h1, h3⟩, .inl ⟨rfl, (hgm _).2 ⟨h2, h4⟩⟩⟩
      · exact .inl ⟨h3, _, h1, .inl ⟨h2, rfl⟩⟩
      · exact .inl ⟨h3, _, h1, .inr ⟨h2, rfl⟩⟩
  have e : m2.has = Before c w.eof := by funext a b; exact propext (this a b)
  rw [e]


theorem compareSyms_eq {m : BitMatrix} {n : Nat} (hm : m.Dim n) (hw : m.width = n) {a b : Nat} (ha : a < n) (hb : b < n) :
    (m.has a b → compareSyms m a b = pure .lt) ∧ (¬ m.has a b → m.has b a → compareSyms m a b = pure .gt) ∧
      (¬ m.has a b → ¬ m.has b a → compareSyms m a b = pure .eq) := by
  have get : ∀ {a b}, a < n → b < n → ∃ v, m.get a b = pure v ∧ (m.has a b ↔ v = true) := by
    intro a b ha hb
    have ha' : a < m.rows.length := by rw [hm.1]; exact ha
    have hr : b < m.rows[a].length := by rw [hm.2 _ (List.getElem_mem ha'), hw]; exact hb
    refine ⟨m.rows[a][b], ?_, ?_⟩
    · unfold BitMatrix.get BitMatrix.row
      rw [indexM_lt ha', pure_bind, indexM_lt hr]
    · simp [BitMatrix.has_iff, ha', hr]
  obtain ⟨v, hv, ev⟩ := get ha hb
  obtain ⟨u, hu, eu⟩ := get hb ha
  unfold compareSyms
  rw [hv, pure_bind, hu, ev, eu]
  cases v <;> cases u <;> simp

/-- The claim's conditions: if a one-symbol rule has a generated and an ordinary symbol, the ordinary one has the smaller
number; and the end marker occurs in no one-symbol rule. -/
structure Numbered (c : Cfg) (eof : Nat) : Prop where
  gen : ∀ r ∈ c.rules, ∀ s, r.rhs = [s] → (Generated c r.lhs → ¬ Generated c s → s < r.lhs) ∧
    (¬ Generated c r.lhs → Generated c s → r.lhs < s)
  eof : ∀ r ∈ c.rules, ∀ s, r.rhs = [s] → r.lhs ≠ eof ∧ s ≠ eof

/-- The first condition holds if all generated symbols are numbered above the ordinary ones. -/
theorem numbered_of_above {c : Cfg} (h : ∀ s g, s < c.numSyms → g < c.numSyms → ¬ Generated c s → Generated c g → s < g)
    (h1 : ∀ r ∈ c.rules, r.lhs < c.numSyms) (h2 : ∀ r ∈ c.rules, ∀ s ∈ r.rhs, s < c.numSyms) :
    ∀ r ∈ c.rules, ∀ s, r.rhs = [s] → (Generated c r.lhs → ¬ Generated c s → s < r.lhs) ∧
      (¬ Generated c r.lhs → Generated c s → r.lhs < s) := by
  intro r hr s hs
  have := h2 r hr s (by simp [hs])
  exact ⟨fun g1 g2 => h _ _ this (h1 r hr) g2 g1, fun g1 g2 => h _ _ (h1 r hr) this g1 g2⟩

/-- First by class, then by number. -/
def rankOf (c : Cfg) (a : Nat) : Nat := if Generated c a then c.numSyms + a else a

theorem rankOf_inj {c : Cfg} {a b : Nat} (ha : a < c.numSyms) (hb : b < c.numSyms) (h : rankOf c a = rankOf c b) : a = b := by
  unfold rankOf at h
  split at h <;> split at h <;> omega

theorem before_rank {c : Cfg} {eof : Nat} (hc : SymsOK c eof) (hn : Numbered c eof) {a b : Nat}
    (h : Relation.TransGen (Before c eof) a b) : a = b ∧ b = eof ∨ b ≠ eof ∧ (a = eof ∨ rankOf c a < rankOf c b) := by
  have one : ∀ {a b}, Before c eof a b → a = b ∧ b = eof ∨ b ≠ eof ∧ (a = eof ∨ rankOf c a < rankOf c b) := by
    intro a b h
    cases h with
    | eof h1 h2 =>
      by_cases hb : b = eof
      · exact .inl ⟨hb.symm, hb⟩
      · exact .inr ⟨hb, .inl rfl⟩
    | gen h1 h2 h3 h4 =>
      refine .inr ⟨fun hb => hc.eofOrdinary (hb ▸ h4), .inr ?_⟩
      simp only [rankOf, h3, h4, if_true, if_false]
      omega
    | up h1 h2 h3 =>
      refine .inr ⟨(hn.eof _ h1 _ h2).2, .inr ?_⟩
      have := hn.gen _ h1 _ h2
      have := hc.lhs_lt _ h1
      unfold rankOf
      split <;> split
      · omega
      · next g1 g2 => have := (hn.gen _ h1 _ h2).1 g1 g2; omega
      · omega
      · omega
    | down h1 h2 h3 =>
      refine .inr ⟨(hn.eof _ h1 _ h2).1, .inr ?_⟩
      have := hc.rhs_lt _ h1 a (by rw [h2]; simp)
      unfold rankOf
      split <;> split
      · omega
      · next g1 g2 => have := (hn.gen _ h1 _ h2).2 g2 g1; omega
      · omega
      · omega
  induction h with
  | single h => exact one h
  | tail _ h ih =>
    rcases one h with ⟨rfl, rfl⟩ | ⟨h1, h2⟩
    · exact ih
    · refine .inr ⟨h1, ?_⟩
      rcases ih with ⟨rfl, rfl⟩ | ⟨h3, h4⟩
      · exact h2
      · rcases h2 with rfl | h2
        · exact absurd rfl h3
        · rcases h4 with rfl | h4
          · exact .inl rfl
          · exact .inr (Nat.lt_trans h4 h2)

/-- C34. The relation is computed without panic. In it the end marker comes before every other symbol, every ordinary symbol
before every generated one, and no two symbols are ordered both ways. -/
theorem C34_order {c : Cfg} {eof : Nat} (hc : SymsOK c eof) (hn : Numbered c eof) : ∃ m, symbolOrder c = pure m ∧
    (∀ s, s < c.numSyms → s ≠ eof → ¬ Generated c s → compareSyms m eof s = pure .lt ∧ compareSyms m s eof = pure .gt) ∧
    (∀ s g, s < c.numSyms → g < c.numSyms → ¬ Generated c s → Generated c g →
      compareSyms m s g = pure .lt ∧ compareSyms m g s = pure .gt) ∧
    (∀ a b, a < c.numSyms → b < c.numSyms → a ≠ b →
      (compareSyms m a b = pure .lt ↔ compareSyms m b a = pure .gt)) := by
  obtain ⟨m, h1, hd, hw, hh⟩ := symbolOrder_returns hc
  have both : ∀ a b, a ≠ b → m.has a b → ¬ m.has b a := by
    intro a b hne h h'
    rcases before_rank hc hn ((hh _ _).1 h) with ⟨r1, _⟩ | ⟨r1, r2⟩
    · exact hne r1
    · rcases before_rank hc hn ((hh _ _).1 h') with ⟨r3, _⟩ | ⟨r3, r4⟩
      · exact hne r3.symm
      · rcases r2 with r2 | r2
        · exact r3 r2
        · rcases r4 with r4 | r4
          · exact r1 r4
          · omega
  have less : ∀ a b, a < c.numSyms → b < c.numSyms → a ≠ b → m.has a b →
      compareSyms m a b = pure .lt ∧ compareSyms m b a = pure .gt := fun a b ha hb hne h =>
    ⟨(compareSyms_eq hd hw ha hb).1 h, (compareSyms_eq hd hw hb ha).2.1 (both a b hne h) h⟩
  refine ⟨m, h1, ?_, ?_, ?_⟩
  · intro s hs hne hg
    exact less _ _ hc.eof_lt hs (Ne.symm hne) ((hh _ _).2 (.single (.eof hs hg)))
  · intro s g hs hg h1 h2
    exact less _ _ hs hg (fun h => h1 (h ▸ h2)) ((hh _ _).2 (.single (.gen hs hg h1 h2)))
  · intro a b ha hb hne
    obtain ⟨e1, e2, e3⟩ := compareSyms_eq hd hw ha hb
    by_cases h : m.has a b
    · exact ⟨fun _ => (less a b ha hb hne h).2, fun _ => (less a b ha hb hne h).1⟩
    · constructor
      · intro h'
        by_cases h2 : m.has b a
        · rw [e2 h h2] at h'; exact absurd (pure_inj_M h') (by decide)
        · rw [e3 h h2] at h'; exact absurd (pure_inj_M h') (by decide)
      · intro h'
        by_cases h2 : m.has b a
        · rw [(less b a hb ha (Ne.symm hne) h2).1] at h'; exact absurd (pure_inj_M h') (by decide)
        · rw [(compareSyms_eq hd hw hb ha).2.2 h2 h] at h'; exact absurd (pure_inj_M h') (by decide)

/-- C34. Whatever sorting the comparison is used for: if it leaves no adjacent pair in the wrong order, the list of all
symbols begins with the end marker, then has the ordinary symbols, then the generated ones. -/
theorem C34_blocks {c : Cfg} {eof : Nat} (hc : SymsOK c eof) (hn : Numbered c eof) {m : BitMatrix} (hm : symbolOrder c = pure m)
    {l : List Nat} (hl : l.Perm (List.range c.numSyms))
    (hadj : ∀ i a b, l[i]? = some a → l[i + 1]? = some b → compareSyms m a b ≠ pure .gt) :
    l.head? = some eof ∧ l.Pairwise fun a b => Generated c a → Generated c b := by
  obtain ⟨m', h1, h2, h3, h4⟩ := C34_order hc hn
  cases pure_inj_M (hm.symm.trans h1)
  have hin : ∀ a, a ∈ l ↔ a < c.numSyms := fun a => by rw [hl.mem_iff, List.mem_range]
  have hnd : l.Nodup := hl.nodup_iff.2 List.nodup_range
  -- the level never goes down from one symbol to the next
  let level : Nat → Nat := fun a => if Generated c a then 2 else if a = eof then 0 else 1
  have hgen2 : ∀ a, level a = 2 ↔ Generated c a := by
    intro a
    by_cases hg : Generated c a
    · simp [level, hg]
    · simp only [level, hg, if_false, iff_false]; split <;> omega
  have hstep : ∀ i a b, l[i]? = some a → l[i + 1]? = some b → level a ≤ level b := by
    intro i a b ha hb
    have ha' := (hin a).1 (List.mem_of_getElem? ha)
    have hb' := (hin b).1 (List.mem_of_getElem? hb)
    by_cases hga : Generated c a
    · by_cases hgb : Generated c b
      · simp [level, hga, hgb]
      · exact absurd (h3 b a hb' ha' hgb hga).2 (hadj i a b ha hb)
    · by_cases hgb : Generated c b
      · simp only [level, hga, hgb, if_true, if_false]; split <;> omega
      · by_cases hbe : b = eof
        · by_cases hae : a = eof
          · simp [level, hae, hbe]
          · rw [hbe] at hb
            exact absurd (h2 a ha' hae hga).2 (hadj i a eof ha hb)
        · simp only [level, hga, hgb, hbe, if_false]; split <;> omega
  have hpw : l.Pairwise fun a b => level a ≤ level b := by
    rw [List.pairwise_iff_getElem]
    intro i j hi hj hij
    induction j with
    | zero => omega
    | succ j ih =>
      have hs := hstep j l[j] l[j + 1] (List.getElem?_eq_getElem (by omega)) (List.getElem?_eq_getElem hj)
      rcases Nat.lt_or_ge i j with h | h
      · exact Nat.le_trans (ih (by omega) h) hs
      · have : i = j := by omega
        subst this; exact hs
  constructor
  · match l with
    | [] => exact absurd ((hin eof).2 hc.eof_lt) (by simp)
    | x :: l =>
      rw [List.pairwise_cons] at hpw
      have := (hin eof).2 hc.eof_lt
      rcases List.mem_cons.1 this with h | h
      · rw [h]; rfl
      · have he := hpw.1 eof h
        have h0 : level eof = 0 := by simp [level, hc.eofOrdinary]
        rw [h0] at he
        have : level x = 0 := by omega
        simp only [level] at this
        split at this
        · omega
        · split at this
          · next h => rw [h]; rfl
          · omega
  · refine hpw.imp_of_mem fun ha hb hab hga => ?_
    have := (hgen2 _).2 hga
    refine (hgen2 _).1 ?_
    have h2 : ∀ b, level b ≤ 2 := by
      intro b; simp only [level]; split
      · omega
      · split <;> omega
    have := h2 (by assumption)
    omega

/-- The two symbols of a one-symbol rule are ordered by their old numbers: for `A ::= B` the relation puts `A` first if it
has the smaller number, and `B` first otherwise. (The completion order needs the left-hand side first in both cases.) -/
theorem C34_unary_by_number {c : Cfg} {eof : Nat} (hc : SymsOK c eof) {m : BitMatrix}
    (hm : symbolOrder c = pure m) {r : CfgRule} (hr : r ∈ c.rules) {s : Nat} (hs : r.rhs = [s]) :
    (r.lhs < s → compareSyms m r.lhs s = pure .lt) ∧ (s < r.lhs → compareSyms m s r.lhs = pure .lt) := by
  obtain ⟨m', h1, hd, hw, hh⟩ := symbolOrder_returns hc
  cases pure_inj_M (hm.symm.trans h1)
  have hsn := hc.rhs_lt r hr s (by rw [hs]; simp)
  have hln := hc.lhs_lt r hr
  exact ⟨fun h => (compareSyms_eq hd hw hln hsn).1 ((hh _ _).2 (.single (.up hr hs h))),
    fun h => (compareSyms_eq hd hw hsn hln).1 ((hh _ _).2 (.single (.down hr hs h)))⟩

/-- A grammar with the rules `3 ::= 6 0`, `6 ::= 1 2`, `2 ::= 5`, `1 ::= 2 4`; only 6 is generated. -/
def remapCfg : Cfg where
  numSyms := 7
  rules := [⟨3, [6, 0], some 0, none, []⟩, ⟨6, [1, 2], none, none, []⟩, ⟨2, [5], some 1, none, []⟩, ⟨1, [2, 4], some 2, none, []⟩]
  wrappedRoots := [{ root := 3, sof := 1, eof := 0, innerRoot := 2 }]

example : SymsOK remapCfg 0 :=
  ⟨by decide, by decide, ⟨_, rfl, rfl⟩, by decide, by decide⟩
example : Numbered remapCfg 0 := by
  constructor <;>
  · intro r hr s h
    simp only [remapCfg, List.mem_cons, List.not_mem_nil, or_false] at hr
    rcases hr with rfl | rfl | rfl | rfl <;> simp at h <;> subst h <;> decide
example : Generated remapCfg 6 := by decide

/-- The comparison is not a total order as `sort_by` requires: `2 < 5`, but both compare equal to `4`. So the sort may leave
5 before 2 although every adjacent pair is in order. -/
theorem C34_not_total : ∃ m, symbolOrder remapCfg = pure m ∧ compareSyms m 2 5 = pure .lt ∧ compareSyms m 5 4 = pure .eq ∧
    compareSyms m 4 2 = pure .eq := by
  refine ⟨_, rfl, ?_, ?_, ?_⟩ <;> decide +kernel

/-- C34. The numbering condition is exact: if a one-symbol rule has a generated symbol and an ordinary one with a larger
number, these two are ordered both ways, and so are not compared consistently. -/
theorem C34_both_ways_iff {c : Cfg} {eof : Nat} (hc : SymsOK c eof) (he : ∀ r ∈ c.rules, ∀ s, r.rhs = [s] → r.lhs ≠ eof ∧ s ≠ eof)
    {m : BitMatrix} (hm : symbolOrder c = pure m) :
    Numbered c eof ↔ ¬ ∃ a b, a < c.numSyms ∧ b < c.numSyms ∧ a ≠ b ∧ compareSyms m a b = pure .lt ∧ compareSyms m b a = pure .lt := by
  constructor
  · rintro hn ⟨a, b, ha, hb, hne, h1, h2⟩
    obtain ⟨m', h3, _, _, h4⟩ := C34_order hc hn
    cases pure_inj_M (hm.symm.trans h3)
    rw [(h4 a b ha hb hne).1 h1] at h2
    exact absurd (pure_inj_M h2) (by decide)
  · intro h
    obtain ⟨m', h1, hd, hw, hh⟩ := symbolOrder_returns hc
    cases pure_inj_M (hm.symm.trans h1)
    have key : ∀ g s, g < c.numSyms → s < c.numSyms → Generated c g → ¬ Generated c s → ¬ Before c eof g s := by
      intro g s hg hs h2 h3 h4
      exact h ⟨g, s, hg, hs, fun e => h3 (e ▸ h2), (compareSyms_eq hd hw hg hs).1 ((hh _ _).2 (.single h4)),
        (compareSyms_eq hd hw hs hg).1 ((hh _ _).2 (.single (.gen hs hg h3 h2)))⟩
    refine ⟨fun r hr s hs => ?_, he⟩
    have hsn := hc.rhs_lt r hr s (by rw [hs]; simp)
    have hln := hc.lhs_lt r hr
    constructor
    · intro h2 h3
      rcases Nat.lt_trichotomy s r.lhs with h4 | h4 | h4
      · exact h4
      · exact absurd (h4 ▸ h2) h3
      · exact absurd (.up hr hs h4) (key _ _ hln hsn h2 h3)
    · intro h2 h3
      rcases Nat.lt_trichotomy s r.lhs with h4 | h4 | h4
      · exact absurd (.down hr hs h4) (key _ _ hsn hln h3 h2)
      · exact absurd (h4 ▸ h3) h2
      · exact h4

/-- Without the numbering condition two symbols may be ordered both ways: here the generated symbol 1 has the rule
`4 ::= 1`. -/
def crossedCfg : Cfg where
  numSyms := 5
  rules := [⟨3, [1, 0], some 0, none, []⟩, ⟨1, [2, 2], none, none, []⟩, ⟨4, [1], some 1, none, []⟩]
  wrappedRoots := [{ root := 3, sof := 2, eof := 0, innerRoot := 4 }]

theorem C34_both_ways : SymsOK crossedCfg 0 ∧ ∃ m, symbolOrder crossedCfg = pure m ∧ compareSyms m 1 4 = pure .lt ∧
    compareSyms m 4 1 = pure .lt := by
  refine ⟨⟨by decide, by decide, ⟨_, rfl, rfl⟩, by decide, by decide⟩, _, rfl, ?_, ?_⟩ <;> decide +kernel

end Gearley.Props
