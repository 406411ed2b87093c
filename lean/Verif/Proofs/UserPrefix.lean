import Verif.Proofs.UserValues
import Verif.Proofs.LRUser

/-!
# Beginnings of strings of the user's grammar

What can be read before more tokens, in the wrapped grammar and in the user's grammar.
-/

namespace Gearley.Spec
open Gearley Build
variable {U : URules} {N : Names U} {w : WrappedRoot} {g0 : Nat} {c : Cfg}

mutual
theorem Yields.user {s : Nat} {u : List Nat} (h : Yields U s u) (hs : N.parts s = none) : ∀ t ∈ u, UTerminal U t ∧ N.parts t = none :=
  match h with
  | .token ht => fun t hm => by
    rw [List.mem_singleton.1 hm]
    exact ⟨ht, hs⟩
  | .rule hk hy => hy.user (N.user _ (List.mem_of_getElem? hk)).2
theorem YieldsAll.user {ss : List Nat} {u : List Nat} (h : YieldsAll U ss u) (hs : ∀ s ∈ ss, N.parts s = none) :
    ∀ t ∈ u, UTerminal U t ∧ N.parts t = none :=
  match h with
  | .nil => fun t hm => by cases hm
  | .cons h1 h2 => fun t hm => by
    rcases List.mem_append.1 hm with hm | hm
    · exact h1.user (hs _ (by simp)) t hm
    · exact h2.user (fun s h => hs s (by simp [h])) t hm
end

/-- The symbol derives a string of the user's tokens. -/
def Fills (U : URules) (N : Names U) (c : Cfg) (s : Nat) : Prop :=
  ∃ x, (∀ t ∈ x, UTerminal U t ∧ N.parts t = none) ∧ Derives (rulesOf c) s x

theorem Binarizes.fills_live (hb : Binarizes U N w g0 c) {s : Nat} (hi : Inner w g0 s) (hp : N.parts s = none) (hl : Live U s) : Fills U N c s := by
  obtain ⟨a, u, h⟩ := hl
  have ht := h.user hp
  exact ⟨a :: u, ht, (hb.derives_iff hi hp ht).2 ⟨by simp, h⟩⟩

theorem Binarizes.fills_pre (hb : Binarizes U N w g0 c) {k A j : Nat} {rhs : List Nat} (hk : U[k]? = some (A, rhs)) (h1 : 1 ≤ j)
    (h2 : j < rhs.length) {a : Nat} {u : List Nat} (h : YieldsAll U (rhs.take j) (a :: u)) : Fills U N c (N.pre k rhs j) := by
  have ht := h.user (N := N) fun s hs => (N.user _ (List.mem_of_getElem? hk)).2 s (List.mem_of_mem_take hs)
  have hin := inputOK_tok (N := N) ht
  have hr := reads_all (toks := a :: u) (i := 0) (l := a :: u) rfl
  rw [Nat.zero_add] at hr
  obtain ⟨ts, hts⟩ := h.kids _ _ hr
  have hd := hb.complete_kids (info := infoOf c) rfl rfl hin.liveInput hts
  obtain ⟨p, h3, _⟩ := (hb.assemble (info := infoOf c) rfl rfl hin.liveInput hk hd j rfl (by rw [List.length_take]; omega) (by simp)).1 ⟨h1, h2⟩
  obtain ⟨v, h4, h5, h6⟩ := h3.derives
  rw [Nat.zero_add] at h6
  rw [picks_tok_unique h5 h6] at h4
  exact ⟨_, ht, h4⟩

/-- The symbols on the right of a rule that is kept. -/
theorem Binarizes.fills_rule (hb : Binarizes U N w g0 c) {q : CfgRule} (he : Expected U N q) (hl : LiveRule U N q) :
    ∀ s ∈ q.rhs, Fills U N c s ∧ Inner w g0 s := by
  intro s hs
  have hl := hl s hs
  have user : ∀ {k A : Nat} {rhs : List Nat}, U[k]? = some (A, rhs) → s ∈ rhs → Fills U N c s ∧ Inner w g0 s := by
    intro k A rhs hk hm
    have hp := (N.user _ (List.mem_of_getElem? hk)).2 s hm
    rw [hp] at hl
    have hi := hb.inner_user (List.mem_of_getElem? hk) hm
    exact ⟨hb.fills_live hi hp hl, hi⟩
  have pre : ∀ {k A j y : Nat} {rhs : List Nat}, U[k]? = some (A, rhs) → 1 ≤ j → rhs[j]? = some y → s = N.pre k rhs j →
      Fills U N c s ∧ Inner w g0 s := by
    intro k A j y rhs hk hj hy e
    have hlt := getElem?_lt hy
    refine ⟨?_, e ▸ hb.inner_pre hk hj hlt⟩
    by_cases h1 : j = 1
    · subst h1
      cases rhs with
      | nil => simp at hlt
      | cons x rhs =>
        rw [Names.pre_one] at e
        exact (user hk (by simp [e])).1
    · rw [e, N.pre_ge k rhs (by omega), N.parts_name k A rhs j hk (by omega) hlt] at hl
      obtain ⟨A', rhs', a, u, hk', hy'⟩ := hl
      rw [hk] at hk'
      cases hk'
      rw [e]
      exact hb.fills_pre hk hj hlt hy'
  cases he with
  | single hk => exact user hk hs
  | both hk hj hy =>
    rcases List.mem_cons.1 hs with e | hs
    · exact pre hk hj hy e
    · exact user hk (List.mem_singleton.1 hs ▸ List.mem_of_getElem? hy)
  | dropRight hk hj hy _ => exact pre hk hj hy (List.mem_singleton.1 hs)
  | dropLeft hk hj hy _ => exact user hk (List.mem_singleton.1 hs ▸ List.mem_of_getElem? hy)

/-- Without useless rules, all symbols of a string derived inside the grammar derive strings of tokens. -/
theorem Binarizes.fills_derived (hb : Binarizes U N w g0 c) (ht : Trimmed U N c) (hne : ∀ r ∈ c.rules, r.rhs ≠ []) {A : Nat} {v : List Nat}
    (h : Derives (rulesOf c) A v) (hA : Inner w g0 A) : v = [A] ∨ ∀ s ∈ v, Fills U N c s := by
  have rule : ∀ r ∈ rulesOf c, Inner w g0 r.lhs → ∀ s, (s = r.rhs0 ∨ r.rhs1 = some s) → Fills U N c s ∧ Inner w g0 s := by
    intro r hr hi s hs
    obtain ⟨q, hq, rfl⟩ := List.mem_map.1 hr
    have he : Expected U N q := by
      rcases hb.sound q hq with e | e | e
      · exact absurd e hi.1
      · exact absurd e hi.2
      · exact e
    refine hb.fills_rule he (ht q hq he) s ?_
    rcases hs with rfl | hs
    · cases hqr : q.rhs with
      | nil => exact absurd hqr (hne q hq)
      | cons s l => simp [ruleOf, hqr]
    · exact List.mem_of_getElem? hs
  induction h with
  | refl => exact .inl rfl
  | @unary r u hr _ h1 ih =>
    obtain ⟨h2, h3⟩ := rule r hr hA _ (.inl rfl)
    rcases ih h3 with rfl | ih
    · right
      intro s hs
      rw [List.mem_singleton.1 hs]
      exact h2
    · exact .inr ih
  | @binary r C u v hr hn h1 h2 ih1 ih2 =>
    right
    obtain ⟨a2, a3⟩ := rule r hr hA _ (.inl rfl)
    obtain ⟨b2, b3⟩ := rule r hr hA _ (.inr hn)
    intro s hs
    rcases List.mem_append.1 hs with hs | hs
    · rcases ih1 a3 with rfl | ih
      · rw [List.mem_singleton.1 hs]; exact a2
      · exact ih s hs
    · rcases ih2 b3 with rfl | ih
      · rw [List.mem_singleton.1 hs]; exact b2
      · exact ih s hs

theorem fill_string {A : Nat} {p v : List Nat} (h : Derives (rulesOf c) A (p ++ v)) (hv : ∀ s ∈ v, Fills U N c s) :
    ∃ x, (∀ t ∈ x, UTerminal U t ∧ N.parts t = none) ∧ Derives (rulesOf c) A (p ++ x) := by
  induction v generalizing p with
  | nil => exact ⟨[], fun t h => (by cases h), h⟩
  | cons s v ih =>
    obtain ⟨x, hx, hd⟩ := hv s (by simp)
    have h' := h.replace hd
    obtain ⟨y, hy, hd'⟩ := ih h' fun s hs => hv s (by simp [hs])
    refine ⟨x ++ y, fun t ht => ?_, by rwa [← List.append_assoc]⟩
    rcases List.mem_append.1 ht with ht | ht
    · exact hx t ht
    · exact hy t ht

end Gearley.Spec

namespace Gearley.Props
open Gearley.Spec Build
variable {U : URules} {N : Names U} {w : WrappedRoot} {g0 : Nat} {c nulling : Cfg} {X : CfgCrate} {g : DefaultGrammar}

/-- What begins a string of the user's grammar can be read. -/
theorem viable_of_yields (h : ParserOf X U N w g0 c nulling g) {p more : List Nat} (hy : Yields U w.innerRoot (p ++ more)) :
    ViablePrefix (rulesOf c) w.root (w.sof :: p) := by
  obtain ⟨hp, hi⟩ := h.inner
  have ht := hy.user hp
  refine ⟨more ++ [w.eof], ?_⟩
  have : Derives (rulesOf c) w.root (w.sof :: (p ++ more) ++ [w.eof]) := by
    rw [wrapping_language h.wrap]
    by_cases he : p ++ more = []
    · refine .inl ⟨he, UNullable.iff_yields.2 ⟨he ▸ hy, ?_⟩⟩
      intro hT
      obtain ⟨r, hr, e⟩ := h.root
      exact hT r hr e
    · exact .inr ((h.bin.derives_iff hi hp ht).2 ⟨he, hy⟩)
  simpa using this

/-- What can be read begins a string of the user's grammar. -/
theorem yields_of_viable (h : ParserOf X U N w g0 c nulling g) (htrim : Trimmed U N c) {p : List Nat} (ht : Tokens U c p) (hne : p ≠ [])
    (hv : ViablePrefix (rulesOf c) w.root (w.sof :: p)) : ∃ more, Yields U w.innerRoot (p ++ more) := by
  obtain ⟨hp, hi⟩ := h.inner
  obtain ⟨v, hd⟩ := hv
  obtain ⟨g1, ⟨_, ha⟩, _, _, hb⟩ := h.wrap.rules
  have heof : w.eof ∉ p := by
    intro hm
    obtain ⟨_, ⟨r, hr, hm'⟩, _⟩ := ht _ hm
    exact ((h.bin.fresh w.eof (.inr (.inr (.inr rfl)))).2 r hr).2 hm'
  have key : ∃ v', Derives (rulesOf c) w.innerRoot (p ++ v') := by
    generalize hx : w.sof :: p ++ v = x at hd
    generalize hr : w.root = r at hd
    cases hd with
    | refl =>
      cases p with
      | nil => exact absurd rfl hne
      | cons a p => simp at hx
    | unary hm hn _ =>
      have := ha _ hm hr.symm
      rw [this] at hn; simp at hn
    | @binary r C u1 u2 hm hn h1 h2 =>
      have hr' := ha _ hm hr.symm
      rw [hr'] at hn h1
      simp only [Option.some.injEq] at hn h1
      subst hn
      have := derives_terminal h2 h.wrap.eof
      subst this
      generalize hy : g1 = y at h1
      cases h1 with
      | refl =>
        simp only [List.cons_append, List.nil_append, List.cons.injEq] at hx
        cases p with
        | nil => exact absurd rfl hne
        | cons a p =>
          simp only [List.cons_append, List.cons.injEq] at hx
          exact absurd (by simp [hx.2.1]) heof
      | @unary r1 _ hm' hn' h3 =>
        rcases hb _ hm' hy.symm with e | e
        · rw [e] at hn'; simp at hn'
        · rw [e] at h3
          have := derives_terminal h3 h.wrap.sof
          subst this
          simp only [List.cons_append, List.nil_append, List.cons.injEq] at hx
          cases p with
          | nil => exact absurd rfl hne
          | cons a p =>
            simp only [List.cons_append, List.cons.injEq] at hx
            exact absurd (by simp [hx.2.1]) heof
      | @binary r1 C a1 z hm' hn' h3 h4 =>
        rcases hb _ hm' hy.symm with e | e
        · rw [e] at hn' h3
          simp only [Option.some.injEq] at hn'
          subst hn'
          have := derives_terminal h3 h.wrap.sof
          subst this
          simp only [List.cons_append, List.nil_append, List.cons.injEq, true_and] at hx
          rcases List.eq_nil_or_concat v with rfl | ⟨v', b, rfl⟩
          · rw [List.append_nil] at hx
            exact absurd (by rw [hx]; simp) heof
          · rw [List.concat_eq_append, ← List.append_assoc] at hx
            have := (List.append_inj_left' hx rfl)
            exact ⟨v', this ▸ h4⟩
        · rw [e] at hn'; simp at hn'
  obtain ⟨v', hd⟩ := key
  have hrne : ∀ r ∈ c.rules, r.rhs ≠ [] := by
    rintro r hr e; have := h.ok.len r hr; simp [e] at this
  have hfill : ∀ s ∈ v', Fills U N c s := by
    rcases h.bin.fills_derived htrim hrne hd hi with e | hf
    · cases p with
      | nil => exact absurd rfl hne
      | cons a p =>
        simp only [List.cons_append, List.cons.injEq] at e
        obtain ⟨hT, _⟩ := ht a (by simp)
        obtain ⟨r, hr, e'⟩ := h.root
        exact absurd (e'.trans e.1.symm) (hT r hr)
    · exact fun s hs => hf s (by simp [hs])
  obtain ⟨x, hx, hd'⟩ := fill_string hd hfill
  exact ⟨x, ((h.bin.derives_iff hi hp fun t hm => by
    rcases List.mem_append.1 hm with hm | hm
    · exact ht.user N t hm
    · exact hx t hm).1 hd').2⟩

/-- The start marker can always be read. -/
theorem viable_sof {R : Rules} {nullable : Prop} (h : Wrapping R w nullable) : ViablePrefix R w.root [w.sof] := by
  obtain ⟨g1, ⟨ha, _⟩, hb, _⟩ := h.rules
  exact ⟨[w.innerRoot, w.eof], .binary (u := [w.sof, w.innerRoot]) ha rfl (.two hb rfl) (.refl _)⟩

theorem derived_mem {R : Rules} {A : Nat} {v : List Nat} (h : Derives R A v) :
    ∀ s ∈ v, s = A ∨ ∃ r ∈ R, s = r.rhs0 ∨ r.rhs1 = some s := by
  induction h with
  | refl => exact fun s hs => .inl (List.mem_singleton.1 hs)
  | @unary r u hr _ _ ih =>
    intro s hs
    rcases ih s hs with rfl | h
    · exact .inr ⟨r, hr, .inl rfl⟩
    · exact .inr h
  | @binary r C u v hr hn _ _ ih1 ih2 =>
    intro s hs
    rcases List.mem_append.1 hs with hs | hs
    · rcases ih1 s hs with rfl | h
      · exact .inr ⟨r, hr, .inl rfl⟩
      · exact .inr h
    · rcases ih2 s hs with rfl | h
      · exact .inr ⟨r, hr, .inr hn⟩
      · exact .inr h

theorem map_of_forall {f : Nat → Nat} {P : Nat → Prop} {v : List Nat} (h : ∀ s ∈ v, ∃ t, P t ∧ f t = s) :
    ∃ v0 : List Nat, (∀ t ∈ v0, P t) ∧ v0.map f = v := by
  induction v with
  | nil => exact ⟨[], fun t h => (by cases h), rfl⟩
  | cons s v ih =>
    obtain ⟨t, ht, e⟩ := h s (by simp)
    obtain ⟨v0, h0, e0⟩ := ih fun s hs => h s (by simp [hs])
    refine ⟨t :: v0, fun x hx => ?_, by simp [e, e0]⟩
    rcases List.mem_cons.1 hx with rfl | hx
    · exact ht
    · exact h0 x hx

/-- The parser made by `from_grammar`, with its own numbers of the symbols, and what it can read. -/
theorem viable_setup0 (hX : CrateOK X) (hc : BinarizedOK c w)
    (hg : fromBinarized X c nulling = pure g) {nullable : Prop} (hw : Wrapping (rulesOf c) w nullable) :
    ∃ c' n w' int, Prepared c' n w' g ∧ (UnaryAcyclic (rulesOf c) → UnaryAcyclic (rulesOf c')) ∧ (∀ t, Occurs c t → g.toInternal t = pure (some (int t))) ∧
      (∀ t, Occurs c t → Terminal (rulesOf c) t → int t < n ∧ Terminal (rulesOf c') (int t)) ∧
      ∀ toks : List Nat, (∀ t ∈ toks, Occurs c t) → (ViablePrefix (rulesOf c') w'.root (w'.sof :: toks.map int) ↔
        ViablePrefix (rulesOf c) w.root (w.sof :: toks)) := by
  obtain ⟨c', n, ext, hR, hlt, hocc, hb, _⟩ := C46_prepared (nulling := nulling) hX hc
  obtain ⟨hB, hm, _⟩ := hb g hg
  have hne : ∀ r ∈ c.rules, r.rhs ≠ [] := by
    rintro r hr h; have := hc.len r hr; simp [h] at this
  obtain ⟨g0, ⟨hw1, _⟩, hw2, _⟩ := hw.rules
  have hsyms : ∀ r ∈ rulesOf c, r.lhs ∈ ext ∧ r.rhs0 ∈ ext ∧ ∀ s, r.rhs1 = some s → s ∈ ext := by
    intro r hr
    obtain ⟨q, hq, rfl⟩ := List.mem_map.1 hr
    obtain ⟨h1, h2⟩ := hR.covers q hq
    refine ⟨h1, ?_, fun s hs => h2 s (List.mem_of_getElem? hs)⟩
    cases hqr : q.rhs with
    | nil => exact absurd hqr (hne q hq)
    | cons s l => exact h2 _ (by simp [ruleOf, hqr])
  have hroot := (hsyms _ hw1).1
  have hsof := (hsyms _ hw2).2.1
  have hord : ∀ t ∈ ext, Terminal (rulesOf c) t → newNumber ext t < n := by
    intro t h1 h2
    obtain ⟨depth, hP⟩ := hB.processed
    by_contra hge
    have hg' := (hP.gen _ (by rw [hR.numSyms]; exact newNumber_lt h1)).2 (by omega)
    obtain ⟨_, _, _, r, hr, e, _⟩ := (hR.generated h1).1 hg'
    exact h2 _ (List.mem_map_of_mem hr) e
  have hmem : ∀ toks : List Nat, (∀ t ∈ toks, Occurs c t) → ∀ v, (∀ t ∈ v, t ∈ ext) → ∀ s ∈ w.sof :: toks ++ v, s ∈ ext := by
    intro toks ht v hv s hs
    simp only [List.cons_append, List.mem_cons, List.mem_append] at hs
    rcases hs with rfl | hs | hs
    · exact hsof
    · exact hocc s (ht s hs)
    · exact hv s hs
  refine ⟨c', n, renumberRoot ext w, newNumber ext, hB, fun ha => hR.acyclic hc ha, fun t h => (hm t (hocc t h)).1,
    fun t h h' => ⟨hord t (hocc t h) h', (hR.terminal (hocc t h)).2 h'⟩, fun toks ht => ⟨?_, ?_⟩⟩
  · rintro ⟨v, hd⟩
    have : ∀ s ∈ v, ∃ t, t ∈ ext ∧ newNumber ext t = s := by
      intro s hs
      rcases derived_mem hd s (by simp [hs]) with rfl | ⟨r', hr', e⟩
      · exact ⟨w.root, hroot, rfl⟩
      · obtain ⟨r, hr, rfl⟩ := List.mem_map.1 ((hR.rulesOf_perm hne).mem_iff.1 hr')
        rcases e with rfl | e
        · exact ⟨r.rhs0, (hsyms r hr).2.1, rfl⟩
        · obtain ⟨t, ht, e⟩ := Option.map_eq_some_iff.1 e
          exact ⟨t, (hsyms r hr).2.2 t ht, e⟩
    obtain ⟨v0, hv0, rfl⟩ := map_of_forall this
    refine ⟨v0, (hR.derives hne hroot (hmem toks ht v0 hv0)).1 ?_⟩
    simpa [renumberRoot] using hd
  · rintro ⟨v, hd⟩
    have hv : ∀ t ∈ v, t ∈ ext := by
      intro s hs
      rcases derived_mem hd s (by simp [hs]) with rfl | ⟨r, hr, rfl | e⟩
      · exact hroot
      · exact (hsyms r hr).2.1
      · exact (hsyms r hr).2.2 s e
    refine ⟨v.map (newNumber ext), ?_⟩
    have := (hR.derives hne hroot (hmem toks ht v hv)).2 hd
    simpa [renumberRoot] using this

theorem viable_setup (hX : CrateOK X) (hc : BinarizedOK c w) (ha : UnaryAcyclic (rulesOf c))
    (hg : fromBinarized X c nulling = pure g) {nullable : Prop} (hw : Wrapping (rulesOf c) w nullable) :
    ∃ c' n w' int, Built c' n w' g ∧ (∀ t, Occurs c t → g.toInternal t = pure (some (int t))) ∧
      (∀ t, Occurs c t → Terminal (rulesOf c) t → int t < n ∧ Terminal (rulesOf c') (int t)) ∧
      ∀ toks : List Nat, (∀ t ∈ toks, Occurs c t) → (ViablePrefix (rulesOf c') w'.root (w'.sof :: toks.map int) ↔
        ViablePrefix (rulesOf c) w.root (w.sof :: toks)) := by
  obtain ⟨c', n, w', int, hB, h, h'⟩ := viable_setup0 hX hc hg hw
  exact ⟨c', n, w', int, ⟨hB, h ha⟩, h'⟩

end Gearley.Props
