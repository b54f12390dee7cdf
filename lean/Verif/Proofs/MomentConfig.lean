import Verif.Proofs.Moment

/-! # `moment.MergeConfigs` -/

set_option linter.unusedSectionVars false
set_option linter.unusedSimpArgs false

namespace Verif.Moment
open Verif Verif.Spec

variable {F : Type} [LinearOrder F]

/-- The exponents of a configuration. -/
abbrev Config.keys (c : Config F) : List Int := c.sums.getD []

/-- Two configurations that cannot share a core. -/
def Conflict (a b : Config F) : Prop :=
  (∃ w w', a.window = some w ∧ b.window = some w' ∧ w ≠ w') ∨ ∃ d d', a.decay = some d ∧ b.decay = some d' ∧ d ≠ d'

/-- `m` is exactly what `cs` ask for. -/
structure Merged (m : Config F) (cs : List (Config F)) : Prop where
  keys : ∀ k, k ∈ m.keys ↔ ∃ c ∈ cs, k ∈ c.keys
  window : ∀ w, m.window = some w ↔ ∃ c ∈ cs, c.window = some w
  decay : ∀ d, m.decay = some d ↔ ∃ c ∈ cs, c.decay = some d

theorem mem_addSums (s1 s2 : List Int) (k : Int) : k ∈ addSums s1 s2 ↔ k ∈ s1 ∨ k ∈ s2 := by
  unfold addSums
  induction s2 generalizing s1 with
  | nil => simp
  | cons a s2 ih =>
    rw [List.foldl_cons, ih]
    split_ifs with h
    · constructor
      · rintro (h | h) <;> simp [h]
      · rintro (h' | h')
        · exact Or.inl h'
        · rcases List.mem_cons.1 h' with rfl | h'
          · exact Or.inl h
          · exact Or.inr h'
    · simp [or_assoc]

theorem Merged.no_conflict {m : Config F} {cs : List (Config F)} (h : Merged m cs) {a b : Config F} (ha : a ∈ cs) (hb : b ∈ cs) :
    ¬ Conflict a b := by
  rintro (⟨w, w', h1, h2, hne⟩ | ⟨w, w', h1, h2, hne⟩)
  · have e1 := (h.window w).2 ⟨a, ha, h1⟩
    have e2 := (h.window w').2 ⟨b, hb, h2⟩
    rw [e1] at e2
    exact hne (Option.some.inj e2)
  · have e1 := (h.decay w).2 ⟨a, ha, h1⟩
    have e2 := (h.decay w').2 ⟨b, hb, h2⟩
    rw [e1] at e2
    exact hne (Option.some.inj e2)

/-- Adding one optional value to a merged option. -/
theorem opt_snoc {A B : Type} {o : Option A} {f : B → Option A} {cs : List B} {c : B}
    (h : ∀ w, o = some w ↔ ∃ c ∈ cs, f c = some w) (o' : Option A)
    (ho : (f c = none ∧ o' = o) ∨ (∃ w, f c = some w ∧ o = none ∧ o' = some w) ∨ (∃ w, f c = some w ∧ o = some w ∧ o' = o)) :
    ∀ w, o' = some w ↔ ∃ x ∈ cs ++ [c], f x = some w := by
  intro w
  simp only [List.mem_append, List.mem_singleton, or_and_right, exists_or, exists_eq_left, ← h]
  rcases ho with ⟨h1, rfl⟩ | ⟨v, h1, h2, rfl⟩ | ⟨v, h1, h2, rfl⟩
  · simp [h1]
  · simp [h1, h2]
  · rw [h1, h2]; simp

theorem mergeSums_keys {acc : Config F} {seen : List (Config F)} (h : Merged acc seen) (c : Config F) :
    (∀ k, k ∈ (mergeSums acc c).keys ↔ ∃ x ∈ seen ++ [c], k ∈ x.keys) ∧ (mergeSums acc c).window = acc.window ∧
      (mergeSums acc c).decay = acc.decay := by
  unfold mergeSums
  cases hc : c.sums with
  | none =>
    refine ⟨fun k => ?_, rfl, rfl⟩
    simp only [List.mem_append, List.mem_singleton, or_and_right, exists_or, exists_eq_left, ← h.keys]
    simp [Config.keys, hc]
  | some s =>
    refine ⟨fun k => ?_, rfl, rfl⟩
    simp only [List.mem_append, List.mem_singleton, or_and_right, exists_or, exists_eq_left, ← h.keys]
    simp [Config.keys, hc, mem_addSums]

theorem mergeWindow_spec {acc c : Config F} {seen : List (Config F)} (h : ∀ w, acc.window = some w ↔ ∃ c ∈ seen, c.window = some w) :
    (∃ m, mergeWindow acc c = .ok m ∧ (∀ w, m.window = some w ↔ ∃ x ∈ seen ++ [c], x.window = some w) ∧ m.sums = acc.sums ∧
      m.decay = acc.decay) ∨ ((∃ e, mergeWindow acc c = .error e) ∧ ∃ a ∈ seen, Conflict a c) := by
  unfold mergeWindow
  cases hw : c.window with
  | none => exact Or.inl ⟨acc, rfl, opt_snoc h _ (Or.inl ⟨hw, rfl⟩), rfl, rfl⟩
  | some w =>
    cases haw : acc.window with
    | none => exact Or.inl ⟨_, rfl, opt_snoc h _ (Or.inr (Or.inl ⟨w, hw, haw, rfl⟩)), rfl, rfl⟩
    | some w' =>
      simp only
      by_cases hww : w' = w
      · subst hww
        rw [if_pos rfl]
        exact Or.inl ⟨acc, rfl, opt_snoc h _ (Or.inr (Or.inr ⟨w', hw, haw, rfl⟩)), rfl, rfl⟩
      · rw [if_neg hww]
        obtain ⟨a, ha, hae⟩ := (h w').1 haw
        exact Or.inr ⟨⟨_, rfl⟩, a, ha, Or.inl ⟨w', w, hae, hw, hww⟩⟩

theorem mergeDecay_spec {acc c : Config F} {seen : List (Config F)} (h : ∀ w, acc.decay = some w ↔ ∃ c ∈ seen, c.decay = some w) :
    (∃ m, mergeDecay acc c = .ok m ∧ (∀ w, m.decay = some w ↔ ∃ x ∈ seen ++ [c], x.decay = some w) ∧ m.sums = acc.sums ∧
      m.window = acc.window) ∨ ((∃ e, mergeDecay acc c = .error e) ∧ ∃ a ∈ seen, Conflict a c) := by
  unfold mergeDecay
  cases hd : c.decay with
  | none => exact Or.inl ⟨acc, rfl, opt_snoc h _ (Or.inl ⟨hd, rfl⟩), rfl, rfl⟩
  | some w =>
    cases had : acc.decay with
    | none => exact Or.inl ⟨_, rfl, opt_snoc h _ (Or.inr (Or.inl ⟨w, hd, had, rfl⟩)), rfl, rfl⟩
    | some w' =>
      simp only [goEq_eq, decide_eq_true_eq]
      by_cases hww : w' = w
      · subst hww
        rw [if_pos rfl]
        exact Or.inl ⟨acc, rfl, opt_snoc h _ (Or.inr (Or.inr ⟨w', hd, had, rfl⟩)), rfl, rfl⟩
      · rw [if_neg hww]
        obtain ⟨a, ha, hae⟩ := (h w').1 had
        exact Or.inr ⟨⟨_, rfl⟩, a, ha, Or.inr ⟨w', w, hae, hd, hww⟩⟩

theorem mergeStep_spec {acc : Config F} {seen : List (Config F)} (h : Merged acc seen) (c : Config F) :
    (∃ m, mergeStep acc c = .ok m ∧ Merged m (seen ++ [c])) ∨
    (∃ e, mergeStep acc c = .error e) ∧ ∃ a ∈ seen, Conflict a c := by
  unfold mergeStep
  obtain ⟨hk, hw, hd⟩ := mergeSums_keys h c
  rcases mergeWindow_spec (acc := mergeSums acc c) (c := c) (by rw [hw]; exact h.window) with ⟨m, e, h1, h2, h3⟩ | ⟨⟨e', e⟩, hc⟩
  · rw [e]
    simp only
    rcases mergeDecay_spec (acc := m) (c := c) (by rw [h3, hd]; exact h.decay) with ⟨m', e', h1', h2', h3'⟩ | h'
    · exact Or.inl ⟨m', e', ⟨by rw [Config.keys, h2', h2]; exact hk, by rw [h3']; exact h1, h1'⟩⟩
    · exact Or.inr h'
  · rw [e]
    exact Or.inr ⟨⟨_, rfl⟩, hc⟩

theorem mergeLoop_spec (cs : List (Config F)) {acc : Config F} {seen : List (Config F)} (h : Merged acc seen) :
    (∃ m, mergeLoop acc cs = .ok m ∧ Merged m (seen ++ cs)) ∨
    (∃ e, mergeLoop acc cs = .error e) ∧ ∃ a ∈ seen ++ cs, ∃ b ∈ seen ++ cs, Conflict a b := by
  induction cs generalizing acc seen with
  | nil => exact Or.inl ⟨acc, rfl, by simpa using h⟩
  | cons c cs ih =>
    simp only [mergeLoop]
    rcases mergeStep_spec h c with ⟨m, e, hm⟩ | ⟨⟨e', e⟩, a, ha, hc⟩
    · rw [e]
      simp only
      have := ih hm
      simpa using this
    · rw [e]
      exact Or.inr ⟨⟨_, rfl⟩, a, by simp [ha], c, by simp, hc⟩

theorem mergeConfigs_spec (cs : List (Config F)) :
    (∃ m, mergeConfigs cs = .ok m ∧ Merged m cs) ∨
    (∃ e, mergeConfigs cs = .error e) ∧ (cs = [] ∨ ∃ a ∈ cs, ∃ b ∈ cs, Conflict a b) := by
  match cs with
  | [] => exact Or.inr ⟨⟨_, rfl⟩, Or.inl rfl⟩
  | [c] => exact Or.inl ⟨c, rfl, by simp, by simp, by simp⟩
  | a :: b :: cs =>
    have h0 : Merged (⟨some [], none, none⟩ : Config F) [] := ⟨by simp [Config.keys], by simp, by simp⟩
    rcases mergeLoop_spec (a :: b :: cs) h0 with ⟨m, e, hm⟩ | ⟨he, hc⟩
    · exact Or.inl ⟨m, e, hm⟩
    · exact Or.inr ⟨he, Or.inr hc⟩

end Verif.Moment
