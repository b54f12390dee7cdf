import Verif.Proofs.MinMax

/-! # Max and Min without window on streams with NaN -/

set_option linter.unusedSectionVars false

namespace Verif.MinMax
open Verif Verif.Spec
variable {F : Type} [LinearOrder F] [BoundedOrder F] [Nontrivial F]

namespace Max

/-- What a `Max` without window remembers of the values `xs`. -/
structure G (xs : List (WithNaN F)) (v : WithNaN F) : Prop where
  top : .num ⊤ ∈ xs → v = .num ⊤
  nan : .num ⊤ ∉ xs → .nan ∈ xs → v = .nan
  num : .nan ∉ xs → ∃ a, v = .num a ∧ (a = ⊥ ∨ .num a ∈ xs) ∧ ∀ b, .num b ∈ xs → b ≤ a

theorem G.nil : G ([] : List (WithNaN F)) (.num ⊥) := ⟨by simp, by simp, fun _ => ⟨⊥, rfl, .inl rfl, by simp⟩⟩

theorem max_top {x y : WithNaN F} (h : x = .num ⊤ ∨ y = .num ⊤) : (Ext.ofNaN F).max x y = .num ⊤ := if_pos h

theorem max_nan {x y : WithNaN F} (hx : x ≠ .num ⊤) (hy : y ≠ .num ⊤) (h : x = .nan ∨ y = .nan) : (Ext.ofNaN F).max x y = .nan := by
  show (if _ then _ else _) = _
  rw [if_neg (by tauto)]
  rcases x with _ | x <;> rcases y with _ | y <;> first | rfl | (rcases h with h | h <;> cases h)

theorem max_num (a b : F) : (Ext.ofNaN F).max (.num a) (.num b) = .num (max a b) := by
  show (if _ then _ else _) = _
  split_ifs with h
  · rcases h with h | h <;> cases h
    · rw [max_eq_left le_top]
    · rw [max_eq_right le_top]
  · rfl

theorem G.snoc {xs : List (WithNaN F)} {v : WithNaN F} (h : G xs v) (x : WithNaN F) : G (xs ++ [x]) ((Ext.ofNaN F).max v x) := by
  constructor
  · intro ht
    rcases List.mem_append.1 ht with ht | ht
    · exact max_top (.inl (h.top ht))
    · exact max_top (.inr (List.mem_singleton.1 ht).symm)
  · intro ht hn
    have h1 : .num ⊤ ∉ xs := fun hc => ht (List.mem_append_left _ hc)
    have h2 : x ≠ .num ⊤ := by rintro rfl; exact ht (by simp)
    have hv : v ≠ .num ⊤ := by
      intro hc
      by_cases hx : .nan ∈ xs
      · rw [h.nan h1 hx] at hc; cases hc
      · obtain ⟨a, ha, hm, _⟩ := h.num hx
        rw [ha] at hc; cases hc
        rcases hm with hm | hm
        · exact absurd hm top_ne_bot
        · exact h1 hm
    rcases List.mem_append.1 hn with hn | hn
    · exact max_nan hv h2 (.inl (h.nan h1 hn))
    · exact max_nan hv h2 (.inr (List.mem_singleton.1 hn).symm)
  · intro hn
    obtain ⟨a, ha, hm, hb⟩ := h.num fun hc => hn (List.mem_append_left _ hc)
    rcases x with _ | x
    · exact absurd (by simp) hn
    rw [ha, max_num]
    refine ⟨_, rfl, ?_, ?_⟩
    · rcases max_choice a x with e | e <;> rw [e]
      · rcases hm with hm | hm
        · exact .inl hm
        · exact .inr (List.mem_append_left _ hm)
      · exact .inr (by simp)
    · intro b hb'
      rcases List.mem_append.1 hb' with hb' | hb'
      · exact le_trans (hb b hb') (le_max_left _ _)
      · cases List.mem_singleton.1 hb'; exact le_max_right _ _

theorem run_g (ops : List (MOp (WithNaN F))) :
    ∃ s, run (Ext.ofNaN F) (Max.fresh (Ext.ofNaN F) 0) ops = .val (s, []) ∧ W 0 (pushes ops) (since ops) s ∧ G (since ops) s.ext := by
  induction ops using List.reverseRecOn with
  | nil => exact ⟨_, rfl, W.fresh _ 0, G.nil⟩
  | append_singleton ops o ih =>
    obtain ⟨s, e, hw, hg⟩ := ih
    unfold run at e ⊢
    rw [Go.runOps_append, e]
    cases o with
    | push x =>
      obtain ⟨s', e', hw'⟩ := hw.push (O := Ext.ofNaN F) x
      refine ⟨s', by simp [Go.runOps, logged, step, e'], ?_⟩
      rw [since_push, pushes_push]
      refine ⟨hw', ?_⟩
      unfold Max.push at e'
      rw [if_neg (by rw [hw.win]; simp)] at e'
      cases e'
      exact hg.snoc x
    | clear =>
      refine ⟨Max.clear (Ext.ofNaN F) s, by simp [Go.runOps, logged, step], ?_⟩
      rw [since_clear, pushes_clear]
      exact ⟨hw.clear, G.nil⟩

end Max

namespace Min

/-- What a `Min` without window remembers of the values `xs`. -/
structure G (xs : List (WithNaN F)) (v : WithNaN F) : Prop where
  bot : .num ⊥ ∈ xs → v = .num ⊥
  nan : .num ⊥ ∉ xs → .nan ∈ xs → v = .nan
  num : .nan ∉ xs → ∃ a, v = .num a ∧ (a = ⊤ ∨ .num a ∈ xs) ∧ ∀ b, .num b ∈ xs → a ≤ b

theorem G.nil : G ([] : List (WithNaN F)) (.num ⊤) := ⟨by simp, by simp, fun _ => ⟨⊤, rfl, .inl rfl, by simp⟩⟩

theorem min_bot {x y : WithNaN F} (h : x = .num ⊥ ∨ y = .num ⊥) : (Ext.ofNaN F).min x y = .num ⊥ := if_pos h

theorem min_nan {x y : WithNaN F} (hx : x ≠ .num ⊥) (hy : y ≠ .num ⊥) (h : x = .nan ∨ y = .nan) : (Ext.ofNaN F).min x y = .nan := by
  show (if _ then _ else _) = _
  rw [if_neg (by tauto)]
  rcases x with _ | x <;> rcases y with _ | y <;> first | rfl | (rcases h with h | h <;> cases h)

theorem min_num (a b : F) : (Ext.ofNaN F).min (.num a) (.num b) = .num (min a b) := by
  show (if _ then _ else _) = _
  split_ifs with h
  · rcases h with h | h <;> cases h
    · rw [min_eq_left bot_le]
    · rw [min_eq_right bot_le]
  · rfl

theorem G.snoc {xs : List (WithNaN F)} {v : WithNaN F} (h : G xs v) (x : WithNaN F) : G (xs ++ [x]) ((Ext.ofNaN F).min v x) := by
  constructor
  · intro ht
    rcases List.mem_append.1 ht with ht | ht
    · exact min_bot (.inl (h.bot ht))
    · exact min_bot (.inr (List.mem_singleton.1 ht).symm)
  · intro ht hn
    have h1 : .num ⊥ ∉ xs := fun hc => ht (List.mem_append_left _ hc)
    have h2 : x ≠ .num ⊥ := by rintro rfl; exact ht (by simp)
    have hv : v ≠ .num ⊥ := by
      intro hc
      by_cases hx : .nan ∈ xs
      · rw [h.nan h1 hx] at hc; cases hc
      · obtain ⟨a, ha, hm, _⟩ := h.num hx
        rw [ha] at hc; cases hc
        rcases hm with hm | hm
        · exact absurd hm bot_ne_top
        · exact h1 hm
    rcases List.mem_append.1 hn with hn | hn
    · exact min_nan hv h2 (.inl (h.nan h1 hn))
    · exact min_nan hv h2 (.inr (List.mem_singleton.1 hn).symm)
  · intro hn
    obtain ⟨a, ha, hm, hb⟩ := h.num fun hc => hn (List.mem_append_left _ hc)
    rcases x with _ | x
    · exact absurd (by simp) hn
    rw [ha, min_num]
    refine ⟨_, rfl, ?_, ?_⟩
    · rcases min_choice a x with e | e <;> rw [e]
      · rcases hm with hm | hm
        · exact .inl hm
        · exact .inr (List.mem_append_left _ hm)
      · exact .inr (by simp)
    · intro b hb'
      rcases List.mem_append.1 hb' with hb' | hb'
      · exact le_trans (min_le_left _ _) (hb b hb')
      · cases List.mem_singleton.1 hb'; exact min_le_right _ _

theorem run_g (ops : List (MOp (WithNaN F))) :
    ∃ s, run (Ext.ofNaN F) (Min.fresh (Ext.ofNaN F) 0) ops = .val (s, []) ∧ W 0 (pushes ops) (since ops) s ∧ G (since ops) s.ext := by
  induction ops using List.reverseRecOn with
  | nil => exact ⟨_, rfl, W.fresh _ 0, G.nil⟩
  | append_singleton ops o ih =>
    obtain ⟨s, e, hw, hg⟩ := ih
    unfold run at e ⊢
    rw [Go.runOps_append, e]
    cases o with
    | push x =>
      obtain ⟨s', e', hw'⟩ := hw.push (O := Ext.ofNaN F) x
      refine ⟨s', by simp [Go.runOps, logged, step, e'], ?_⟩
      rw [since_push, pushes_push]
      refine ⟨hw', ?_⟩
      unfold Min.push at e'
      rw [if_neg (by rw [hw.win]; simp)] at e'
      cases e'
      exact hg.snoc x
    | clear =>
      refine ⟨Min.clear (Ext.ofNaN F) s, by simp [Go.runOps, logged, step], ?_⟩
      rw [since_clear, pushes_clear]
      exact ⟨hw.clear, G.nil⟩

end Min
end Verif.MinMax
