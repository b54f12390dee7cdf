import Verif.Model.Names
import Mathlib.Data.List.Basic

/-! # Names are injective up to the implementation -/

namespace Verif.Names
open Verif

variable {F : Type}

theorem digits_inj {a b : Nat} (h : Nat.toDigits 10 a = Nat.toDigits 10 b) : a = b := by
  have := congrArg (fun l => Nat.ofDigitChars 10 l 0) h
  simpa [Nat.ofDigitChars_ten_toDigits] using this

theorem digits_isDigit {n : Nat} {c : Char} (h : c ∈ Nat.toDigits 10 n) : c.isDigit = true :=
  Nat.isDigit_of_mem_toDigits (by decide) (by decide) h

theorem decimal_chars {n : Int} {c : Char} (h : c ∈ decimal n) : c.isDigit = true ∨ c = '-' := by
  unfold decimal at h
  split at h
  · rcases List.mem_cons.1 h with h | h
    · exact Or.inr h
    · exact Or.inl (digits_isDigit h)
  · exact Or.inl (digits_isDigit h)

theorem comma_notMem (n : Int) : ',' ∉ decimal n := by
  intro h
  rcases decimal_chars h with h | h <;> simp at h

theorem decimal_inj {a b : Int} (h : decimal a = decimal b) : a = b := by
  unfold decimal at h
  have hm : ∀ n : Nat, '-' ∉ Nat.toDigits 10 n := by
    intro n hn
    have := digits_isDigit hn
    simp at this
  split at h <;> split at h
  · have := digits_inj (List.cons.inj h).2
    omega
  · exact absurd (h ▸ List.mem_cons_self) (hm _)
  · exact absurd (h ▸ List.mem_cons_self) (hm _)
  · have := digits_inj h
    omega

/-- Two lists split at the first occurrence of a character. -/
theorem split_inj {α : Type} {c : α} : ∀ {a b r s : List α}, c ∉ a → c ∉ b → a ++ c :: r = b ++ c :: s → a = b ∧ r = s
  | [], [], r, s, _, _, h => ⟨rfl, (List.cons.inj h).2⟩
  | [], y :: b, r, s, _, hb, h => absurd (List.cons.inj h).1 (fun e => hb (by rw [e]; simp))
  | x :: a, [], r, s, ha, _, h => absurd (List.cons.inj h).1 (fun e => ha (by rw [← e]; simp))
  | x :: a, y :: b, r, s, ha, hb, h => by
    obtain ⟨h1, h2⟩ := List.cons.inj h
    obtain ⟨h3, h4⟩ := split_inj (fun c => ha (List.mem_cons_of_mem _ c)) (fun c => hb (List.mem_cons_of_mem _ c)) h2
    exact ⟨by rw [h1, h3], h4⟩

theorem WTag.underscore (t : WTag) : '_' ∉ t.name := by cases t <;> decide
theorem DTag.underscore (t : DTag) : '_' ∉ t.name := by cases t <;> decide
theorem LTag.underscore (t : LTag) : '_' ∉ t.name := by cases t <;> decide

theorem MetricId.underscore (m : MetricId F) : '_' ∉ m.name := by
  cases m with
  | windowed t _ => exact t.underscore
  | decayed t _ => exact t.underscore
  | lagged t _ _ => exact t.underscore
  | moment _ _ => exact (by decide : '_' ∉ "moment.Moment".toList)
  | ewmMoment _ _ => exact (by decide : '_' ∉ "moment.EWMMoment".toList)
  | quantile _ _ _ => exact (by decide : '_' ∉ "quantile.Quantile".toList)
  | median _ _ => exact (by decide : '_' ∉ "quantile.Median".toList)
  | iqr _ _ => exact (by decide : '_' ∉ "quantile.IQR".toList)

/-- The parameters that the name shows: all but the implementation. -/
def MetricId.shown : MetricId F → MetricId F
  | .quantile w i _ => .quantile w i .avl
  | .median w _ => .median w .avl
  | .iqr w _ => .iqr w .avl
  | m => m

/-- A number for each name. -/
def WTag.code : WTag → Nat
  | .mean => 0 | .std => 1 | .skewness => 2 | .kurtosis => 3 | .min => 4 | .max => 5 | .heapMedian => 6 | .cov => 7 | .corr => 8

/-- A number for each name. -/
def DTag.code : DTag → Nat
  | .ewma => 9 | .ewmStd => 10 | .ewmCov => 11 | .ewmCorr => 12

/-- A number for each name. -/
def LTag.code : LTag → Nat
  | .autocov => 13 | .autocorr => 14

theorem WTag.code_lt (t : WTag) : t.code < 9 := by cases t <;> decide
theorem DTag.code_lt (t : DTag) : 9 ≤ t.code ∧ t.code < 13 := by cases t <;> decide
theorem LTag.code_lt (t : LTag) : 13 ≤ t.code ∧ t.code < 15 := by cases t <;> decide
theorem WTag.code_inj {t t' : WTag} (h : t.code = t'.code) : t = t' := by revert h; cases t <;> cases t' <;> decide
theorem DTag.code_inj {t t' : DTag} (h : t.code = t'.code) : t = t' := by revert h; cases t <;> cases t' <;> decide
theorem LTag.code_inj {t t' : LTag} (h : t.code = t'.code) : t = t' := by revert h; cases t <;> cases t' <;> decide

/-- A number for each name. -/
def MetricId.code : MetricId F → Nat
  | .windowed t _ => t.code
  | .decayed t _ => t.code
  | .lagged t _ _ => t.code
  | .moment _ _ => 15
  | .ewmMoment _ _ => 16
  | .quantile _ _ _ => 17
  | .median _ _ => 18
  | .iqr _ _ => 19

/-- The names by number. -/
def nameOf : Nat → List Char
  | 0 => "moment.Mean".toList
  | 1 => "moment.Std".toList
  | 2 => "moment.Skewness".toList
  | 3 => "moment.Kurtosis".toList
  | 4 => "minmax.Min".toList
  | 5 => "minmax.Max".toList
  | 6 => "quantile.HeapMedian".toList
  | 7 => "joint.Cov".toList
  | 8 => "joint.Corr".toList
  | 9 => "moment.EWMA".toList
  | 10 => "moment.EWMStd".toList
  | 11 => "joint.EWMCov".toList
  | 12 => "joint.EWMCorr".toList
  | 13 => "joint.Autocov".toList
  | 14 => "joint.Autocorr".toList
  | 15 => "moment.Moment".toList
  | 16 => "moment.EWMMoment".toList
  | 17 => "quantile.Quantile".toList
  | 18 => "quantile.Median".toList
  | _ => "quantile.IQR".toList

theorem MetricId.name_eq (m : MetricId F) : m.name = nameOf m.code := by
  rcases m with (_ | _ | _ | _ | _ | _ | _ | _ | _) | (_ | _ | _ | _) | (_ | _) | _ | _ | _ | _ | _ <;> rfl

theorem MetricId.code_lt (m : MetricId F) : m.code < 20 := by
  cases m with
  | windowed t _ => have := t.code_lt; simp only [MetricId.code]; omega
  | decayed t _ => have := t.code_lt; simp only [MetricId.code]; omega
  | lagged t _ _ => have := t.code_lt; simp only [MetricId.code]; omega
  | _ => simp only [MetricId.code]; omega

theorem nameOf_inj : ∀ a, a < 20 → ∀ b, b < 20 → nameOf a = nameOf b → a = b := by decide +kernel

theorem two_inj {p q u v : List Char} {a c : Int}
    (h : u ++ decimal a ++ ",".toList ++ v ++ p = u ++ decimal c ++ ",".toList ++ v ++ q) : a = c ∧ p = q := by
  simp only [List.append_assoc] at h
  have h1 := List.append_cancel_left h
  obtain ⟨h2, h3⟩ := split_inj (comma_notMem a) (comma_notMem c) h1
  exact ⟨decimal_inj h2, List.append_cancel_left h3⟩

theorem quantileString_inj {a b c d : Int} (h : quantileString a b = quantileString c d) : a = c ∧ b = d := by
  unfold quantileString at h
  have h1 := List.append_cancel_left (List.append_cancel_right h)
  obtain ⟨h2, h3⟩ := two_inj h1
  exact ⟨h2, decimal_inj h3⟩

/-- Equal strings show equal metrics. -/
theorem string_inj {fmt : F → List Char} (hf : ∀ a b, fmt a = fmt b → a = b) {m m' : MetricId F} (h : m.string fmt = m'.string fmt) :
    m.shown = m'.shown := by
  have h0 := String.ofList_injective h
  have h0' : m.name ++ '_' :: ('{' :: m.params fmt ++ "}".toList) = m'.name ++ '_' :: ('{' :: m'.params fmt ++ "}".toList) := by
    simpa using h0
  obtain ⟨hn, hp⟩ := split_inj m.underscore m'.underscore h0'
  have hp := (List.cons.inj (List.append_cancel_right hp)).2
  rw [MetricId.name_eq, MetricId.name_eq] at hn
  have hc := nameOf_inj _ m.code_lt _ m'.code_lt hn
  have key : ∀ (u : List Char) {a b : Int}, u ++ decimal a = u ++ decimal b → a = b := fun u _ _ h => decimal_inj (List.append_cancel_left h)
  have keyf : ∀ (u : List Char) {a b : F}, u ++ fmt a = u ++ fmt b → a = b := fun u _ _ h => hf _ _ (List.append_cancel_left h)
  cases m with
  | windowed t w =>
    cases m' with
    | windowed t' w' =>
      rw [WTag.code_inj hc, key _ hp]
    | decayed t' _ => exfalso; have := t.code_lt; have := t'.code_lt; simp only [MetricId.code] at hc; omega
    | lagged t' _ _ => exfalso; have := t.code_lt; have := t'.code_lt; simp only [MetricId.code] at hc; omega
    | moment _ _ => exfalso; have := t.code_lt; simp only [MetricId.code] at hc; omega
    | ewmMoment _ _ => exfalso; have := t.code_lt; simp only [MetricId.code] at hc; omega
    | quantile _ _ _ => exfalso; have := t.code_lt; simp only [MetricId.code] at hc; omega
    | median _ _ => exfalso; have := t.code_lt; simp only [MetricId.code] at hc; omega
    | iqr _ _ => exfalso; have := t.code_lt; simp only [MetricId.code] at hc; omega
  | decayed t d =>
    cases m' with
    | decayed t' d' =>
      rw [DTag.code_inj hc, keyf _ hp]
    | windowed t' _ => exfalso; have := t.code_lt; have := t'.code_lt; simp only [MetricId.code] at hc; omega
    | lagged t' _ _ => exfalso; have := t.code_lt; have := t'.code_lt; simp only [MetricId.code] at hc; omega
    | moment _ _ => exfalso; have := t.code_lt; simp only [MetricId.code] at hc; omega
    | ewmMoment _ _ => exfalso; have := t.code_lt; simp only [MetricId.code] at hc; omega
    | quantile _ _ _ => exfalso; have := t.code_lt; simp only [MetricId.code] at hc; omega
    | median _ _ => exfalso; have := t.code_lt; simp only [MetricId.code] at hc; omega
    | iqr _ _ => exfalso; have := t.code_lt; simp only [MetricId.code] at hc; omega
  | lagged t l w =>
    cases m' with
    | lagged t' l' w' =>
      obtain ⟨h1, h2⟩ := two_inj hp
      rw [LTag.code_inj hc, h1, decimal_inj h2]
    | windowed t' _ => exfalso; have := t.code_lt; have := t'.code_lt; simp only [MetricId.code] at hc; omega
    | decayed t' _ => exfalso; have := t.code_lt; have := t'.code_lt; simp only [MetricId.code] at hc; omega
    | moment _ _ => exfalso; have := t.code_lt; simp only [MetricId.code] at hc; omega
    | ewmMoment _ _ => exfalso; have := t.code_lt; simp only [MetricId.code] at hc; omega
    | quantile _ _ _ => exfalso; have := t.code_lt; simp only [MetricId.code] at hc; omega
    | median _ _ => exfalso; have := t.code_lt; simp only [MetricId.code] at hc; omega
    | iqr _ _ => exfalso; have := t.code_lt; simp only [MetricId.code] at hc; omega
  | moment k w =>
    cases m' with
    | moment k' w' =>
      obtain ⟨h1, h2⟩ := two_inj hp
      rw [h1, decimal_inj h2]
    | windowed t' _ => exfalso; have := t'.code_lt; simp only [MetricId.code] at hc; omega
    | decayed t' _ => exfalso; have := t'.code_lt; simp only [MetricId.code] at hc; omega
    | lagged t' _ _ => exfalso; have := t'.code_lt; simp only [MetricId.code] at hc; omega
    | ewmMoment _ _ => exfalso; simp only [MetricId.code] at hc; omega
    | quantile _ _ _ => exfalso; simp only [MetricId.code] at hc; omega
    | median _ _ => exfalso; simp only [MetricId.code] at hc; omega
    | iqr _ _ => exfalso; simp only [MetricId.code] at hc; omega
  | ewmMoment k d =>
    cases m' with
    | ewmMoment k' d' =>
      obtain ⟨h1, h2⟩ := two_inj hp
      rw [h1, hf _ _ h2]
    | windowed t' _ => exfalso; have := t'.code_lt; simp only [MetricId.code] at hc; omega
    | decayed t' _ => exfalso; have := t'.code_lt; simp only [MetricId.code] at hc; omega
    | lagged t' _ _ => exfalso; have := t'.code_lt; simp only [MetricId.code] at hc; omega
    | moment _ _ => exfalso; simp only [MetricId.code] at hc; omega
    | quantile _ _ _ => exfalso; simp only [MetricId.code] at hc; omega
    | median _ _ => exfalso; simp only [MetricId.code] at hc; omega
    | iqr _ _ => exfalso; simp only [MetricId.code] at hc; omega
  | quantile w i x =>
    cases m' with
    | quantile w' i' x' =>
      obtain ⟨h1, h2⟩ := two_inj hp
      simp only [MetricId.shown]
      rw [h1, decimal_inj h2]
    | windowed t' _ => exfalso; have := t'.code_lt; simp only [MetricId.code] at hc; omega
    | decayed t' _ => exfalso; have := t'.code_lt; simp only [MetricId.code] at hc; omega
    | lagged t' _ _ => exfalso; have := t'.code_lt; simp only [MetricId.code] at hc; omega
    | moment _ _ => exfalso; simp only [MetricId.code] at hc; omega
    | ewmMoment _ _ => exfalso; simp only [MetricId.code] at hc; omega
    | median _ _ => exfalso; simp only [MetricId.code] at hc; omega
    | iqr _ _ => exfalso; simp only [MetricId.code] at hc; omega
  | median w x =>
    cases m' with
    | median w' x' =>
      obtain ⟨h1, _⟩ := quantileString_inj (List.append_cancel_left hp)
      simp only [MetricId.shown]
      rw [h1]
    | windowed t' _ => exfalso; have := t'.code_lt; simp only [MetricId.code] at hc; omega
    | decayed t' _ => exfalso; have := t'.code_lt; simp only [MetricId.code] at hc; omega
    | lagged t' _ _ => exfalso; have := t'.code_lt; simp only [MetricId.code] at hc; omega
    | moment _ _ => exfalso; simp only [MetricId.code] at hc; omega
    | ewmMoment _ _ => exfalso; simp only [MetricId.code] at hc; omega
    | quantile _ _ _ => exfalso; simp only [MetricId.code] at hc; omega
    | iqr _ _ => exfalso; simp only [MetricId.code] at hc; omega
  | iqr w x =>
    cases m' with
    | iqr w' x' =>
      obtain ⟨h1, _⟩ := quantileString_inj (List.append_cancel_left hp)
      simp only [MetricId.shown]
      rw [h1]
    | windowed t' _ => exfalso; have := t'.code_lt; simp only [MetricId.code] at hc; omega
    | decayed t' _ => exfalso; have := t'.code_lt; simp only [MetricId.code] at hc; omega
    | lagged t' _ _ => exfalso; have := t'.code_lt; simp only [MetricId.code] at hc; omega
    | moment _ _ => exfalso; simp only [MetricId.code] at hc; omega
    | ewmMoment _ _ => exfalso; simp only [MetricId.code] at hc; omega
    | quantile _ _ _ => exfalso; simp only [MetricId.code] at hc; omega
    | median _ _ => exfalso; simp only [MetricId.code] at hc; omega

end Verif.Names
