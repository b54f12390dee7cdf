import Verif.Model.OptionAlias
import Verif.Proofs.Decide
import Mathlib.Algebra.Order.Ring.Unbundled.Rat

/-! # C80: constructing a metric leaves the caller's options alone

The reference is `Quant.new` and `Quant.newMedian` on lists of options, which cannot be changed by anybody. -/

namespace Verif.Props
open Verif Verif.Quant

section
variable {F : Type} [GoOrd F] (zero one : F)

/-- A slice of an existing array. -/
def InBounds (m : OMem F) (s : OSlice) : Prop := s.arr < m.fresh ∧ s.off + s.len ≤ (m.arrays s.arr).length

theorem applySlice_some (c : Cfg F) (os : List (Opt F)) : applySlice zero one c (os.map some) = .val (applyOpts zero one c os) := by
  induction os generalizing c with
  | nil => rfl
  | cons o os ih =>
    simp only [List.map_cons, applySlice, applyOpts]
    cases applyOpt zero one c o with
    | error e => rfl
    | ok c => exact ih c

/-- C80, in full for `New`: it does what the reference does with the options in the slice, and changes nothing. -/
theorem C80_new (m : OMem F) (w : Int) (s : OSlice) {os : List (Opt F)} (h : m.read s = os.map some) :
    m.new zero one w s = .val (m, Quant.new zero one w os) := by
  unfold OMem.new newSlice Quant.new
  rw [h]
  split_ifs
  · rfl
  · rw [applySlice_some]

/-- A nil option: `New` panics exactly if it gets that far, that is if the window and the options before it are accepted; otherwise it
returns the error it returns without the nil. -/
theorem C80_nil (m : OMem F) (w : Int) (s : OSlice) {os : List (Opt F)} {rest : List (Option (Opt F))}
    (h : m.read s = os.map some ++ none :: rest) :
    m.new zero one w s = match Quant.new zero one w os with
      | .ok _ => .panic
      | .error e => .val (m, .error e) := by
  have key : ∀ c : Cfg F, applySlice zero one c (os.map some ++ none :: rest) = match applyOpts zero one c os with
      | .ok _ => .panic
      | .error e => .val (.error e) := by
    clear h
    intro c
    induction os generalizing c with
    | nil => rfl
    | cons o os ih =>
      simp only [List.map_cons, List.cons_append, applySlice, applyOpts]
      cases applyOpt zero one c o with
      | error e => rfl
      | ok c => exact ih c
  unfold OMem.new newSlice Quant.new
  rw [h]
  split_ifs
  · rfl
  · rw [key]
    cases applyOpts zero one _ os <;> rfl

/-- A nil after an accepted and after a refused option. -/
example : (⟨fun _ => [some (.interpolation Lower), none], 1⟩ : OMem ℚ).new 0 1 3 ⟨0, 0, 2⟩ = .panic ∧
    ∃ m e, (⟨fun _ => [some (.interpolation 9), none], 1⟩ : OMem ℚ).new 0 1 3 ⟨0, 0, 2⟩ = .val (m, .error e) :=
  ⟨rfl, _, _, rfl⟩

omit [GoOrd F] in
theorem read_append (m : OMem F) {s : OSlice} (hb : InBounds m s) {os : List (Opt F)} (h : m.read s = os.map some) (x : Opt F) :
    (m.append s x).1.read (m.append s x).2 = (os ++ [x]).map some := by
  unfold OMem.append
  split_ifs with hc
  · simp only [OMem.read, Function.update_self, List.map_append, List.map_cons, List.map_nil]
    unfold OMem.read at h
    rw [List.drop_set, if_neg (by omega), List.take_add_one]
    have h1 : s.off + s.len - s.off = s.len := by omega
    rw [h1, List.take_set_of_le (by omega), h]
    congr 1
    rw [List.getElem?_set_self (by rw [List.length_drop]; omega)]
    rfl
  · simp only [OMem.read, Function.update_self, List.map_append, List.map_cons, List.map_nil, List.drop_zero]
    unfold OMem.read at h
    rw [h]
    have hl : os.length = s.len := by
      have := congrArg List.length h
      simp only [List.length_take, List.length_drop, List.length_map] at this
      have := hb.2
      omega
    rw [List.take_of_length_le (by simp [hl])]

/-- C80, the metric: in full. `NewMedian`/`NewIQR` do what the reference does with the options in the slice, whatever its capacity. -/
theorem C80_median {m : OMem F} (w : Int) {s : OSlice} (hb : InBounds m s) {os : List (Opt F)} (h : m.read s = os.map some) :
    ∃ m', m.newMedian zero one w s = .val (m', Quant.newMedian zero one w os) := by
  unfold OMem.newMedian
  have := C80_new zero one (m.append s (.interpolation Midpoint)).1 w (m.append s (.interpolation Midpoint)).2 (read_append m hb h _)
  exact ⟨_, this⟩

/-- C80, the caller's slices, partial: the options that a slice of the caller's holds are the same after `NewMedian` or `NewIQR`, if the slice
that was passed has no spare capacity or the other slice does not contain the element just behind it. Missing: the other case, see
`C80_exact`. -/
theorem C80_options_partial {m m' : OMem F} (w : Int) {s : OSlice} {r : Except Err (Cfg F)}
    (h : m.newMedian zero one w s = .val (m', r)) {t : OSlice} (ht : InBounds m t)
    (hc : s.off + s.len = (m.arrays s.arr).length ∨ t.arr ≠ s.arr ∨ t.off + t.len ≤ s.off + s.len ∨ s.off + s.len < t.off) :
    m'.read t = m.read t := by
  have hm : m' = (m.append s (.interpolation Midpoint)).1 := by
    unfold OMem.newMedian OMem.new at h
    simp only at h
    split at h <;> cases h
    rfl
  subst hm
  unfold OMem.append
  split_ifs with hlt
  · simp only [OMem.read]
    by_cases ha : t.arr = s.arr
    · rw [ha, Function.update_self]
      rcases hc with hc | hc | hc | hc
      · omega
      · exact absurd ha hc
      · rw [List.drop_set]
        split_ifs
        · rfl
        · rw [List.take_set_of_le (by omega)]
      · rw [List.drop_set, if_pos (by omega)]
    · rw [Function.update_of_ne ha]
  · simp only [OMem.read]
    rw [Function.update_of_ne (by have := ht.1; omega)]

/-- C80, exactly: a slice that does contain the element just behind the passed one keeps its contents if and only if that element was
`InterpolationOption(Midpoint)` already; otherwise it has been replaced by that. -/
theorem C80_exact {m m' : OMem F} (w : Int) {s : OSlice} {r : Except Err (Cfg F)}
    (h : m.newMedian zero one w s = .val (m', r)) {t : OSlice} (ht : InBounds m t) (ha : t.arr = s.arr) (h1 : t.off ≤ s.off + s.len)
    (h2 : s.off + s.len < t.off + t.len) :
    (m'.read t)[s.off + s.len - t.off]? = some (some (.interpolation Midpoint)) ∧
      (m'.read t = m.read t ↔ (m.read t)[s.off + s.len - t.off]? = some (some (.interpolation Midpoint))) := by
  have hm : m' = (m.append s (.interpolation Midpoint)).1 := by
    unfold OMem.newMedian OMem.new at h
    simp only at h
    split at h <;> cases h
    rfl
  subst hm
  have hlt : s.off + s.len < (m.arrays s.arr).length := by have := ht.2; rw [ha] at this; omega
  unfold OMem.append
  rw [if_pos hlt]
  simp only [OMem.read, ha, Function.update_self]
  have hset : List.take t.len (List.drop t.off ((m.arrays s.arr).set (s.off + s.len) (some (.interpolation Midpoint)))) =
      (List.take t.len (List.drop t.off (m.arrays s.arr))).set (s.off + s.len - t.off) (some (.interpolation Midpoint)) := by
    rw [List.drop_set, if_neg (by omega), List.take_set]
  have hlen : s.off + s.len - t.off < (List.take t.len (List.drop t.off (m.arrays s.arr))).length := by
    rw [List.length_take, List.length_drop]; omega
  rw [hset]
  refine ⟨List.getElem?_set_self hlen, fun he => ?_, fun he => ?_⟩
  · rw [← he]; exact List.getElem?_set_self hlen
  · apply List.ext_getElem?
    intro i
    by_cases hi : i = s.off + s.len - t.off
    · subst hi
      rw [List.getElem?_set_self hlen, he]
    · rw [List.getElem?_set_ne (Ne.symm hi)]

end

/-- `opts := []Option{ImplOption(RedBlack), InterpolationOption(Lower)}` at address 0. -/
def twoOptions : OMem ℚ := ⟨fun a => if a = 0 then [some (.impl RedBlack []), some (.interpolation Lower)] else [], 1⟩

/-- The interpolation of the `Quantile` made by `New(3, opts...)`, before and after `NewMedian(3, opts[:1]...)`. -/
def lowerBefore : Option Int :=
  match twoOptions.new 0 1 3 ⟨0, 0, 2⟩ with
  | .val (_, .ok c) => some c.interpolation
  | _ => none

@[inherit_doc lowerBefore]
def lowerAfter : Option Int :=
  match twoOptions.newMedian 0 1 3 ⟨0, 0, 1⟩ with
  | .val (m, .ok _) =>
    match m.new 0 1 3 ⟨0, 0, 2⟩ with
    | .val (_, .ok c) => some c.interpolation
    | _ => none
  | _ => none

/-- C80: refuted. `NewMedian(3, opts[:1]...)` replaces `opts[1]`, so that `New(3, opts...)` afterwards interpolates by `Midpoint` and not by
`Lower`. -/
theorem C80_options_refuted : lowerBefore = some Lower ∧ lowerAfter = some Midpoint ∧ Lower ≠ Midpoint := by
  decide +kernel

/-- The hypotheses of `C80_options_partial` and `C80_exact`. -/
example : InBounds twoOptions ⟨0, 0, 1⟩ ∧ InBounds twoOptions ⟨0, 0, 2⟩ ∧
    twoOptions.read ⟨0, 0, 1⟩ = [Opt.impl RedBlack []].map some ∧ (twoOptions.newMedian 0 1 3 ⟨0, 0, 1⟩ ≠ .panic) ∧
    (0 + 2 = (twoOptions.arrays 0).length) := by
  refine ⟨⟨by decide, by decide⟩, ⟨by decide, by decide⟩, rfl, ?_, rfl⟩
  obtain ⟨m', h⟩ := C80_median (0 : ℚ) 1 (m := twoOptions) 3 (s := ⟨0, 0, 1⟩) ⟨by decide, by decide⟩ (os := [Opt.impl RedBlack []]) rfl
  rw [h]; simp

end Verif.Props
