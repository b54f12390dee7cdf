import Verif.Props.JointCore

/-! # C51–C53: configurations of package `joint`, and slices shared with the caller -/

set_option linter.unusedSectionVars false

namespace Verif.Props
open Verif Verif.Spec Verif.Joint Verif.MathUtil

section merge
variable {F : Type} [LinearOrder F]

/-- Two configurations that set one option differently. -/
def JointConflict (a b : Config F) : Prop :=
  (∃ w w', a.window = some w ∧ b.window = some w' ∧ w ≠ w') ∨ (∃ v v', a.vars = some v ∧ b.vars = some v' ∧ v ≠ v') ∨
  ∃ d d', a.decay = some d ∧ b.decay = some d' ∧ d ≠ d'

/-- C51, the part about conflicts, in full: two configurations that set an option differently give an error. -/
theorem C51_conflict {cs : List (Config F)} (h : ∃ a ∈ cs, ∃ b ∈ cs, JointConflict a b) : ∃ e, mergeConfigs cs = .val (.error e) := by
  match cs, h with
  | [], ⟨a, ha, _⟩ => exact absurd ha (List.not_mem_nil)
  | [c], ⟨a, ha, b, hb, hc⟩ =>
    rw [List.mem_singleton] at ha hb
    subst ha; subst hb
    rcases hc with ⟨w, w', h1, h2, h3⟩ | ⟨w, w', h1, h2, h3⟩ | ⟨w, w', h1, h2, h3⟩ <;> (rw [h1] at h2; cases h2; exact absurd rfl h3)
  | c :: c' :: cs, ⟨a, ha, b, hb, hc⟩ => exact mergeMany_error ⟨a, ha, b, hb, hc⟩

/-- C51, the part that holds: for configurations without conflicts whose tuples all have one length and no two different ones the same
hash, the merged configuration has every option set by some input, its tuples are among the inputs' tuples without repetition, and every
tuple of every input is below one of them. Missing: tuples of different lengths and colliding tuples, for which the claim is false. -/
theorem C51_merge_partial {cs : List (Config F)} (hne : cs ≠ []) (hc : ¬ ∃ a ∈ cs, ∃ b ∈ cs, JointConflict a b) {len : Nat}
    (hlen : ∀ c ∈ cs, ∀ t ∈ c.sums.getD [], t.length = len)
    (hinj : ∀ c ∈ cs, ∀ t ∈ c.sums.getD [], ∀ d ∈ cs, ∀ u ∈ d.sums.getD [], Joint.hash t = Joint.hash u → t = u) :
    ∃ m : Config F, mergeConfigs cs = .val (.ok m) ∧
      (∀ c ∈ cs, ∀ t ∈ c.sums.getD [], ∃ u ∈ m.sums.getD [], List.Forall₂ (· ≤ ·) t u) ∧
      (∀ u ∈ m.sums.getD [], ∃ c ∈ cs, u ∈ c.sums.getD []) ∧
      (∀ w, m.window = some w ↔ ∃ c ∈ cs, c.window = some w) ∧ (∀ v, m.vars = some v ↔ ∃ c ∈ cs, c.vars = some v) ∧
      (∀ d, m.decay = some d ↔ ∃ c ∈ cs, c.decay = some d) := by
  match cs, hne with
  | [c], _ =>
    refine ⟨c, rfl, ?_, ?_, by simp, by simp, by simp⟩
    · intro d hd t ht
      rw [List.mem_singleton] at hd
      subst hd
      exact ⟨t, ht, Leq.refl t⟩
    · intro u hu
      exact ⟨c, List.mem_singleton_self c, hu⟩
  | c :: c' :: cs, _ =>
    obtain ⟨m, hm, e⟩ := mergeMany_ok (cs := c :: c' :: cs) hc
    have hmem : ∀ t, t ∈ m.tuples ↔ ∃ d ∈ c :: c' :: cs, t ∈ d.sums.getD [] := by
      intro t
      rw [hm.tuples, List.mem_flatten]
      constructor
      · rintro ⟨l, hl, ht⟩
        obtain ⟨d, hd, rfl⟩ := List.mem_map.1 hl
        exact ⟨d, hd, ht⟩
      · rintro ⟨d, hd, ht⟩
        exact ⟨d.tuples, List.mem_map_of_mem hd, ht⟩
    obtain ⟨s, hs, h1, h2, -⟩ := simplifySums_val (ms := m.tuples) (len := len)
      (fun t ht => by obtain ⟨d, hd, ht⟩ := (hmem t).1 ht; exact hlen d hd t ht)
      (fun t ht u hu h => by
        obtain ⟨d, hd, ht⟩ := (hmem t).1 ht
        obtain ⟨d', hd', hu⟩ := (hmem u).1 hu
        exact hinj d hd t ht d' hd' u hu h)
    rw [hs] at e
    refine ⟨{ m with sums := some s }, e, ?_, ?_, hm.window, hm.vars, hm.decay⟩
    · intro d hd t ht
      exact h2 t ((hmem t).2 ⟨d, hd, ht⟩)
    · intro u hu
      exact (hmem u).1 (h1 u hu)

/-- The inputs of a successful merge; `{1,1}` is dropped because `{2,1}` comes first. -/
example : mergeConfigs [(⟨some [[2, 1]], some 3, none, none⟩ : Config ℚ), ⟨some [[1, 1], [0, 2]], none, some 2, none⟩] =
    .val (.ok ⟨some [[2, 1], [0, 2]], some 3, some 2, none⟩) := by rfl

/-- C51, refuted as stated: merging a configuration for two variables with one for three panics instead of reporting an error, or, in the
other order, silently drops the tuple of the first. -/
theorem C51_length_refuted (w : Int) :
    mergeConfigs [(⟨some [[1, 1]], some w, none, none⟩ : Config F), ⟨some [[1, 1, 1]], some w, none, none⟩] = .panic ∧
    mergeConfigs [(⟨some [[1, 1, 1]], some w, none, none⟩ : Config F), ⟨some [[1, 1]], some w, none, none⟩] =
      .val (.ok ⟨some [[1, 1, 1]], some w, none, none⟩) := by
  simp only [mergeConfigs, mergeMany, mergeLoop, mergeStep, mergeSums, mergeWindow, mergeVars, mergeDecay, Option.getD_some]
  exact ⟨by simp; rfl, by simp; rfl⟩

/-- C51, refuted as stated also for tuples of one length: `{0,32}` has the hash of `{1,1}` and is dropped silently. -/
theorem C51_collision_refuted (w : Int) :
    mergeConfigs [(⟨some [[1, 1]], some w, none, none⟩ : Config F), ⟨some [[0, 32]], some w, none, none⟩] =
      .val (.ok ⟨some [[1, 1]], some w, none, none⟩) := by
  simp only [mergeConfigs, mergeMany, mergeLoop, mergeStep, mergeSums, mergeWindow, mergeVars, mergeDecay, Option.getD_some]
  simp
  rfl

end merge

section valid
variable {K : Type} [Field K] [LinearOrder K]

theorem abs_wrap (t : List Nat) : Joint.abs (up t) = wrap (t.sum : Int) := by
  unfold Joint.abs
  induction t using List.reverseRecOn with
  | nil => rfl
  | append_singleton t n ih =>
    unfold up at ih ⊢
    simp only [List.map_append, List.map_cons, List.map_nil, List.foldl_append, List.foldl_cons, List.foldl_nil, List.sum_append,
      List.sum_cons, List.sum_nil]
    rw [ih]
    unfold wrap
    rw [Int.bmod_add_bmod]
    push_cast
    rfl

/-- C52, the exact characterisation of the configurations (with a number as decay) that `NewCore` accepts. It differs from the claim in
the last condition: the code asks that the sum of a tuple is not a multiple of `2^64`, the claim that it is not zero. -/
theorem C52_exact (cfg : Config K) : (∃ c, newCore cfg = .val (.ok c)) ↔
    ((∃ w : Int, cfg.window = some w ∧ 0 ≤ w ∧ ∀ d, cfg.decay = some d → 0 < d ∧ d < 1 ∧ w = 0) ∧ (∀ v, cfg.vars = some v → 2 ≤ v) ∧
      (∃ n : Nat, ∀ t ∈ cfg.sums.getD [], t.length = n ∧ 2 ≤ n ∧ (∀ v, cfg.vars = some v → (n : Int) = v) ∧ (∀ k ∈ t, 0 ≤ k) ∧
        ¬ (2 ^ 64 ∣ t.sum)) ∧
      (cfg.vars ≠ none ∨ cfg.sums.getD [] ≠ [])) := by
  have habs : ∀ t : Tuple, (∀ k ∈ t, 0 ≤ k) → (Joint.abs t ≠ 0 ↔ ¬ (2 ^ 64 ∣ t.sum)) := by
    intro t ht
    obtain ⟨u, rfl⟩ := exists_up ht
    rw [abs_wrap, ne_eq, wrap_eq_zero, up_sum]
    rw [not_iff_not]
    exact_mod_cast (Int.natCast_dvd_natCast (m := 2 ^ 64) (n := u.sum)).symm
  have h : (∃ c, newCore cfg = .val (.ok c)) ↔ Valid cfg := by
    constructor
    · rintro ⟨c, hc⟩
      exact ((newCore_iff cfg c).1 hc).1
    · intro hv
      obtain ⟨c, h1, -⟩ := newCore_ok hv
      exact ⟨c, h1⟩
  rw [h]
  unfold Valid
  constructor
  · rintro ⟨⟨w, h1, h2⟩, h3, ⟨n, h4⟩, h5⟩
    refine ⟨⟨w, h1, by omega, fun d hd => ⟨(h2 d hd).1, (h2 d hd).2.1, by have := (h2 d hd).2.2; omega⟩⟩, h3, ⟨n, fun t ht => ?_⟩, h5⟩
    obtain ⟨a, b, c, d, e⟩ := h4 t ht
    exact ⟨a, b, c, d, (habs t d).1 e⟩
  · rintro ⟨⟨w, h1, h0, h2⟩, h3, ⟨n, h4⟩, h5⟩
    refine ⟨⟨w.toNat, by rw [h1]; congr 1; omega, fun d hd => ⟨(h2 d hd).1, (h2 d hd).2.1, by have := (h2 d hd).2.2; omega⟩⟩, h3,
      ⟨n, fun t ht => ?_⟩, h5⟩
    obtain ⟨a, b, c, d, e⟩ := h4 t ht
    exact ⟨a, b, c, d, (habs t d).2 e⟩

/-- C52, the part that holds: as stated, for tuples whose entries add up to less than `2^64` (always so for two variables). Missing: a NaN
decay and huge entries, for which the claim is false. -/
theorem C52_new_core_partial (cfg : Config K) (hs : ∀ t ∈ cfg.sums.getD [], t.sum < 2 ^ 64) : (∃ c, newCore cfg = .val (.ok c)) ↔
    ((∃ w : Int, cfg.window = some w ∧ 0 ≤ w ∧ ∀ d, cfg.decay = some d → 0 < d ∧ d < 1 ∧ w = 0) ∧ (∀ v, cfg.vars = some v → 2 ≤ v) ∧
      (∃ n : Nat, ∀ t ∈ cfg.sums.getD [], t.length = n ∧ 2 ≤ n ∧ (∀ v, cfg.vars = some v → (n : Int) = v) ∧ (∀ k ∈ t, 0 ≤ k) ∧
        ∃ k ∈ t, k ≠ 0) ∧
      (cfg.vars ≠ none ∨ cfg.sums.getD [] ≠ [])) := by
  rw [C52_exact]
  refine and_congr_right fun _ => and_congr_right fun _ => and_congr_left fun _ => exists_congr fun n => forall₂_congr fun t ht => ?_
  refine and_congr_right fun _ => and_congr_right fun _ => and_congr_right fun _ => and_congr_right fun h0 => ?_
  have hnn : 0 ≤ t.sum := List.sum_nonneg h0
  constructor
  · intro hd
    by_contra hc
    push Not at hc
    exact hd (by rw [List.sum_eq_zero hc]; exact dvd_zero _)
  · rintro ⟨k, hk, hk0⟩ hd
    have h1 : t.sum = 0 := Int.eq_zero_of_dvd_of_nonneg_of_lt hnn (hs t ht) hd
    have h2 := List.single_le_sum h0 k hk
    have h3 := h0 k hk
    omega

example : (∃ c, newCore (⟨some [[1, 1], [2, 0]], some 3, some 2, none⟩ : Config ℚ) = .val (.ok c)) ∧
    validate 0 1 (setDefaults (⟨some [[1, 1], [0, 0]], some 3, some 2, none⟩ : Config ℚ)) = some "config has a Tuple that is all 0s" ∧
    validate 0 1 (setDefaults (⟨some [[1, 1], [1, 1, 1]], some 3, none, none⟩ : Config ℚ)) = some "sums have differing length" := by
  refine ⟨(C52_new_core_partial _ (by decide)).2 ⟨⟨3, rfl, by decide, by simp⟩, by simp, ⟨2, by simp⟩, by simp⟩, by decide +kernel, by decide +kernel⟩

/-- C52, refuted as stated: a NaN decay is accepted. -/
theorem C52_nan_decay_refuted (zero one : K) :
    validate (WithNaN.num zero) (WithNaN.num one) (setDefaults (⟨some [[1, 1]], some 0, none, some .nan⟩ : Config (WithNaN K))) = none := rfl

/-- C52, refuted as stated: `{2^63-1, 2^63-1, 2}` is rejected as being "all 0s". -/
theorem C52_overflow_refuted : ∀ e, validate 0 1 (setDefaults (⟨some [[2 ^ 63 - 1, 2 ^ 63 - 1, 2]], some 0, none, none⟩ : Config ℚ)) = e →
    e = some "config has a Tuple that is all 0s" := by
  rintro e rfl
  decide +kernel

end valid

section slices
variable {K : Type} [Field K] [LinearOrder K] [IsStrictOrderedRing K]

theorem view_new {cfg : Config K} {c : Core K} (h : mk cfg = .val c) (mem : Nat → List K) : (Alias.new c mem).view = c := by
  obtain ⟨-, -, -, -, -, hq⟩ := mk_keys h
  obtain ⟨m, t, s, ns, ct, w, d, q⟩ := c
  simp only at hq
  subst hq
  rfl

/-- The core behaves as if every push had delivered the contents the slice had at that moment (`reads`): same errors, and equal answers
to every query. -/
def ReadsAtPush (c : Core K) (mem : Nat → List K) (ops : List (AOp K)) : Prop :=
  ∀ s' es, Alias.run (Alias.new c mem) ops = .val (s', es) → ∃ c', run c (reads mem ops) = .val (c', es) ∧
    Joint.count s'.core = Joint.count c' ∧ (∀ t, Joint.sum s'.core t = Joint.sum c' t) ∧ ∀ j, Joint.mean s'.core j = Joint.mean c' j

theorem readsAtPush_of_quiet {cfg : Config K} {c : Core K} (h : mk cfg = .val c) {mem : Nat → List K} {ops : List (AOp K)}
    (hq : Quiet (Alias.new c mem) ops) : ReadsAtPush c mem ops := by
  intro s' es e
  have hr := runOps_view ops (Alias.new c mem) [] hq
  unfold Alias.run at e
  rw [e, view_new h] at hr
  exact ⟨s'.view, hr.symm, rfl, fun _ => rfl, fun _ => rfl⟩

/-- C53, the part that holds for every configuration: the caller may do anything with its slices if the window is 0, and may do anything
with slices it has not yet pushed in any case. Missing: slices written while still in the window, for which the claim is false. -/
theorem C53_alias_partial {cfg : Config K} {c : Core K} (hn : newCore cfg = .val (.ok c)) (mem : Nat → List K) (ops : List (AOp K))
    (h : cfg.window = some 0 ∨ NoReuse [] ops) : ReadsAtPush c mem ops := by
  obtain ⟨hmk, -⟩ := joint_cfg hn
  refine readsAtPush_of_quiet hmk ?_
  rcases h with h | h
  · obtain ⟨-, -, hw, -⟩ := mk_QOk hmk
    refine quiet_of_global ops _ (by simp [Alias.new, Ring.new]) ?_
    change c.window = 0
    rw [hw]
    simp [setDefaults, h]
  · exact quiet_of_noReuse ops _ [] (by simp [Alias.new, Ring.new]) h

/-- C53, windows: the caller may write a slice again as soon as it is not among the last `w` accepted ones (`Recent`). -/
theorem C53_window_partial {cfg : Config K} {c : Core K} (hn : newCore cfg = .val (.ok c)) (hd : cfg.decay = none) {w : Nat} (h0 : w ≠ 0)
    (hw : cfg.window = some (w : Int)) (hm : Moderate (cfg.sums.getD [])) (hi : NoCollision (cfg.sums.getD []))
    (hov : 2 ≤ w → NoOverlapZ (cfg.sums.getD [])) {n : Nat} (hv : varsOf cfg = n) (mem : Nat → List K) (ops : List (AOp K))
    (h : Recent w n mem [] ops) : ReadsAtPush c mem ops := by
  obtain ⟨hmk, n', ts, w', hts, hv', hw', -, hl⟩ := joint_cfg hn
  have hnn : n' = n := by rw [hv] at hv'; exact_mod_cast hv'.symm
  subst hnn
  rw [hts] at hm hi hov
  have hg := joint_good hl hm hi
  have hW : W n' ts w ([] : List (List K)) c :=
    mk_W hmk (by simpa [setDefaults] using hts) (by
      have : varsOf (setDefaults cfg) = varsOf cfg := by unfold varsOf setDefaults; rfl
      rw [this, hv]; rfl) hw hd
  refine readsAtPush_of_quiet hmk (quiet_of_recent hg h0 (fun h2 => joint_overlap (hov h2)) ops _ [] [] ?_ (by simp [Alias.new, Ring.new]) h)
  rw [view_new hmk]
  exact hW

/-- The sums after a test run with slices. -/
def aliasTest (cfg : Config ℚ) (ops : List (AOp ℚ)) (ts : List Tuple) : Option (Int × List (Except Err ℚ) × List Err) :=
  match newCore cfg with
  | .val (.ok c) =>
    match Alias.run (Alias.new c (fun _ => [])) ops with
    | .val (s, es) => some (Joint.count s.core, ts.map (Joint.sum s.core), es)
    | _ => none
  | _ => none

/-- C53, refuted as stated: the same slice filled anew before every push, window 2. The evicted point is read as `[3, 1]` instead of
`[0, 0]`; `Sum(1,1)` and `Sum(2,0)` are then 1 and 1/2 instead of -1 and 2. -/
theorem C53_reuse_refuted :
    aliasTest ⟨some [[1, 1], [2, 0]], some 2, none, none⟩
      [.write 0 [0, 0], .push 0, .write 0 [1, 2], .push 0, .write 0 [3, 1], .push 0] [[1, 1], [2, 0]] =
        some (2, [.ok 1, .ok (1 / 2)], []) ∧
    jointTest ⟨some [[1, 1], [2, 0]], some 2, none, none⟩ [.push [0, 0], .push [1, 2], .push [3, 1]] [[1, 1], [2, 0]] =
        some (2, [.ok (-1), .ok 2], []) ∧
    reads (fun _ => []) [.write 0 [(0 : ℚ), 0], .push 0, .write 0 [1, 2], .push 0, .write 0 [3, 1], .push 0] =
      [.push [0, 0], .push [1, 2], .push [3, 1]] := by
  refine ⟨by decide +kernel, by decide +kernel, ?_⟩
  simp [reads]

/-- Two buffers used in turn are enough for window 1. -/
example : Recent 1 2 (fun _ => ([] : List ℚ)) [] [.write 0 [0, 0], .push 0, .write 1 [1, 2], .push 1, .write 0 [3, 1], .push 0] ∧
    aliasTest ⟨some [[1, 1]], some 1, none, none⟩ [.write 0 [0, 0], .push 0, .write 1 [1, 2], .push 1, .write 0 [3, 1], .push 0] [[1, 1]] =
      some (1, [.ok 0], []) := by
  refine ⟨?_, by decide +kernel⟩
  simp [Recent, lastN]

end slices
end Verif.Props
