import Verif.Proofs.Decide
import Verif.Proofs.JointAlias
import Verif.Proofs.JointMetric

/-! # C42–C44, C47–C53: the core of package `joint`

Histories are lists of `Push`/`Clear` calls on slices. `ops.filter (okArity n)` leaves out the pushes with a wrong number of values;
`since` and `windowOf w` are the values pushed since the last `Clear` and the last `w` of them. Exact arithmetic in a linearly ordered
field `K`. -/

set_option linter.unusedSectionVars false

namespace Verif.Props
open Verif Verif.Spec Verif.Joint

/-- `m` is a non-negative tuple below the (integer) tuple `t`. -/
abbrev BelowZ (m : List Nat) (t : Tuple) : Prop := List.Forall₂ (fun (a : Nat) (b : Int) => (a : Int) ≤ b) m t

/-- The tuples for which a core configured with `ts` answers. -/
def TracksZ (ts : List Tuple) (m : List Nat) : Prop := ∃ t ∈ ts, BelowZ m t

/-- No two different tuples below configured ones have the same hash. -/
def NoCollision (ts : List Tuple) : Prop :=
  ∀ a b : List Nat, TracksZ ts a → TracksZ ts b → Joint.hash (a.map Int.ofNat) = Joint.hash (b.map Int.ofNat) → a = b

/-- No tuple of total order two or more is below two different configured tuples. -/
def NoOverlapZ (ts : List Tuple) : Prop := ts.Pairwise (fun t u => ∀ a : List Nat, BelowZ a t → BelowZ a u → a.sum ≤ 1)

/-- Exponents for which the 64-bit multinomial coefficients are exact: at most 20 each, at most 62 in total (C40). -/
def Moderate (ts : List Tuple) : Prop := ∀ t ∈ ts, (∀ k ∈ t, k ≤ 20) ∧ t.sum ≤ 62

theorem belowZ_up {m t : List Nat} : BelowZ m (up t) ↔ Below m t := by
  unfold BelowZ up Below
  rw [List.forall₂_map_right_iff]
  simp

theorem tracksZ_up {ts : List (List Nat)} {m : List Nat} : TracksZ (ts.map up) m ↔ Tracked ts m := by
  unfold TracksZ Tracked
  constructor
  · rintro ⟨t, ht, h⟩
    obtain ⟨u, hu, rfl⟩ := List.mem_map.1 ht
    exact ⟨u, hu, belowZ_up.1 h⟩
  · rintro ⟨t, ht, h⟩
    exact ⟨up t, List.mem_map_of_mem ht, belowZ_up.2 h⟩

theorem exists_up {t : Tuple} (h : ∀ k ∈ t, 0 ≤ k) : ∃ u : List Nat, t = up u := by
  induction t with
  | nil => exact ⟨[], rfl⟩
  | cons k t ih =>
    obtain ⟨u, rfl⟩ := ih (fun k hk => h k (List.mem_cons_of_mem _ hk))
    obtain ⟨j, rfl⟩ := Int.eq_ofNat_of_zero_le (h k List.mem_cons_self)
    exact ⟨j :: u, rfl⟩

theorem exists_ups {ts : List Tuple} (h : ∀ t ∈ ts, ∀ k ∈ t, 0 ≤ k) : ∃ us : List (List Nat), ts = us.map up := by
  induction ts with
  | nil => exact ⟨[], rfl⟩
  | cons t ts ih =>
    obtain ⟨us, rfl⟩ := ih (fun t ht => h t (List.mem_cons_of_mem _ ht))
    obtain ⟨u, rfl⟩ := exists_up (h t List.mem_cons_self)
    exact ⟨u :: us, rfl⟩

theorem up_sum (t : List Nat) : (up t).sum = (t.sum : Int) := by
  induction t with
  | nil => rfl
  | cons k t ih =>
    have h : up (k :: t) = (k : Int) :: up t := rfl
    rw [h, List.sum_cons, ih, List.sum_cons]
    push_cast
    rfl

/-- With at most 12 variables and moderate exponents there are no collisions (C49). -/
theorem noCollision_of_small {n : Nat} (hn : n ≤ 12) {ts : List Tuple} (hl : ∀ t ∈ ts, t.length = n) (hm : Moderate ts) : NoCollision ts := by
  intro a b ⟨t, ht, ha⟩ ⟨u, hu, hb⟩ he
  have hlt : ∀ {m : List Nat} {t : Tuple}, BelowZ m t → (∀ k ∈ t, k ≤ 20) → ∀ k ∈ m, k < 31 := by
    intro m t h h20
    induction h with
    | nil => simp
    | cons hab _ ih =>
      intro k hk
      rcases List.mem_cons.1 hk with rfl | hk
      · have := h20 _ List.mem_cons_self; omega
      · exact ih (fun k hk => h20 k (List.mem_cons_of_mem _ hk)) k hk
  have h1 : a.length = n := by rw [← hl t ht]; exact List.Forall₂.length_eq ha
  have h2 : b.length = n := by rw [← hl u hu]; exact List.Forall₂.length_eq hb
  exact hash_inj (by omega) (by omega) (hlt ha (hm t ht).1) (hlt hb (hm u hu).1) he

section core
variable {K : Type} [Field K] [LinearOrder K] [IsStrictOrderedRing K]

/-- A helper: what an accepted configuration looks like. -/
theorem joint_cfg {cfg : Config K} {c : Core K} (hn : newCore cfg = .val (.ok c)) :
    mk (setDefaults cfg) = .val c ∧ ∃ (n : Nat) (ts : List (List Nat)) (w : Nat), cfg.sums.getD [] = ts.map up ∧ varsOf cfg = n ∧
      cfg.window = some (w : Int) ∧ (∀ d, cfg.decay = some d → 0 < d ∧ d < 1 ∧ w = 0) ∧ (∀ t ∈ ts, t.length = n) := by
  obtain ⟨hv, hm⟩ := (newCore_iff cfg c).1 hn
  obtain ⟨⟨w, hw, hd⟩, hvars, ⟨n, hts⟩, hor⟩ := hv
  obtain ⟨us, hus⟩ := exists_ups (ts := cfg.sums.getD []) (fun t ht => (hts t ht).2.2.2.1)
  have hlen : ∀ t ∈ us, t.length = n := by
    intro t ht
    have := (hts (up t) (by rw [hus]; exact List.mem_map_of_mem ht)).1
    simpa [up] using this
  refine ⟨hm, ?_⟩
  cases hv : cfg.vars with
  | some v =>
    have h2 := hvars v hv
    refine ⟨v.toNat, us, w, hus, ?_, hw, hd, ?_⟩
    · unfold varsOf; rw [hv]; simp; omega
    · intro t ht
      have h3 := (hts (up t) (by rw [hus]; exact List.mem_map_of_mem ht)).2.2.1 v hv
      rw [hlen t ht]; omega
  | none =>
    refine ⟨n, us, w, hus, ?_, hw, hd, hlen⟩
    unfold varsOf
    rw [hv]
    simp only
    rw [hv] at hor
    have hne : cfg.sums.getD [] ≠ [] := by simpa using hor
    cases hs : cfg.sums.getD [] with
    | nil => exact absurd hs hne
    | cons t ts =>
      have := (hts t (by rw [hs]; exact List.mem_cons_self)).1
      simp [this]

theorem joint_good {ts : List (List Nat)} {n : Nat} (hl : ∀ t ∈ ts, t.length = n) (hm : Moderate (ts.map up)) (hi : NoCollision (ts.map up)) :
    Good n ts := by
  refine ⟨hl, fun t ht => ?_, fun a b ha hb => hi a b (tracksZ_up.2 ha) (tracksZ_up.2 hb)⟩
  obtain ⟨h1, h2⟩ := hm (up t) (List.mem_map_of_mem ht)
  refine ⟨fun k hk => ?_, ?_⟩
  · have := h1 k (List.mem_map_of_mem hk); omega
  · rw [up_sum] at h2; omega

theorem joint_overlap {ts : List (List Nat)} (h : NoOverlapZ (ts.map up)) : NoOverlap ts := by
  unfold NoOverlapZ at h
  rw [List.pairwise_map] at h
  exact h.imp (fun h a h1 h2 => h a (belowZ_up.2 h1) (belowZ_up.2 h2))

/-- A helper: a run of a core without decay. -/
theorem joint_run_W {cfg : Config K} {c : Core K} (hn : newCore cfg = .val (.ok c)) (hd : cfg.decay = none) (hm : Moderate (cfg.sums.getD []))
    (hi : NoCollision (cfg.sums.getD [])) {w : Nat} (hw : cfg.window = some (w : Int)) (hov : 2 ≤ w → NoOverlapZ (cfg.sums.getD []))
    {n : Nat} (hv : varsOf cfg = n) (ops : List (MOp (List K))) :
    ∃ (ts : List (List Nat)) (c' : Core K), cfg.sums.getD [] = ts.map up ∧ Good n ts ∧
      run c ops = .val (c', List.replicate (ops.countP (fun o => !okArity n o)) "tried to push a wrong number of values") ∧
      W n ts w (since (ops.filter (okArity n))) c' := by
  obtain ⟨hmk, n', ts, w', hts, hv', hw', -, hl⟩ := joint_cfg hn
  have hnn : n' = n := by rw [hv] at hv'; exact_mod_cast hv'.symm
  subst hnn
  have hww : w' = w := by rw [hw] at hw'; simp at hw'; omega
  subst hww
  rw [hts] at hm hi hov
  have hg := joint_good hl hm hi
  have hW : W n' ts w' ([] : List (List K)) c :=
    mk_W hmk (by simpa [setDefaults] using hts) (by
      have : varsOf (setDefaults cfg) = varsOf cfg := by unfold varsOf setDefaults; rfl
      rw [this, hv]; rfl) hw hd
  obtain ⟨c', e, h⟩ := run_W hg (fun h2 => joint_overlap (hov h2)) hW ops
  exact ⟨ts, c', hts, hg, e, h⟩

/-- The complete observable behaviour of a core without decay over the data points `data`. -/
structure JointAnswers (ts : List Tuple) (n : Nat) (data : List (List K)) (c : Core K) : Prop where
  count : Joint.count c = data.length
  sum : data ≠ [] → ∀ m : List Nat, TracksZ ts m → m.sum ≠ 0 → Joint.sum c (m.map Int.ofNat) = .ok (jsum m data)
  mean : data ≠ [] → ∀ j : Nat, j < n → Joint.mean c j = .ok ((coord j data).sum / data.length)
  empty : data = [] → ∀ t : Tuple, ∃ e, Joint.sum c t = .error e
  range : ∀ j : Int, data = [] ∨ j < 0 ∨ (n : Int) ≤ j → ∃ e, Joint.mean c j = .error e

theorem answers_W {n : Nat} {ts : List (List Nat)} (hg : Good n ts) {w : Nat} {xs : List (List K)} {c : Core K} (h : W n ts w xs c) :
    JointAnswers (ts.map up) n (lastN w xs) c where
  count := h.count
  sum hne m hm h0 := h.sum_ok hg hne (tracksZ_up.1 hm) h0
  mean hne j hj := by
    rw [h.mean_ok hne hj]
    simp [Spec.mean]
  empty he t := ⟨_, h.sum_error he t⟩
  range j hj := h.mean_error hj

/-- C42, in full for moderate exponents: a core with window 0 and no decay, configured with tuples without hash collisions, after any
history of pushes (also rejected ones) and clears, answers with the joint centralized power sums of all the points. -/
theorem C42_sum_global {cfg : Config K} {c : Core K} (hn : newCore cfg = .val (.ok c)) (hd : cfg.decay = none) (hw : cfg.window = some 0)
    (hm : Moderate (cfg.sums.getD [])) (hi : NoCollision (cfg.sums.getD [])) {n : Nat} (hv : varsOf cfg = n) (ops : List (MOp (List K))) :
    ∃ (c' : Core K) (es : List Err), run c ops = .val (c', es) ∧ es.length = ops.countP (fun o => !okArity n o) ∧
      JointAnswers (cfg.sums.getD []) n (since (ops.filter (okArity n))) c' := by
  obtain ⟨ts, c', hts, hg, e, h⟩ := joint_run_W hn hd hm hi (w := 0) hw (by omega) hv ops
  refine ⟨c', _, e, by simp, ?_⟩
  rw [hts]
  have := answers_W hg h
  rwa [lastN_zero] at this

/-- The hypotheses of C42 hold for every accepted configuration with at most 12 variables and moderate exponents. -/
theorem C42_sum_global_12 {cfg : Config K} {c : Core K} (hn : newCore cfg = .val (.ok c)) (hd : cfg.decay = none) (hw : cfg.window = some 0)
    (hm : Moderate (cfg.sums.getD [])) {n : Nat} (hv : varsOf cfg = n) (h12 : n ≤ 12) (ops : List (MOp (List K))) :
    ∃ (c' : Core K) (es : List Err), run c ops = .val (c', es) ∧ es.length = ops.countP (fun o => !okArity n o) ∧
      JointAnswers (cfg.sums.getD []) n (since (ops.filter (okArity n))) c' := by
  refine C42_sum_global hn hd hw hm ?_ hv ops
  obtain ⟨-, n', ts, w', hts, hv', -, -, hl⟩ := joint_cfg hn
  have hnn : n' = n := by rw [hv] at hv'; exact_mod_cast hv'.symm
  subst hnn
  refine noCollision_of_small h12 (fun t ht => ?_) hm
  rw [hts] at ht
  obtain ⟨u, hu, rfl⟩ := List.mem_map.1 ht
  rw [← hl u hu]; simp [up]

/-- The observations of a test run: count and some sums. -/
def jointObs (ts : List Tuple) : Go (Core ℚ × List Err) → Option (Int × List (Except Err ℚ) × List Err)
  | .val (c, es) => some (Joint.count c, ts.map (Joint.sum c), es)
  | _ => none

/-- A test run of a new core. -/
def jointTest (cfg : Config ℚ) (ops : List (MOp (List ℚ))) (ts : List Tuple) : Option (Int × List (Except Err ℚ) × List Err) :=
  match newCore cfg with
  | .val (.ok c) => jointObs ts (run c ops)
  | _ => none

/-- Three variables, overlapping tuples, a rejected push and a `Clear`. -/
example : jointTest ⟨some [[2, 1, 0], [1, 1, 1]], some 0, none, none⟩
      [.push [9, 9, 9], .clear, .push [1, 2, 0], .push [3, 1], .push [3, 5, 2], .push [5, 5, 4]] [[2, 1, 0], [1, 1, 0], [0, 1, 1], [1, 1, 1], [2, 0, 0]] =
    some (3, [.ok (jsum [2, 1, 0] [[1, 2, 0], [3, 5, 2], [5, 5, 4]]), .ok 6, .ok 6, .ok (jsum [1, 1, 1] [[1, 2, 0], [3, 5, 2], [5, 5, 4]]), .ok 8],
      ["tried to push a wrong number of values"]) ∧
    jsum [2, 1, 0] [[(1 : ℚ), 2, 0], [3, 5, 2], [5, 5, 4]] = -4 ∧ Moderate [[2, 1, 0], [1, 1, 1]] := by
  refine ⟨by decide +kernel, by decide +kernel, ?_⟩
  simp [Moderate]

/-- The bound on the exponents in C42 is needed: with `{21, 0}` the 64-bit factorial of 21 overflows (C40), and the sum for the points
(0,0), (2,0), (4,0) is 2271562 instead of 0. -/
theorem C42_bound_needed :
    jointTest ⟨some [[21, 0]], some 0, none, none⟩ [.push [0, 0], .push [2, 0], .push [4, 0]] [[21, 0]] = some (3, [.ok 2271562], []) ∧
    jsum [21, 0] [[(0 : ℚ), 0], [2, 0], [4, 0]] = 0 := by decide +kernel

/-- C43, the part that holds: the same over a rolling window, if no tuple of order two or more is below two configured ones (needed only
for windows of two or more points). Missing: configurations with overlapping tuples, for which the claim is false. -/
theorem C43_sum_window_partial {cfg : Config K} {c : Core K} (hn : newCore cfg = .val (.ok c)) (hd : cfg.decay = none) {w : Nat}
    (hw : cfg.window = some (w : Int)) (hm : Moderate (cfg.sums.getD [])) (hi : NoCollision (cfg.sums.getD []))
    (hov : 2 ≤ w → NoOverlapZ (cfg.sums.getD [])) {n : Nat} (hv : varsOf cfg = n) (ops : List (MOp (List K))) :
    ∃ (c' : Core K) (es : List Err), run c ops = .val (c', es) ∧ es.length = ops.countP (fun o => !okArity n o) ∧
      JointAnswers (cfg.sums.getD []) n (windowOf w (ops.filter (okArity n))) c' := by
  obtain ⟨ts, c', hts, hg, e, h⟩ := joint_run_W hn hd hm hi hw hov hv ops
  refine ⟨c', _, e, by simp, ?_⟩
  rw [hts]
  exact answers_W hg h

/-- A run with evictions; `{2,1}` alone overlaps with nothing. -/
example : jointTest ⟨some [[2, 1]], some 2, none, none⟩ [.push [0, 0], .push [1, 2], .push [3, 1]] [[1, 1], [2, 0], [2, 1]] =
    some (2, [.ok (-1), .ok 2, .ok 0], []) ∧ jsum [1, 1] [[(1 : ℚ), 2], [3, 1]] = -1 ∧ jsum [2, 1] [[(1 : ℚ), 2], [3, 1]] = 0 := by decide +kernel

/-- C43, refuted as stated: with `{2,1}` and `{1,2}` configured, the evicted point is subtracted twice from the sum for `{1,1}`, which then
is -2 instead of -1, and `{2,1}` and `{1,2}` are wrong as well. -/
theorem C43_overlap_refuted :
    jointTest ⟨some [[2, 1], [1, 2]], some 2, none, none⟩ [.push [0, 0], .push [1, 2], .push [3, 1]] [[1, 1], [2, 1], [1, 2]] =
      some (2, [.ok (-2), .ok 2, .ok 1], []) ∧
    [[1, 1], [2, 1], [1, 2]].map (fun m => jsum m (windowOf 2 [MOp.push [(0 : ℚ), 0], .push [1, 2], .push [3, 1]])) = [-1, 0, 0] := by
  decide +kernel

/-- C44, in full for moderate exponents without hash collisions: a core with decay `d` holds the exponentially weighted joint central
moments of all the points, also for overlapping tuples. -/
theorem C44_decay {cfg : Config K} {c : Core K} (hn : newCore cfg = .val (.ok c)) {d : K} (hd : cfg.decay = some d)
    (hm : Moderate (cfg.sums.getD [])) (hi : NoCollision (cfg.sums.getD [])) {n : Nat} (hv : varsOf cfg = n) (ops : List (MOp (List K))) :
    ∃ (c' : Core K) (es : List Err), run c ops = .val (c', es) ∧ es.length = ops.countP (fun o => !okArity n o) ∧
      Joint.count c' = (since (ops.filter (okArity n))).length ∧
      (since (ops.filter (okArity n)) ≠ [] →
        (∀ m : List Nat, TracksZ (cfg.sums.getD []) m → m.sum ≠ 0 →
          Joint.sum c' (m.map Int.ofNat) = .ok (ewJoint d m (since (ops.filter (okArity n))))) ∧
        ∀ j : Nat, j < n → Joint.mean c' j = .ok (ewMean d (coord j (since (ops.filter (okArity n)))))) ∧
      (since (ops.filter (okArity n)) = [] → ∀ t : Tuple, ∃ e, Joint.sum c' t = .error e) := by
  obtain ⟨hmk, n', ts, w', hts, hv', hw', hdec, hl⟩ := joint_cfg hn
  have hnn : n' = n := by rw [hv] at hv'; exact_mod_cast hv'.symm
  subst hnn
  have hw0 : w' = 0 := (hdec d hd).2.2
  subst hw0
  rw [hts] at hm hi
  have hg := joint_good hl hm hi
  have hD : D n' ts d ([] : List (List K)) c :=
    mk_D hmk (by simpa [setDefaults] using hts) (by
      have : varsOf (setDefaults cfg) = varsOf cfg := by unfold varsOf setDefaults; rfl
      rw [this, hv]; rfl) hw' hd
  obtain ⟨c', e, h⟩ := run_D hg hD ops
  refine ⟨c', _, e, by simp, h.count, fun hne => ⟨fun m hm h0 => ?_, fun j hj => h.mean_ok hne hj⟩, fun he t => ⟨_, h.sum_error he t⟩⟩
  rw [hts] at hm
  exact h.sum_ok hg hne (tracksZ_up.1 hm) h0

example : jointTest ⟨some [[2, 1], [1, 2]], some 0, none, some (1 / 2)⟩ [.push [0, 0], .push [1, 2], .push [3, 1]] [[1, 1], [2, 1]] =
    some (3, [.ok (ewJoint (1 / 2) [1, 1] [[0, 0], [1, 2], [3, 1]]), .ok (ewJoint (1 / 2) [2, 1] [[0, 0], [1, 2], [3, 1]])], []) ∧
    ewJoint (1 / 2 : ℚ) [1, 1] [[0, 0], [1, 2], [3, 1]] = 1 / 4 := by decide +kernel

/-- C47, in full at the core: in every state whatever, a slice of the wrong length is rejected and the state stays the same. -/
theorem C47_arity (c : Core K) (xs : List K) (h : xs.length ≠ c.means.length) : ∃ e, push c xs = .val (c, some e) :=
  ⟨_, push_arity h⟩

/-- C47, histories: whatever the configuration, leaving out the pushes of the wrong length gives the same final state and only their
errors less. -/
theorem C47_histories {cfg : Config K} {c : Core K} (hn : newCore cfg = .val (.ok c)) {n : Nat} (hv : varsOf cfg = n) (ops : List (MOp (List K)))
    {c' : Core K} {es : List Err} (h : run c (ops.filter (okArity n)) = .val (c', es)) :
    ∃ es', run c ops = .val (c', es') ∧ es'.length = es.length + ops.countP (fun o => !okArity n o) := by
  obtain ⟨hmk, -⟩ := joint_cfg hn
  obtain ⟨hq, -, -, -, -, hlen⟩ := mk_QOk hmk
  have : c.means.length = n := by
    rw [hlen]
    have : varsOf (setDefaults cfg) = varsOf cfg := by unfold varsOf setDefaults; rfl
    rw [this, hv]; rfl
  rw [← this] at h ⊢
  exact run_filter c ops hq h

example : jointTest ⟨some [[1, 1]], some 3, none, none⟩ [.push [1], .push [0, 0], .push [1, 2, 3], .push [1, 2]] [[1, 1]] =
    some (2, [.ok 1], List.replicate 2 "tried to push a wrong number of values") := by decide +kernel

end core

section tuples

/-- C48, in full: the calls of `iter` are, in this order, the elements of a list `l` that contains exactly the tuples `0 ≤ m ≤ t`, each
once, never a tuple before a smaller one (forward) or before a larger one (reverse). The callback is arbitrary, with arbitrary state,
errors and panics; `forEach` is a plain loop. -/
theorem C48_iter (t : Tuple) (reverse : Bool) : ∃ l : List Tuple,
    (∀ m, m ∈ l ↔ List.Forall₂ (fun a b => 0 ≤ a ∧ a ≤ b) m t) ∧ l.Nodup ∧
    l.Pairwise (fun m n => if reverse then ¬ List.Forall₂ (· ≤ ·) m n else ¬ List.Forall₂ (· ≤ ·) n m) ∧
    (∀ (σ : Type) (cb : Tuple → σ → Go (σ × List Err)) (s : σ), iter t reverse cb s = forEach cb l s) ∧
    iter t reverse (fun m s => .val (s ++ [m], [])) [] = .val (l, []) := by
  refine ⟨visited reverse t, fun m => mem_visited, nodup_visited reverse t, visited_order reverse t, fun σ cb s => iter_eq reverse t cb s, ?_⟩
  rw [iter_eq]
  suffices H : ∀ (l acc : List Tuple), forEach (fun m s => Go.val (s ++ [m], [])) l acc = .val (acc ++ l, []) by
    simpa using H (visited reverse t) []
  intro l
  induction l with
  | nil => intro acc; simp [forEach]
  | cons a l ih => intro acc; simp [forEach, ih]

instance {α β : Type} [DecidableEq α] [DecidableEq β] : DecidableEq (Go (α × β)) := fun a b =>
  match a, b with
  | .panic, .panic => isTrue rfl
  | .hang, .hang => isTrue rfl
  | .val x, .val y => if h : x = y then isTrue (by rw [h]) else isFalse (by simpa using h)
  | .panic, .hang => isFalse (by simp)
  | .panic, .val _ => isFalse (by simp)
  | .hang, .panic => isFalse (by simp)
  | .hang, .val _ => isFalse (by simp)
  | .val _, .panic => isFalse (by simp)
  | .val _, .hang => isFalse (by simp)

example : iter [1, 2] true (fun m s => .val (s ++ [m], [])) [] = .val ([[1, 2], [0, 2], [1, 1], [0, 1], [1, 0], [0, 0]], []) ∧
    iter [1, -1] false (fun m s => .val (s ++ [m], [])) [] = .val (([] : List Tuple), []) := by decide +kernel

/-- C49, the part that holds: no collisions among tuples of the same length up to 12 with entries below 31. Missing: longer tuples, for
which the claim is false. -/
theorem C49_hash_partial {a b : Tuple} (hl : a.length = b.length) (h12 : a.length ≤ 12) (ha : ∀ k ∈ a, 0 ≤ k ∧ k < 31)
    (hb : ∀ k ∈ b, 0 ≤ k ∧ k < 31) (h : Joint.hash a = Joint.hash b) : a = b := by
  obtain ⟨u, rfl⟩ := exists_up (fun k hk => (ha k hk).1)
  obtain ⟨v, rfl⟩ := exists_up (fun k hk => (hb k hk).1)
  rw [hash_inj (a := u) (b := v) (by simpa [up] using hl) (by simpa [up] using h12)
    (fun k hk => by have := (ha k (List.mem_map_of_mem hk)).2; omega)
    (fun k hk => by have := (hb k (List.mem_map_of_mem hk)).2; omega) h]

example : Joint.hash [1, 2] = 33 ∧ Joint.hash [0, 33] = 33 ∧ Joint.hash [30, 30] = 960 := by decide

/-- C49, refuted as stated: 13 entries are enough to wrap around 64 bits. -/
theorem C49_long_refuted : ∃ a b : Tuple, a.length = 13 ∧ b.length = 13 ∧ (∀ k ∈ a, 0 ≤ k ∧ k < 31) ∧ (∀ k ∈ b, 0 ≤ k ∧ k < 31) ∧
    a ≠ b ∧ Joint.hash a = Joint.hash b :=
  ⟨[23, 13, 0, 7, 5, 18, 11, 4, 5, 20, 8, 6, 16], List.replicate 13 0, rfl, rfl, by decide, by decide, by decide, by decide +kernel⟩

end tuples

section queries
variable {K : Type} [Field K] [LinearOrder K] [IsStrictOrderedRing K]

/-- C50, the part that holds: if the queried tuple has the hash of no *other* tracked tuple, `Sum` answers with the sum for exactly this
tuple if it is tracked (and not the zero tuple) and with an error if it is not. Missing: queries that collide, and the zero tuple. -/
theorem C50_sum_partial {cfg : Config K} {c : Core K} (hn : newCore cfg = .val (.ok c)) (hd : cfg.decay = none) {w : Nat}
    (hw : cfg.window = some (w : Int)) (hm : Moderate (cfg.sums.getD [])) (hi : NoCollision (cfg.sums.getD []))
    (hov : 2 ≤ w → NoOverlapZ (cfg.sums.getD [])) {n : Nat} (hv : varsOf cfg = n) (ops : List (MOp (List K))) :
    ∃ (c' : Core K) (es : List Err), run c ops = .val (c', es) ∧
      ∀ t : Tuple, (∀ a : List Nat, TracksZ (cfg.sums.getD []) a → Joint.hash (a.map Int.ofNat) = Joint.hash t → a.map Int.ofNat = t) →
        ((∃ e, Joint.sum c' t = .error e) ↔
          (windowOf w (ops.filter (okArity n)) = [] ∨ ¬ ∃ m : List Nat, TracksZ (cfg.sums.getD []) m ∧ t = m.map Int.ofNat)) ∧
        ∀ m : List Nat, TracksZ (cfg.sums.getD []) m → t = m.map Int.ofNat → m.sum ≠ 0 → windowOf w (ops.filter (okArity n)) ≠ [] →
          Joint.sum c' t = .ok (jsum m (windowOf w (ops.filter (okArity n)))) := by
  obtain ⟨ts, c', hts, hg, e, h⟩ := joint_run_W hn hd hm hi hw hov hv ops
  have ha := answers_W hg h
  rw [hts]
  refine ⟨c', _, e, fun t ht => ⟨⟨fun ⟨e, he⟩ => ?_, fun hc => ?_⟩, fun m hmt hte h0 hne => ?_⟩⟩
  · by_contra hc
    rw [not_or, not_not] at hc
    obtain ⟨hne, m, hmt, rfl⟩ := hc
    have hc0 : c'.count ≠ 0 := by
      rw [h.count]
      have := List.length_pos_iff.2 hne
      unfold windowOf at this
      omega
    have hv := h.rep.val m (tracksZ_up.1 hmt)
    unfold Joint.sum at he
    rw [if_neg hc0, show m.map Int.ofNat = up m from rfl, hv] at he
    cases he
  · rcases hc with hc | hc
    · exact ha.empty hc t
    · refine h.sum_untracked (fun a hat hh => hc ⟨a, tracksZ_up.2 hat, (ht a (tracksZ_up.2 hat) hh).symm⟩)
  · rw [hte]
    exact ha.sum hne m hmt h0

/-- The condition of C50 holds for every query of the configured length with entries from 0 to 30, up to 12 variables. -/
theorem C50_same_length {ts : List Tuple} {n : Nat} (h12 : n ≤ 12) (hl : ∀ t ∈ ts, t.length = n) (hm : Moderate ts) {t : Tuple}
    (ht : t.length = n) (hk : ∀ k ∈ t, 0 ≤ k ∧ k < 31) :
    ∀ a : List Nat, TracksZ ts a → Joint.hash (a.map Int.ofNat) = Joint.hash t → a.map Int.ofNat = t := by
  rintro a ⟨u, hu, ha⟩ he
  have hlen : a.length = n := by rw [← hl u hu]; exact List.Forall₂.length_eq ha
  have hlt : ∀ {m : List Nat} {t : Tuple}, BelowZ m t → (∀ k ∈ t, k ≤ 20) → ∀ k ∈ m, k < 31 := by
    intro m t h h20
    induction h with
    | nil => simp
    | cons hab _ ih =>
      intro k hk
      rcases List.mem_cons.1 hk with rfl | hk
      · have := h20 _ List.mem_cons_self; omega
      · exact ih (fun k hk => h20 k (List.mem_cons_of_mem _ hk)) k hk
  refine C49_hash_partial (by simp; omega) (by simp; omega) ?_ hk he
  intro k hk
  obtain ⟨j, hj, rfl⟩ := List.mem_map.1 hk
  have := hlt ha (hm u hu).1 j hj
  exact ⟨by simp, by simpa using this⟩

/-- C50, refuted as stated: with only `{1,1}` tracked, `Sum(0,1,1)`, `Sum(32)` and `Sum(0,32)` answer with the sum for `{1,1}`, while
`Sum(2,0)` is an error. -/
theorem C50_collision_refuted :
    jointTest ⟨some [[1, 1]], some 0, none, none⟩ [.push [0, 0], .push [1, 2]] [[1, 1], [0, 1, 1], [32], [0, 32], [2, 0]] =
      some (2, [.ok 1, .ok 1, .ok 1, .ok 1, .error "not a tracked power sum"], []) := by decide +kernel

/-- C50, the zero tuple: its sum is the number of points, but `Sum(0,...,0)` is 0 in every state of every core without decay that tracks
anything. -/
theorem C50_zero_tuple_refuted {cfg : Config K} {c : Core K} (hn : newCore cfg = .val (.ok c)) (hd : cfg.decay = none) {w : Nat}
    (hw : cfg.window = some (w : Int)) (hm : Moderate (cfg.sums.getD [])) (hi : NoCollision (cfg.sums.getD []))
    (hov : 2 ≤ w → NoOverlapZ (cfg.sums.getD [])) (hs : cfg.sums.getD [] ≠ []) {n : Nat} (hv : varsOf cfg = n) (ops : List (MOp (List K)))
    (hne : windowOf w (ops.filter (okArity n)) ≠ []) :
    ∃ (c' : Core K) (es : List Err), run c ops = .val (c', es) ∧ Joint.sum c' (List.replicate n 0) = .ok 0 ∧
      jsum (List.replicate n 0) (windowOf w (ops.filter (okArity n))) = (windowOf w (ops.filter (okArity n))).length ∧
      jsum (List.replicate n 0) (windowOf w (ops.filter (okArity n))) ≠ 0 := by
  obtain ⟨ts, c', hts, hg, e, h⟩ := joint_run_W hn hd hm hi hw hov hv ops
  obtain ⟨t, ht⟩ : ∃ t, t ∈ ts := by
    rw [hts] at hs
    cases ts with
    | nil => exact absurd rfl hs
    | cons t ts => exact ⟨t, List.mem_cons_self⟩
  have hz : zeros t = List.replicate n 0 := by unfold zeros; rw [hg.len t ht]
  have htr : Tracked ts (zeros t) := ⟨t, ht, zeros_below t⟩
  have hval := h.rep.val _ htr
  have hc0 : c'.count ≠ 0 := by
    rw [h.count]
    have := List.length_pos_iff.2 hne
    unfold windowOf at this
    omega
  have hj : ∀ data : List (List K), jsum (List.replicate n 0) data = data.length := by
    intro data
    have h1 : ∀ (μ : Nat → K) (x : List K), jprod μ x (List.replicate n 0) = 1 := by
      intro μ x
      unfold jprod
      apply List.prod_eq_one
      intro y hy
      obtain ⟨j, -, rfl⟩ := List.mem_map.1 hy
      have : (List.replicate n 0 : List Nat).getD j 0 = 0 := by
        rw [List.getD_eq_getElem?_getD, List.getElem?_replicate]
        split_ifs <;> rfl
      rw [this, pow_zero]
    unfold jsum
    simp [h1]
  refine ⟨c', _, e, ?_, hj _, ?_⟩
  · unfold Joint.sum
    rw [if_neg hc0]
    have : (List.replicate n 0 : Tuple) = up (zeros t) := by rw [hz]; simp [up]
    rw [this, hval]
    simp [stored, sum_zeros]
  · rw [hj]
    have := List.length_pos_iff.2 hne
    exact_mod_cast this.ne'

example : jointTest ⟨some [[1, 1]], some 0, none, none⟩ [.push [0, 0], .push [1, 2]] [[0, 0], [1, 0]] = some (2, [.ok 0, .ok 0], []) := by
  decide +kernel

end queries

end Verif.Props
