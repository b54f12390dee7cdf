import Verif.Model.JointMetric
import Verif.Proofs.JointConfig
import Verif.Proofs.MomentMetric

/-! # The metrics of package `joint` -/

set_option linter.unusedSectionVars false
set_option linter.unusedSimpArgs false

namespace Verif.Joint
open Verif Verif.Spec Verif.MathUtil

/-! ## Tuples of the metrics -/

theorem good_of_small {n : Nat} (hn : n ≤ 12) {ts : List (List Nat)} (hl : ∀ t ∈ ts, t.length = n) (hs : ∀ t ∈ ts, Small t) : Good n ts := by
  refine ⟨hl, hs, ?_⟩
  rintro a b ⟨t, ht, hat⟩ ⟨u, hu, hbu⟩ h
  have la : a.length = n := by rw [hat.length, hl t ht]
  have lb : b.length = n := by rw [hbu.length, hl u hu]
  exact hash_inj (by rw [la, lb]) (by omega) (fun k hk => by have := hat.mem_le (hs t ht).1 k hk; omega)
    (fun k hk => by have := hbu.mem_le (hs u hu).1 k hk; omega) h

theorem below_pair {a : List Nat} {x y : Nat} (h : Below a [x, y]) : ∃ i j, a = [i, j] ∧ i ≤ x ∧ j ≤ y := by
  unfold Below at h
  cases h with
  | cons h1 t =>
    cases t with
    | cons h2 t =>
      cases t
      exact ⟨_, _, rfl, h1, h2⟩

theorem good_cov : Good 2 [[1, 1]] := good_of_small (by omega) (by simp) (by simp [Small])
theorem good_corr : Good 2 [[1, 1], [2, 0], [0, 2]] := good_of_small (by omega) (by simp) (by simp [Small])

theorem noOverlap_cov : NoOverlap [[1, 1]] := by simp [NoOverlap]

theorem noOverlap_corr : NoOverlap [[1, 1], [2, 0], [0, 2]] := by
  have key : ∀ {x y x' y' : Nat}, min x x' + min y y' ≤ 1 → ∀ a, Below a [x, y] → Below a [x', y'] → a.sum ≤ 1 := by
    intro x y x' y' h a h1 h2
    obtain ⟨i, j, rfl, hi, hj⟩ := below_pair h1
    obtain ⟨i', j', he, hi', hj'⟩ := below_pair h2
    simp only [List.cons.injEq, and_true] at he
    obtain ⟨rfl, rfl⟩ := he
    simp only [List.sum_cons, List.sum_nil]
    omega
  simp only [NoOverlap, List.pairwise_cons, List.mem_cons, List.not_mem_nil, or_false, forall_eq_or_imp, forall_eq, IsEmpty.forall_iff,
    implies_true, List.Pairwise.nil, and_true]
  exact ⟨⟨key (by decide), key (by decide)⟩, key (by decide)⟩

theorem tracked_self {ts : List (List Nat)} {t : List Nat} (h : t ∈ ts) : Tracked ts t := ⟨t, h, Below.refl t⟩

section read
variable {K : Type} [Field K]

/-! ## Reading the core -/

theorem W.sum_ok {n : Nat} {ts : List (List Nat)} (hg : Good n ts) {w : Nat} {xs : List (List K)} {c : Core K} (h : W n ts w xs c)
    (hx : lastN w xs ≠ []) {a : List Nat} (ha : Tracked ts a) (h1 : a.sum ≠ 0) : sum c (up a) = .ok (jsum a (lastN w xs)) := by
  unfold sum
  have h0 : ¬ c.count = 0 := by
    rw [h.count]
    have := List.length_pos_iff.2 hx
    omega
  rw [if_neg h0, h.rep.val a ha]
  simp only [stored, if_neg h1]
  rw [wj_unit (hg.length ha)]
  intro x hx
  exact h.rep.pts (1, x) (by simp [unit, hx])

theorem W.sum_error {n : Nat} {ts : List (List Nat)} {w : Nat} {xs : List (List K)} {c : Core K} (h : W n ts w xs c)
    (hx : lastN w xs = []) (t : Tuple) : sum c t = .error "no values seen yet" := by
  unfold sum
  rw [if_pos (by rw [h.count, hx]; rfl)]

theorem W.sum_untracked {n : Nat} {ts : List (List Nat)} {w : Nat} {xs : List (List K)} {c : Core K} (h : W n ts w xs c)
    {t : Tuple} (ht : ∀ a, Tracked ts a → hash (up a) ≠ hash t) : ∃ e, sum c t = .error e := by
  unfold sum
  rw [h.rep.none _ ht]
  split_ifs <;> exact ⟨_, rfl⟩

theorem W.mean_ok {n : Nat} {ts : List (List Nat)} {w : Nat} {xs : List (List K)} {c : Core K} (h : W n ts w xs c)
    (hx : lastN w xs ≠ []) {j : Nat} (hj : j < n) : mean c j = .ok (Spec.mean (coord j (lastN w xs))) := by
  unfold mean
  have h0 : ¬ c.count = 0 := by
    rw [h.count]
    have := List.length_pos_iff.2 hx
    omega
  have hl : c.means.length = n := by rw [h.rep.means, h.rep.len]
  rw [if_neg h0, if_neg (by rw [hl]; omega), Int.toNat_natCast, h.rep.means, getD_get (by simp [hj])]
  simp [jmeans]

theorem W.mean_error {n : Nat} {ts : List (List Nat)} {w : Nat} {xs : List (List K)} {c : Core K} (h : W n ts w xs c)
    {j : Int} (hj : lastN w xs = [] ∨ j < 0 ∨ (n : Int) ≤ j) : ∃ e, mean c j = .error e := by
  unfold mean
  have hl : c.means.length = n := by rw [h.rep.means, h.rep.len]
  by_cases h0 : c.count = 0
  · rw [if_pos h0]; exact ⟨_, rfl⟩
  · rw [if_neg h0, if_pos]
    · exact ⟨_, rfl⟩
    · rw [hl]
      rcases hj with hj | hj | hj
      · rw [h.count, hj] at h0; exact absurd rfl h0
      · exact Or.inl hj
      · exact Or.inr hj

theorem D.sum_ok {n : Nat} {ts : List (List Nat)} (hg : Good n ts) {d : K} {xs : List (List K)} {c : Core K} (h : D n ts d xs c)
    (hx : xs ≠ []) {a : List Nat} (ha : Tracked ts a) (h1 : a.sum ≠ 0) : sum c (up a) = .ok (ewJoint d a xs) := by
  unfold sum
  have h0 : ¬ c.count = 0 := by
    rw [h.count]
    have := List.length_pos_iff.2 hx
    omega
  rw [if_neg h0, h.rep.val a ha]
  simp only [stored, if_neg h1]
  rw [wj_pairs d (hg.length ha) h.pts]

theorem D.sum_error {n : Nat} {ts : List (List Nat)} {d : K} {xs : List (List K)} {c : Core K} (h : D n ts d xs c)
    (hx : xs = []) (t : Tuple) : sum c t = .error "no values seen yet" := by
  unfold sum
  rw [if_pos (by rw [h.count, hx]; rfl)]

theorem D.sum_untracked {n : Nat} {ts : List (List Nat)} {d : K} {xs : List (List K)} {c : Core K} (h : D n ts d xs c)
    {t : Tuple} (ht : ∀ a, Tracked ts a → hash (up a) ≠ hash t) : ∃ e, sum c t = .error e := by
  unfold sum
  rw [h.rep.none _ ht]
  split_ifs <;> exact ⟨_, rfl⟩

theorem D.mean_ok {n : Nat} {ts : List (List Nat)} {d : K} {xs : List (List K)} {c : Core K} (h : D n ts d xs c)
    (hx : xs ≠ []) {j : Nat} (hj : j < n) : mean c j = .ok (ewMean d (coord j xs)) := by
  unfold mean
  have h0 : ¬ c.count = 0 := by
    rw [h.count]
    have := List.length_pos_iff.2 hx
    omega
  have hl : c.means.length = n := by rw [h.rep.means, h.rep.len]
  rw [if_neg h0, if_neg (by rw [hl]; omega), Int.toNat_natCast, h.rep.means, getD_get (by simp [hj])]
  simp [emeans]

/-! ## Sums of two variables -/

theorem jsum_11 (data : List (List K)) : jsum [1, 1] data =
    (data.map (fun p => (p.getD 0 0 - Spec.mean (coord 0 data)) * (p.getD 1 0 - Spec.mean (coord 1 data)))).sum := by
  simp [jsum, jprod, List.range_succ]

theorem jsum_20 (data : List (List K)) : jsum [2, 0] data = csum 2 (coord 0 data) := by
  unfold jsum csum
  congr 1
  conv_rhs => rw [coord, List.map_map]
  apply List.map_congr_left
  intro x _
  simp [jprod, List.range_succ, coord]

theorem jsum_02 (data : List (List K)) : jsum [0, 2] data = csum 2 (coord 1 data) := by
  unfold jsum csum
  congr 1
  conv_rhs => rw [coord, List.map_map]
  apply List.map_congr_left
  intro x _
  simp [jprod, List.range_succ, coord]

theorem sampleCov_eq (data : List (List K)) : sampleCov data = jsum [1, 1] data / (data.length - 1) := by
  rw [jsum_11]; rfl

theorem ewTotal_map {α β : Type} (d : K) (f : β → K) (g : α → β) (xs : List α) : ewTotal d f (xs.map g) = ewTotal d (fun x => f (g x)) xs := by
  unfold ewTotal
  rw [List.zipIdx_map, List.map_map, List.length_map]
  rfl

theorem ewJoint_11 (d : K) (data : List (List K)) : ewJoint d [1, 1] data = ewCov d data := by
  unfold ewJoint ewCov
  congr 1
  funext x
  simp [jprod, List.range_succ]

theorem ewJoint_20 (d : K) (data : List (List K)) : ewJoint d [2, 0] data = ewMoment d 2 (coord 0 data) := by
  unfold ewJoint ewMoment
  conv_rhs => rw [coord, ewTotal_map]
  congr 1
  funext x
  simp [jprod, List.range_succ, coord]

theorem ewJoint_02 (d : K) (data : List (List K)) : ewJoint d [0, 2] data = ewMoment d 2 (coord 1 data) := by
  unfold ewJoint ewMoment
  conv_rhs => rw [coord, ewTotal_map]
  congr 1
  funext x
  simp [jprod, List.range_succ, coord]

end read

/-! ## Cauchy-Schwarz -/

section cs
variable {K : Type} [Field K] [LinearOrder K] [IsStrictOrderedRing K]

/-- Cauchy-Schwarz for weighted sums. -/
theorem cauchy {α : Type} (l : List α) {w a b : α → K} (hw : ∀ x ∈ l, 0 ≤ w x) :
    0 ≤ (l.map (fun x => w x * a x ^ 2)).sum ∧ 0 ≤ (l.map (fun x => w x * b x ^ 2)).sum ∧
    (l.map (fun x => w x * (a x * b x))).sum ^ 2 ≤ (l.map (fun x => w x * a x ^ 2)).sum * (l.map (fun x => w x * b x ^ 2)).sum := by
  induction l with
  | nil => simp
  | cons x l ih =>
    obtain ⟨hA, hB, hS⟩ := ih (fun y hy => hw y (List.mem_cons_of_mem _ hy))
    have hx := hw x List.mem_cons_self
    simp only [List.map_cons, List.sum_cons]
    set A := (l.map (fun x => w x * a x ^ 2)).sum
    set B := (l.map (fun x => w x * b x ^ 2)).sum
    set S := (l.map (fun x => w x * (a x * b x))).sum
    refine ⟨by positivity, by positivity, ?_⟩
    have h1 : (2 * S * (a x * b x)) ^ 2 ≤ (A * b x ^ 2 + B * a x ^ 2) ^ 2 := by
      have h2 : 0 ≤ (A * b x ^ 2 - B * a x ^ 2) ^ 2 := sq_nonneg _
      have h3 : 0 ≤ (a x * b x) ^ 2 := sq_nonneg _
      nlinarith [mul_le_mul_of_nonneg_right hS h3]
    have h4 : 2 * S * (a x * b x) ≤ A * b x ^ 2 + B * a x ^ 2 :=
      le_trans (le_abs_self _) (abs_le_of_sq_le_sq h1 (by positivity))
    nlinarith [mul_le_mul_of_nonneg_left h4 hx]

theorem jsum_cs (data : List (List K)) : jsum [1, 1] data ^ 2 ≤ jsum [2, 0] data * jsum [0, 2] data := by
  have := (cauchy data (w := fun _ => (1 : K)) (a := fun p => p.getD 0 0 - Spec.mean (coord 0 data))
    (b := fun p => p.getD 1 0 - Spec.mean (coord 1 data)) (fun _ _ => zero_le_one)).2.2
  simp only [one_mul] at this
  rw [jsum_11]
  have e : ∀ m : List Nat, jsum m data = (data.map (fun x => jprod (fun j => Spec.mean (coord j data)) x m)).sum := fun _ => rfl
  rw [e [2, 0], e [0, 2]]
  refine this.trans (le_of_eq ?_)
  congr 1
  · congr 1
    apply List.map_congr_left
    intro x _
    simp [jprod, List.range_succ]
  · congr 1
    apply List.map_congr_left
    intro x _
    simp [jprod, List.range_succ]

theorem ewWeight_nonneg {d : K} (h0 : 0 < d) (h1 : d < 1) (n i : Nat) : 0 ≤ ewWeight d n i := by
  have : 0 < 1 - d := by linarith
  unfold ewWeight
  split_ifs <;> positivity

theorem ewJoint_cs {d : K} (h0 : 0 < d) (h1 : d < 1) (data : List (List K)) :
    0 ≤ ewJoint d [2, 0] data ∧ 0 ≤ ewJoint d [0, 2] data ∧ ewJoint d [1, 1] data ^ 2 ≤ ewJoint d [2, 0] data * ewJoint d [0, 2] data := by
  have := (cauchy data.zipIdx (w := fun p => ewWeight d data.length p.2) (a := fun p => p.1.getD 0 0 - ewMean d (coord 0 data))
    (b := fun p => p.1.getD 1 0 - ewMean d (coord 1 data)) (fun _ _ => ewWeight_nonneg h0 h1 _ _))
  have e20 : ewJoint d [2, 0] data = (data.zipIdx.map (fun p => ewWeight d data.length p.2 * (p.1.getD 0 0 - ewMean d (coord 0 data)) ^ 2)).sum := by
    unfold ewJoint ewTotal
    congr 1
    apply List.map_congr_left
    intro x _
    simp [jprod, List.range_succ]
  have e02 : ewJoint d [0, 2] data = (data.zipIdx.map (fun p => ewWeight d data.length p.2 * (p.1.getD 1 0 - ewMean d (coord 1 data)) ^ 2)).sum := by
    unfold ewJoint ewTotal
    congr 1
    apply List.map_congr_left
    intro x _
    simp [jprod, List.range_succ]
  have e11 : ewJoint d [1, 1] data = (data.zipIdx.map (fun p => ewWeight d data.length p.2 *
      ((p.1.getD 0 0 - ewMean d (coord 0 data)) * (p.1.getD 1 0 - ewMean d (coord 1 data))))).sum := by
    unfold ewJoint ewTotal
    congr 1
    apply List.map_congr_left
    intro x _
    simp [jprod, List.range_succ]
  rw [e20, e02, e11]
  exact this

end cs

/-! ## Runs of the metrics -/

section metrics
variable {K : Type} [Field K]
open Joint.Metric

theorem metric_run_W [CharZero K] {ts : List (List Nat)} (hg : Good 2 ts) {w : Nat} (hov : 2 ≤ w → NoOverlap ts) {k : Kind K} {c : Core K}
    (h : W 2 ts w ([] : List (List K)) c) (ops : List (MOp (List K))) :
    ∃ c', Metric.run ⟨k, some c⟩ ops = .val (⟨k, some c'⟩, List.replicate (ops.countP (fun o => !okArity 2 o)) k.arity) ∧
      W 2 ts w (since (ops.filter (okArity 2))) c' := by
  induction ops using List.reverseRecOn with
  | nil => exact ⟨c, rfl, h⟩
  | append_singleton ops op ih =>
    obtain ⟨c', e, hW⟩ := ih
    unfold Metric.run at e ⊢
    rw [Go.runOps_append, e, List.filter_append, List.countP_append]
    cases op with
    | push x =>
      by_cases hx : x.length = 2
      · obtain ⟨c'', e', hW'⟩ := push_W hg hov hW hx
        refine ⟨c'', by simp [Go.runOps, logged, Metric.step, Metric.push, e', okArity, hx], ?_⟩
        have : List.filter (okArity 2) [MOp.push x] = [MOp.push x] := by simp [okArity, hx]
        rw [this, since_push]; exact hW'
      · refine ⟨c', ?_, ?_⟩
        · simp [Go.runOps, logged, Metric.step, Metric.push, okArity, hx, List.replicate_succ']
        · have : List.filter (okArity 2) [MOp.push x] = [] := by simp [okArity, hx]
          rw [this, List.append_nil]; exact hW
    | clear =>
      refine ⟨Joint.clear c', by simp [Go.runOps, logged, Metric.step, Metric.clear, okArity], ?_⟩
      have : List.filter (okArity 2) [(MOp.clear : MOp (List K))] = [MOp.clear] := by simp [okArity]
      rw [this, since_clear]; exact clear_W hW

theorem metric_run_D {ts : List (List Nat)} (hg : Good 2 ts) {d : K} {k : Kind K} {c : Core K}
    (h : D 2 ts d ([] : List (List K)) c) (ops : List (MOp (List K))) :
    ∃ c', Metric.run ⟨k, some c⟩ ops = .val (⟨k, some c'⟩, List.replicate (ops.countP (fun o => !okArity 2 o)) k.arity) ∧
      D 2 ts d (since (ops.filter (okArity 2))) c' := by
  induction ops using List.reverseRecOn with
  | nil => exact ⟨c, rfl, h⟩
  | append_singleton ops op ih =>
    obtain ⟨c', e, hW⟩ := ih
    unfold Metric.run at e ⊢
    rw [Go.runOps_append, e, List.filter_append, List.countP_append]
    cases op with
    | push x =>
      by_cases hx : x.length = 2
      · obtain ⟨c'', e', hW'⟩ := push_D hg hW hx
        refine ⟨c'', by simp [Go.runOps, logged, Metric.step, Metric.push, e', okArity, hx], ?_⟩
        have : List.filter (okArity 2) [MOp.push x] = [MOp.push x] := by simp [okArity, hx]
        rw [this, since_push]; exact hW'
      · refine ⟨c', ?_, ?_⟩
        · simp [Go.runOps, logged, Metric.step, Metric.push, okArity, hx, List.replicate_succ']
        · have : List.filter (okArity 2) [MOp.push x] = [] := by simp [okArity, hx]
          rw [this, List.append_nil]; exact hW
    | clear =>
      refine ⟨Joint.clear c', by simp [Go.runOps, logged, Metric.step, Metric.clear, okArity], ?_⟩
      have : List.filter (okArity 2) [(MOp.clear : MOp (List K))] = [MOp.clear] := by simp [okArity]
      rw [this, since_clear]; exact clear_D hW

variable [LinearOrder K]

theorem valid_cov (w : Nat) : Valid (Kind.cov (w : Int) : Kind K).config :=
  ⟨⟨w, rfl, by simp [Kind.config]⟩, by simp [Kind.config], ⟨2, by simp [Kind.config, abs, wrap]⟩, by simp [Kind.config]⟩

theorem valid_corr (w : Nat) : Valid (Kind.corr (w : Int) : Kind K).config :=
  ⟨⟨w, rfl, by simp [Kind.config]⟩, by simp [Kind.config], ⟨2, by simp [Kind.config, abs, wrap]⟩, by simp [Kind.config]⟩

theorem valid_ewmCov {d : K} (h0 : 0 < d) (h1 : d < 1) : Valid (Kind.ewmCov d).config :=
  ⟨⟨0, rfl, by simp [Kind.config, h0, h1]⟩, by simp [Kind.config], ⟨2, by simp [Kind.config, abs, wrap]⟩, by simp [Kind.config]⟩

theorem valid_ewmCorr {d : K} (h0 : 0 < d) (h1 : d < 1) : Valid (Kind.ewmCorr d).config :=
  ⟨⟨0, rfl, by simp [Kind.config, h0, h1]⟩, by simp [Kind.config], ⟨2, by simp [Kind.config, abs, wrap]⟩, by simp [Kind.config]⟩

theorem newCore_ok {cfg : Config K} (h : Valid cfg) : ∃ c, newCore cfg = .val (.ok c) ∧ mk (setDefaults cfg) = .val c := by
  obtain ⟨c, e⟩ := mk_val (setDefaults cfg)
  exact ⟨c, (newCore_iff cfg c).2 ⟨h, e⟩, e⟩

theorem init_ok {k : Kind K} (h : Valid k.config) :
    ∃ c, (Metric.new k).init = .val (⟨k, some c⟩, none) ∧ mk (setDefaults k.config) = .val c := by
  obtain ⟨c, e1, e2⟩ := newCore_ok h
  refine ⟨c, ?_, e2⟩
  unfold Metric.init
  simp only [Metric.new]
  rw [e1]

/-! ## Values -/

theorem covValue_ok [IsStrictOrderedRing K] {ts : List (List Nat)} (hg : Good 2 ts) (ht : Tracked ts [1, 1]) {w : Nat} {xs : List (List K)}
    {c : Core K} (h : W 2 ts w xs c) :
    (2 ≤ (lastN w xs).length → covValue (some c) = .ok (.fin (sampleCov (lastN w xs)))) ∧
    ((lastN w xs).length = 1 → covValue (some c) = .ok .nan) ∧
    (lastN w xs = [] → covValue (some c) = .error "error retrieving sum: no values seen yet") := by
  have hc : ((c.count : Int) : K) = ((lastN w xs).length : K) := by rw [h.count]; simp
  have hok : lastN w xs ≠ [] → Joint.sum c [1, 1] = .ok (jsum [1, 1] (lastN w xs)) := fun hne => h.sum_ok hg hne ht (by simp)
  refine ⟨fun hn => ?_, fun hn => ?_, fun hn => ?_⟩
  · unfold covValue
    simp only
    rw [hok (by intro e; rw [e] at hn; simp at hn), hc]
    simp only [wrapErr, XF.div]
    rw [if_neg]
    · rw [sampleCov_eq]
    · intro he
      have : ((lastN w xs).length : K) = 1 := by linear_combination he
      have : (lastN w xs).length = 1 := by exact_mod_cast this
      omega
  · unfold covValue
    simp only
    rw [hok (by intro e; rw [e] at hn; simp at hn), hc, hn]
    obtain ⟨p, hp⟩ := List.length_eq_one_iff.1 hn
    simp [wrapErr, XF.div, hp, jsum_11, coord, Spec.mean]
  · unfold covValue
    simp only
    rw [h.sum_error hn]
    rfl

end metrics

section real
open Joint.Metric

/-- The quotient at the end of `Corr.Value`. -/
theorem corr_quot {cov x y : ℝ} (hx : 0 ≤ x) (hy : 0 ≤ y) (hcs : cov ^ 2 ≤ x * y) :
    (x ≠ 0 → y ≠ 0 → XF.div (.fin cov) (XF.sqrt Real.sqrt (.fin (x * y))) = .fin (cov / (Real.sqrt x * Real.sqrt y)) ∧
      |cov / (Real.sqrt x * Real.sqrt y)| ≤ 1) ∧
    (x = 0 ∨ y = 0 → XF.div (.fin cov) (XF.sqrt Real.sqrt (.fin (x * y))) = .nan) := by
  have hxy : 0 ≤ x * y := mul_nonneg hx hy
  have hs : XF.sqrt Real.sqrt (.fin (x * y)) = .fin (Real.sqrt (x * y)) := by
    simp only [XF.sqrt]; rw [if_neg (not_lt.2 hxy)]
  rw [hs]
  constructor
  · intro hx0 hy0
    have hpos : 0 < Real.sqrt (x * y) := Real.sqrt_pos.2 (lt_of_le_of_ne hxy (Ne.symm (mul_ne_zero hx0 hy0)))
    simp only [XF.div]
    rw [if_neg hpos.ne', Real.sqrt_mul hx]
    refine ⟨rfl, ?_⟩
    rw [Real.sqrt_mul hx] at hpos
    rw [abs_div, abs_of_pos hpos, div_le_one hpos]
    rw [← Real.sqrt_mul hx]
    exact Real.abs_le_sqrt hcs
  · intro h
    have h0 : x * y = 0 := by rcases h with h | h <;> simp [h]
    rw [h0] at hcs ⊢
    have : cov = 0 := by
      have : cov ^ 2 = 0 := le_antisymm hcs (sq_nonneg _)
      simpa using this
    simp [XF.div, this]

theorem csum2_zero_of_one (xs : List ℝ) (h : xs.length = 1) : csum 2 xs = 0 := by
  obtain ⟨a, rfl⟩ := List.length_eq_one_iff.1 h
  exact Moment.csum_single a (by omega)

theorem pearson_eq {data : List (List ℝ)} (hx : csum 2 (coord 0 data) ≠ 0) :
    pearson data = jsum [1, 1] data / (Real.sqrt (csum 2 (coord 0 data)) * Real.sqrt (csum 2 (coord 1 data))) := by
  have hlen : 2 ≤ data.length := by
    rcases Nat.lt_or_ge data.length 2 with h | h
    · exfalso
      apply hx
      have : data.length = 0 ∨ data.length = 1 := by omega
      rcases this with h | h
      · rw [List.length_eq_zero_iff.1 h]; simp [csum, coord]
      · exact csum2_zero_of_one _ (by simp [h])
    · exact h
  have h2 : (2 : ℝ) ≤ data.length := by exact_mod_cast hlen
  have hpos : (0 : ℝ) < data.length - 1 := by linarith
  unfold pearson sampleStd sampleMoment
  rw [sampleCov_eq, coord_length, coord_length, Real.sqrt_div (Moment.csum_two_nonneg _), Real.sqrt_div (Moment.csum_two_nonneg _)]
  have hsq : Real.sqrt ((data.length : ℝ) - 1) * Real.sqrt ((data.length : ℝ) - 1) = data.length - 1 := Real.mul_self_sqrt hpos.le
  rw [div_mul_div_comm, hsq, div_div_div_cancel_right₀ hpos.ne']

theorem corrValue_W {ts : List (List Nat)} (hg : Good 2 ts) (ht : Tracked ts [1, 1] ∧ Tracked ts [2, 0] ∧ Tracked ts [0, 2]) {w : Nat}
    {xs : List (List ℝ)} {c : Core ℝ} (h : W 2 ts w xs c) :
    (csum 2 (coord 0 (lastN w xs)) ≠ 0 → csum 2 (coord 1 (lastN w xs)) ≠ 0 →
      corrValue Real.sqrt (some c) = .ok (.fin (pearson (lastN w xs))) ∧ |pearson (lastN w xs)| ≤ 1) ∧
    (lastN w xs ≠ [] → csum 2 (coord 0 (lastN w xs)) = 0 ∨ csum 2 (coord 1 (lastN w xs)) = 0 → corrValue Real.sqrt (some c) = .ok .nan) ∧
    (lastN w xs = [] → corrValue Real.sqrt (some c) = .error "error retrieving sum for {1, 1}: no values seen yet") := by
  have hval : lastN w xs ≠ [] → corrValue Real.sqrt (some c) = .ok (XF.div (.fin (jsum [1, 1] (lastN w xs)))
      (XF.sqrt Real.sqrt (.fin (csum 2 (coord 0 (lastN w xs)) * csum 2 (coord 1 (lastN w xs)))))) := by
    intro hne
    have e1 : Joint.sum c [1, 1] = _ := h.sum_ok hg hne ht.1 (by simp)
    have e2 : Joint.sum c [2, 0] = _ := h.sum_ok hg hne ht.2.1 (by simp)
    have e3 : Joint.sum c [0, 2] = _ := h.sum_ok hg hne ht.2.2 (by simp)
    unfold corrValue
    simp only
    rw [e1, e2, e3, jsum_20, jsum_02]
    rfl
  have hcs := jsum_cs (lastN w xs)
  rw [jsum_20, jsum_02] at hcs
  have hq := corr_quot (Moment.csum_two_nonneg (coord 0 (lastN w xs))) (Moment.csum_two_nonneg (coord 1 (lastN w xs))) hcs
  refine ⟨fun h1 h2 => ?_, fun hne h' => ?_, fun hn => ?_⟩
  · have hne : lastN w xs ≠ [] := by
      intro e; rw [e] at h1; simp [csum, coord] at h1
    rw [hval hne, pearson_eq h1, (hq.1 h1 h2).1]
    exact ⟨rfl, (hq.1 h1 h2).2⟩
  · rw [hval hne, hq.2 h']
  · unfold corrValue
    simp only
    rw [h.sum_error hn]
    rfl

theorem corrValue_D {ts : List (List Nat)} (hg : Good 2 ts) (ht : Tracked ts [1, 1] ∧ Tracked ts [2, 0] ∧ Tracked ts [0, 2]) {d : ℝ}
    (h0 : 0 < d) (h1 : d < 1) {xs : List (List ℝ)} {c : Core ℝ} (h : D 2 ts d xs c) :
    (ewMoment d 2 (coord 0 xs) ≠ 0 → ewMoment d 2 (coord 1 xs) ≠ 0 →
      corrValue Real.sqrt (some c) = .ok (.fin (ewCorr d xs)) ∧ |ewCorr d xs| ≤ 1) ∧
    (xs ≠ [] → ewMoment d 2 (coord 0 xs) = 0 ∨ ewMoment d 2 (coord 1 xs) = 0 → corrValue Real.sqrt (some c) = .ok .nan) ∧
    (xs = [] → corrValue Real.sqrt (some c) = .error "error retrieving sum for {1, 1}: no values seen yet") := by
  have hval : xs ≠ [] → corrValue Real.sqrt (some c) = .ok (XF.div (.fin (ewCov d xs))
      (XF.sqrt Real.sqrt (.fin (ewMoment d 2 (coord 0 xs) * ewMoment d 2 (coord 1 xs))))) := by
    intro hne
    have e1 : Joint.sum c [1, 1] = _ := h.sum_ok hg hne ht.1 (by simp)
    have e2 : Joint.sum c [2, 0] = _ := h.sum_ok hg hne ht.2.1 (by simp)
    have e3 : Joint.sum c [0, 2] = _ := h.sum_ok hg hne ht.2.2 (by simp)
    unfold corrValue
    simp only
    rw [e1, e2, e3, ewJoint_20, ewJoint_02, ewJoint_11]
    rfl
  obtain ⟨p1, p2, hcs⟩ := ewJoint_cs h0 h1 xs
  rw [ewJoint_20] at p1 hcs
  rw [ewJoint_02] at p2 hcs
  rw [ewJoint_11] at hcs
  have hq := corr_quot p1 p2 hcs
  refine ⟨fun h1 h2 => ?_, fun hne h' => ?_, fun hn => ?_⟩
  · have hne : xs ≠ [] := by
      intro e; rw [e] at h1; simp [ewMoment, ewTotal, coord] at h1
    rw [hval hne, (hq.1 h1 h2).1]
    exact ⟨rfl, (hq.1 h1 h2).2⟩
  · rw [hval hne, hq.2 h']
  · unfold corrValue
    simp only
    rw [h.sum_error hn]
    rfl

end real

/-! ## Autocov and Autocorr -/

section auto
variable {K : Type} [Field K]

theorem lagged_snoc_short {lag : Nat} {xs : List K} (h : xs.length < lag) (x : K) : lagged lag (xs ++ [x]) = [] := by
  unfold lagged
  rw [List.drop_eq_nil_of_le (by simp; omega)]
  rfl

theorem lagged_nil_iff {lag : Nat} {xs : List K} : lagged lag xs = [] ↔ xs.length ≤ lag := by
  unfold lagged
  rw [List.zipWith_eq_nil_iff, List.drop_eq_nil_iff]
  constructor
  · rintro (h | h)
    · exact h
    · simp [h]
  · exact Or.inl

theorem zipWith_snoc {α β γ : Type} (f : α → β → γ) (as : List α) (bs : List β) (a : α) (b : β) (rest : List β) (h : as.length = bs.length) :
    List.zipWith f (as ++ [a]) (bs ++ b :: rest) = List.zipWith f as bs ++ [f a b] := by
  rw [List.zipWith_append h]
  simp

theorem lagged_snoc {lag : Nat} {xs : List K} (h : lag ≤ xs.length) (x : K) {y : K} {rest : List K}
    (hy : (xs ++ [x]).drop (xs.length - lag) = y :: rest) : lagged lag (xs ++ [x]) = lagged lag xs ++ [[x, y]] := by
  have e : xs ++ [x] = (xs ++ [x]).take (xs.length - lag) ++ y :: rest := by rw [← hy, List.take_append_drop]
  have ht : (xs ++ [x]).take (xs.length - lag) = xs.take (xs.length - lag) := List.take_append_of_le_length (by omega)
  rw [ht] at e
  unfold lagged
  rw [List.drop_append_of_le_length (by omega)]
  conv_lhs => arg 3; rw [e]
  rw [zipWith_snoc _ _ _ _ _ _ (by simp)]
  congr 1
  have e2 : xs = xs.take (xs.length - lag) ++ xs.drop (xs.length - lag) := (List.take_append_drop _ _).symm
  have hl : (xs.drop lag).length = (xs.take (xs.length - lag)).length := by simp
  conv_rhs => arg 3; rw [e2]
  conv_rhs => rw [← List.append_nil (xs.drop lag)]
  rw [List.zipWith_append hl]
  simp

/-- The state of an `Autocov` or `Autocorr` after the values `xs`. -/
structure AInv (ts : List (List Nat)) (lag w : Nat) (xs : List K) (corr : Bool) (a : Auto K) : Prop where
  kind : a.corr = corr
  hlag : a.lag = lag
  window : a.window = w
  cap : a.queue.cap = Ring.roundUp lag
  live : a.queue.disposed = false
  q : lag ≠ 0 → a.queue.items = lastN lag xs
  core : ∃ c, a.core = some c ∧ W 2 ts w (lagged lag xs) c

theorem push_auto [CharZero K] {ts : List (List Nat)} (hg : Good 2 ts) {w : Nat} (hov : 2 ≤ w → NoOverlap ts) {lag : Nat} {xs : List K} {b : Bool}
    {a : Auto K} (h : AInv ts lag w xs b a) (x : K) : ∃ a', Auto.push a x = .val (a', none) ∧ AInv ts lag w (xs ++ [x]) b a' := by
  obtain ⟨c, hc, hW⟩ := h.core
  unfold Auto.push
  rw [hc]
  simp only
  by_cases h0 : lag = 0
  · subst h0
    rw [if_pos (by rw [h.hlag]; rfl)]
    obtain ⟨c', e, hW'⟩ := push_W hg hov hW (x := [x, x]) rfl
    rw [e]
    refine ⟨_, rfl, ⟨h.kind, h.hlag, h.window, h.cap, h.live, fun c => absurd rfl c, c', rfl, ?_⟩⟩
    rw [lagged_snoc (Nat.zero_le _) x (y := x) (rest := []) (by simp)]
    exact hW'
  · have hlag : ¬ a.lag = 0 := by rw [h.hlag]; exact_mod_cast h0
    rw [if_neg hlag]
    have hq := h.q h0
    have hlen : a.queue.len = (lastN lag xs).length := by rw [Ring.len, hq]
    by_cases hfull : lag ≤ xs.length
    · have hll : (lastN lag xs).length = lag := by rw [lastN_length]; simp [h0]; omega
      rw [if_pos (by rw [hlen, hll, h.hlag])]
      obtain ⟨y, ys, hyys⟩ : ∃ y ys, lastN lag xs = y :: ys := by
        cases hl : lastN lag xs with
        | nil => rw [hl] at hll; exact absurd hll.symm h0
        | cons y ys => exact ⟨y, ys, rfl⟩
      have hlast : lastN lag xs = xs.drop (xs.length - lag) := by simp [lastN, h0]
      have hdrop : (xs ++ [x]).drop (xs.length - lag) = y :: (ys ++ [x]) := by
        rw [List.drop_append_of_le_length (by omega), ← hlast, hyys]; rfl
      obtain ⟨c', e, hW'⟩ := push_W hg hov hW (x := [x, y]) rfl
      have hlt : ys.length < lag := by rw [hyys] at hll; simp at hll; omega
      have hput : Ring.put { a.queue with items := ys } x = .val (.ok { a.queue with items := ys ++ [x] }) :=
        Ring.put_ok (r := { a.queue with items := ys }) h.live (by show ys.length < a.queue.cap; rw [h.cap]; exact lt_of_lt_of_le hlt (Ring.le_roundUp lag)) x
      unfold Auto.pair
      rw [Ring.get_ok h.live (hq.trans hyys)]
      simp only
      rw [e]
      simp only [Auto.put]
      rw [hput]
      refine ⟨_, rfl, ⟨h.kind, h.hlag, h.window, h.cap, h.live, fun _ => ?_, c', rfl, ?_⟩⟩
      · show ys ++ [x] = _
        rw [lastN_snoc_full h0 _ _ hll, hyys]; rfl
      · rw [lagged_snoc hfull x hdrop]
        exact hW'
    · have hll : (lastN lag xs).length ≠ lag := by rw [lastN_length]; simp [h0]; omega
      have hle := lastN_length_le h0 xs
      rw [if_neg (by rw [hlen, h.hlag]; omega)]
      have hput : a.queue.put x = .val (.ok { a.queue with items := a.queue.items ++ [x] }) :=
        Ring.put_ok h.live (by rw [hq, h.cap]; exact lt_of_lt_of_le (by omega) (Ring.le_roundUp lag)) x
      unfold Auto.put
      rw [hput]
      refine ⟨_, rfl, ⟨h.kind, h.hlag, h.window, h.cap, h.live, fun _ => ?_, c, hc, ?_⟩⟩
      · show a.queue.items ++ [x] = _
        rw [hq, lastN_snoc_room h0 _ _ hll]
      · rw [lagged_snoc_short (by omega)]
        rwa [lagged_nil_iff.2 (by omega)] at hW

theorem clear_auto {ts : List (List Nat)} {w : Nat} {lag : Nat} {xs : List K} {b : Bool} {a : Auto K} (h : AInv ts lag w xs b a) :
    AInv ts lag w ([] : List K) b (Auto.clear a) := by
  obtain ⟨c, hc, hW⟩ := h.core
  unfold Auto.clear
  rw [hc]
  simp only
  refine ⟨h.kind, h.hlag, h.window, by simp [Ring.new, h.hlag], rfl, fun _ => by simp [Ring.new], Joint.clear c, rfl, ?_⟩
  have : lagged lag ([] : List K) = [] := by simp [lagged]
  rw [this]
  exact clear_W hW

theorem run_auto [CharZero K] {ts : List (List Nat)} (hg : Good 2 ts) {w : Nat} (hov : 2 ≤ w → NoOverlap ts) {lag : Nat} {b : Bool}
    {a : Auto K} (h : AInv ts lag w ([] : List K) b a) (ops : List (MOp K)) :
    ∃ a', Auto.run a ops = .val (a', []) ∧ AInv ts lag w (since ops) b a' := by
  induction ops using List.reverseRecOn with
  | nil => exact ⟨a, rfl, h⟩
  | append_singleton ops op ih =>
    obtain ⟨a', e, hA⟩ := ih
    unfold Auto.run at e ⊢
    rw [Go.runOps_append, e]
    cases op with
    | push x =>
      obtain ⟨a'', e', hA'⟩ := push_auto hg hov hA x
      exact ⟨a'', by simp [Go.runOps, logged, Auto.step, e'], by rw [since_push]; exact hA'⟩
    | clear => exact ⟨Auto.clear a', by simp [Go.runOps, logged, Auto.step], by rw [since_clear]; exact clear_auto hA⟩

/-- The tuples of the inner metric. -/
def autoTuples (corr : Bool) : List (List Nat) := if corr then [[1, 1], [2, 0], [0, 2]] else [[1, 1]]

theorem auto_init [LinearOrder K] (corr : Bool) (lag w : Nat) : ∃ a a' : Auto K, Auto.new corr lag w = .ok a ∧ a.init = .val (a', none) ∧
    AInv (autoTuples corr) lag w ([] : List K) corr a' := by
  refine ⟨⟨corr, lag, w, Ring.new lag, none⟩, ?_⟩
  unfold Auto.new
  rw [if_neg (by omega)]
  cases corr with
  | true =>
    obtain ⟨c, e1, e2⟩ := newCore_ok (valid_corr (K := K) w)
    refine ⟨⟨true, lag, w, Ring.new lag, some c⟩, rfl, ?_, ⟨rfl, rfl, rfl, rfl, rfl, fun _ => by simp [Ring.new], c, rfl, ?_⟩⟩
    · unfold Auto.init
      have : Auto.kind (⟨true, (lag : Int), (w : Int), Ring.new lag, none⟩ : Auto K) = .corr w := rfl
      rw [this, e1]
    · have : lagged lag ([] : List K) = [] := by simp [lagged]
      rw [this]
      exact mk_W e2 (ts := [[1, 1], [2, 0], [0, 2]]) rfl rfl rfl rfl
  | false =>
    obtain ⟨c, e1, e2⟩ := newCore_ok (valid_cov (K := K) w)
    refine ⟨⟨false, lag, w, Ring.new lag, some c⟩, rfl, ?_, ⟨rfl, rfl, rfl, rfl, rfl, fun _ => by simp [Ring.new], c, rfl, ?_⟩⟩
    · unfold Auto.init
      have : Auto.kind (⟨false, (lag : Int), (w : Int), Ring.new lag, none⟩ : Auto K) = .cov w := rfl
      rw [this, e1]
    · have : lagged lag ([] : List K) = [] := by simp [lagged]
      rw [this]
      exact mk_W e2 (ts := [[1, 1]]) rfl rfl rfl rfl

end auto
end Verif.Joint
