import Verif.Proofs.JointLow
import Verif.Props.JointCore

/-! # C43, exactly: windowed joint cores and overlapping tuples

A tuple below several configured tuples is corrected once for each of them when a point leaves the window. Here the consequences are computed
for the sums of order two (variances and covariances), for every configuration, and the condition of `C43_sum_window_partial` is shown to be
necessary. -/

set_option linter.unusedSectionVars false

namespace Verif.Props
open Verif Verif.Spec Verif.Joint

/-- The number of configured tuples that have `m` below them. -/
def coversZ (ts : List Tuple) (m : List Nat) : Nat := ts.countP (fun t => decide (BelowZ m t))

theorem coversZ_up (ts : List (List Nat)) (m : List Nat) : coversZ (ts.map up) m = covers ts m := by
  unfold coversZ covers
  rw [List.countP_map]
  refine List.countP_congr fun t _ => ?_
  simp [belowZ_up]

/-- Below a tuple of order two or more there is one of order two. -/
theorem exists_two {a : List Nat} (h : 2 ≤ a.sum) : ∃ b, Below b a ∧ b.sum = 2 := by
  induction a with
  | nil => simp at h
  | cons k a ih =>
    rw [List.sum_cons] at h
    by_cases h2 : 2 ≤ k
    · exact ⟨2 :: zeros a, List.Forall₂.cons h2 (zeros_below a), by rw [List.sum_cons, sum_zeros]⟩
    by_cases h0 : k = 0
    · obtain ⟨b, hb, hs⟩ := ih (by omega)
      exact ⟨0 :: b, List.Forall₂.cons (by omega) hb, by rw [List.sum_cons, hs]⟩
    · have : 1 ≤ a.sum := by omega
      have h1 : ∃ b, Below b a ∧ b.sum = 1 := by
        clear ih h
        induction a with
        | nil => simp at this
        | cons l a ih =>
          rw [List.sum_cons] at this
          by_cases hl : l = 0
          · obtain ⟨b, hb, hs⟩ := ih (by omega)
            exact ⟨0 :: b, List.Forall₂.cons (by omega) hb, by rw [List.sum_cons, hs]⟩
          · exact ⟨1 :: zeros a, List.Forall₂.cons (by omega) (zeros_below a), by rw [List.sum_cons, sum_zeros]⟩
      obtain ⟨b, hb, hs⟩ := h1
      exact ⟨1 :: b, List.Forall₂.cons (by omega) hb, by rw [List.sum_cons, hs]⟩

section core
variable {K : Type} [Field K] [LinearOrder K] [IsStrictOrderedRing K]

/-- A helper: a run of a windowed core, orders one and two. -/
theorem joint_run_L {cfg : Config K} {c : Core K} (hn : newCore cfg = .val (.ok c)) (hd : cfg.decay = none) (hm : Moderate (cfg.sums.getD []))
    (hi : NoCollision (cfg.sums.getD [])) {w : Nat} (hw : cfg.window = some (w : Int)) (hw0 : w ≠ 0)
    {n : Nat} (hv : varsOf cfg = n) (ops : List (MOp (List K))) :
    ∃ (ts : List (List Nat)) (c' : Core K) (S : List Nat → K), cfg.sums.getD [] = ts.map up ∧ Good n ts ∧
      run c ops = .val (c', List.replicate (ops.countP (fun o => !okArity n o)) "tried to push a wrong number of values") ∧
      L n ts w (since (ops.filter (okArity n))) S c' := by
  obtain ⟨hmk, n', ts, w', hts, hv', hw', -, hl⟩ := joint_cfg hn
  have hnn : n' = n := by rw [hv] at hv'; exact_mod_cast hv'.symm
  subst hnn
  have hww : w' = w := by rw [hw] at hw'; simp at hw'; omega
  subst hww
  rw [hts] at hm hi
  have hg := joint_good hl hm hi
  have hW : W n' ts w' ([] : List (List K)) c :=
    mk_W hmk (by simpa [setDefaults] using hts) (by
      have : varsOf (setDefaults cfg) = varsOf cfg := by unfold varsOf setDefaults; rfl
      rw [this, hv]; rfl) hw hd
  obtain ⟨c', S, e, h⟩ := run_L hg hw0 hW.toL ops
  exact ⟨ts, c', S, hts, hg, e, h⟩

/-- C43, sums of order two, in full (every configuration of moderate exponents without collisions, overlapping or not): a windowed core is off
by the drift of the evicted points, once for every configured tuple above the queried one but the first. Count and means are always right. -/
theorem C43_order_two {cfg : Config K} {c : Core K} (hn : newCore cfg = .val (.ok c)) (hd : cfg.decay = none) {w : Nat}
    (hw : cfg.window = some (w : Int)) (hw0 : w ≠ 0) (hm : Moderate (cfg.sums.getD [])) (hi : NoCollision (cfg.sums.getD []))
    {n : Nat} (hv : varsOf cfg = n) (ops : List (MOp (List K))) :
    ∃ (c' : Core K) (es : List Err), run c ops = .val (c', es) ∧ es.length = ops.countP (fun o => !okArity n o) ∧
      Joint.count c' = (windowOf w (ops.filter (okArity n))).length ∧
      (since (ops.filter (okArity n)) ≠ [] →
        (∀ j : Nat, j < n → Joint.mean c' j = .ok (Spec.mean (coord j (windowOf w (ops.filter (okArity n)))))) ∧
        ∀ m : List Nat, TracksZ (cfg.sums.getD []) m → m.sum = 2 →
          Joint.sum c' (m.map Int.ofNat) =
            .ok (jsum m (windowOf w (ops.filter (okArity n))) - ((coversZ (cfg.sums.getD []) m : K) - 1) * drift w m (since (ops.filter (okArity n))))) := by
  obtain ⟨ts, c', S, hts, hg, e, h⟩ := joint_run_L hn hd hm hi hw hw0 hv ops
  refine ⟨c', _, e, by simp, h.count, fun hne => ?_⟩
  have hx := lastN_ne_nil (w := w) hne
  have h0 : ¬ c'.count = 0 := by
    rw [h.count]
    have := List.length_pos_iff.2 hx
    omega
  rw [hts]
  refine ⟨fun j hj => ?_, fun m hm' h2 => ?_⟩
  · unfold Joint.mean
    have hl : c'.means.length = n := by rw [h.holds.means, h.holds.len]
    rw [if_neg h0, if_neg (by rw [hl]; omega), Int.toNat_natCast, h.holds.means, getD_get (by simp [hj])]
    simp [jmeans, windowOf]
  · have ht := tracksZ_up.1 hm'
    unfold Joint.sum
    rw [if_neg h0]
    have hv' : c'.sums (Joint.hash (m.map Int.ofNat)) = some (S m) := h.holds.val m ht
    rw [hv', h.two m ht h2 hw0, coversZ_up, stored, if_neg (by omega), wj_unit (hg.length ht)]
    · rfl
    · intro x hx
      exact h.pts x (lastN_sub x hx)

/-- The configuration of `C43_overlap_refuted`, and what the theorem says about its history: {1,1} is below both tuples, the drift is 1. -/
example : TracksZ [[2, 1], [1, 2]] [1, 1] ∧ coversZ [[2, 1], [1, 2]] [1, 1] = 2 ∧
    drift 2 [1, 1] [[(0 : ℚ), 0], [1, 2], [3, 1]] = 1 ∧ jsum [1, 1] [[(1 : ℚ), 2], [3, 1]] = -1 :=
  ⟨⟨[2, 1], by simp, by decide⟩, by decide, by decide +kernel, by decide +kernel⟩

/-- C43, the exact condition: a core with a window of at least two gives the right answers to all queries after all histories if and only if no
tuple of order two or more is below two configured ones. -/
theorem C43_exact {cfg : Config K} {c : Core K} (hn : newCore cfg = .val (.ok c)) (hd : cfg.decay = none) {w : Nat}
    (hw : cfg.window = some (w : Int)) (hw2 : 2 ≤ w) (hm : Moderate (cfg.sums.getD [])) (hi : NoCollision (cfg.sums.getD []))
    {n : Nat} (hv : varsOf cfg = n) :
    (∀ ops : List (MOp (List K)), ∃ (c' : Core K) (es : List Err), run c ops = .val (c', es) ∧
      JointAnswers (cfg.sums.getD []) n (windowOf w (ops.filter (okArity n))) c') ↔ NoOverlapZ (cfg.sums.getD []) := by
  constructor
  · intro hall
    by_contra hov
    -- a tuple of order two that is covered twice
    obtain ⟨-, n', ts, w', hts, hv', hw', -, hl⟩ := joint_cfg hn
    have hnn : n' = n := by rw [hv] at hv'; exact_mod_cast hv'.symm
    subst hnn
    have hcov : ∃ a : List Nat, a.sum = 2 ∧ TracksZ (cfg.sums.getD []) a ∧ 2 ≤ coversZ (cfg.sums.getD []) a ∧ a.length = n' := by
      rw [hts] at hov ⊢
      have : ¬ NoOverlap ts := fun h => hov (by
        unfold NoOverlapZ
        rw [List.pairwise_map]
        exact h.imp (fun h a h1 h2 => h a (belowZ_up.1 h1) (belowZ_up.1 h2)))
      clear hov hall hm hi hn hv hv' hw' hts
      have hex : ∃ a, a.sum = 2 ∧ 2 ≤ covers ts a := by
        by_contra hno
        refine this ?_
        unfold NoOverlap
        clear this hl
        induction ts with
        | nil => exact List.Pairwise.nil
        | cons t ts ih =>
          refine List.pairwise_cons.2 ⟨fun u hu a h1 h2 => ?_, ih ?_⟩
          · by_contra hgt
            obtain ⟨b, hb, hs⟩ := exists_two (a := a) (by omega)
            refine hno ⟨b, hs, ?_⟩
            unfold covers
            rw [List.countP_cons, if_pos (by simpa using hb.trans h1)]
            have : 0 < ts.countP (fun t => decide (Below b t)) := List.countP_pos_iff.2 ⟨u, hu, by simpa using hb.trans h2⟩
            omega
          · rintro ⟨a, hs, hc⟩
            refine hno ⟨a, hs, ?_⟩
            unfold covers at hc ⊢
            rw [List.countP_cons]
            omega
      obtain ⟨a, hs, hc⟩ := hex
      have hpos : 0 < ts.countP (fun t => decide (Below a t)) := by unfold covers at hc; omega
      obtain ⟨t, ht, hat⟩ := List.countP_pos_iff.1 hpos
      have hat' : Below a t := by simpa using hat
      exact ⟨a, hs, tracksZ_up.2 ⟨t, ht, hat'⟩, by rw [coversZ_up]; exact hc, by rw [hat'.length, hl t ht]⟩
    obtain ⟨a, ha2, hat, hac, hal⟩ := hcov
    -- a point of ones, then zeros
    let one : List K := List.replicate n' 1
    let zero : List K := List.replicate n' 0
    let ops : List (MOp (List K)) := (one :: List.replicate w zero).map MOp.push
    have hf : ops.filter (okArity n') = ops := by
      rw [List.filter_eq_self]
      intro o ho
      obtain ⟨x, hx, rfl⟩ := List.mem_map.1 ho
      rcases List.mem_cons.1 hx with rfl | hx
      · simp [okArity, one]
      · rw [List.eq_of_mem_replicate hx]; simp [okArity, zero]
    have hsince : since ops = one :: List.replicate w zero := by
      have : ∀ l : List (List K), since (l.map MOp.push) = l := by
        intro l
        induction l using List.reverseRecOn with
        | nil => rfl
        | append_singleton l x ih => rw [List.map_append, List.map_singleton, since_push, ih]
      exact this _
    obtain ⟨c1, es1, r1, h1⟩ := hall ops
    obtain ⟨c2, es2, r2, -, -, h2⟩ := C43_order_two hn hd hw (by omega) hm hi hv ops
    rw [r1] at r2
    have hcc : c1 = c2 := by injection r2 with h; injection h
    subst hcc
    rw [hf] at h1 h2
    have hne : since ops ≠ [] := by rw [hsince]; simp
    have e1 := h1.sum (lastN_ne_nil hne) a hat (by omega)
    have e2 := (h2 hne).2 a hat ha2
    rw [e1] at e2
    have e3 := Except.ok.inj e2
    have hdr : drift w a (since ops) = ((w : K) - 1) / w := by
      rw [hsince]
      unfold drift
      have hlen : (one :: List.replicate w zero).length - w = 1 := by simp
      rw [hlen]
      simp only [List.range_one, List.map_singleton, List.sum_singleton, Nat.zero_add, List.drop_succ_cons, List.drop_zero, List.getD_cons_zero]
      have hj : jprod (fun j => Spec.mean (coord j ((List.replicate w zero).take (w - 1)))) one a = 1 := by
        unfold jprod
        rw [List.prod_eq_one]
        intro v hv
        obtain ⟨j, hj, rfl⟩ := List.mem_map.1 hv
        rw [List.mem_range] at hj
        have hm0 : Spec.mean (coord j ((List.replicate w zero).take (w - 1))) = 0 := by
          have : coord j ((List.replicate w zero).take (w - 1)) = List.replicate (min (w - 1) w) 0 := by
            rw [List.take_replicate]
            simp [coord, zero, List.getD_eq_getElem?_getD, List.getElem?_replicate]
            split_ifs <;> simp
          rw [this]
          simp [Spec.mean]
        have ho : one.getD j 0 = 1 := by
          rw [getD_get (by simp [one]; omega)]
          simp [one]
        simp only [hm0, ho]
        simp
      rw [hj, mul_one]
    rw [hdr] at e3
    have hw1 : (1 : K) < w := by exact_mod_cast (by omega : 1 < w)
    have hc1 : (1 : K) < coversZ (cfg.sums.getD []) a := by exact_mod_cast (by omega : 1 < coversZ (cfg.sums.getD []) a)
    have hp : (0 : K) < ((coversZ (cfg.sums.getD []) a : K) - 1) * (((w : K) - 1) / w) :=
      mul_pos (by linarith) (div_pos (by linarith) (by linarith))
    linarith
  · intro hov ops
    obtain ⟨c', es, h1, -, h2⟩ := C43_sum_window_partial hn hd hw hm hi (fun _ => hov) hv ops
    exact ⟨c', es, h1, h2⟩

/-- Two configurations of both kinds: `Corr`, and the one of `C43_overlap_refuted`. -/
example : ¬ NoOverlapZ [[2, 1], [1, 2]] ∧ NoOverlapZ [[1, 1]] := by
  refine ⟨fun h => ?_, by simp [NoOverlapZ]⟩
  have := (List.pairwise_cons.1 h).1 [1, 2] (by simp) [1, 1] (by decide) (by decide)
  simp at this

end core

end Verif.Props
