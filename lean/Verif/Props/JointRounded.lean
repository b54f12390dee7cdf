import Verif.Proofs.Sqrt
import Verif.Props.Share

/-! # C74–C75: package `joint` in floating-point arithmetic

`column i n ops` are the calls that a metric for variable `i` alone sees. `Rounding rnd` holds for IEEE binary64 without overflow
(`rounding_rnd64`), `PowOK rnd pw` says of `math.Pow` that the exponents 0 and 1 are exact and that results are representable. -/

namespace Verif.Props
open Verif Verif.Spec
open Verif.FP (Arith mst Rounding rnd64)
open Verif.Joint (Tuple)
open Verif.JFP (gst PowOK)

/-- The calls on a joint core with `n` variables, as far as variable `i` is concerned; pushes with a wrong number of values are left out. -/
def columnOps {F : Type} (z : F) (i n : Nat) (ops : List (MOp (List F))) : List (MOp F) :=
  (ops.filter (okArity n)).map fun
    | .push x => .push (x.getD i z)
    | .clear => .clear

theorem since_columnOps {F : Type} (z : F) (i n : Nat) (ops : List (MOp (List F))) :
    since (columnOps z i n ops) = JFP.column z i (since (ops.filter (okArity n))) := by
  unfold columnOps
  generalize ops.filter (okArity n) = l
  induction l using List.reverseRecOn with
  | nil => rfl
  | append_singleton l o ih =>
    rw [List.map_append]
    cases o with
    | push x => simp only [List.map_cons, List.map_nil, since_push, ih, JFP.column, List.map_append]
    | clear => simp only [List.map_cons, List.map_nil, since_clear, JFP.column]

theorem since_arity {F : Type} (n : Nat) (ops : List (MOp (List F))) : ∀ x ∈ since (ops.filter (okArity n)), x.length = n := by
  have : ∀ l : List (MOp (List F)), (∀ o ∈ l, okArity n o = true) → ∀ x ∈ since l, x.length = n := by
    intro l
    induction l using List.reverseRecOn with
    | nil => simp
    | append_singleton l o ih =>
      intro h x hx
      cases o with
      | push y =>
        rw [since_push] at hx
        rcases List.mem_append.1 hx with hx | hx
        · exact ih (fun o ho => h o (by simp [ho])) x hx
        · rw [List.mem_singleton.1 hx]
          simpa [okArity] using h (.push y) (by simp)
      | clear => rw [since_clear] at hx; simp at hx
  exact this _ fun o ho => (List.mem_filter.1 ho).2

/-! ## C74 -/

/-- C74, means, in full for exponents at most 65: in any arithmetic, with any window or decay, `Mean(i)` of a joint core is, to the bit, the
`Mean` of a moment core that sees variable `i` alone; so is `Count`. -/
theorem C74_mean {F : Type} [GoOrd F] (A : Arith F) {cfg : Joint.Config F} {c : Joint.Core F} (hn : JFP.newCore A cfg = .val (.ok c))
    (hs : ∀ t ∈ cfg.sums.getD [], ∀ k ∈ t, k ≤ 65) {cfg' : Moment.Config F} {c' : Moment.Core F} (hn' : FP.newCore A cfg' = .ok c')
    (hs' : ∀ k ∈ cfg'.sums.getD [], k ≤ 65) (hw : cfg.window = cfg'.window) (hd : cfg.decay = cfg'.decay) {n : Nat} (hv : Joint.varsOf cfg = n)
    {i : Nat} (hi : i < n) (ops : List (MOp (List F))) :
    ∃ e es e', JFP.run A c ops = .val (e, es) ∧ FP.run A c' (columnOps (A.ofInt 0) i n ops) = .val (e', []) ∧ e.count = e'.count ∧
      ∀ v, JFP.mean A e i = .ok v ↔ FP.mean e' = .ok v := by
  obtain ⟨_, w, hww, -⟩ := JFP.newCore_ok A hn
  obtain ⟨e, r, B, hI⟩ := JFP.core_track A hn hs hww hv (JFP.track_means A n w cfg.decay _) ops
  obtain ⟨e', r', h1, h2, -⟩ := moment_mst A hn' hs' (hw ▸ hww) (columnOps (A.ofInt 0) i n ops)
  have hcnt : e.count = e'.count := by
    rw [B.count, h1, windowOf, since_columnOps]
    unfold JFP.column
    rw [JFP.lastN_map, List.length_map]
  refine ⟨e, _, e', r, r', hcnt, fun v => ?_⟩
  by_cases hx : since (ops.filter (okArity n)) = []
  · have h0 : e.count = 0 := by rw [B.count, hx]; simp [lastN]
    have h0' : e'.count = 0 := hcnt ▸ h0
    simp [JFP.mean, FP.mean, h0, h0']
  · have hne : since (columnOps (A.ofInt 0) i n ops) ≠ [] := by
      rw [since_columnOps]; simpa [JFP.column] using hx
    have h0 : e.count ≠ 0 := by
      rw [B.count]
      have := List.length_pos_iff.2 (lastN_ne_nil (w := w) hx)
      omega
    have hm : JFP.mean A e i = .ok (e.means.getD i (A.ofInt 0)) := by
      unfold JFP.mean
      rw [if_neg h0, if_neg (by rw [B.mlen]; omega)]
      simp
    rw [hm, h2 hne, hI, since_columnOps, JFP.mean_col A hi _ (since_arity n ops), hd]

/-- A joint core with three variables and a moment core, window 3. -/
example : ∃ c c', JFP.newCore Arith.b64 ⟨some [[1, 1, 0], [0, 2, 0]], some 3, none, none⟩ = .val (.ok c) ∧
    FP.newCore Arith.b64 ⟨some [2], some 3, none⟩ = .ok c' := by
  have h : (jObs Arith.b64 ⟨some [[1, 1, 0], [0, 2, 0]], some 3, none, none⟩ [] []).isSome := by decide +kernel
  obtain ⟨o, ho⟩ := Option.isSome_iff_exists.1 h
  obtain ⟨⟨a, b, c⟩, d, f⟩ := o
  obtain ⟨c, -, hc, -⟩ := jObs_run ho
  exact ⟨c, _, hc, rfl⟩

/-- C74, squares, in rounded arithmetic, partial: `Sum` of the tuple with 2 at variable `i` is, to the bit, `Sum(2)` of a moment core that sees
variable `i` alone; any decay, any window provided the tuples do not overlap. Missing: overlapping tuples with a window of at least two, where
the joint core subtracts twice (C43). -/
theorem C74_square_partial {rnd : ℚ → ℚ} (R : Rounding rnd) {pw : ℚ → Nat → ℚ} (P : PowOK rnd pw) {cfg : Joint.Config ℚ} {c : Joint.Core ℚ}
    (hn : JFP.newCore (Arith.rounded rnd pw) cfg = .val (.ok c)) (hs : ∀ t ∈ cfg.sums.getD [], ∀ k ∈ t, k ≤ 65)
    (hi : NoCollision (cfg.sums.getD [])) {w : Nat} (hww : cfg.window = some (w : Int)) (hov : 2 ≤ w → NoOverlapZ (cfg.sums.getD []))
    {cfg' : Moment.Config ℚ} {c' : Moment.Core ℚ} (hn' : FP.newCore (Arith.rounded rnd pw) cfg' = .ok c')
    (hs' : ∀ k ∈ cfg'.sums.getD [], k ≤ 65) (h2 : ∃ k ∈ cfg'.sums.getD [], 2 ≤ k) (hw : cfg.window = cfg'.window) (hd : cfg.decay = cfg'.decay)
    (hdr : ∀ d, cfg.decay = some d → rnd d = d) {n : Nat} (hv : Joint.varsOf cfg = n) {i : Nat} (hin : i < n) (ht : TracksZ (cfg.sums.getD []) ((List.replicate n 0).set i 2))
    (ops : List (MOp (List ℚ))) :
    ∃ e es e', JFP.run (Arith.rounded rnd pw) c ops = .val (e, es) ∧
      FP.run (Arith.rounded rnd pw) c' (columnOps 0 i n ops) = .val (e', []) ∧
      ∀ v, JFP.sum e ((List.replicate n 0).set i 2) = .ok v ↔ FP.sum e' 2 = .ok v := by
  obtain ⟨e, r, h1, -, -, h3⟩ := joint_gst _ hn hs hi hww hv (fun h => ⟨hov h, JFP.zwin R.zero (by rw [R.neg, R.one]) P.zero w⟩) ops
  obtain ⟨e', r', h1', -, h3'⟩ := moment_mst _ hn' hs' (hw ▸ hww) (columnOps 0 i n ops)
  refine ⟨e, _, e', r, r', fun v => ?_⟩
  have hcnt : e.count = e'.count := by
    rw [h1, h1', windowOf, windowOf, since_columnOps]
    unfold JFP.column
    rw [JFP.lastN_map, List.length_map]
  by_cases hx : since (ops.filter (okArity n)) = []
  · have h0 : e.count = 0 := by rw [h1, windowOf, hx]; simp [lastN]
    have h0' : e'.count = 0 := hcnt ▸ h0
    simp [JFP.sum, FP.sum, h0, h0']
  · have hne : since (columnOps 0 i n ops) ≠ [] := by
      rw [since_columnOps]; simpa [JFP.column] using hx
    have h0 : e.count ≠ 0 := by
      rw [h1]
      have := List.length_pos_iff.2 (lastN_ne_nil (w := w) hx)
      unfold windowOf
      omega
    have hm := h3 _ ht
    have he : ((List.replicate n 0).set i 2 : List Nat).map Int.ofNat = JFP.atTuple n i 2 := by simp [JFP.atTuple, List.map_set]
    rw [he, JFP.sum_sq R P hdr hin _ (since_arity n ops)] at hm
    obtain ⟨j, hj, hj2⟩ := h2
    have hq := h3' hne 2 (by omega) ⟨j, hj, by exact_mod_cast hj2⟩
    rw [since_columnOps, ← hd] at hq
    have hsum : JFP.sum e ((List.replicate n 0).set i 2) = .ok ((mst (Arith.rounded rnd pw) w cfg.decay (JFP.column 0 i (since (ops.filter (okArity n))))).2 2) := by
      unfold JFP.sum
      rw [if_neg h0]
      have : ((List.replicate n 0).set i 2 : Tuple) = JFP.atTuple n i 2 := rfl
      rw [this, hm]
    rw [hsum]
    have hq' : FP.sum e' 2 = _ := hq
    rw [hq']

/-- What `Corr` needs is tracked by its configuration. -/
example : TracksZ [[1, 1], [2, 0], [0, 2]] ((List.replicate 2 0).set 0 2) ∧ TracksZ [[1, 1], [2, 0], [0, 2]] ((List.replicate 2 0).set 1 2) :=
  ⟨⟨[2, 0], by simp, by decide⟩, ⟨[0, 2], by simp, by decide⟩⟩

/-- binary64 meets the hypotheses. -/
theorem powOK64 : PowOK rnd64 (fun x k => rnd64 (x ^ k)) where
  zero := fun x => by simp [FP.rounding_rnd64.one]
  one := fun x h => by simp [h]
  repr := fun x k _ => FP.rounding_rnd64.idem _

/-- The sums of order two of a joint core in rounded arithmetic are functions of the columns. -/
theorem joint_second {rnd : ℚ → ℚ} (R : Rounding rnd) {pw : ℚ → Nat → ℚ} (P : PowOK rnd pw) {cfg : Joint.Config ℚ} {c : Joint.Core ℚ}
    (hn : JFP.newCore (Arith.rounded rnd pw) cfg = .val (.ok c)) (hs : ∀ t ∈ cfg.sums.getD [], ∀ k ∈ t, k ≤ 65)
    (hi : NoCollision (cfg.sums.getD [])) {w : Nat} (hw : cfg.window = some (w : Int)) (hov : 2 ≤ w → NoOverlapZ (cfg.sums.getD []))
    (hdr : ∀ d, cfg.decay = some d → rnd d = d) {n : Nat} (hv : Joint.varsOf cfg = n) (ops : List (MOp (List ℚ))) :
    ∃ e, JFP.run (Arith.rounded rnd pw) c ops = .val (e, JFP.arityErrors n ops) ∧
      e.count = (windowOf w (ops.filter (okArity n))).length ∧
      (∀ t, since (ops.filter (okArity n)) = [] → JFP.sum e t = .error "no values seen yet") ∧
      (∀ i, i < n → TracksZ (cfg.sums.getD []) ((List.replicate n 0).set i 2) → since (ops.filter (okArity n)) ≠ [] →
        JFP.sum e (JFP.atTuple n i 2) =
          .ok ((mst (Arith.rounded rnd pw) w cfg.decay (JFP.column 0 i (since (ops.filter (okArity n))))).2 2)) ∧
      (∀ i j, i < j → j < n → TracksZ (cfg.sums.getD []) (((List.replicate n 0).set i 1).set j 1) → since (ops.filter (okArity n)) ≠ [] →
        JFP.sum e (JFP.pairTuple n i j) =
          .ok (JFP.pairS (Arith.rounded rnd pw) (fun a b => rnd (a * b)) w cfg.decay (JFP.pairs 0 i j (since (ops.filter (okArity n)))))) := by
  obtain ⟨e, r, h1, -, -, h3⟩ := joint_gst _ hn hs hi hw hv (fun h => ⟨hov h, JFP.zwin R.zero (by rw [R.neg, R.one]) P.zero w⟩) ops
  have h0 : since (ops.filter (okArity n)) ≠ [] → e.count ≠ 0 := by
    intro hx
    rw [h1]
    have := List.length_pos_iff.2 (lastN_ne_nil (w := w) hx)
    unfold windowOf
    omega
  refine ⟨e, r, h1, fun t hx => ?_, fun i hi ht hx => ?_, fun i j hij hj ht hx => ?_⟩
  · unfold JFP.sum
    rw [if_pos (by rw [h1, windowOf, hx]; simp [lastN])]
  · have hm := h3 _ ht
    have he : ((List.replicate n 0).set i 2 : List Nat).map Int.ofNat = JFP.atTuple n i 2 := by simp [JFP.atTuple, List.map_set]
    rw [he, JFP.sum_sq R P hdr hi _ (since_arity n ops)] at hm
    unfold JFP.sum
    rw [if_neg (h0 hx), hm]
  · have hm := h3 _ ht
    have he : (((List.replicate n 0).set i 1).set j 1 : List Nat).map Int.ofNat = JFP.pairTuple n i j := by
      simp [JFP.pairTuple, JFP.atTuple, List.map_set]
    rw [he, JFP.sum_mixed R P hdr hij hj _ (since_arity n ops)] at hm
    unfold JFP.sum
    rw [if_neg (h0 hx), hm]

/-- The calls on a joint core with `n` variables, as far as the variables `i` and `j` are concerned. -/
def pairOps {F : Type} (z : F) (i j n : Nat) (ops : List (MOp (List F))) : List (MOp (List F)) :=
  (ops.filter (okArity n)).map fun
    | .push x => .push [x.getD i z, x.getD j z]
    | .clear => .clear

theorem pairOps_ok {F : Type} (z : F) (i j n : Nat) (ops : List (MOp (List F))) : (pairOps z i j n ops).filter (okArity 2) = pairOps z i j n ops := by
  rw [List.filter_eq_self]
  intro o ho
  obtain ⟨o', -, rfl⟩ := List.mem_map.1 ho
  cases o' <;> rfl

theorem since_pairOps {F : Type} (z : F) (i j n : Nat) (ops : List (MOp (List F))) :
    since (pairOps z i j n ops) = (since (ops.filter (okArity n))).map fun x => [x.getD i z, x.getD j z] := by
  unfold pairOps
  generalize ops.filter (okArity n) = l
  induction l using List.reverseRecOn with
  | nil => rfl
  | append_singleton l o ih =>
    rw [List.map_append]
    cases o with
    | push x => simp only [List.map_cons, List.map_nil, since_push, ih, List.map_append]
    | clear => simp only [List.map_cons, List.map_nil, since_clear]

/-- C74, products, in rounded arithmetic, partial: `Sum` of the tuple with 1 at the variables `i < j` is, to the bit, `Sum(1,1)` of a core for
two variables that sees `i` and `j` alone. Missing as in `C74_square_partial`. -/
theorem C74_product_partial {rnd : ℚ → ℚ} (R : Rounding rnd) {pw : ℚ → Nat → ℚ} (P : PowOK rnd pw) {cfg cfg' : Joint.Config ℚ} {c c' : Joint.Core ℚ}
    (hn : JFP.newCore (Arith.rounded rnd pw) cfg = .val (.ok c)) (hn' : JFP.newCore (Arith.rounded rnd pw) cfg' = .val (.ok c'))
    (hs : ∀ t ∈ cfg.sums.getD [], ∀ k ∈ t, k ≤ 65) (hs' : ∀ t ∈ cfg'.sums.getD [], ∀ k ∈ t, k ≤ 65)
    (hi : NoCollision (cfg.sums.getD [])) (hi' : NoCollision (cfg'.sums.getD [])) {w : Nat} (hww : cfg.window = some (w : Int))
    (hov : 2 ≤ w → NoOverlapZ (cfg.sums.getD [])) (hov' : 2 ≤ w → NoOverlapZ (cfg'.sums.getD [])) (hw : cfg.window = cfg'.window)
    (hd : cfg.decay = cfg'.decay) (hdr : ∀ d, cfg.decay = some d → rnd d = d) {n : Nat} (hv : Joint.varsOf cfg = n) (hv' : Joint.varsOf cfg' = 2)
    {i j : Nat} (hij : i < j) (hj : j < n) (ht : TracksZ (cfg.sums.getD []) (((List.replicate n 0).set i 1).set j 1))
    (ht' : TracksZ (cfg'.sums.getD []) [1, 1]) (ops : List (MOp (List ℚ))) :
    ∃ e es e', JFP.run (Arith.rounded rnd pw) c ops = .val (e, es) ∧
      JFP.run (Arith.rounded rnd pw) c' (pairOps 0 i j n ops) = .val (e', []) ∧
      JFP.sum e (((List.replicate n 0).set i 1).set j 1) = JFP.sum e' [1, 1] := by
  obtain ⟨e, r, -, h1, -, h2⟩ := joint_second R P hn hs hi hww hov hdr hv ops
  obtain ⟨e', r', -, h1', -, h2'⟩ := joint_second R P hn' hs' hi' (hw ▸ hww) hov' (hd ▸ hdr) (n := 2) (by exact_mod_cast hv') (pairOps 0 i j n ops)
  rw [pairOps_ok, since_pairOps] at h1' h2'
  have hnil : JFP.arityErrors 2 (pairOps (0 : ℚ) i j n ops) = [] := by
    have := pairOps_ok (0 : ℚ) i j n ops
    rw [List.filter_eq_self] at this
    unfold JFP.arityErrors
    simp only [List.map_eq_nil_iff, List.filter_eq_nil_iff]
    intro o ho
    simp [this o ho]
  rw [hnil] at r'
  refine ⟨e, _, e', r, r', ?_⟩
  by_cases hx : since (ops.filter (okArity n)) = []
  · rw [h1 _ hx, h1' _ (by rw [hx]; rfl)]
  · have ha : JFP.sum e (((List.replicate n 0).set i 1).set j 1) = _ := h2 i j hij hj ht hx
    have hb : JFP.sum e' [1, 1] = _ := h2' 0 1 (by omega) (by omega) ht' (by simpa using hx)
    rw [ha, hb, ← hd]
    simp [JFP.pairs, Function.comp_def]

/-- Three variables, two of them correlated. -/
example : TracksZ [[1, 0, 1], [0, 2, 0]] (((List.replicate 3 0).set 0 1).set 2 1) := ⟨[1, 0, 1], by simp, by decide⟩

/-! ## C75 -/

/-- What the theorems on `Corr` and `EWMCorr` assume of a core: two variables, the three tuples, no collisions, no overlaps. The configuration
of the two metrics themselves has it (`corrCore_ok`). -/
structure CorrCore (rnd : ℚ → ℚ) (pw : ℚ → Nat → ℚ) (cfg : Joint.Config ℚ) (c : Joint.Core ℚ) : Prop where
  new : JFP.newCore (Arith.rounded rnd pw) cfg = .val (.ok c)
  vars : Joint.varsOf cfg = 2
  small : ∀ t ∈ cfg.sums.getD [], ∀ k ∈ t, k ≤ 65
  coll : NoCollision (cfg.sums.getD [])
  over : NoOverlapZ (cfg.sums.getD [])
  track : TracksZ (cfg.sums.getD []) [1, 1] ∧ TracksZ (cfg.sums.getD []) [2, 0] ∧ TracksZ (cfg.sums.getD []) [0, 2]
  decay : ∀ d, cfg.decay = some d → rnd d = d

/-- The configuration of `Corr` (any window) and `EWMCorr` (any representable decay). -/
theorem corrCore_ok {rnd : ℚ → ℚ} {pw : ℚ → Nat → ℚ} {w : Option Int} {d : Option ℚ} {c : Joint.Core ℚ} (hd : ∀ x, d = some x → rnd x = x)
    (hn : JFP.newCore (Arith.rounded rnd pw) ⟨some [[1, 1], [2, 0], [0, 2]], w, none, d⟩ = .val (.ok c)) :
    CorrCore rnd pw ⟨some [[1, 1], [2, 0], [0, 2]], w, none, d⟩ c where
  new := hn
  vars := rfl
  small := by simp
  coll := noCollision_of_small (n := 2) (by omega) (by simp) (by simp [Moderate])
  over := by
    have := Joint.noOverlap_corr
    unfold NoOverlapZ
    unfold Joint.NoOverlap at this
    have e : ([[1, 1], [2, 0], [0, 2]] : List Tuple) = [[1, 1], [2, 0], [0, 2]].map Joint.up := rfl
    show List.Pairwise _ ([[1, 1], [2, 0], [0, 2]] : List Tuple)
    rw [e, List.pairwise_map]
    exact this.imp fun h a h1 h2 => h a (belowZ_up.1 h1) (belowZ_up.1 h2)
  track := ⟨⟨[1, 1], by simp, by decide⟩, ⟨[2, 0], by simp, by decide⟩, ⟨[0, 2], by simp, by decide⟩⟩
  decay := hd

theorem corr_sums {rnd : ℚ → ℚ} (R : Rounding rnd) {pw : ℚ → Nat → ℚ} (P : PowOK rnd pw) {cfg : Joint.Config ℚ} {c : Joint.Core ℚ}
    (hc : CorrCore rnd pw cfg c) {w : Nat} (hw : cfg.window = some (w : Int)) (ops : List (MOp (List ℚ))) :
    ∃ e, JFP.run (Arith.rounded rnd pw) c ops = .val (e, JFP.arityErrors 2 ops) ∧
      (∀ t, since (ops.filter (okArity 2)) = [] → JFP.sum e t = .error "no values seen yet") ∧
      (since (ops.filter (okArity 2)) ≠ [] →
        JFP.sum e [2, 0] = .ok ((mst (Arith.rounded rnd pw) w cfg.decay (JFP.column 0 0 (since (ops.filter (okArity 2))))).2 2) ∧
        JFP.sum e [0, 2] = .ok ((mst (Arith.rounded rnd pw) w cfg.decay (JFP.column 0 1 (since (ops.filter (okArity 2))))).2 2) ∧
        JFP.sum e [1, 1] =
          .ok (JFP.pairS (Arith.rounded rnd pw) (fun a b => rnd (a * b)) w cfg.decay (JFP.pairs 0 0 1 (since (ops.filter (okArity 2)))))) := by
  obtain ⟨e, r, -, h0, h1, h2⟩ := joint_second R P hc.new hc.small hc.coll hw (fun _ => hc.over) hc.decay (n := 2) (by exact_mod_cast hc.vars) ops
  exact ⟨e, r, h0, fun hx => ⟨h1 0 (by omega) hc.track.2.1 hx, h1 1 (by omega) hc.track.2.2 hx, h2 0 1 (by omega) (by omega) hc.track.1 hx⟩⟩

/-- C75, symmetry, in full: exchanging the two variables in every call changes nothing in the value of `Corr` or `EWMCorr`, to the bit; any
window, any decay, any function for the square root. -/
theorem C75_symmetric {rnd : ℚ → ℚ} (R : Rounding rnd) {pw : ℚ → Nat → ℚ} (P : PowOK rnd pw) {cfg : Joint.Config ℚ} {c : Joint.Core ℚ}
    (hc : CorrCore rnd pw cfg c) (sqrt : ℚ → ℚ) (ops : List (MOp (List ℚ))) :
    ∃ e es e' es', JFP.run (Arith.rounded rnd pw) c ops = .val (e, es) ∧
      JFP.run (Arith.rounded rnd pw) c (ops.map fun | .push x => .push x.reverse | .clear => .clear) = .val (e', es') ∧
      ∀ v, JFP.corrValue (Arith.rounded rnd pw) sqrt e = .ok v ↔ JFP.corrValue (Arith.rounded rnd pw) sqrt e' = .ok v := by
  obtain ⟨_, w, hw, -⟩ := JFP.newCore_ok _ hc.new
  obtain ⟨e, r, h0, h1⟩ := corr_sums R P hc hw ops
  obtain ⟨e', r', h0', h1'⟩ := corr_sums R P hc hw (ops.map fun | .push x => .push x.reverse | .clear => .clear)
  have hsince : since ((ops.map fun | .push x => .push x.reverse | .clear => .clear).filter (okArity 2)) =
      (since (ops.filter (okArity 2))).map List.reverse := by
    have hf : (ops.map fun | .push x => .push x.reverse | .clear => .clear).filter (okArity 2) =
        (ops.filter (okArity 2)).map (fun (o : MOp (List ℚ)) => match o with | .push x => .push x.reverse | .clear => .clear) := by
      rw [List.filter_map]
      congr 1
      refine List.filter_congr fun o _ => ?_
      cases o <;> simp [okArity]
    rw [hf]
    generalize ops.filter (okArity 2) = l
    induction l using List.reverseRecOn with
    | nil => rfl
    | append_singleton l o ih =>
      rw [List.map_append]
      cases o with
      | push x => simp only [List.map_cons, List.map_nil, since_push, ih, List.map_append]
      | clear => simp only [List.map_cons, List.map_nil, since_clear]
  rw [hsince] at h0' h1'
  refine ⟨e, _, e', _, r, r', fun v => ?_⟩
  by_cases hx : since (ops.filter (okArity 2)) = []
  · unfold JFP.corrValue
    rw [h0 _ hx, h0' _ (by rw [hx]; rfl)]
  · obtain ⟨a1, a2, a3⟩ := h1 hx
    obtain ⟨b1, b2, b3⟩ := h1' (by simpa using hx)
    have hl := since_arity 2 ops
    have hcol : ∀ k, k < 2 → JFP.column 0 k ((since (ops.filter (okArity 2))).map List.reverse) = JFP.column 0 (1 - k) (since (ops.filter (okArity 2))) := by
      intro k hk
      unfold JFP.column
      rw [List.map_map]
      refine List.map_congr_left fun x hx => ?_
      have := hl x hx
      match x, this with
      | [p, q], _ =>
        have : k = 0 ∨ k = 1 := by omega
        rcases this with rfl | rfl <;> rfl
    have hp : JFP.pairs 0 0 1 ((since (ops.filter (okArity 2))).map List.reverse) = (JFP.pairs 0 0 1 (since (ops.filter (okArity 2)))).map Prod.swap := by
      unfold JFP.pairs
      rw [List.map_map, List.map_map]
      refine List.map_congr_left fun x hx => ?_
      have := hl x hx
      match x, this with
      | [p, q], _ => rfl
    rw [hcol 0 (by omega)] at b1
    rw [hcol 1 (by omega)] at b2
    rw [hp, JFP.pairS_swap _ (fun x y => by rw [mul_comm])] at b3
    unfold JFP.corrValue
    rw [a1, a2, a3, b1, b2, b3]
    simp only
    have : ∀ x y : ℚ, (Arith.rounded rnd pw).mul x y = (Arith.rounded rnd pw).mul y x := fun x y => by simp [Arith.rounded, mul_comm]
    rw [this]

/-- C75, equal variables: when both variables had the same values since the last `Clear`, the three sums are the same number, to the bit; any
window, any decay, provided `math.Pow(x, 2)` is `x * x`. -/
theorem C75_equal_sums {rnd : ℚ → ℚ} (R : Rounding rnd) {pw : ℚ → Nat → ℚ} (P : PowOK rnd pw) (hsq : ∀ x, rnd x = x → pw x 2 = rnd (x * x))
    {cfg : Joint.Config ℚ} {c : Joint.Core ℚ} (hc : CorrCore rnd pw cfg c) (ops : List (MOp (List ℚ)))
    (hx : ∀ x ∈ since (ops.filter (okArity 2)), x.getD 0 0 = x.getD 1 0) :
    ∃ e es, JFP.run (Arith.rounded rnd pw) c ops = .val (e, es) ∧ JFP.sum e [1, 1] = JFP.sum e [2, 0] ∧ JFP.sum e [0, 2] = JFP.sum e [2, 0] ∧
      ∀ s, JFP.sum e [2, 0] = .ok s → rnd s = s := by
  obtain ⟨_, w, hw, -⟩ := JFP.newCore_ok _ hc.new
  obtain ⟨e, r, h0, h1⟩ := corr_sums R P hc hw ops
  have hcol : JFP.column (0 : ℚ) 1 (since (ops.filter (okArity 2))) = JFP.column 0 0 (since (ops.filter (okArity 2))) :=
    List.map_congr_left fun x h => (hx x h).symm
  have hp : JFP.pairs (0 : ℚ) 0 1 (since (ops.filter (okArity 2))) = (JFP.column 0 0 (since (ops.filter (okArity 2)))).map fun x => (x, x) := by
    unfold JFP.pairs JFP.column
    rw [List.map_map]
    refine List.map_congr_left fun x h => ?_
    rw [Function.comp_apply, ← hx x h]
  have hm := fun l => JFP.pairS_mst R (pw := pw) (f := fun a b => rnd (a * b)) (fun x h => (hsq x h).symm) w cfg.decay l
  refine ⟨e, _, r, ?_⟩
  by_cases hne : since (ops.filter (okArity 2)) = []
  · rw [h0 _ hne, h0 _ hne, h0 _ hne]
    exact ⟨rfl, rfl, fun s h => by simp at h⟩
  · obtain ⟨a1, a2, a3⟩ := h1 hne
    rw [a1, a2, a3, hp, hm, hcol]
    refine ⟨rfl, rfl, fun s h => ?_⟩
    rw [← Except.ok.inj h, ← hm]
    exact (JFP.pairS_repr R _ w cfg.decay _).1

/-- C75, correlation of a variable with itself, in binary64, partial: with correctly rounded square roots `Corr` and `EWMCorr` are exactly 1 when
both variables had the same values, provided the sum of squares is at least 2^-511 (no underflow in its square). Missing: sums below that bound
(`C75_underflow_refuted`), among them the negative ones that windowed cores arrive at (`C75_window_refuted`). -/
theorem C75_self_partial {pw : ℚ → Nat → ℚ} (P : PowOK rnd64 pw) (hsq : ∀ x, rnd64 x = x → pw x 2 = rnd64 (x * x)) {cfg : Joint.Config ℚ}
    {c : Joint.Core ℚ} (hc : CorrCore rnd64 pw cfg c) {sqrt : ℚ → ℚ} (hsqrt : ∀ q, 0 ≤ q → FP.SqrtOf rnd64 q (sqrt q)) (ops : List (MOp (List ℚ)))
    (hx : ∀ x ∈ since (ops.filter (okArity 2)), x.getD 0 0 = x.getD 1 0) :
    ∃ e es, JFP.run (Arith.rounded rnd64 pw) c ops = .val (e, es) ∧
      ∀ s, JFP.sum e [2, 0] = .ok s → FP.two (-511) ≤ s → JFP.corrValue (Arith.rounded rnd64 pw) sqrt e = .ok 1 := by
  obtain ⟨e, es, r, h1, h2, h3⟩ := C75_equal_sums FP.rounding_rnd64 P hsq hc ops hx
  refine ⟨e, es, r, fun s hs hb => ?_⟩
  have hpos : (0 : ℚ) < s := lt_of_lt_of_le (by rw [FP.two_eq]; positivity) hb
  have hr := FP.sqrt_sq64 (h3 s hs) hb (hsqrt _ (FP.rounding_rnd64.nonneg (mul_pos hpos hpos).le))
  unfold JFP.corrValue
  rw [h1, h2, hs]
  simp only [Arith.rounded, hr, div_self hpos.ne', FP.rounding_rnd64.one]

/-- binary64 with a correctly rounded square root meets the hypotheses. -/
example : PowOK rnd64 (fun x k => rnd64 (x ^ k)) ∧ (∀ x, rnd64 x = x → rnd64 (x ^ 2) = rnd64 (x * x)) ∧
    ∃ sqrt : ℚ → ℚ, ∀ q, 0 ≤ q → FP.SqrtOf rnd64 q (sqrt q) :=
  ⟨powOK64, fun x _ => by rw [sq], fun q => if h : 0 ≤ q then (FP.exists_sqrt h).choose else 0, fun q h => by
    simp only [dif_pos h]
    exact (FP.exists_sqrt h).choose_spec⟩

/-- C75 is false for windowed cores in binary64: window 2, both variables 5000000000000001, 6000000000000000, 0, 1. The window holds (0,0) and
(1,1), and `Corr` is -1. -/
theorem C75_window_refuted {sqrt : ℚ → ℚ} (hsqrt : ∀ q, 0 ≤ q → FP.SqrtOf rnd64 q (sqrt q)) : ∃ c e : Joint.Core ℚ,
    JFP.newCore Arith.b64 ⟨some [[1, 1], [2, 0], [0, 2]], some 2, none, none⟩ = .val (.ok c) ∧
    JFP.run Arith.b64 c [.push [5000000000000001, 5000000000000001], .push [6000000000000000, 6000000000000000], .push [0, 0], .push [1, 1]] =
      .val (e, []) ∧ JFP.corrValue Arith.b64 sqrt e = .ok (-1) := by
  have h : jObs Arith.b64 ⟨some [[1, 1], [2, 0], [0, 2]], some 2, none, none⟩
      [.push [5000000000000001, 5000000000000001], .push [6000000000000000, 6000000000000000], .push [0, 0], .push [1, 1]]
      [[1, 1], [2, 0], [0, 2]] =
      some (([.ok (-13510798882111486), .ok (-13510798882111486), .ok (-13510798882111486)], .ok 0, .ok 0), 2, []) := by decide +kernel
  obtain ⟨c, e, h1, h2, h3, -⟩ := jObs_run h
  simp only [List.map_cons, List.map_nil, List.cons.injEq, and_true] at h3
  refine ⟨c, e, h1, h2, ?_⟩
  have hr := FP.sqrt_sq64 (s := 13510798882111486) (by decide +kernel) (by decide +kernel) (hsqrt _ (FP.rounding_rnd64.nonneg (by norm_num)))
  unfold JFP.corrValue
  rw [h3.1, h3.2.1, h3.2.2]
  simp only [Arith.b64, Arith.rounded]
  rw [show (-13510798882111486 : ℚ) * -13510798882111486 = 13510798882111486 * 13510798882111486 by norm_num, hr]
  norm_num [FP.rounding_rnd64.neg, FP.rounding_rnd64.one]

/-- C75, range: `Corr` is not confined to [-1, 1] in binary64, even without a window: for the points (0,0), (0,0), (5,15) it is 1 + 2^-52. -/
theorem C75_range_refuted {sqrt : ℚ → ℚ} (hsqrt : ∀ q, 0 ≤ q → FP.SqrtOf rnd64 q (sqrt q)) : ∃ c e : Joint.Core ℚ,
    JFP.newCore Arith.b64 ⟨some [[1, 1], [2, 0], [0, 2]], some 0, none, none⟩ = .val (.ok c) ∧
    JFP.run Arith.b64 c [.push [0, 0], .push [0, 0], .push [5, 15]] = .val (e, []) ∧
    JFP.corrValue Arith.b64 sqrt e = .ok (1 + 1 / 2 ^ 52) := by
  have h : jObs Arith.b64 ⟨some [[1, 1], [2, 0], [0, 2]], some 0, none, none⟩ [.push [0, 0], .push [0, 0], .push [5, 15]]
      [[1, 1], [2, 0], [0, 2]] =
      some (([.ok 50, .ok (2345624805922133 / 140737488355328), .ok 150], .ok (rnd64 (5 / 3)), .ok 5), 3, []) := by decide +kernel
  obtain ⟨c, e, h1, h2, h3, -⟩ := jObs_run h
  simp only [List.map_cons, List.map_nil, List.cons.injEq, and_true] at h3
  refine ⟨c, e, h1, h2, ?_⟩
  have hr : sqrt (rnd64 (2345624805922133 / 140737488355328 * 150)) = 7036874417766399 / 140737488355328 :=
    (hsqrt _ (FP.rounding_rnd64.nonneg (by norm_num))).eq (a := 7036874417766399 / 140737488355328 - 2 / 5 / 140737488355328)
      (b := 7036874417766399 / 140737488355328 + 2 / 5 / 140737488355328) (by norm_num) (by norm_num) (by decide +kernel) (by decide +kernel)
      (by decide +kernel) (by decide +kernel)
  unfold JFP.corrValue
  rw [h3.1, h3.2.1, h3.2.2]
  simp only [Arith.b64, Arith.rounded]
  rw [hr]
  have : rnd64 (50 / (7036874417766399 / 140737488355328)) = 1 + 1 / 2 ^ 52 := by decide +kernel
  rw [this]

set_option synthInstance.maxSize 512 in
set_option synthInstance.maxHeartbeats 200000 in
/-- C75, underflow: two points (0,0), (2^-300,2^-300): `Corr` is +Inf in IEEE arithmetic, whatever the square root is on positive numbers. -/
theorem C75_underflow_refuted (r : ℚ → ℚ) (hr : r 0 = 0) : ∃ c e : Joint.Core (XF ℚ),
    JFP.newCore Arith.ieee64 ⟨some [[1, 1], [2, 0], [0, 2]], some 0, none, none⟩ = .val (.ok c) ∧
    JFP.run Arith.ieee64 c [.push [.fin 0, .fin 0], .push [.fin (FP.two (-300)), .fin (FP.two (-300))]] = .val (e, []) ∧
    JFP.corrValue Arith.ieee64 (XF.sqrt r) e = .ok (.inf false) := by
  have h : jObs Arith.ieee64 ⟨some [[1, 1], [2, 0], [0, 2]], some 0, none, none⟩
      [.push [.fin 0, .fin 0], .push [.fin (FP.two (-300)), .fin (FP.two (-300))]] [[1, 1], [2, 0], [0, 2]] =
      some (([.ok (.fin (FP.two (-601))), .ok (.fin (FP.two (-601))), .ok (.fin (FP.two (-601)))],
        .ok (.fin (FP.two (-301))), .ok (.fin (FP.two (-301)))), 2, []) := by decide +kernel
  obtain ⟨c, e, h1, h2, h3, -⟩ := jObs_run h
  simp only [List.map_cons, List.map_nil, List.cons.injEq, and_true] at h3
  refine ⟨c, e, h1, h2, ?_⟩
  have hm : Arith.ieee64.mul (.fin (FP.two (-601))) (.fin (FP.two (-601))) = .fin 0 := by decide +kernel
  have hd : Arith.ieee64.div (.fin (FP.two (-601))) (.fin 0) = .inf false := by decide +kernel
  unfold JFP.corrValue
  rw [h3.1, h3.2.1, h3.2.2]
  simp only [hm, XF.sqrt, lt_irrefl, if_false, hr, hd]

/-- C74, refuted as stated: with a window of two and the overlapping tuples `{2,1}` and `{2,2}`, after (0,0), (1,2), (3,1) the sum for
`{2,0}` is 3/2 where a moment core fed 0, 1, 3 has 2, and the sum for `{1,1}` is -2 where a core for `{1,1}` alone has -1. -/
theorem C74_overlap_refuted : ∃ (c e c' e' : Joint.Core ℚ) (b d : Moment.Core ℚ),
    JFP.newCore Arith.b64 ⟨some [[2, 1], [2, 2]], some 2, none, none⟩ = .val (.ok c) ∧
    JFP.run Arith.b64 c [.push [0, 0], .push [1, 2], .push [3, 1]] = .val (e, []) ∧
    FP.newCore Arith.b64 ⟨some [2], some 2, none⟩ = .ok b ∧ FP.run Arith.b64 b [.push 0, .push 1, .push 3] = .val (d, []) ∧
    JFP.newCore Arith.b64 ⟨some [[1, 1]], some 2, none, none⟩ = .val (.ok c') ∧
    JFP.run Arith.b64 c' [.push [0, 0], .push [1, 2], .push [3, 1]] = .val (e', []) ∧
    JFP.sum e [2, 0] = .ok (3 / 2) ∧ FP.sum d 2 = .ok 2 ∧ JFP.sum e [1, 1] = .ok (-2) ∧ JFP.sum e' [1, 1] = .ok (-1) := by
  have h1 : jObs Arith.b64 ⟨some [[2, 1], [2, 2]], some 2, none, none⟩ [.push [0, 0], .push [1, 2], .push [3, 1]] [[1, 1], [2, 0]] =
      some (([.ok (-2), .ok (3 / 2)], .ok 2, .ok (3 / 2)), 2, []) := by decide +kernel
  have h2 : jObs Arith.b64 ⟨some [[1, 1]], some 2, none, none⟩ [.push [0, 0], .push [1, 2], .push [3, 1]] [[1, 1]] =
      some (([.ok (-1)], .ok 2, .ok (3 / 2)), 2, []) := by decide +kernel
  have h3 : (match FP.newCore Arith.b64 ⟨some [2], some 2, none⟩ with
      | .ok b => fpObs (FP.run Arith.b64 b [.push 0, .push 1, .push 3]) | .error _ => none) =
      some ((.ok 2, .ok 2), (.error "not a tracked power sum", 2), []) := by decide +kernel
  obtain ⟨c, e, a1, a2, a3, -⟩ := jObs_run h1
  obtain ⟨c', e', b1, b2, b3, -⟩ := jObs_run h2
  simp only [List.map_cons, List.map_nil, List.cons.injEq, and_true] at a3 b3
  match hb : FP.newCore Arith.b64 (⟨some [2], some 2, none⟩ : Moment.Config ℚ) with
  | .ok b =>
    rw [hb] at h3
    obtain ⟨d, d1, -, d2, -⟩ := fpObs_run h3
    exact ⟨c, e, c', e', b, d, a1, a2, rfl, d1, b1, b2, a3.2, d2, a3.1, b3⟩
  | .error _ =>
    rw [hb] at h3
    simp at h3

end Verif.Props
