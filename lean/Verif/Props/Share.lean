import Verif.Proofs.Decide
import Verif.Proofs.JointColumn
import Verif.Props.JointCore
import Verif.Props.Rounded

/-! # C73: what a core reports does not depend on what else it tracks

A core may be shared between metrics (`MergeConfigs`, `Subscribe`). Two cores with the same window, decay and (package `joint`) number of
variables, but different sums, see the same calls. -/

namespace Verif.Props
open Verif Verif.Spec
open Verif.FP (Arith mst)
open Verif.Joint (Tuple)
open Verif.JFP (gst)

/-! ## Package `moment` -/

/-- The numbers of a moment core are a function of the values alone. -/
theorem moment_mst {F : Type} [GoOrd F] (A : Arith F) {cfg : Moment.Config F} {c : Moment.Core F} (hn : FP.newCore A cfg = .ok c)
    (hs : ∀ k ∈ cfg.sums.getD [], k ≤ 65) {w : Nat} (hw : cfg.window = some (w : Int)) (ops : List (MOp F)) :
    ∃ c', FP.run A c ops = .val (c', []) ∧ c'.count = (windowOf w ops).length ∧
      (since ops ≠ [] → FP.mean c' = .ok (mst A w cfg.decay (since ops)).1) ∧
      (since ops ≠ [] → ∀ k : Nat, 1 ≤ k → (∃ j ∈ cfg.sums.getD [], (k : Int) ≤ j) →
        FP.sum c' k = .ok ((mst A w cfg.decay (since ops)).2 k)) := by
  obtain ⟨-, -, hc, -⟩ := FP.newCore_ok A hn
  obtain ⟨c', e, B, h1, h2⟩ := FP.core_track A hn hs hw (FP.track_mst A w cfg.decay c.len) ops
  refine ⟨c', e, B.count, fun hx => by rw [B.mean_ok hx, h1], fun hx k h1 hk => ?_⟩
  have hlt := (FP.lt_mk_len A (cfg := cfg) k).2 hk
  rw [← hc] at hlt
  rw [B.sum_ok hx h1 hlt, h2 k hlt]

/-- C73, package `moment`, in full for exponents at most 65: in any arithmetic, with any window or decay, `Count`, `Mean` and every `Sum(k)`
that both cores track are the same, to the bit. -/
theorem C73_moment {F : Type} [GoOrd F] (A : Arith F) {cfg cfg' : Moment.Config F} {c c' : Moment.Core F} (hn : FP.newCore A cfg = .ok c)
    (hn' : FP.newCore A cfg' = .ok c') (hw : cfg.window = cfg'.window) (hd : cfg.decay = cfg'.decay) (hs : ∀ k ∈ cfg.sums.getD [], k ≤ 65)
    (hs' : ∀ k ∈ cfg'.sums.getD [], k ≤ 65) (ops : List (MOp F)) :
    ∃ e e', FP.run A c ops = .val (e, []) ∧ FP.run A c' ops = .val (e', []) ∧ e.count = e'.count ∧ FP.mean e = FP.mean e' ∧
      ∀ k : Int, (∃ j ∈ cfg.sums.getD [], k ≤ j) → (∃ j ∈ cfg'.sums.getD [], k ≤ j) → FP.sum e k = FP.sum e' k := by
  obtain ⟨w, hww, -⟩ := FP.newCore_ok A hn
  obtain ⟨e, r, h1, h2, h3⟩ := moment_mst A hn hs hww ops
  obtain ⟨e', r', h1', h2', h3'⟩ := moment_mst A hn' hs' (hw ▸ hww) ops
  refine ⟨e, e', r, r', by rw [h1, h1'], ?_, fun k hk hk' => ?_⟩
  · by_cases hx : since ops = []
    · have hz : windowOf w ops = [] := by simp [windowOf, hx, lastN]
      rw [hz] at h1 h1'
      simp [FP.mean, h1, h1']
    · rw [h2 hx, h2' hx, hd]
  · by_cases hx : since ops = []
    · have hz : windowOf w ops = [] := by simp [windowOf, hx, lastN]
      rw [hz] at h1 h1'
      simp [FP.sum, h1, h1']
    · by_cases h : k ≤ 0
      · unfold FP.sum
        rw [h1, h1', if_pos (c := k ≤ 0 ∨ k ≥ (e.len : Int)) (.inl h), if_pos (c := k ≤ 0 ∨ k ≥ (e'.len : Int)) (.inl h)]
      · obtain ⟨m, rfl⟩ := Int.eq_ofNat_of_zero_le (a := k) (by omega)
        rw [h3 hx m (by omega) hk, h3' hx m (by omega) hk', hd]

/-- Two metrics' configurations, in binary64: `Std` asks for {2}, `Kurtosis` for {2, 4}. -/
example : (FP.newCore Arith.b64 ⟨some [2], some 3, none⟩).isOk ∧
    (FP.newCore Arith.b64 ⟨some [2, 4], some 3, none⟩).isOk := by decide +kernel

/-! ## Package `joint` -/

theorem under_belowZ {m : List Nat} {t : Tuple} : Joint.Under (m.map Int.ofNat) t ↔ BelowZ m t := by
  unfold Joint.Under BelowZ
  rw [List.forall₂_map_left_iff]
  simp

theorem under_up {a t : Tuple} (h : Joint.Under a t) : ∃ m : List Nat, a = m.map Int.ofNat :=
  exists_up fun k hk => (JFP.under_mem h k hk).elim fun _ h => h.2.1

theorem tr_tracksZ {ts : List Tuple} {m : List Nat} : JFP.Tr ts (m.map Int.ofNat) ↔ TracksZ ts m := by
  simp only [JFP.Tr, TracksZ, under_belowZ]

theorem noColl_of {ts : List Tuple} (h : NoCollision ts) : JFP.NoColl ts := by
  intro a b ha hb e
  obtain ⟨m, rfl⟩ := under_up ha.choose_spec.2
  obtain ⟨m', rfl⟩ := under_up hb.choose_spec.2
  rw [h m m' (tr_tracksZ.1 ha) (tr_tracksZ.1 hb) e]

theorem noOver_of {ts : List Tuple} (h : NoOverlapZ ts) : JFP.NoOver ts := by
  refine List.Pairwise.imp (fun {t u} h a ht hu => ?_) h
  obtain ⟨m, rfl⟩ := under_up ht
  have := h m (under_belowZ.1 ht) (under_belowZ.1 hu)
  have e : ((m.map Int.ofNat).sum : Int) = (m.sum : Int) := up_sum m
  omega

/-- The numbers of a joint core are a function of the points alone. -/
theorem joint_gst {F : Type} [GoOrd F] (A : Arith F) {cfg : Joint.Config F} {c : Joint.Core F} (hn : JFP.newCore A cfg = .val (.ok c))
    (hs : ∀ t ∈ cfg.sums.getD [], ∀ k ∈ t, k ≤ 65) (hi : NoCollision (cfg.sums.getD [])) {n w : Nat} (hw : cfg.window = some (w : Int))
    (hv : Joint.varsOf cfg = n) (hov : 2 ≤ w → NoOverlapZ (cfg.sums.getD []) ∧ JFP.ZWin A w) (ops : List (MOp (List F))) :
    ∃ c', JFP.run A c ops = .val (c', JFP.arityErrors n ops) ∧ c'.count = (windowOf w (ops.filter (okArity n))).length ∧ c'.means.length = n ∧
      c'.means = (gst A n w cfg.decay (since (ops.filter (okArity n)))).1 ∧
      ∀ m : List Nat, TracksZ (cfg.sums.getD []) m →
        c'.sums (Joint.hash (m.map Int.ofNat)) = some ((gst A n w cfg.decay (since (ops.filter (okArity n)))).2 (m.map Int.ofNat)) := by
  obtain ⟨n', w', hw', hv', -, hts, hd, -⟩ := JFP.newCore_ok A hn
  have e1 : n' = n := by rw [hv] at hv'; exact_mod_cast hv'.symm
  have e2 : w' = w := by rw [hw] at hw'; exact_mod_cast (Option.some.inj hw').symm
  subst e1; subst e2
  obtain ⟨c', e, B, ⟨h1, -, h2⟩, -⟩ := JFP.core_track A hn hs hw hv
    (JFP.track_gst A (fun t ht => ⟨(hts t ht).1, fun k hk => ⟨(hts t ht).2.1 k hk, hs t ht k hk⟩⟩) (noColl_of hi)
      (fun h => by
        cases hc : cfg.decay with
        | none => rfl
        | some d => exact absurd (hd d hc).2.2 h) (fun h => ⟨noOver_of (hov h).1, (hov h).2⟩)) ops
  exact ⟨c', e, B.count, B.mlen, h1, fun m hm => h2 _ (tr_tracksZ.2 hm)⟩

theorem joint_share {F : Type} [GoOrd F] (A : Arith F) {cfg cfg' : Joint.Config F} {c c' : Joint.Core F} (hn : JFP.newCore A cfg = .val (.ok c))
    (hn' : JFP.newCore A cfg' = .val (.ok c')) {w : Nat} (hw : cfg.window = some (w : Int)) (hw' : cfg'.window = some (w : Int))
    (hd : cfg.decay = cfg'.decay) (hv : Joint.varsOf cfg = Joint.varsOf cfg') (hs : ∀ t ∈ cfg.sums.getD [], ∀ k ∈ t, k ≤ 65)
    (hs' : ∀ t ∈ cfg'.sums.getD [], ∀ k ∈ t, k ≤ 65) (hi : NoCollision (cfg.sums.getD [])) (hi' : NoCollision (cfg'.sums.getD []))
    (hov : 2 ≤ w → NoOverlapZ (cfg.sums.getD []) ∧ NoOverlapZ (cfg'.sums.getD []) ∧ JFP.ZWin A w) (ops : List (MOp (List F))) :
    ∃ e e' es, JFP.run A c ops = .val (e, es) ∧ JFP.run A c' ops = .val (e', es) ∧ e.count = e'.count ∧
      (∀ i : Int, JFP.mean A e i = JFP.mean A e' i) ∧
      ∀ m : List Nat, TracksZ (cfg.sums.getD []) m → TracksZ (cfg'.sums.getD []) m →
        JFP.sum e (m.map Int.ofNat) = JFP.sum e' (m.map Int.ofNat) := by
  obtain ⟨n, -, -, hvn, -⟩ := JFP.newCore_ok A hn
  obtain ⟨e, r, h1, -, h2, h3⟩ := joint_gst A hn hs hi hw hvn (fun h => ⟨(hov h).1, (hov h).2.2⟩) ops
  obtain ⟨e', r', h1', -, h2', h3'⟩ := joint_gst A hn' hs' hi' hw' (hv ▸ hvn) (fun h => ⟨(hov h).2.1, (hov h).2.2⟩) ops
  refine ⟨e, e', _, r, r', by rw [h1, h1'], fun i => ?_, fun m hm hm' => ?_⟩
  · unfold JFP.mean
    rw [h1, h1', h2, h2', hd]
  · unfold JFP.sum
    rw [h1, h1', h3 m hm, h3' m hm', hd]

/-- C73, package `joint`, without eviction (no window, window 1, or decay): in any arithmetic `Count`, every `Mean` and every `Sum` that both
cores track are the same, to the bit. -/
theorem C73_joint {F : Type} [GoOrd F] (A : Arith F) {cfg cfg' : Joint.Config F} {c c' : Joint.Core F} (hn : JFP.newCore A cfg = .val (.ok c))
    (hn' : JFP.newCore A cfg' = .val (.ok c')) {w : Nat} (hw : cfg.window = some (w : Int)) (hw' : cfg'.window = some (w : Int)) (hw1 : w ≤ 1)
    (hd : cfg.decay = cfg'.decay) (hv : Joint.varsOf cfg = Joint.varsOf cfg') (hs : ∀ t ∈ cfg.sums.getD [], ∀ k ∈ t, k ≤ 65)
    (hs' : ∀ t ∈ cfg'.sums.getD [], ∀ k ∈ t, k ≤ 65) (hi : NoCollision (cfg.sums.getD [])) (hi' : NoCollision (cfg'.sums.getD []))
    (ops : List (MOp (List F))) :
    ∃ e e' es, JFP.run A c ops = .val (e, es) ∧ JFP.run A c' ops = .val (e', es) ∧ e.count = e'.count ∧
      (∀ i : Int, JFP.mean A e i = JFP.mean A e' i) ∧
      ∀ m : List Nat, TracksZ (cfg.sums.getD []) m → TracksZ (cfg'.sums.getD []) m →
        JFP.sum e (m.map Int.ofNat) = JFP.sum e' (m.map Int.ofNat) :=
  joint_share A hn hn' hw hw' hd hv hs hs' hi hi' (fun h => by omega) ops

/-- C73, package `joint`, any window, rounded arithmetic without overflow, partial: neither core may have overlapping tuples. Missing:
overlapping tuples, for which the claim is false (`C73_joint_refuted`). -/
theorem C73_joint_window_partial {rnd : ℚ → ℚ} {pw : ℚ → Nat → ℚ} (h0 : rnd 0 = 0) (hm1 : rnd (-1) = -1) (hp : ∀ x, pw x 0 = 1)
    {cfg cfg' : Joint.Config ℚ} {c c' : Joint.Core ℚ} (hn : JFP.newCore (Arith.rounded rnd pw) cfg = .val (.ok c))
    (hn' : JFP.newCore (Arith.rounded rnd pw) cfg' = .val (.ok c')) (hw : cfg.window = cfg'.window)
    (hd : cfg.decay = cfg'.decay) (hv : Joint.varsOf cfg = Joint.varsOf cfg') (hs : ∀ t ∈ cfg.sums.getD [], ∀ k ∈ t, k ≤ 65)
    (hs' : ∀ t ∈ cfg'.sums.getD [], ∀ k ∈ t, k ≤ 65) (hi : NoCollision (cfg.sums.getD [])) (hi' : NoCollision (cfg'.sums.getD []))
    (hov : NoOverlapZ (cfg.sums.getD [])) (hov' : NoOverlapZ (cfg'.sums.getD [])) (ops : List (MOp (List ℚ))) :
    ∃ e e' es, JFP.run (Arith.rounded rnd pw) c ops = .val (e, es) ∧ JFP.run (Arith.rounded rnd pw) c' ops = .val (e', es) ∧
      e.count = e'.count ∧ (∀ i : Int, JFP.mean (Arith.rounded rnd pw) e i = JFP.mean (Arith.rounded rnd pw) e' i) ∧
      ∀ m : List Nat, TracksZ (cfg.sums.getD []) m → TracksZ (cfg'.sums.getD []) m →
        JFP.sum e (m.map Int.ofNat) = JFP.sum e' (m.map Int.ofNat) := by
  obtain ⟨_, w, hww, -⟩ := JFP.newCore_ok _ hn
  exact joint_share _ hn hn' hww (hw ▸ hww) hd hv hs hs' hi hi' (fun _ => ⟨hov, hov', JFP.zwin h0 hm1 hp w⟩) ops

/-- `Cov` asks for {1,1}, `Corr` for three tuples: the hypotheses are met. -/
example : NoCollision [[1, 1]] ∧ NoCollision [[1, 1], [2, 0], [0, 2]] ∧ NoOverlapZ [[1, 1]] ∧ NoOverlapZ [[1, 1], [2, 0], [0, 2]] :=
  ⟨noCollision_of_small (n := 2) (by omega) (by simp) (by simp [Moderate]), noCollision_of_small (n := 2) (by omega) (by simp) (by simp [Moderate]),
    by simp [NoOverlapZ], by
      have := Joint.noOverlap_corr
      unfold NoOverlapZ
      unfold Joint.NoOverlap at this
      have e : ([[1, 1], [2, 0], [0, 2]] : List Tuple) = [[1, 1], [2, 0], [0, 2]].map Joint.up := rfl
      rw [e, List.pairwise_map]
      exact this.imp fun h a h1 h2 => h a (belowZ_up.1 h1) (belowZ_up.1 h2)⟩

/-- Observations of a test run: some sums, the first two means, the count and the errors. -/
def jObs {F : Type} [GoOrd F] (A : Arith F) (cfg : Joint.Config F) (ops : List (MOp (List F))) (ts : List Tuple) :
    Option ((List (Except Err F) × (Except Err F × Except Err F)) × Int × List Err) :=
  match JFP.newCore A cfg with
  | .val (.ok c) =>
    match JFP.run A c ops with
    | .val (c', es) => some ((ts.map (JFP.sum c'), JFP.mean A c' 0, JFP.mean A c' 1), c'.count, es)
    | _ => none
  | _ => none

theorem jObs_run {F : Type} [GoOrd F] {A : Arith F} {cfg : Joint.Config F} {ops : List (MOp (List F))} {ts : List Tuple} {ss : List (Except Err F)}
    {m0 m1 : Except Err F} {n : Int} {es : List Err} (h : jObs A cfg ops ts = some ((ss, m0, m1), n, es)) :
    ∃ c c', JFP.newCore A cfg = .val (.ok c) ∧ JFP.run A c ops = .val (c', es) ∧ ts.map (JFP.sum c') = ss ∧ JFP.mean A c' 0 = m0 ∧
      JFP.mean A c' 1 = m1 ∧ c'.count = n := by
  unfold jObs at h
  match hc : JFP.newCore A cfg with
  | .val (.ok c) =>
    rw [hc] at h
    simp only at h
    match hr : JFP.run A c ops with
    | .val (c', es') =>
      rw [hr] at h
      simp only [Option.some.injEq, Prod.mk.injEq] at h
      obtain ⟨⟨h1, h2, h3⟩, h4, rfl⟩ := h
      exact ⟨c, c', rfl, hr, h1, h2, h3, h4⟩
    | .panic => rw [hr] at h; simp at h
    | .hang => rw [hr] at h; simp at h
  | .val (.error _) => rw [hc] at h; simp at h
  | .panic => rw [hc] at h; simp at h
  | .hang => rw [hc] at h; simp at h

/-- Both are accepted, and in binary64 they agree on Sum(1,1) after an eviction. -/
example : jObs Arith.b64 ⟨some [[1, 1]], some 2, none, none⟩ [.push [v01, v07], .push [v07, v07], .push [v07, v01]] [[1, 1]] =
    jObs Arith.b64 ⟨some [[1, 1], [2, 0], [0, 2]], some 2, none, none⟩ [.push [v01, v07], .push [v07, v07], .push [v07, v01]] [[1, 1]] ∧
    (jObs Arith.b64 ⟨some [[1, 1]], some 2, none, none⟩ [.push [v01, v07], .push [v07, v07], .push [v07, v01]] [[1, 1]]).isSome := by
  decide +kernel

/-- C73 is false for overlapping tuples and a window, even in exact arithmetic: a core that tracks {2,1} and {1,2} reports -2 for Sum(1,1) of
the points (1,2), (3,1); one that tracks {1,1} reports -1. -/
theorem C73_joint_refuted : ∃ c c' e e' : Joint.Core ℚ,
    JFP.newCore (Arith.exact ℚ) ⟨some [[2, 1], [1, 2]], some 2, none, none⟩ = .val (.ok c) ∧
    JFP.newCore (Arith.exact ℚ) ⟨some [[1, 1]], some 2, none, none⟩ = .val (.ok c') ∧
    JFP.run (Arith.exact ℚ) c [.push [0, 0], .push [1, 2], .push [3, 1]] = .val (e, []) ∧
    JFP.run (Arith.exact ℚ) c' [.push [0, 0], .push [1, 2], .push [3, 1]] = .val (e', []) ∧
    JFP.sum e [1, 1] = .ok (-2) ∧ JFP.sum e' [1, 1] = .ok (-1) := by
  have h : jObs (Arith.exact ℚ) ⟨some [[2, 1], [1, 2]], some 2, none, none⟩ [.push [0, 0], .push [1, 2], .push [3, 1]] [[1, 1]] =
      some (([.ok (-2)], .ok 2, .ok (3 / 2)), 2, []) := by decide +kernel
  have h' : jObs (Arith.exact ℚ) ⟨some [[1, 1]], some 2, none, none⟩ [.push [0, 0], .push [1, 2], .push [3, 1]] [[1, 1]] =
      some (([.ok (-1)], .ok 2, .ok (3 / 2)), 2, []) := by decide +kernel
  obtain ⟨c, e, h1, h2, h3, -⟩ := jObs_run h
  obtain ⟨c', e', h1', h2', h3', -⟩ := jObs_run h'
  simp only [List.map_cons, List.map_nil, List.cons.injEq, and_true] at h3 h3'
  exact ⟨c, c', e, e', h1, h1', h2, h2', h3, h3'⟩

end Verif.Props
