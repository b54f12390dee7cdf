import Verif.Proofs.GradedInst
import Verif.Props.Share

/-! # C81: the sign and the unit of the data

Feeding the negated data, or the data in a unit smaller or larger by a power of two. `Props/Moment.lean` (C35) has the statement for exact
arithmetic; here the arithmetic is that of floating point, and the claim is equality to the bit. -/

namespace Verif.Props
open Verif Verif.Spec
open Verif.FP (Arith mst Graded OddArith Homog rnd64)
open Verif.Joint (Tuple)

theorem since_mapPush {α β : Type} (f : α → β) (ops : List (MOp α)) : since (mapPush f ops) = (since ops).map f := by
  induction ops using List.reverseRecOn with
  | nil => rfl
  | append_singleton ops op ih =>
    unfold mapPush at ih ⊢
    rw [List.map_append]
    cases op with
    | push x => simp only [List.map_cons, List.map_nil, since_push, ih, List.map_append]
    | clear => simp only [List.map_cons, List.map_nil, since_clear]

theorem moment_units {F : Type} [GoOrd F] {A : Arith F} {G : Type} [AddCommMonoid G] (S : Graded A G) (u : G) {cfg : Moment.Config F}
    {c : Moment.Core F} (hn : FP.newCore A cfg = .ok c) (hs : ∀ k ∈ cfg.sums.getD [], k ≤ 65) (ops : List (MOp F)) :
    ∃ e e', FP.run A c ops = .val (e, []) ∧ FP.run A c (mapPush (S.act u) ops) = .val (e', []) ∧ e'.count = e.count ∧
      FP.mean e' = (FP.mean e).map (S.act u) ∧
      ∀ k : Nat, 1 ≤ k → (∃ j ∈ cfg.sums.getD [], (k : Int) ≤ j) → FP.sum e' k = (FP.sum e k).map (S.act (k • u)) := by
  obtain ⟨w, hww, -⟩ := FP.newCore_ok A hn
  obtain ⟨e, r, h1, h2, h3⟩ := moment_mst A hn hs hww ops
  obtain ⟨e', r', h1', h2', h3'⟩ := moment_mst A hn hs hww (mapPush (S.act u) ops)
  have hsince := since_mapPush (S.act u) ops
  have hcount : e'.count = e.count := by
    rw [h1, h1']
    unfold windowOf
    rw [hsince, JFP.lastN_map, List.length_map]
  refine ⟨e, e', r, r', hcount, ?_, fun k hk hj => ?_⟩
  · by_cases hx : since ops = []
    · have hz : windowOf w ops = [] := by simp [windowOf, hx, lastN]
      have h0 : e.count = 0 := by rw [h1, hz]; rfl
      simp [FP.mean, hcount, h0, Except.map]
    · rw [h2 hx, h2' (by rw [hsince]; simpa using hx), hsince, S.mst]
      rfl
  · by_cases hx : since ops = []
    · have hz : windowOf w ops = [] := by simp [windowOf, hx, lastN]
      have h0 : e.count = 0 := by rw [h1, hz]; rfl
      simp [FP.sum, hcount, h0, Except.map]
    · rw [h3 hx k hk hj, h3' (by rw [hsince]; simpa using hx) k hk hj, hsince, S.mst]
      rfl

theorem newCore_queue {F : Type} [GoOrd F] (A : Arith F) {cfg : Joint.Config F} {c : Joint.Core F} (hn : JFP.newCore A cfg = .val (.ok c)) :
    c.queue.items = [] := by
  unfold JFP.newCore at hn
  cases hv : Joint.validate (A.ofInt 0) (A.ofInt 1) (Joint.setDefaults cfg) with
  | some e => rw [hv] at hn; cases hn
  | none =>
    rw [hv] at hn
    unfold JFP.mk at hn
    cases hm : JFP.initSums A ((Joint.setDefaults cfg).sums.getD []) (fun _ => none) with
    | panic => simp [hm] at hn
    | hang => simp [hm] at hn
    | val m =>
      simp only [hm] at hn
      cases hn
      rfl

open Classical in
theorem joint_units {F : Type} [GoOrd F] {A : Arith F} {G : Type} [AddCommMonoid G] (S : Graded A G) {cfg : Joint.Config F}
    {c : Joint.Core F} (hn : JFP.newCore A cfg = .val (.ok c)) (hs : ∀ t ∈ cfg.sums.getD [], ∀ k ∈ t, k ≤ 65) (hi : NoCollision (cfg.sums.getD []))
    (u : List G) (hu : (u.length : Int) = Joint.varsOf cfg) (ops : List (MOp (List F))) :
    ∃ e e' es, JFP.run A c ops = .val (e, es) ∧ JFP.run A c (mapPush (onVars S.act u) ops) = .val (e', es) ∧ e'.count = e.count ∧
      (∀ i : Int, JFP.mean A e' i = (JFP.mean A e i).map (S.act (u.getD i.toNat 0))) ∧
      ∀ m : List Nat, TracksZ (cfg.sums.getD []) m →
        JFP.sum e' (m.map Int.ofNat) = (JFP.sum e (m.map Int.ofNat)).map (S.act (Graded.deg u (m.map Int.ofNat))) := by
  obtain ⟨n, w, hw, hv, -, hts, -, hb, hm0, hz, hnz⟩ := JFP.newCore_ok A hn
  have hun : u.length = n := by rw [hv] at hu; exact_mod_cast hu
  let dg : Int → G := fun h => if hx : ∃ m, TracksZ (cfg.sums.getD []) m ∧ Joint.hash (m.map Int.ofNat) = h
    then Graded.deg u (hx.choose.map Int.ofNat) else 0
  have hdg : ∀ m, TracksZ (cfg.sums.getD []) m → dg (Joint.hash (m.map Int.ofNat)) = Graded.deg u (m.map Int.ofNat) := by
    intro m hm
    have hx : ∃ m', TracksZ (cfg.sums.getD []) m' ∧ Joint.hash (m'.map Int.ofNat) = Joint.hash (m.map Int.ofNat) := ⟨m, hm, rfl⟩
    simp only [dg]
    rw [dif_pos hx, hi _ m hx.choose_spec.1 hm hx.choose_spec.2]
  have H : Graded.KeyDeg u dg n (cfg.sums.getD []) := by
    intro t ht
    refine ⟨⟨(hts t ht).1, fun k hk => ⟨(hts t ht).2.1 k hk, hs t ht k hk⟩⟩, fun a ha => ?_⟩
    obtain ⟨m, rfl⟩ := under_up ha
    exact hdg m ⟨t, ht, under_belowZ.1 ha⟩
  have hq : c.queue.items = [] := by
    by_cases h0 : w = 0
    · exact newCore_queue A hn
    · simpa [lastN] using hb.q h0
  have hI : Graded.Inv n (cfg.sums.getD []) c := ⟨hb.tup, hb.mlen, by simp [hq]⟩
  have hmz : ∀ m : Joint.Map F, JFP.AllZero A m → S.mp dg m = m := by
    intro m h
    funext k
    simp only [Graded.mp]
    cases hk : m k with
    | none => rfl
    | some v => rw [h k v hk]; simp [S.zero]
  have hcore : S.core u dg c = c := by
    have hme : S.pt u c.means = c.means := by
      have := S.pt_zero u c.means
      rw [List.map_const', hb.mlen, ← hm0] at this
      exact this
    simp only [Graded.core]
    rw [hme, hmz _ hz, hmz _ hnz, hq]
    obtain ⟨_, _, _, _, _, _, _, ⟨_, items, _⟩⟩ := c
    subst hq
    rfl
  obtain ⟨e, he, B, -⟩ := JFP.core_track A hn hs hw hv (JFP.track_true A n w cfg.decay _) ops
  have hsim := S.run H hI ops
  rw [hcore, he] at hsim
  obtain ⟨he', hI'⟩ := hsim
  refine ⟨e, _, _, he, he', rfl, fun i => ?_, fun m hm => ?_⟩
  · unfold JFP.mean
    have hc : (S.core u dg e).count = e.count := rfl
    have hmm : (S.core u dg e).means = S.pt u e.means := rfl
    rw [hc, hmm, S.pt_length]
    split_ifs
    · rfl
    · rfl
    · rw [S.pt_getD u e.means (by rw [hun, B.mlen])]
      rfl
  · unfold JFP.sum
    have hc : (S.core u dg e).count = e.count := rfl
    have hss : (S.core u dg e).sums (Joint.hash (m.map Int.ofNat)) =
      (e.sums (Joint.hash (m.map Int.ofNat))).map (S.act (Graded.deg u (m.map Int.ofNat))) := by rw [← hdg m hm]; rfl
    rw [hc, hss]
    split_ifs
    · rfl
    · cases e.sums (Joint.hash (m.map Int.ofNat)) <;> rfl

/-! ## Signs -/

/-- C81, sign, package `moment`: in any arithmetic that is symmetric about zero (binary64 with or without infinities and NaN), with any
window or decay, feeding `-x` for every `x` negates the mean and every odd power sum and changes nothing else, to the bit; `Std` is the same for
any function for the square root. -/
theorem C81_negate_moment {F : Type} [GoOrd F] {A : Arith F} (O : OddArith A) {cfg : Moment.Config F} {c : Moment.Core F}
    (hn : FP.newCore A cfg = .ok c) (hs : ∀ k ∈ cfg.sums.getD [], k ≤ 65) (ops : List (MOp F)) :
    ∃ e e', FP.run A c ops = .val (e, []) ∧ FP.run A c (mapPush A.neg ops) = .val (e', []) ∧ e'.count = e.count ∧
      FP.mean e' = (FP.mean e).map A.neg ∧
      (∀ k : Nat, 1 ≤ k → (∃ j ∈ cfg.sums.getD [], (k : Int) ≤ j) → FP.sum e' k = (FP.sum e k).map fun s => if k % 2 = 1 then A.neg s else s) ∧
      ((∃ j ∈ cfg.sums.getD [], 2 ≤ j) → ∀ sqrt, FP.stdValue A sqrt e' = FP.stdValue A sqrt e) := by
  obtain ⟨e, e', h1, h2, h3, h4, h5⟩ := moment_units O.graded 1 hn hs ops
  have h5' : ∀ k : Nat, 1 ≤ k → (∃ j ∈ cfg.sums.getD [], (k : Int) ≤ j) → FP.sum e' k = (FP.sum e k).map fun s => if k % 2 = 1 then A.neg s else s := by
    intro k hk hj
    rw [h5 k hk hj]
    congr 1
    funext s
    show FP.signed A (k • 1) s = _
    rw [smul_eq_mul, Nat.mul_one]; rfl
  refine ⟨e, e', h1, h2, h3, h4, h5', fun hj sqrt => ?_⟩
  have h := h5' 2 (by omega) hj
  unfold FP.stdValue FP.momentValue
  rw [show ((2 : Nat) : Int) = 2 from rfl] at h
  rw [h, h3]
  cases FP.sum e 2 <;> rfl

/-- C81, sign, package `joint`: in any arithmetic that is symmetric about zero, with any window or decay, and whether or not the tuples overlap,
negating the marked variables in every point negates their means and those sums in which the exponents of these variables add up to an odd
number, and changes nothing else, to the bit. Exponents at most 65 and no colliding tuples (`C81_collision_refuted`). -/
theorem C81_negate_joint {F : Type} [GoOrd F] {A : Arith F} (O : OddArith A) {cfg : Joint.Config F} {c : Joint.Core F}
    (hn : JFP.newCore A cfg = .val (.ok c)) (hs : ∀ t ∈ cfg.sums.getD [], ∀ k ∈ t, k ≤ 65) (hi : NoCollision (cfg.sums.getD []))
    (s : List Bool) (hl : (s.length : Int) = Joint.varsOf cfg) (ops : List (MOp (List F))) :
    ∃ e e' es, JFP.run A c ops = .val (e, es) ∧ JFP.run A c (mapPush (onVars (fun b x => if b then A.neg x else x) s) ops) = .val (e', es) ∧
      e'.count = e.count ∧ (∀ i : Int, JFP.mean A e' i = (JFP.mean A e i).map fun x => if s.getD i.toNat false then A.neg x else x) ∧
      ∀ m : List Nat, TracksZ (cfg.sums.getD []) m →
        JFP.sum e' (m.map Int.ofNat) = (JFP.sum e (m.map Int.ofNat)).map fun x => if marked s m % 2 = 1 then A.neg x else x := by
  obtain ⟨e, e', es, h1, h2, h3, h4, h5⟩ := joint_units O.graded hn hs hi (s.map fun b => if b then 1 else 0) (by simpa using hl) ops
  refine ⟨e, e', es, h1, ?_, h3, fun i => ?_, fun m hm => ?_⟩
  · rw [← h2]
    congr 2
    funext x
    clear hl h2 h4 h5
    induction s generalizing x with
    | nil => cases x <;> rfl
    | cons b s ih =>
      cases x with
      | nil => rfl
      | cons y x =>
        simp only [onVars, List.map_cons]
        rw [ih]
        cases b <;> rfl
  · rw [h4 i]
    congr 1
    funext x
    show FP.signed A _ x = _
    have : (s.map fun b => if b then 1 else 0).getD i.toNat 0 = if s.getD i.toNat false then 1 else 0 := by
      rw [List.getD_eq_getElem?_getD, List.getD_eq_getElem?_getD, List.getElem?_map]
      cases s[i.toNat]? <;> rfl
    rw [this]
    cases s.getD i.toNat false <;> rfl
  · rw [h5 m hm]
    congr 1
    funext x
    have : Graded.deg (s.map fun b => if b then 1 else 0) (m.map Int.ofNat) = marked s m := by
      unfold marked
      clear hl h2 h4 h5 hm
      induction s generalizing m with
      | nil => simp [Graded.deg]
      | cons b s ih =>
        cases m with
        | nil => simp [Graded.deg]
        | cons k m =>
          simp only [List.map_cons, Graded.deg, ih, List.zipWith_cons_cons, List.sum_cons]
          cases b <;> simp
    rw [this]
    rfl

/-- C81 for `Cov` and `Corr` (and `EWMCov`, `EWMCorr`): negating the second variable negates both, to the bit; negating both variables changes
nothing. Any window or decay, any function for the square root. -/
theorem C81_negate_corr {F : Type} [GoOrd F] {A : Arith F} (O : OddArith A) {w : Option Int} {d : Option F} {c : Joint.Core F}
    (hn : JFP.newCore A ⟨some [[1, 1], [2, 0], [0, 2]], w, none, d⟩ = .val (.ok c)) (sqrt : F → F) (s0 s1 : Bool) (ops : List (MOp (List F))) :
    ∃ e e' es, JFP.run A c ops = .val (e, es) ∧
      JFP.run A c (mapPush (onVars (fun b x => if b then A.neg x else x) [s0, s1]) ops) = .val (e', es) ∧
      JFP.covValue A e' = (JFP.covValue A e).map (fun x => if s0 = s1 then x else A.neg x) ∧
      JFP.corrValue A sqrt e' = (JFP.corrValue A sqrt e).map (fun x => if s0 = s1 then x else A.neg x) := by
  obtain ⟨e, e', es, h1, h2, h3, -, h5⟩ := C81_negate_joint O hn (by simp) (noCollision_of_small (n := 2) (by omega) (by simp) (by simp [Moderate]))
    [s0, s1] rfl ops
  refine ⟨e, e', es, h1, h2, ?_, ?_⟩
  · have a := h5 [1, 1] ⟨_, List.mem_cons_self, by simp⟩
    simp only [List.map_cons, List.map_nil, show (Int.ofNat 1) = 1 from rfl] at a
    unfold JFP.covValue
    rw [a, h3]
    cases JFP.sum e [1, 1] with
    | error _ => rfl
    | ok v =>
      cases s0 <;> cases s1 <;> simp [marked, Except.map, O.div]
  · have a := h5 [1, 1] ⟨_, List.mem_cons_self, by simp⟩
    have b := h5 [2, 0] ⟨[2, 0], by simp, by simp⟩
    have b' := h5 [0, 2] ⟨[0, 2], by simp, by simp⟩
    simp only [List.map_cons, List.map_nil, show (Int.ofNat 1) = 1 from rfl, show (Int.ofNat 2) = 2 from rfl, show (Int.ofNat 0) = 0 from rfl] at a b b'
    unfold JFP.corrValue
    rw [a, b, b']
    have m2 : marked [s0, s1] [2, 0] % 2 ≠ 1 := by cases s0 <;> cases s1 <;> decide
    have m2' : marked [s0, s1] [0, 2] % 2 ≠ 1 := by cases s0 <;> cases s1 <;> decide
    simp only [if_neg m2, if_neg m2']
    cases JFP.sum e [1, 1] with
    | error _ => rfl
    | ok v =>
      cases JFP.sum e [2, 0] with
      | error _ => rfl
      | ok x =>
        cases JFP.sum e [0, 2] with
        | error _ => rfl
        | ok y => cases s0 <;> cases s1 <;> simp [marked, Except.map, O.div]

/-- binary64 qualifies, with and without infinities and NaN; so does every rounding symmetric about zero with a power that is odd or even
according to its exponent. -/
example : OddArith Arith.b64 ∧ OddArith Arith.ieee64 ∧ OddArith (Arith.rounded (fun q => q) (fun x k => x ^ k)) :=
  ⟨FP.odd_b64, FP.odd_ieee64, FP.odd_rounded rfl (fun _ => rfl) FP.pow_sign⟩

/-- The configurations of `Corr` and `EWMCorr`. -/
example : (jObs Arith.b64 ⟨some [[1, 1], [2, 0], [0, 2]], some 3, none, none⟩ [] []).isSome ∧
    (jObs Arith.b64 ⟨some [[1, 1], [2, 0], [0, 2]], some 0, none, some (1 / 2)⟩ [] []).isSome := by decide +kernel

/-! ## Units -/

/-- C81, unit, package `moment`, partial: with a rounding whose exponent is not bounded (`rndU`), feeding `2^u·x` for every `x` multiplies the
mean by `2^u` and `Sum(k)` by `2^(k·u)`, exactly. Missing: underflow and overflow, which binary64 has (`C81_scale_refuted`); where neither
happens, binary64 rounds like `rndU 53` (`rnd_eq_rndU`). -/
theorem C81_scale_moment_partial {rnd : ℚ → ℚ} {pw : ℚ → Nat → ℚ} (h0 : rnd 0 = 0) (H : Homog rnd pw) {cfg : Moment.Config ℚ} {c : Moment.Core ℚ}
    (hn : FP.newCore (Arith.rounded rnd pw) cfg = .ok c) (hs : ∀ k ∈ cfg.sums.getD [], k ≤ 65) (u : Int) (ops : List (MOp ℚ)) :
    ∃ e e', FP.run (Arith.rounded rnd pw) c ops = .val (e, []) ∧
      FP.run (Arith.rounded rnd pw) c (mapPush (fun x => 2 ^ u * x) ops) = .val (e', []) ∧ e'.count = e.count ∧
      FP.mean e' = (FP.mean e).map (fun x => 2 ^ u * x) ∧
      ∀ k : Nat, 1 ≤ k → (∃ j ∈ cfg.sums.getD [], (k : Int) ≤ j) → FP.sum e' k = (FP.sum e k).map fun s => 2 ^ (k * u) * s := by
  obtain ⟨e, e', h1, h2, h3, h4, h5⟩ := moment_units (H.graded h0) u hn hs ops
  refine ⟨e, e', h1, h2, h3, h4, fun k hk hj => ?_⟩
  rw [h5 k hk hj]
  rfl

/-- C81, unit, package `joint`, partial: the same with a unit for every variable. Missing: underflow and overflow, as above. -/
theorem C81_scale_joint_partial {rnd : ℚ → ℚ} {pw : ℚ → Nat → ℚ} (h0 : rnd 0 = 0) (H : Homog rnd pw) {cfg : Joint.Config ℚ} {c : Joint.Core ℚ}
    (hn : JFP.newCore (Arith.rounded rnd pw) cfg = .val (.ok c)) (hs : ∀ t ∈ cfg.sums.getD [], ∀ k ∈ t, k ≤ 65)
    (hi : NoCollision (cfg.sums.getD [])) (u : List Int) (hl : (u.length : Int) = Joint.varsOf cfg) (ops : List (MOp (List ℚ))) :
    ∃ e e' es, JFP.run (Arith.rounded rnd pw) c ops = .val (e, es) ∧
      JFP.run (Arith.rounded rnd pw) c (mapPush (onVars (fun (e : Int) x => 2 ^ e * x) u) ops) = .val (e', es) ∧ e'.count = e.count ∧
      (∀ i : Int, JFP.mean (Arith.rounded rnd pw) e' i = (JFP.mean (Arith.rounded rnd pw) e i).map fun x => 2 ^ (u.getD i.toNat 0) * x) ∧
      ∀ m : List Nat, TracksZ (cfg.sums.getD []) m →
        JFP.sum e' (m.map Int.ofNat) = (JFP.sum e (m.map Int.ofNat)).map fun x => 2 ^ (scaleOf u m) * x := by
  obtain ⟨e, e', es, h1, h2, h3, h4, h5⟩ := joint_units (H.graded h0) hn hs hi u hl ops
  refine ⟨e, e', es, h1, h2, h3, h4, fun m hm => ?_⟩
  rw [h5 m hm]
  have : Graded.deg u (m.map Int.ofNat) = scaleOf u m := by
    unfold scaleOf
    clear hl h2 h4 h5 hm
    induction u generalizing m with
    | nil => simp [Graded.deg]
    | cons b s ih =>
      cases m with
      | nil => simp [Graded.deg]
      | cons k m =>
        simp only [List.map_cons, Graded.deg, ih, List.zipWith_cons_cons, List.sum_cons]
        simp
  rw [this]
  rfl

/-- Rounding to 53 bits qualifies. -/
example : FP.rndU 53 0 = 0 ∧ Homog (FP.rndU 53) (fun x k => FP.rndU 53 (x ^ k)) := ⟨by decide +kernel, FP.homog_rndU 53⟩

/-- It is the rounding of binary64 away from underflow, and a rounding at all. -/
example : (∀ q : ℚ, q = 0 ∨ 2 ^ (-1022 : Int) ≤ |q| → rnd64 q = FP.rndU 53 q) ∧ FP.rndU 53 (1 / 3) ≠ 1 / 3 :=
  ⟨fun _ h => FP.rnd_eq_rndU h, by decide +kernel⟩

/-- C81, unit: binary64 does underflow. For the values 0 and 2^-600 the power sum is 0, for 0 and 1 it is 1/2. -/
theorem C81_scale_refuted : ∃ c e e' : Moment.Core ℚ, FP.newCore Arith.b64 ⟨some [2], some 0, none⟩ = .ok c ∧
    FP.run Arith.b64 c [.push 0, .push (FP.two (-600))] = .val (e, []) ∧
    FP.run Arith.b64 c (mapPush (fun x => FP.two 600 * x) [.push 0, .push (FP.two (-600))]) = .val (e', []) ∧
    FP.sum e 2 = .ok 0 ∧ FP.sum e' 2 = .ok (1 / 2) := by
  have h : fpObs (FP.run Arith.b64 (FP.mk Arith.b64 ⟨some [2], some 0, none⟩) [.push 0, .push (FP.two (-600))]) =
      some ((.ok (FP.two (-601)), .ok 0), (.error "not a tracked power sum", 2), []) := by decide +kernel
  have h' : fpObs (FP.run Arith.b64 (FP.mk Arith.b64 ⟨some [2], some 0, none⟩) (mapPush (fun x => FP.two 600 * x) [.push 0, .push (FP.two (-600))])) =
      some ((.ok (1 / 2), .ok (1 / 2)), (.error "not a tracked power sum", 2), []) := by decide +kernel
  obtain ⟨e, r, -, h2, -⟩ := fpObs_run h
  obtain ⟨e', r', -, h2', -⟩ := fpObs_run h'
  exact ⟨_, e, e', rfl, r, r', h2, h2'⟩

/-- C81, origin: for the values 0, 2, 4 the mean is 2 and `Sum(2)` is 8; for the same values plus 2^53, all of them binary64 numbers, `Sum(2)` is
38/3 rounded. -/
theorem C81_shift_refuted : ∃ c e e' : Moment.Core ℚ, FP.newCore Arith.b64 ⟨some [2], some 0, none⟩ = .ok c ∧
    FP.run Arith.b64 c [.push 0, .push 2, .push 4] = .val (e, []) ∧
    FP.run Arith.b64 c (mapPush (fun x => x + 2 ^ 53) [.push 0, .push 2, .push 4]) = .val (e', []) ∧
    (∀ x ∈ [(0 : ℚ), 2, 4], rnd64 (x + 2 ^ 53) = x + 2 ^ 53) ∧ FP.sum e 2 = .ok 8 ∧ FP.sum e' 2 = .ok (rnd64 (38 / 3)) := by
  have h : fpObs (FP.run Arith.b64 (FP.mk Arith.b64 ⟨some [2], some 0, none⟩) [.push 0, .push 2, .push 4]) =
      some ((.ok 2, .ok 8), (.error "not a tracked power sum", 3), []) := by decide +kernel
  have h' : fpObs (FP.run Arith.b64 (FP.mk Arith.b64 ⟨some [2], some 0, none⟩) (mapPush (fun x => x + 2 ^ 53) [.push 0, .push 2, .push 4])) =
      some ((.ok (2 ^ 53 + 2), .ok (rnd64 (38 / 3))), (.error "not a tracked power sum", 3), []) := by decide +kernel
  obtain ⟨e, r, -, h2, -⟩ := fpObs_run h
  obtain ⟨e', r', -, h2', -⟩ := fpObs_run h'
  exact ⟨_, e, e', rfl, r, r', by decide +kernel, h2, h2'⟩

/-- C81, sign: with colliding tuples the claim is false. `{0,32}` has the hash of `{1,1}`; `Sum(1,1)` is 2^-31 for the points (0,0), (1,1) and for
the points (0,0), (1,-1). -/
theorem C81_collision_refuted : ∃ c e e' : Joint.Core ℚ, JFP.newCore Arith.b64 ⟨some [[1, 1], [0, 32]], some 0, none, none⟩ = .val (.ok c) ∧
    JFP.run Arith.b64 c [.push [0, 0], .push [1, 1]] = .val (e, []) ∧
    JFP.run Arith.b64 c (mapPush (onVars (fun b x => if b then -x else x) [false, true]) [.push [0, 0], .push [1, 1]]) = .val (e', []) ∧
    JFP.sum e [1, 1] = JFP.sum e' [1, 1] ∧ ∃ v, 0 < v ∧ JFP.sum e [1, 1] = .ok v := by
  have h : jObs Arith.b64 ⟨some [[1, 1], [0, 32]], some 0, none, none⟩ [.push [0, 0], .push [1, 1]] [[1, 1]] =
      some (([.ok (1 / 2 ^ 31)], .ok (1 / 2), .ok (1 / 2)), 2, []) := by decide +kernel
  have h' : jObs Arith.b64 ⟨some [[1, 1], [0, 32]], some 0, none, none⟩
      (mapPush (onVars (fun b x => if b then -x else x) [false, true]) [.push [0, 0], .push [1, 1]]) [[1, 1]] =
      some (([.ok (1 / 2 ^ 31)], .ok (1 / 2), .ok (-1 / 2)), 2, []) := by decide +kernel
  obtain ⟨c, e, h1, h2, h3, -⟩ := jObs_run h
  obtain ⟨c', e', h1', h2', h3', -⟩ := jObs_run h'
  rw [h1] at h1'
  cases h1'
  simp only [List.map_cons, List.map_nil, List.cons.injEq, and_true] at h3 h3'
  exact ⟨c, e, e', h1, h2, h2', by rw [h3, h3'], _, by norm_num, h3⟩

end Verif.Props
