import Verif.Proofs.Decide
import Verif.Proofs.JointFP

/-! # C72: package `joint` in any arithmetic

`Arith F` is a bare set of operations, as for package `moment` in C64. `since` and `windowOf w` are the points pushed since the last `Clear`
and the last `w` of them, `ops.filter (okArity n)` leaves out the pushes with a wrong number of values. -/

namespace Verif.Props
open Verif Verif.Spec
open Verif.FP (Arith)
open Verif.Joint (Tuple Core Config)

/-! ## C72 -/

/-- The model over an arbitrary arithmetic, at exact arithmetic, is the exact model of C42–C51. -/
theorem C72_exact {K : Type} [Field K] [LinearOrder K] (cfg : Config K) :
    JFP.newCore (Arith.exact K) cfg = Joint.newCore cfg ∧ ∀ c ops, JFP.run (Arith.exact K) c ops = Joint.run c ops :=
  ⟨JFP.newCore_exact cfg, JFP.run_exact⟩

/-- C72, exponents at most 65: whatever the operations on numbers return, no `Push` panics or hangs, exactly the pushes with a wrong number of
values fail, `Count` is the number of points in the window, `Mean` and `Sum` fail exactly when the window is empty or what is asked for is not
tracked (by hash, see C50), and the queue holds the window. -/
theorem C72_any_arithmetic {F : Type} [GoOrd F] (A : Arith F) {cfg : Config F} {c : Core F} (hn : JFP.newCore A cfg = .val (.ok c))
    (hs : ∀ t ∈ cfg.sums.getD [], ∀ k ∈ t, k ≤ 65) (ops : List (MOp (List F))) :
    ∃ (n w : Nat) (c' : Core F) (es : List Err), Joint.varsOf cfg = n ∧ cfg.window = some (w : Int) ∧ JFP.run A c ops = .val (c', es) ∧
      es.length = ops.countP (fun o => !okArity n o) ∧ c'.count = (windowOf w (ops.filter (okArity n))).length ∧
      (∀ i : Int, (∃ e, JFP.mean A c' i = .error e) ↔ (since (ops.filter (okArity n)) = [] ∨ i < 0 ∨ (n : Int) ≤ i)) ∧
      (∀ t : Tuple, (∃ e, JFP.sum c' t = .error e) ↔ (since (ops.filter (okArity n)) = [] ∨
        ¬ ∃ u ∈ cfg.sums.getD [], ∃ a : Tuple, List.Forall₂ (fun i j => 0 ≤ i ∧ i ≤ j) a u ∧ Joint.hash a = Joint.hash t)) ∧
      (w ≠ 0 → c'.queue.items = windowOf w (ops.filter (okArity n))) := by
  obtain ⟨n, w, hw, hv, -⟩ := JFP.newCore_ok A hn
  obtain ⟨c', e, B, -⟩ := JFP.core_track A hn hs hw hv (JFP.track_true A n w cfg.decay _) ops
  have hcnt : c'.count = 0 ↔ since (ops.filter (okArity n)) = [] := by
    rw [B.count]
    by_cases hx : since (ops.filter (okArity n)) = []
    · simp [hx]
    · have := List.length_pos_iff.2 (lastN_ne_nil (w := w) hx)
      simp only [hx, iff_false]
      omega
  refine ⟨n, w, c', _, hv, hw, e, ?_, B.count, fun i => ?_, fun t => ?_, B.q⟩
  · simp [JFP.arityErrors, List.countP_eq_length_filter]
  · unfold JFP.mean
    by_cases hx : since (ops.filter (okArity n)) = []
    · rw [if_pos (hcnt.2 hx)]; simp [hx]
    · rw [if_neg (fun h => hx (hcnt.1 h)), B.mlen]
      by_cases hi : i < 0 ∨ i ≥ (n : Int)
      · rw [if_pos hi]
        exact ⟨fun _ => .inr hi, fun _ => ⟨_, rfl⟩⟩
      · rw [if_neg hi]
        refine ⟨fun ⟨_, h⟩ => (nomatch h), fun h => ?_⟩
        rcases h with h | h
        · exact absurd h hx
        · exact absurd h hi
  · unfold JFP.sum
    by_cases hx : since (ops.filter (okArity n)) = []
    · rw [if_pos (hcnt.2 hx)]; simp [hx]
    · rw [if_neg (fun h => hx (hcnt.1 h))]
      have hk := B.keys (Joint.hash t)
      cases hm : c'.sums (Joint.hash t) with
      | none =>
        rw [hm] at hk
        exact ⟨fun _ => .inr fun h => hk.2 h rfl, fun _ => ⟨_, rfl⟩⟩
      | some v =>
        rw [hm] at hk
        have hk' := hk.1 (by simp)
        refine ⟨fun ⟨_, h⟩ => (nomatch h), fun h => ?_⟩
        rcases h with h | h
        · exact absurd h hx
        · exact absurd hk' h

/-- C72, the boundary, in any arithmetic: a valid configuration with an exponent of 66 or more gives a core whose first `Push` of the right
number of values panics (division by zero in `Binom`), whatever calls with a wrong number of values come before. -/
theorem C72_panic {F : Type} [GoOrd F] (A : Arith F) {cfg : Config F} {c : Core F} (hn : JFP.newCore A cfg = .val (.ok c))
    (hs : ∃ t ∈ cfg.sums.getD [], ∃ k ∈ t, 66 ≤ k) (x : List F) (hx : (x.length : Int) = Joint.varsOf cfg) : JFP.push A c x = .panic := by
  obtain ⟨n, w, hw, hv, -, hts, -, B, -⟩ := JFP.newCore_ok A hn
  rw [hv] at hx
  exact JFP.push_panic A B (fun t ht => (hts t ht).1) (fun t ht => (hts t ht).2.1) hs (by exact_mod_cast hx)

/-- C72, both directions: the histories of a new core never panic if and only if no exponent exceeds 65. -/
theorem C72_iff {F : Type} [GoOrd F] [Nonempty F] (A : Arith F) {cfg : Config F} {c : Core F} (hn : JFP.newCore A cfg = .val (.ok c)) :
    (∀ ops, ∃ c' es, JFP.run A c ops = .val (c', es)) ↔ ∀ t ∈ cfg.sums.getD [], ∀ k ∈ t, k ≤ 65 := by
  constructor
  · intro h
    by_contra hc
    push Not at hc
    obtain ⟨t, ht, k, hk, h66⟩ := hc
    obtain ⟨n, w, hw, hv, -⟩ := JFP.newCore_ok A hn
    obtain ⟨c', es, e⟩ := h [.push (List.replicate n (Classical.arbitrary F))]
    have := C72_panic A hn ⟨t, ht, k, hk, by omega⟩ (List.replicate n (Classical.arbitrary F)) (by rw [hv]; simp)
    simp [JFP.run, Go.runOps, logged, JFP.step, this] at e
  · intro hs ops
    obtain ⟨_, _, c', es, -, -, e, -⟩ := C72_any_arithmetic A hn hs ops
    exact ⟨c', es, e⟩

/-- C72 for the exact model: the same boundary. -/
theorem C72_exact_iff {K : Type} [Field K] [LinearOrder K] {cfg : Config K} {c : Core K} (hn : Joint.newCore cfg = .val (.ok c)) :
    (∀ ops, ∃ c' es, Joint.run c ops = .val (c', es)) ↔ ∀ t ∈ cfg.sums.getD [], ∀ k ∈ t, k ≤ 65 := by
  have := C72_iff (Arith.exact K) (cfg := cfg) (c := c) (by rw [JFP.newCore_exact]; exact hn)
  simpa only [JFP.run_exact] using this

/-- An arithmetic in which nothing is true: everything is 7. With three variables, a window, and exponents up to 65. -/
example : ∃ c, JFP.newCore (⟨fun _ _ => 7, fun _ _ => 7, fun _ _ => 7, fun _ _ => 7, fun _ => 7, fun _ _ => 7, fun _ => 7⟩ : Arith ℚ)
    ⟨some [[65, 0, 1], [1, 1, 1]], some 3, none, none⟩ = .val (.ok c) := by
  obtain ⟨c, h, -⟩ := JFP.mk_book (⟨fun _ _ => 7, fun _ _ => 7, fun _ _ => 7, fun _ _ => 7, fun _ => 7, fun _ _ => 7, fun _ => 7⟩ : Arith ℚ)
    ⟨some [[65, 0, 1], [1, 1, 1]], some 3, none, none⟩ (w := 3) (n := 3) rfl rfl
  refine ⟨c, ?_⟩
  simp only [JFP.newCore, Joint.setDefaults, Option.getD_some, h,
    show Joint.validate (7 : ℚ) 7 ⟨some [[65, 0, 1], [1, 1, 1]], some 3, none, none⟩ = none by decide +kernel]

/-- A valid configuration over the boundary. -/
example : ∃ c, Joint.newCore (⟨some [[66, 0]], some 2, none, none⟩ : Config ℚ) = .val (.ok c) := by
  obtain ⟨c, h, -⟩ := JFP.mk_book (Arith.exact ℚ) ⟨some [[66, 0]], some 2, none, none⟩ (w := 2) (n := 2) rfl rfl
  rw [JFP.mk_exact] at h
  refine ⟨c, ?_⟩
  simp only [Joint.newCore, Joint.setDefaults, Option.getD_some, h,
    show Joint.validate (0 : ℚ) 1 ⟨some [[66, 0]], some 2, none, none⟩ = none by decide +kernel]

end Verif.Props
