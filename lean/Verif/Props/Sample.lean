import Verif.Proofs.Uniform
import Verif.Proofs.Decide
import Mathlib.Probability.Distributions.Uniform

/-! # C54, C55: reservoir sampling -/

namespace Verif.Props
open Verif Verif.Spec Verif.Sample

/-! ## C54 -/

section c54
variable {α : Type}

/-- For every stream, size (also zero or negative) and outcome of the random generator: `Push` never panics, the sample has `min(n, Size)`
elements, they are the values at distinct positions of the stream, and up to `Size` pushes the sample is the stream. -/
theorem C54_sample (draw : Nat → Nat) (size : Int) (xs : List α) :
    ∃ r pos, run draw size xs = .val r ∧ r.sample.length = min xs.length size.toNat ∧ DrawnFrom xs r.sample pos ∧
      ((xs.length : Int) ≤ size → r.sample = xs) := by
  obtain ⟨r, e, h⟩ := run_inv draw size xs
  refine ⟨r, _, e, h.len, h.drawn, fun c => ?_⟩
  have := h.drawn.values
  rw [h.all c] at this
  have h2 : xs.map some = (List.range xs.length).map (fun p => xs[p]?) := by
    apply List.ext_getElem?
    intro i
    rw [List.getElem?_map, List.getElem?_map]
    by_cases hi : i < xs.length
    · simp [hi]
    · simp [hi]
  rw [← h2] at this
  exact List.map_injective_iff.2 (Option.some_injective α) this

example : ((run (fun _ => 0) 2 [7, 8, 9] : Go (Reservoir Nat)) >>= fun r => pure r.sample) = .val [9, 8] := by decide +kernel
example : ((run (fun n => n - 1) 2 [7, 8, 9] : Go (Reservoir Nat)) >>= fun r => pure r.sample) = .val [7, 8] := by decide +kernel
example : ((run (fun _ => 0) (-1) [7, 8, 9] : Go (Reservoir Nat)) >>= fun r => pure r.sample) = .val [] := by decide +kernel

/-- The positions sampled depend only on the draws, not on the values: the sample of `xs` is the sample of the positions, looked up. -/
theorem C54_positions (draw : Nat → Nat) (size : Int) (xs : List α) :
    ∃ r p, run draw size xs = .val r ∧ run draw size (List.range xs.length) = .val p ∧
      r.sample.map some = p.sample.map (fun i => xs[i]?) := by
  obtain ⟨r, e, h⟩ := run_inv draw size xs
  obtain ⟨p, e', h'⟩ := run_inv draw size (List.range xs.length)
  refine ⟨r, p, e, e', ?_⟩
  have h1 := h.drawn.values
  have h2 := h'.drawn.values
  simp only [List.length_range] at h2
  have h3 : p.sample = positions draw size xs.length := by
    apply List.map_injective_iff.2 (Option.some_injective Nat)
    rw [h2]
    apply List.map_congr_left
    intro i hi
    have := h.drawn.inside i hi
    simp [this]
  rw [h1, h3]

/-- `Sample` returns a copy. On a memory of arrays, with every client history of pushes, samples and writes into the slices obtained, the
client sees the same as if slices were values: the reservoir's contents are those of the pure model, whatever the client writes, and a slice
given away changes only by the client's own writes. -/
theorem C54_copy (size : Int) (ops : List (SOp α)) :
    GoR (fun c p => c.res.contents = p.1.sample ∧ c.out.map c.res.mem.arr = p.2)
      (Client.run size ops) (Go.runOps valueStep (Sample.new size, []) ops) :=
  (run_abs ops _ _ (abs_new size)).mono (fun _ _ h => ⟨h.sample, h.given⟩)

/-- The client writes into the first sample; the reservoir and the second sample do not change. -/
example : Go.runOps valueStep (Sample.new 2, []) [.push 1 0 [], .sample, .write 0 0 9, .push 2 0 [], .sample, .push 5 1 []] =
    .val ((⟨2, [1, 5], 3⟩ : Reservoir Nat), [[9], [1, 2]]) := by decide +kernel
example : (Client.run 2 [.push 1 0 [], .sample, .write 0 0 9, .push 2 0 [0], .sample, .push 5 1 []] >>=
    fun c => pure (c.res.contents, c.out.map c.res.mem.arr)) = .val ([1, 5], [[9], [1, 2]]) := by decide +kernel

end c54

/-! ## C55 -/

section c55
open Finset

/-- Each sequence of draws is one independent uniform draw more than the previous: the uniform distribution of `Draws n` is that of
independent calls `rand.Intn(1), rand.Intn(2), …, rand.Intn(n)`. (The code calls `rand.Intn` only when the reservoir is full; the other
draws are not used.) -/
theorem C55_draws (n : Nat) :
    (PMF.uniformOfFintype (Draws n)).bind (fun d => (PMF.uniformOfFintype (Fin (n + 1))).map
      (fun e => (Fin.snoc (α := fun i : Fin (n + 1) => Fin (i.1 + 1)) d e : Draws (n + 1)))) = PMF.uniformOfFintype (Draws (n + 1)) := by
  ext x
  rw [PMF.bind_apply, PMF.uniformOfFintype_apply, tsum_fintype]
  have hinner : ∀ d : Draws n, ((PMF.uniformOfFintype (Fin (n + 1))).map
      (fun e => (Fin.snoc (α := fun i : Fin (n + 1) => Fin (i.1 + 1)) d e : Draws (n + 1)))) x =
      if d = (fun i : Fin n => x i.castSucc) then ((n + 1 : Nat) : ENNReal)⁻¹ else 0 := by
    intro d
    rw [PMF.map_apply, tsum_fintype]
    by_cases hd : d = (fun i : Fin n => x i.castSucc)
    · rw [if_pos hd]
      refine (Finset.sum_eq_single (x (Fin.last n)) ?_ ?_).trans ?_
      · intro e _ he
        rw [if_neg]
        intro h
        apply he
        rw [h]
        exact (Fin.snoc_last (α := fun i : Fin (n + 1) => Fin (i.1 + 1)) e _).symm
      · intro h; exact absurd (Finset.mem_univ _) h
      · rw [if_pos (by rw [hd]; exact (Fin.snoc_init_self (α := fun i : Fin (n + 1) => Fin (i.1 + 1)) x).symm)]
        refine (PMF.uniformOfFintype_apply (α := Fin (n + 1)) (x (Fin.last n))).trans ?_
        rw [Fintype.card_fin]
    · rw [if_neg hd]
      apply Finset.sum_eq_zero
      intro e _
      rw [if_neg]
      intro h
      apply hd
      funext i
      rw [h]
      exact (Fin.snoc_castSucc (α := fun i : Fin (n + 1) => Fin (i.1 + 1)) e d i).symm
  simp only [hinner, PMF.uniformOfFintype_apply]
  refine (Finset.sum_eq_single (fun i : Fin n => x i.castSucc) ?_ ?_).trans ?_
  · intro d _ hd
    rw [if_neg hd, mul_zero]
  · intro h; exact absurd (Finset.mem_univ _) h
  · rw [if_pos rfl, ← ENNReal.mul_inv (Or.inr (ENNReal.natCast_ne_top _)) (Or.inr (by exact_mod_cast Nat.succ_ne_zero n))]
    congr 1
    rw [← Nat.cast_mul]
    congr 1
    rw [Fintype.card_pi, Fintype.card_pi, Fin.prod_univ_castSucc]
    simp

/-- The set of positions in the sample of a stream that consists of its own positions. -/
def sampleSet (s n : Nat) (d : Draws n) : Option (Finset Nat) :=
  match run (ext d) s (List.range n) with
  | .val r => some r.sample.toFinset
  | _ => none

theorem sampleSet_eq (s n : Nat) (d : Draws n) : sampleSet s n d = some (sampled s d) := by
  obtain ⟨r, e, h⟩ := run_inv (ext d) (s : Int) (List.range n)
  have h2 := h.drawn.values
  have hi := h.drawn.inside
  simp only [List.length_range] at h2 hi
  have h3 : r.sample = positions (ext d) s n := by
    apply List.map_injective_iff.2 (Option.some_injective Nat)
    rw [h2]
    apply List.map_congr_left
    intro i hi'
    have := hi i hi'
    simp [this]
  simp only [sampleSet, e, h3, sampled]

theorem subsets_nonempty {s n : Nat} (h : s ≤ n) : (powersetCard s (range n)).Nonempty :=
  powersetCard_nonempty.2 (by simpa using h)

/-- Counting form: each `Size`-subset of the positions arises from exactly `s! (n-s)!` of the `n!` sequences of draws. -/
theorem C55_count (s n : Nat) (h : s ≤ n) (T : Finset Nat) (hT : T ∈ powersetCard s (range n)) :
    (univ.filter (fun d : Draws n => sampleSet s n d = some T)).card = s.factorial * (n - s).factorial := by
  simp only [sampleSet_eq, Option.some.injEq]
  exact count_eq h T hT

example : (univ.filter (fun d : Draws 3 => sampleSet 2 3 d = some {0, 2})).card = 2 := by decide +kernel
example : Fintype.card (Draws 3) = 6 := by decide +kernel

/-- After `n ≥ Size` pushes the sample is uniformly distributed over the `Size`-subsets of the positions. -/
theorem C55_uniform (s n : Nat) (h : s ≤ n) :
    (PMF.uniformOfFintype (Draws n)).map (sampleSet s n) =
      (PMF.uniformOfFinset (powersetCard s (range n)) (subsets_nonempty h)).map some := by
  have hf : (sampleSet s n) = some ∘ (sampled s (n := n)) := funext (sampleSet_eq s n)
  rw [hf, ← PMF.map_comp]
  congr 1
  ext T
  rw [PMF.map_apply]
  simp only [PMF.uniformOfFintype_apply, tsum_fintype]
  by_cases hT : T ∈ powersetCard s (range n)
  · rw [PMF.uniformOfFinset_apply_of_mem _ hT, card_powersetCard, card_range]
    rw [← Finset.sum_filter, Finset.sum_const, nsmul_eq_mul]
    have hc : (univ.filter (fun d : Draws n => T = sampled s d)).card = s.factorial * (n - s).factorial := by
      rw [← count_eq h T hT]; congr 1; ext d; simp [eq_comm]
    rw [hc]
    have htot : Fintype.card (Draws n) = n.choose s * (s.factorial * (n - s).factorial) := by
      rw [Fintype.card_pi]
      simp only [Fintype.card_fin]
      rw [Fin.prod_univ_eq_prod_range (fun i => i + 1) n, Finset.prod_range_add_one_eq_factorial, ← Nat.mul_assoc,
        Nat.choose_mul_factorial_mul_factorial h]
    have hz : ((s.factorial * (n - s).factorial : Nat) : ENNReal) ≠ 0 := by
      exact_mod_cast Nat.mul_ne_zero (Nat.factorial_ne_zero _) (Nat.factorial_ne_zero _)
    have ht : ((s.factorial * (n - s).factorial : Nat) : ENNReal) ≠ ⊤ := ENNReal.natCast_ne_top _
    rw [htot, Nat.cast_mul (n.choose s), ENNReal.mul_inv (Or.inr ht) (Or.inr hz), mul_comm, mul_assoc, ENNReal.inv_mul_cancel hz ht, mul_one]
  · rw [PMF.uniformOfFinset_apply_of_notMem _ hT]
    apply Finset.sum_eq_zero
    intro d _
    rw [if_neg]
    rintro rfl
    exact hT (sampled_mem h d)

/-- Each position `i < n` is included with probability `Size/n`. -/
theorem C55_inclusion (s n : Nat) (h : s ≤ n) (i : Nat) (hi : i < n) :
    ((PMF.uniformOfFintype (Draws n)).map (sampleSet s n)).toOuterMeasure {o | ∃ S, o = some S ∧ i ∈ S} = (s : ENNReal) / n := by
  classical
  rw [C55_uniform s n h, PMF.toOuterMeasure_map_apply, PMF.toOuterMeasure_uniformOfFinset_apply, card_powersetCard, card_range]
  have hc : ((powersetCard s (range n)).filter (fun S => i ∈ S)).card * n = n.choose s * s := by
    cases s with
    | zero => simp
    | succ s =>
      have : (powersetCard (s + 1) (range n)).filter (fun S => i ∈ S) = (powersetCard s ((range n).erase i)).image (insert i) := by
        ext S
        simp only [mem_filter, mem_powersetCard, mem_image]
        constructor
        · rintro ⟨⟨h1, h2⟩, h3⟩
          refine ⟨S.erase i, ⟨erase_subset_erase i h1, ?_⟩, insert_erase h3⟩
          rw [card_erase_of_mem h3, h2]; rfl
        · rintro ⟨U, ⟨h1, h2⟩, rfl⟩
          have : i ∉ U := fun c => (mem_erase.1 (h1 c)).1 rfl
          refine ⟨⟨insert_subset (mem_range.2 hi) (fun a ha => mem_of_mem_erase (h1 ha)), ?_⟩, mem_insert_self _ _⟩
          rw [card_insert_of_notMem this, h2]
      rw [this, card_image_of_injOn, card_powersetCard, card_erase_of_mem (mem_range.2 hi), card_range]
      · obtain ⟨m, rfl⟩ : ∃ m, n = m + 1 := ⟨n - 1, by omega⟩
        rw [Nat.add_sub_cancel, Nat.mul_comm, Nat.add_one_mul_choose_eq]
      · intro U hU V hV e
        simp only [mem_coe, mem_powersetCard] at hU hV
        have hu : i ∉ U := fun c => (mem_erase.1 (hU.1 c)).1 rfl
        have hv : i ∉ V := fun c => (mem_erase.1 (hV.1 c)).1 rfl
        rw [← erase_insert hu, ← erase_insert hv, e]
  have hset : (powersetCard s (range n)).filter (· ∈ (some ⁻¹' {o : Option (Finset Nat) | ∃ S, o = some S ∧ i ∈ S})) =
      (powersetCard s (range n)).filter (fun S => i ∈ S) := by
    ext S; simp
  rw [hset]
  have hn : (n : ENNReal) ≠ 0 := by exact_mod_cast (show n ≠ 0 by omega)
  have hch : (n.choose s : ENNReal) ≠ 0 := by exact_mod_cast (Nat.choose_pos h).ne'
  rw [ENNReal.div_eq_div_iff hn (ENNReal.natCast_ne_top _) hch (ENNReal.natCast_ne_top _)]
  have hc' := congrArg (Nat.cast (R := ENNReal)) hc
  push_cast at hc'
  rw [mul_comm, hc']

/-- Three of ten values. -/
example : ((PMF.uniformOfFintype (Draws 10)).map (sampleSet 3 10)).toOuterMeasure {o | ∃ S, o = some S ∧ 4 ∈ S} = (3 : ENNReal) / 10 := by
  have := C55_inclusion 3 10 (by omega) 4 (by omega)
  exact_mod_cast this

end c55

/-! ## C62 -/

section c62
variable {α : Type}

/-- A push with its draw, or an assignment to the exported field `Size`. -/
inductive ROp (α : Type) where
  | push (x : α) (index : Nat)
  | setSize (size : Int)

/-- One operation. -/
def rstep (r : Reservoir α) : ROp α → Go (Reservoir α)
  | .push x i => Sample.push r x i
  | .setSize s => .val (setSize r s)

/-- No assignment raises the size. -/
def Lowering : Int → List (ROp α) → Prop
  | _, [] => True
  | s, .push _ _ :: ops => Lowering s ops
  | s, .setSize t :: ops => t ≤ s ∧ Lowering t ops

/-- As stated the property is false: size 1, two pushes, size 3, and the fourth push draws 2: the index is outside the sample. -/
theorem C62_refuted : Go.runOps rstep (Sample.new 1) [.push 'a' 0, .push 'b' 1, .setSize 3, .push 'c' 0, .push 'd' 2] =
    .panic := by decide +kernel

/-- Missing for the full statement: raising the size (`C62_refuted`). If the size is only ever lowered no push panics, and the sample keeps
at least `min(n, Size)` elements. -/
theorem C62_lowering_partial (size : Int) (ops : List (ROp α)) (h : Lowering size ops) :
    ∃ r, Go.runOps rstep (Sample.new size) ops = .val r ∧ min (r.count : Int) r.size ≤ r.sample.length := by
  suffices H : ∀ (ops : List (ROp α)) (r : Reservoir α), Lowering r.size ops → min (r.count : Int) r.size ≤ r.sample.length →
      ∃ r', Go.runOps rstep r ops = .val r' ∧ min (r'.count : Int) r'.size ≤ r'.sample.length from
    H ops (Sample.new size) h (by simp [Sample.new])
  clear h
  intro ops
  induction ops with
  | nil => intro r _ hr; exact ⟨r, rfl, hr⟩
  | cons o ops ih =>
    intro r hl hr
    cases o with
    | setSize t =>
      simp only [Go.runOps, rstep]
      exact ih (setSize r t) hl.2 (by have := hl.1; simp only [setSize]; omega)
    | push x i =>
      simp only [Go.runOps, rstep]
      unfold Sample.push
      simp only
      by_cases c1 : ((r.count + 1 : Nat) : Int) ≤ r.size
      · rw [if_pos c1]
        exact ih _ hl (by simp only [List.length_append, List.length_singleton]; push_cast at *; omega)
      · rw [if_neg c1]
        by_cases c2 : (i : Int) < r.size
        · rw [if_pos c2, if_pos (by push_cast at *; omega)]
          exact ih _ hl (by simp only [List.length_set]; push_cast at *; omega)
        · rw [if_neg c2]
          exact ih _ hl (by simp only; push_cast at *; omega)

example : Lowering 3 [ROp.push 'a' 0, .push 'b' 1, .setSize 2, .push 'c' 2] := by simp [Lowering]

end c62

end Verif.Props
