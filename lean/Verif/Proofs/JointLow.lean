import Verif.Proofs.JointMetric
import Verif.Proofs.JointConfig
import Verif.Spec.Drift

/-! # Joint cores with overlapping tuples: the sums of order one and two

`remove` goes through the smaller tuples of every configured tuple and stores the result after each, so that a tuple below several configured
ones is corrected several times. Here the sums of order two are followed exactly, whatever the configuration. -/

set_option linter.unusedSectionVars false
set_option linter.unusedSimpArgs false

namespace Verif.Joint
open Verif Verif.Spec Verif.MathUtil

variable {K : Type} [Field K]

/-! ## The update formulas at orders one and two -/

theorem total_one {r : Rule K} {δ : List K} {s : K} (hb : r.base s = s) (hf : ∀ dp, r.full 1 dp = 0) (look : List Nat → K) {a : List Nat}
    (ha : a.sum = 1) : total r δ s look a = s := by
  unfold total
  conv_rhs => rw [← sum_ite_mem (nodup_below a) (mem_below.2 (zeros_below a)) s]
  congr 1
  apply List.map_congr_left
  intro b hbm
  rw [mem_below] at hbm
  unfold term
  by_cases hb0 : b.sum = 0
  · rw [if_pos hb0, if_pos (hbm.eq_zeros hb0), hb]
  · have := hbm.sum_le
    have hba : b = a := hbm.eq_of_sum (by omega)
    subst hba
    rw [if_neg hb0, if_pos rfl, if_neg (by intro c; rw [c, sum_zeros] at hb0; exact hb0 rfl), ha, hf]

theorem total_two {r : Rule K} {δ : List K} {s : K} (hb : r.base s = s) (hp : ∀ m n dp, r.part m n dp 0 = 0) {look : List Nat → K} {a : List Nat}
    (ha : a.sum = 2) (hl : ∀ c, Below c a → c.sum = 1 → look c = 0) : total r δ s look a = s + r.full 2 (mpow δ a) := by
  unfold total
  rw [← sum_ite_mem (nodup_below a) (mem_below.2 (zeros_below a)) s,
    ← sum_ite_mem (nodup_below a) (mem_below.2 (Below.refl a)) (r.full 2 (mpow δ a)), ← List.sum_map_add]
  rw [sum_ite_mem (nodup_below a) (mem_below.2 (zeros_below a)) s]
  congr 1
  apply List.map_congr_left
  intro b hbm
  rw [mem_below] at hbm
  unfold term
  by_cases hb0 : b.sum = 0
  · rw [if_pos hb0, if_pos (hbm.eq_zeros hb0), hb, if_neg (by rintro rfl; omega), add_zero]
  · have hz : b ≠ zeros a := by intro c; rw [c, sum_zeros] at hb0; exact hb0 rfl
    rw [if_neg hb0, if_neg hz, zero_add]
    by_cases he : b = a
    · subst he; rw [if_pos rfl, if_pos rfl, ha]
    · rw [if_neg he, if_neg he, hl _ (msub_below hbm), hp]
      have h1 := msub_sum hbm
      have h2 : b.sum ≠ 2 := fun h => he (hbm.eq_of_sum (by omega))
      have := hbm.sum_le
      omega

/-- What one pass of `remove` computes, from arbitrary sums. -/
theorem exists_fix (r : Rule K) (δ : List K) (S : List Nat → K) (N : Nat) :
    ∃ S' : List Nat → K, ∀ a, a.sum < N → total r δ (S a) S' a = S' a := by
  induction N with
  | zero => exact ⟨S, fun a h => absurd h (Nat.not_lt_zero _)⟩
  | succ N ih =>
    obtain ⟨S', h⟩ := ih
    refine ⟨fun a => total r δ (S a) S' a, fun a ha => ?_⟩
    refine total_congr _ _ _ fun c hc hne _ => ?_
    have hlt : c.sum ≠ a.sum := fun he => hne (hc.eq_of_sum he.ge)
    have := hc.sum_le
    exact h c (by omega)

/-! ## All tuples in `remove` -/

instance (a t : List Nat) : Decidable (Below a t) := by unfold Below; infer_instance

/-- How many of the tuples have `a` below them. -/
def covers (ts : List (List Nat)) (a : List Nat) : Nat := ts.countP (fun t => decide (Below a t))

theorem removeAll_low (r : Rule K) (hr : r.fresh = true) (hb : ∀ s, r.base s = s) (hf : ∀ dp, r.full 1 dp = 0) (hp : ∀ m n dp, r.part m n dp 0 = 0)
    {δ : List K} {n : Nat} {ts : List (List Nat)} (hg : Good n ts) (hδ : δ.length = n) (l : List (List Nat)) (hsub : ∀ t ∈ l, t ∈ ts)
    {S : List Nat → K} (h1 : ∀ a, a.sum = 1 → S a = 0) {sums : Map K} (hsums : ∀ a, Tracked ts a → sums (hash (up a)) = some (S a)) :
    ∃ (m : Map K) (S' : List Nat → K), removeAll r δ (l.map up) sums sums = .val (m, m, none) ∧ (∀ a, Tracked ts a → m (hash (up a)) = some (S' a)) ∧
      (∀ k, (∀ a, Tracked ts a → hash (up a) ≠ k) → m k = sums k) ∧ (∀ a, a.sum = 1 → S' a = 0) ∧
      (∀ a, a.sum = 2 → S' a = S a + covers l a * r.full 2 (mpow δ a)) := by
  induction l generalizing S sums with
  | nil => exact ⟨sums, S, rfl, hsums, fun _ _ => rfl, h1, fun a _ => by simp [covers]⟩
  | cons t l ih =>
    obtain ⟨S1, hS1⟩ := exists_fix r δ S 63
    have ht := hsub t List.mem_cons_self
    obtain ⟨ns1, e1, a1, b1⟩ := removeTuple_val r hr hg hδ ht (S := S) (S' := S1) (fun a ha => hS1 a (by have := (hg.small' ha).2; omega)) sums
      (fun a ha => hsums a ⟨t, ht, ha⟩)
    have one : ∀ a, a.sum = 1 → S1 a = 0 := fun a ha => by
      rw [← hS1 a (by omega), total_one (hb _) hf _ ha, h1 a ha]
    have two : ∀ a, a.sum = 2 → S1 a = S a + r.full 2 (mpow δ a) := fun a ha => by
      rw [← hS1 a (by omega), total_two (hb _) hp ha (fun c _ hc => one c hc)]
    have hout : ∀ a, Tracked ts a → ¬ Below a t → ns1 (hash (up a)) = sums (hash (up a)) := by
      intro a ha hn
      refine b1 _ fun b hbt he => hn ?_
      rw [← hg.inj b a ⟨t, ht, hbt⟩ ha he]; exact hbt
    have hcopy : Map.copy sums ns1 = ns1 := by
      apply copy_self
      intro k hk
      by_cases hex : ∃ a, Below a t ∧ hash (up a) = k
      · obtain ⟨a, ha, rfl⟩ := hex
        rw [a1 a ha] at hk; cases hk
      · rw [← b1 k (fun a ha he => hex ⟨a, ha, he⟩), hk]
    obtain ⟨m, S', e2, c1, c2, c3, c4⟩ := ih (fun t ht => hsub t (List.mem_cons_of_mem _ ht)) (S := fun a => if Below a t then S1 a else S a)
      (sums := ns1)
      (fun a ha => by
        by_cases h : Below a t
        · rw [if_pos h, one a ha]
        · rw [if_neg h, h1 a ha])
      (fun a ha => by
        by_cases h : Below a t
        · rw [if_pos h, a1 a h]
        · rw [if_neg h, hout a ha h, hsums a ha])
    refine ⟨m, S', by simp only [List.map_cons, removeAll, e1, hcopy]; exact e2, c1, fun k hk => ?_, c3, fun a ha => ?_⟩
    · rw [c2 k hk, b1 k fun a h => hk a ⟨t, ht, h⟩]
    · rw [c4 a ha]
      unfold covers
      rw [List.countP_cons]
      by_cases h : Below a t
      · rw [if_pos h, two a ha, if_pos (by simpa using h)]; push_cast; ring
      · rw [if_neg h, if_neg (by simpa using h)]; simp

/-! ## The state -/

/-- The core holds the sums `S` and the means `μ`. -/
structure Holds (n : Nat) (ts : List (List Nat)) (S : List Nat → K) (μ : List K) (c : Core K) : Prop where
  tuples : c.tuples = ts.map up
  means : c.means = μ
  len : μ.length = n
  val : ∀ a, Tracked ts a → c.sums (hash (up a)) = some (S a)
  none : ∀ k, (∀ a, Tracked ts a → hash (up a) ≠ k) → c.sums k = none
  eqv : c.newSums = c.sums

theorem add_holds [CharZero K] {n : Nat} {ts : List (List Nat)} (hg : Good n ts) {S : List Nat → K} {data : List (List K)} {c : Core K}
    (h : Holds n ts S (jmeans n data) c) (hc : c.count = data.length) {x : List K} (hx : x.length = n) :
    ∃ c', add c x = .val (c', none) ∧
      Holds n ts (fun a => total (addRule ((data.length : K) + 1)) (List.zipWith (fun x m => x - m) x (jmeans n data)) (S a) S a)
        (jmeans n (data ++ [x])) c' ∧ c'.count = ((data ++ [x]).length : Int) ∧
      c'.window = c.window ∧ c'.decay = c.decay ∧ c'.queue = c.queue := by
  have hcnt : (((c.count + 1 : Int)) : K) = (data.length : K) + 1 := by rw [hc]; push_cast; rfl
  obtain ⟨ns', e, h1, h2⟩ := updateAll_val (addRule ((data.length : K) + 1)) rfl hg
    (δ := List.zipWith (fun x m => x - m) x c.means) (by simp [hx, h.means, h.len]) c.sums c.newSums
  rw [← h.tuples] at e
  have hcopy : Map.copy c.sums ns' = ns' := by
    apply copy_self
    intro k hk
    by_cases hex : ∃ a, Tracked ts a ∧ hash (up a) = k
    · obtain ⟨a, ha, rfl⟩ := hex
      rw [h1 a ha] at hk; cases hk
    · exact h.none k (fun a ha he => hex ⟨a, ha, he⟩)
  unfold add
  simp only
  rw [hcnt, e]
  refine ⟨_, rfl, ⟨h.tuples, ?_, by simp, ?_, ?_, ?_⟩, by simp [hc], rfl, rfl, rfl⟩
  · simp only [h.means]
    rw [jmeans_snoc data hx, List.zipWith_map_right]
    congr 1
    funext m d
    rw [div_eq_mul_one_div, mul_comm]
  · intro a ha
    show Map.copy c.sums ns' _ = _
    rw [hcopy, h1 a ha, h.means]
    have hbase : Map.get c.sums (hash (up a)) = S a := by rw [Map.get, h.val a ha]; rfl
    rw [hbase, total_congr (look' := S)]
    intro b hb _ _
    rw [Map.get, h.val b (ha.below hb)]; rfl
  · intro k hk
    show Map.copy c.sums ns' _ = _
    rw [hcopy, h2 k hk, h.eqv, h.none k hk]
  · exact hcopy.symm

/-- What adding a point does to a sum of order two. -/
theorem addRule_full_two [CharZero K] (N : Nat) (dp : K) : (addRule ((N : K) + 1)).full 2 dp = (N : K) / (N + 1) * dp := by
  have : (N : K) + 1 ≠ 0 := by exact_mod_cast Nat.succ_ne_zero N
  have hs : sign (2 : Nat) = 1 := rfl
  simp only [addRule]
  rw [hs]
  field_simp
  push_cast
  ring

theorem addRule_full_one (N : K) (dp : K) : (addRule N).full 1 dp = 0 := by
  have hs1 : sign 1 = -1 := rfl
  simp [addRule, hs1]

/-- The true sums of order one are zero. -/
theorem stored_one [CharZero K] {n : Nat} {data : List (List K)} (hd : ∀ x ∈ data, x.length = n) {a : List Nat} (hl : a.length = n) (ha : a.sum = 1) :
    stored (unit data) (jmeans n data) a = 0 := by
  induction data using List.reverseRecOn with
  | nil => simp [stored, ha, wj, unit]
  | append_singleton data x ih =>
    have hx : x.length = n := hd x (by simp)
    have hN : (data.length : K) + 1 ≠ 0 := by exact_mod_cast Nat.succ_ne_zero data.length
    have := total_stored (addRule_adds hN) (ps := unit data) (Or.inl (by simp [unit, Function.comp_def])) (μ := jmeans n data) (x := x) (a := a)
      (by intro p hp; obtain ⟨y, hy, rfl⟩ := List.mem_map.1 hp; rw [hl]; exact hd y (by simp [hy])) (by simp [hl]) (by rw [hx, hl])
    rw [total_one rfl (addRule_full_one _) _ ha, ← jmeans_snoc data hx] at this
    have hu : List.map (fun p : K × List K => (1 * p.1, p.2)) (unit data) ++ [(1, x)] = unit (data ++ [x]) := by
      simp [unit, Function.comp_def]
    rw [hu] at this
    rw [← this]
    exact ih fun y hy => hd y (by simp [hy])

/-- The true sums of order two when a point is added. -/
theorem stored_two [CharZero K] {n : Nat} {data : List (List K)} (hd : ∀ x ∈ data, x.length = n) {x : List K} (hx : x.length = n) {a : List Nat}
    (hl : a.length = n) (ha : a.sum = 2) :
    stored (unit (data ++ [x])) (jmeans n (data ++ [x])) a =
      stored (unit data) (jmeans n data) a + (data.length : K) / (data.length + 1) * mpow (List.zipWith (fun x m => x - m) x (jmeans n data)) a := by
  have hN : (data.length : K) + 1 ≠ 0 := by exact_mod_cast Nat.succ_ne_zero data.length
  have := total_stored (addRule_adds hN) (ps := unit data) (Or.inl (by simp [unit, Function.comp_def])) (μ := jmeans n data) (x := x) (a := a)
    (by intro p hp; obtain ⟨y, hy, rfl⟩ := List.mem_map.1 hp; rw [hl]; exact hd y hy) (by simp [hl]) (by rw [hx, hl])
  rw [total_two rfl (by simp [addRule]) ha (fun c hc h1 => stored_one hd (by rw [hc.length, hl]) h1), ← jmeans_snoc data hx, addRule_full_two] at this
  have hu : List.map (fun p : K × List K => (1 * p.1, p.2)) (unit data) ++ [(1, x)] = unit (data ++ [x]) := by
    simp [unit, Function.comp_def]
  rw [hu] at this
  exact this.symm

theorem remove_holds [CharZero K] {n : Nat} {ts : List (List Nat)} (hg : Good n ts) {S : List Nat → K} (h1 : ∀ a, a.sum = 1 → S a = 0)
    {y : List K} {ys : List (List K)} {c : Core K} (hy : y.length = n)
    (h : Holds n ts S (jmeans n (y :: ys)) c) (hc : c.count = ((y :: ys).length : Int)) :
    ∃ c' S', remove c y = .val (c', none) ∧ Holds n ts S' (jmeans n ys) c' ∧ (∀ a, a.sum = 1 → S' a = 0) ∧
      (ys = [] → ∀ a, S' a = 0) ∧
      (ys ≠ [] → ∀ a, a.sum = 2 → S' a = S a - covers ts a * ((ys.length : K) / (ys.length + 1) * mpow (List.zipWith (fun x m => x - m) y (jmeans n ys)) a)) ∧
      c'.count = (ys.length : Int) ∧ c'.window = c.window ∧ c'.decay = c.decay ∧ c'.queue = c.queue := by
  have hc1 : c.count - 1 = (ys.length : Int) := by rw [hc]; simp
  have hperm : (y :: ys).Perm (ys ++ [y]) := (List.perm_append_singleton y ys).symm
  unfold remove
  simp only
  rw [hc1]
  by_cases h0 : ys = []
  · subst h0
    rw [if_neg (by simp)]
    refine ⟨_, fun _ => 0, rfl, ⟨h.tuples, ?_, by simp, ?_, ?_, ?_⟩, fun _ _ => rfl, fun _ _ => rfl, fun h => absurd rfl h, rfl, rfl, rfl, rfl⟩
    · show c.means.map (fun _ => (0 : K)) = _
      rw [h.means]
      simp [jmeans, Spec.mean, coord, Function.comp_def]
    · intro a ha
      show Map.zero c.sums _ = _
      rw [Map.zero, h.val a ha]
      rfl
    · intro k hk
      show Map.zero c.sums _ = _
      rw [Map.zero, h.none k hk]; rfl
    · show Map.zero c.newSums = Map.zero c.sums
      rw [h.eqv]
  · have hpos := List.length_pos_iff.2 h0
    have hn0 : (ys.length : K) ≠ 0 := by exact_mod_cast hpos.ne'
    have hN : (ys.length : K) + 1 ≠ 0 := by exact_mod_cast Nat.succ_ne_zero ys.length
    rw [if_pos (by omega)]
    have hμ : List.zipWith (fun x m => m - (x - m) / ((ys.length : Int) : K)) y c.means = jmeans n ys := by
      rw [h.means, jmeans_perm hperm]
      apply List.ext_getElem
      · simp [hy]
      · intro j h1 h2
        have hj : j < n := by simpa using h2
        have hjx : j < y.length := by omega
        simp only [jmeans, List.getElem_map, List.getElem_range, List.getElem_zipWith, coord_append, coord_one]
        rw [Moment.mean_snoc, coord_length, getD_get hjx]
        push_cast
        field_simp
        ring
    rw [hμ]
    have hs1 : sign 1 = -1 := rfl
    obtain ⟨m, S', e, a1, b1, c1, d1⟩ := removeAll_low (removeRule ((ys.length : Int) : K)) rfl (fun _ => rfl) (by simp [removeRule, hs1])
      (by simp [removeRule]) hg (δ := List.zipWith (fun x m => x - m) y (jmeans n ys)) (by simp [hy]) ts (fun _ h => h) h1 h.val
    rw [← h.tuples] at e
    rw [h.eqv, e]
    refine ⟨_, S', rfl, ⟨h.tuples, rfl, by simp, a1, fun k hk => (b1 k hk).trans (h.none k hk), rfl⟩, c1, fun h => absurd h h0, fun _ a ha => ?_,
      rfl, rfl, rfl, rfl⟩
    rw [d1 a ha]
    have : (removeRule ((ys.length : Int) : K)).full 2 (mpow (List.zipWith (fun x m => x - m) y (jmeans n ys)) a) =
        -((addRule ((ys.length : K) + 1)).full 2 (mpow (List.zipWith (fun x m => x - m) y (jmeans n ys)) a)) := by
      simp [removeRule, addRule]
    rw [this, addRule_full_two]
    ring

/-! ## Histories -/

theorem getD_snoc {α : Type} {xs : List α} {x d : α} {i : Nat} (h : i < xs.length) : (xs ++ [x]).getD i d = xs.getD i d := by
  rw [List.getD_eq_getElem?_getD, List.getD_eq_getElem?_getD, List.getElem?_append_left h]

theorem drift_room {w : Nat} {a : List Nat} {xs : List (List K)} (h : xs.length ≤ w) : drift w a xs = 0 := by
  unfold drift
  rw [show xs.length - w = 0 by omega]
  rfl

theorem drift_full {w : Nat} (hw : w ≠ 0) {a : List Nat} {xs : List (List K)} {y : List K} {ys : List (List K)} (hl : lastN w xs = y :: ys)
    (hfull : (y :: ys).length = w) (x : List K) :
    drift w a (xs ++ [x]) = drift w a xs + ((w : K) - 1) / w * jprod (fun j => Spec.mean (coord j ys)) y a := by
  have hlen := lastN_length w xs
  rw [hl, hfull, if_neg hw] at hlen
  have hle : w ≤ xs.length := by omega
  unfold lastN at hl
  rw [if_neg hw] at hl
  unfold drift
  rw [List.length_append, List.length_singleton, show xs.length + 1 - w = (xs.length - w) + 1 by omega, List.range_succ, List.map_append, List.sum_append]
  congr 1
  · congr 1
    refine List.map_congr_left fun i hi => ?_
    rw [List.mem_range] at hi
    rw [List.drop_append_of_le_length (by omega), List.take_append_of_le_length (by rw [List.length_drop]; omega), getD_snoc (by omega)]
  · rw [List.map_singleton, List.sum_singleton]
    have hd : xs.drop (xs.length - w + 1) = ys := by
      rw [← List.drop_drop, hl]; rfl
    have hg : xs.getD (xs.length - w) [] = y := by
      rw [List.getD_eq_getElem?_getD, ← List.head?_drop, hl]; rfl
    rw [List.drop_append_of_le_length (by omega), hd, getD_snoc (by omega), hg,
      List.take_append_of_le_length (by simp at hfull; omega), List.take_of_length_le (by simp at hfull; omega)]

/-- The state of a core without decay after the accepted points `xs`, orders one and two. -/
structure L (n : Nat) (ts : List (List Nat)) (w : Nat) (xs : List (List K)) (S : List Nat → K) (c : Core K) : Prop where
  win : c.window = w
  dec : c.decay = none
  cap : c.queue.cap = Ring.roundUp w
  live : c.queue.disposed = false
  q : w ≠ 0 → c.queue.items = lastN w xs
  count : c.count = ((lastN w xs).length : Int)
  pts : ∀ x ∈ xs, x.length = n
  holds : Holds n ts S (jmeans n (lastN w xs)) c
  one : ∀ a, a.sum = 1 → S a = 0
  two : ∀ a, Tracked ts a → a.sum = 2 → w ≠ 0 → S a = stored (unit (lastN w xs)) (jmeans n (lastN w xs)) a - ((covers ts a : K) - 1) * drift w a xs

theorem lastN_sub {w : Nat} {xs : List (List K)} : ∀ x ∈ lastN w xs, x ∈ xs := by
  intro x hx
  unfold lastN at hx
  split_ifs at hx
  · exact hx
  · exact List.mem_of_mem_drop hx

theorem push_L [CharZero K] {n : Nat} {ts : List (List Nat)} (hg : Good n ts) {w : Nat} (hw : w ≠ 0) {xs : List (List K)} {S : List Nat → K}
    {c : Core K} (h : L n ts w xs S c) {x : List K} (hx : x.length = n) :
    ∃ c' S', push c x = .val (c', none) ∧ L n ts w (xs ++ [x]) S' c' := by
  have hlen : x.length = c.means.length := by rw [hx, h.holds.means, h.holds.len]
  have hw' : c.window ≠ 0 := by rw [h.win]; exact_mod_cast hw
  have hwK : (w : K) ≠ 0 := by exact_mod_cast hw
  have hq := h.q hw
  have key : ∃ c1 ys S1, evict c = .val (c1, none) ∧ c1.window = w ∧ c1.decay = none ∧ c1.queue.cap = Ring.roundUp w ∧
      c1.queue.disposed = false ∧ c1.queue.items = ys ∧ c1.count = (ys.length : Int) ∧ Holds n ts S1 (jmeans n ys) c1 ∧
      lastN w (xs ++ [x]) = ys ++ [x] ∧ ys.length < w ∧ (∀ y ∈ ys, y ∈ xs) ∧ (∀ a, a.sum = 1 → S1 a = 0) ∧
      (∀ a, Tracked ts a → a.sum = 2 → S1 a = stored (unit ys) (jmeans n ys) a - ((covers ts a : K) - 1) * drift w a (xs ++ [x])) := by
    by_cases hfull : (lastN w xs).length = w
    · obtain ⟨y, ys, hyys⟩ : ∃ y ys, lastN w xs = y :: ys := by
        cases hl : lastN w xs with
        | nil => rw [hl] at hfull; exact absurd hfull.symm hw
        | cons y ys => exact ⟨y, ys, rfl⟩
      have hr := h.holds
      have hc := h.count
      have hsub : ∀ z ∈ y :: ys, z ∈ xs := fun z hz => lastN_sub z (hyys ▸ hz)
      have hyn : y.length = n := h.pts y (hsub y List.mem_cons_self)
      have hysn : ∀ z ∈ ys, z.length = n := fun z hz => h.pts z (hsub z (List.mem_cons_of_mem _ hz))
      rw [hyys] at hr hc hq
      have hr' : Holds n ts S (jmeans n (y :: ys)) { c with queue := { c.queue with items := ys } } :=
        ⟨hr.tuples, hr.means, hr.len, hr.val, hr.none, hr.eqv⟩
      obtain ⟨c1, S1, e, hr1, one, z0, two, a1, a2, a3, a4⟩ := remove_holds hg h.one hyn hr' hc
      have hfl : (y :: ys).length = w := hyys ▸ hfull
      have hwl : ys.length + 1 = w := by simpa using hfl
      refine ⟨c1, ys, S1, evict_full ?_ (Ring.get_ok h.live hq) e, by rw [a2]; exact h.win, by rw [a3]; exact h.dec, by rw [a4]; exact h.cap,
        by rw [a4]; exact h.live, by rw [a4], a1, hr1, ?_, by omega, fun z hz => hsub z (List.mem_cons_of_mem _ hz), one, fun a ha h2 => ?_⟩
      · rw [Ring.len, h.q hw, h.win, hfull]
      · rw [lastN_snoc_full hw _ _ hfull, hyys]; rfl
      · have hal := hg.length ha
        have hperm : (y :: ys).Perm (ys ++ [y]) := (List.perm_append_singleton y ys).symm
        have hst := stored_two hysn hyn hal h2
        rw [← jmeans_perm hperm, ← stored_perm (show (unit (y :: ys)).Perm (unit (ys ++ [y])) from hperm.map _)] at hst
        have htwo := h.two a ha h2 hw
        rw [hyys, hst] at htwo
        have hjp : jprod (fun j => Spec.mean (coord j ys)) y a = mpow (List.zipWith (fun x m => x - m) y (jmeans n ys)) a := by
          rw [jprod_eq _ (by rw [hyn, hal]), hal]; rfl
        rw [drift_full hw hyys hfl x, hjp]
        have hwK' : (w : K) = (ys.length : K) + 1 := by rw [← hwl]; push_cast; rfl
        rw [hwK', add_sub_cancel_right]
        by_cases h0 : ys = []
        · subst h0
          rw [z0 rfl a]
          simp only [List.length_nil, zero_add] at hwl
          subst hwl
          have hd0 : drift 1 a xs = 0 := by
            unfold drift
            rw [List.map_congr_left (g := fun _ => (0 : K)) (by intro i _; simp)]
            simp
          simp [hd0, stored, wj, unit]
        · rw [two h0 a h2, htwo]
          ring
    · have hle := lastN_length_le hw xs
      have hxl : xs.length < w := by
        have := lastN_length w xs
        rw [if_neg hw] at this
        omega
      refine ⟨c, lastN w xs, S, ?_, h.win, h.dec, h.cap, h.live, hq, h.count, h.holds, lastN_snoc_room hw _ _ hfull, by omega, lastN_sub, h.one,
        fun a ha h2 => ?_⟩
      · unfold evict
        rw [if_neg]
        rw [Ring.len, hq, h.win]; exact_mod_cast hfull
      · rw [h.two a ha h2 hw, drift_room (by omega), drift_room (by simp; omega)]
  obtain ⟨c1, ys, S1, e1, b1, b2, b3, b4, b5, b6, b7, b8, b9, b10, b11, b12⟩ := key
  have hput : c1.queue.put x = .val (.ok { c1.queue with items := c1.queue.items ++ [x] }) :=
    Ring.put_ok b4 (by rw [b5, b3]; exact lt_of_lt_of_le b9 (Ring.le_roundUp w)) x
  have hr2 : Holds n ts S1 (jmeans n ys) { c1 with queue := { c1.queue with items := c1.queue.items ++ [x] } } :=
    ⟨b7.tuples, b7.means, b7.len, b7.val, b7.none, b7.eqv⟩
  obtain ⟨c2, e2, hr3, a1, a2, a3, a4⟩ := add_holds hg hr2 b6 hx
  refine ⟨c2, _, push_of_evict hlen hw' e1 (pushPut_ok hput ((pushAdd_none (by exact b2)).trans e2)), ⟨by rw [a2]; exact b1, by rw [a3]; exact b2,
    by rw [a4]; exact b3, by rw [a4]; exact b4, fun _ => ?_, by rw [b8]; exact a1, ?_, by rw [b8]; exact hr3, fun a ha => ?_, fun a ha h2 _ => ?_⟩⟩
  · rw [a4, b8]
    show c1.queue.items ++ [x] = _
    rw [b5]
  · intro z hz
    rcases List.mem_append.1 hz with hz | hz
    · exact h.pts z hz
    · rw [List.mem_singleton] at hz; rw [hz, hx]
  · rw [total_one rfl (addRule_full_one _) _ ha, b11 a ha]
  · rw [total_two rfl (by simp [addRule]) h2 (fun c _ hc => b11 c hc), addRule_full_two, b12 a ha h2, b8,
      stored_two (fun z hz => h.pts z (b10 z hz)) hx (hg.length ha) h2]
    ring

theorem clear_L {n : Nat} {ts : List (List Nat)} {w : Nat} {xs : List (List K)} {S : List Nat → K} {c : Core K} (h : L n ts w xs S c) :
    L n ts w ([] : List (List K)) (fun _ => 0) (clear c) := by
  refine ⟨h.win, h.dec, by simp [clear, Ring.new, h.win], rfl, fun _ => by simp [clear, Ring.new], by simp [clear], by simp, ?_, fun _ _ => rfl, ?_⟩
  · rw [lastN_nil, jmeans_nil]
    refine ⟨h.holds.tuples, ?_, by simp, ?_, ?_, ?_⟩
    · show c.means.map (fun _ => (0 : K)) = _
      rw [h.holds.means]
      simp [h.holds.len]
    · intro a ha
      show Map.zero c.sums _ = _
      rw [Map.zero, h.holds.val a ha]
      rfl
    · intro k hk
      show Map.zero c.sums _ = _
      rw [Map.zero, h.holds.none k hk]; rfl
    · show Map.zero c.newSums = Map.zero c.sums
      rw [h.holds.eqv]
  · intro a _ ha _
    simp [stored, wj, unit, drift]

theorem W.toL {n : Nat} {ts : List (List Nat)} {w : Nat} {c : Core K} (h : W n ts w ([] : List (List K)) c) :
    L n ts w ([] : List (List K)) (fun _ => 0) c := by
  refine ⟨h.win, h.dec, h.cap, h.live, h.q, h.count, by simp, ?_, fun _ _ => rfl, ?_⟩
  · refine ⟨h.rep.tuples, h.rep.means, h.rep.len, fun a ha => ?_, h.rep.none, h.rep.eqv⟩
    rw [h.rep.val a ha]
    simp [stored, wj, unit]
  · intro a _ ha _
    simp [stored, wj, unit, drift]

theorem run_L [CharZero K] {n : Nat} {ts : List (List Nat)} (hg : Good n ts) {w : Nat} (hw : w ≠ 0) {c : Core K} {S : List Nat → K}
    (h : L n ts w ([] : List (List K)) S c) (ops : List (MOp (List K))) :
    ∃ c' S', run c ops = .val (c', List.replicate (ops.countP (fun o => !okArity n o)) "tried to push a wrong number of values") ∧
      L n ts w (since (ops.filter (okArity n))) S' c' := by
  induction ops using List.reverseRecOn with
  | nil => exact ⟨c, S, rfl, h⟩
  | append_singleton ops op ih =>
    obtain ⟨c', S', e, hW⟩ := ih
    unfold run at e ⊢
    rw [Go.runOps_append, e, List.filter_append, List.countP_append]
    cases op with
    | push x =>
      by_cases hx : x.length = n
      · obtain ⟨c'', S'', e', hW'⟩ := push_L hg hw hW hx
        refine ⟨c'', S'', by simp [Go.runOps, logged, step, e', okArity, hx], ?_⟩
        have : List.filter (okArity n) [MOp.push x] = [MOp.push x] := by simp [okArity, hx]
        rw [this, since_push]; exact hW'
      · have hne : x.length ≠ c'.means.length := by rw [hW.holds.means, hW.holds.len]; exact hx
        refine ⟨c', S', ?_, ?_⟩
        · simp only [Go.runOps, logged, step, push_arity hne, Go.val_bind, Go.pure_eq]
          simp [okArity, hx, List.replicate_succ']
        · have : List.filter (okArity n) [MOp.push x] = [] := by simp [okArity, hx]
          rw [this, List.append_nil]; exact hW
    | clear =>
      refine ⟨clear c', fun _ => 0, by simp [Go.runOps, logged, step, okArity], ?_⟩
      have : List.filter (okArity n) [(MOp.clear : MOp (List K))] = [MOp.clear] := by simp [okArity]
      rw [this, since_clear]; exact clear_L hW

end Verif.Joint
