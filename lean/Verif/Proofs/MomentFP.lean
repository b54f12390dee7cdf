import Verif.Model.MomentFP
import Verif.Proofs.Moment

/-! # The moment core over an arbitrary arithmetic: refinement and control flow -/

set_option linter.unusedSectionVars false

namespace Verif.FP
open Verif.Spec Verif.MathUtil
open Verif.Moment (Core Config)

/-! ### Over a field it is the model of `Model/Moment.lean` -/

section exact
variable {K : Type} [Field K]

theorem sumLoop_add (t t' : Nat → Go K) (h : ∀ i, t i = t' i) (n i : Nat) (acc : K) :
    sumLoop (Arith.exact K).add t n i acc = Moment.sumLoop t' n i acc := by
  induction n generalizing i acc with
  | zero => rfl
  | succ n ih =>
    simp only [sumLoop, Moment.sumLoop, h]
    cases t' i with
    | val v => exact ih _ _
    | _ => rfl

theorem sumLoop_sub (t t' : Nat → Go K) (h : ∀ i, t' i = (t i >>= fun v => pure (-v))) (n i : Nat) (acc : K) :
    sumLoop (Arith.exact K).sub t n i acc = Moment.sumLoop t' n i acc := by
  induction n generalizing i acc with
  | zero => rfl
  | succ n ih =>
    simp only [sumLoop, Moment.sumLoop, h]
    cases t i with
    | val v =>
      show sumLoop _ t n (i + 1) (acc - v) = Moment.sumLoop t' n (i + 1) (acc + -v)
      rw [ih, sub_eq_add_neg]
    | _ => rfl

theorem coef_exact (k i : Nat) : coef (Arith.exact K) k i = Moment.coef k i := by
  unfold coef Moment.coef
  cases binom k i <;> rfl

theorem addEntry_exact (count delta : K) (s : Nat → K) (k : Nat) :
    addEntry (Arith.exact K) count delta s k = Moment.addEntry count delta s k := by
  unfold addEntry Moment.addEntry
  refine (sumLoop_add _ ?t' (fun i => ?_) _ _ _).trans ?_
  · exact fun i => do
      let c ← Moment.coef k i
      pure (c * (delta / count) ^ i * s (k - i))
  · rw [coef_exact]; rfl
  · simp [Arith.exact]

theorem addLoop_exact (count delta : K) (n : Nat) (s : Nat → K) :
    addLoop (Arith.exact K) count delta n s = Moment.addLoop count delta n s := by
  induction n using Nat.strong_induction_on generalizing s with
  | _ n ih =>
    match n with
    | 0 => rfl
    | 1 => rfl
    | k + 2 =>
      rw [addLoop, Moment.addLoop, addEntry_exact]
      cases Moment.addEntry count delta s (k + 2) with
      | val v => exact ih (k + 1) (by omega) _
      | _ => rfl

theorem add_exact (c : Core K) (x : K) : add (Arith.exact K) c x = Moment.add c x := by
  simp only [add, Moment.add, addLoop_exact]
  cases h : Moment.addLoop ((c.count + 1 : Int) : K) (x - c.mean) (c.len - 1) c.sums <;> simp_all [Arith.exact]

theorem decayEntry_exact (d delta : K) (s : Nat → K) (k : Nat) :
    decayEntry (Arith.exact K) d delta s k = Moment.decayEntry d delta s k := by
  unfold decayEntry Moment.decayEntry
  refine (sumLoop_add _ ?t' (fun i => ?_) _ _ _).trans ?_
  · exact fun i => do
      let c ← Moment.coef k i
      pure (c * (d * delta) ^ i * (1 - d) * s (k - i))
  · rw [coef_exact]; simp [Arith.exact]
  · simp [Arith.exact]

theorem decayLoop_exact (d delta : K) (n : Nat) (s : Nat → K) :
    decayLoop (Arith.exact K) d delta n s = Moment.decayLoop d delta n s := by
  induction n using Nat.strong_induction_on generalizing s with
  | _ n ih =>
    match n with
    | 0 => rfl
    | 1 => rfl
    | k + 2 =>
      rw [decayLoop, Moment.decayLoop, decayEntry_exact]
      cases Moment.decayEntry d delta s (k + 2) with
      | val v => exact ih (k + 1) (by omega) _
      | _ => rfl

theorem addDecay_exact (d : K) (c : Core K) (x : K) : addDecay (Arith.exact K) d c x = Moment.addDecay d c x := by
  simp only [addDecay, Moment.addDecay, decayLoop_exact]
  cases h : Moment.decayLoop (if c.count + 1 = 1 then 1 else d) (x - c.mean) (c.len - 1) c.sums <;> simp_all [Arith.exact]

theorem removeEntry_exact (count delta : K) (s : Nat → K) (k : Nat) :
    removeEntry (Arith.exact K) count delta s k = Moment.removeEntry count delta s k := by
  unfold removeEntry Moment.removeEntry
  refine (sumLoop_sub _ ?t' (fun i => ?_) _ _ _).trans ?_
  · exact fun i => do
      let c ← Moment.coef k i
      pure (-(c * (delta / (count + 1)) ^ i * s (k - i)))
  · rw [coef_exact]; cases Moment.coef (K := K) k i <;> simp [Arith.exact]
  · simp [Arith.exact]

theorem removeLoop_exact (count delta : K) (n k : Nat) (s : Nat → K) :
    removeLoop (Arith.exact K) count delta n k s = Moment.removeLoop count delta n k s := by
  induction n generalizing k s with
  | zero => rfl
  | succ n ih =>
    rw [removeLoop, Moment.removeLoop, removeEntry_exact]
    cases Moment.removeEntry count delta s k with
    | val v => exact ih _ _
    | _ => rfl

theorem remove_exact (c : Core K) (x : K) : remove (Arith.exact K) c x = Moment.remove c x := by
  simp only [remove, Moment.remove, removeLoop_exact]
  cases h : Moment.removeLoop ((c.count - 1 : Int) : K) (x - (c.mean - (x - c.mean) / ((c.count - 1 : Int) : K))) (c.len - 2) 2 c.sums <;>
    simp_all [Arith.exact]

theorem evict_exact (c : Core K) : evict (Arith.exact K) c = Moment.evict c := by
  simp only [evict, Moment.evict, remove_exact]
  split_ifs
  · rcases c.queue.get with (e | ⟨t, q⟩) | _ | _ <;> try rfl
  · rfl

theorem pushAdd_exact (c : Core K) (x : K) : pushAdd (Arith.exact K) c x = Moment.pushAdd c x := by
  simp only [pushAdd, Moment.pushAdd, add_exact, addDecay_exact]
  cases c.decay with
  | none => dsimp only; cases Moment.add c x <;> rfl
  | some d => dsimp only; cases Moment.addDecay d c x <;> rfl

theorem push_exact (c : Core K) (x : K) : push (Arith.exact K) c x = Moment.push c x := by
  simp only [push, Moment.push, evict_exact, pushAdd_exact]
  split_ifs
  · rfl
  · rcases Moment.evict c with (e | c) | _ | _ <;> try rfl

theorem clear_exact (c : Core K) : clear (Arith.exact K) c = Moment.clear c := by
  simp [clear, Moment.clear, Arith.exact]

theorem mk_exact (c : Config K) : mk (Arith.exact K) c = Moment.mk c := by
  simp [mk, Moment.mk, Arith.exact]

theorem step_exact : step (Arith.exact K) = Moment.step (K := K) := by
  funext c o
  cases o with
  | push x => exact push_exact c x
  | clear => simp [step, Moment.step, clear_exact]

theorem run_exact (c : Core K) (ops : List (MOp K)) : run (Arith.exact K) c ops = Moment.run c ops := by
  unfold run Moment.run
  rw [step_exact]

end exact

/-! ### The values the loops compute -/

variable {F : Type} (A : Arith F)

/-- The coefficient. -/
def coefV (k i : Nat) : F :=
  match binom k i with
  | .val b => A.ofInt (wrap (b * sign i))
  | _ => A.ofInt 0

theorem coef_ok {k i : Nat} (hi : i ≤ k) (hk : k ≤ 65) : coef A k i = .val (coefV A k i) := by
  have h := Moment.coef_ok (K := ℚ) hi hk
  unfold Moment.coef at h
  unfold coef coefV
  revert h
  cases binom k i <;> simp

/-- `acc op= f i` for `n` values of `i` from `i`. -/
def foldV (op : F → F → F) (f : Nat → F) : Nat → Nat → F → F
  | 0, _, acc => acc
  | n + 1, i, acc => foldV op f n (i + 1) (op acc (f i))

theorem sumLoop_val {op : F → F → F} {term : Nat → Go F} {f : Nat → F} (n i : Nat) (acc : F)
    (h : ∀ j, i ≤ j → j < i + n → term j = .val (f j)) : sumLoop op term n i acc = .val (foldV op f n i acc) := by
  induction n generalizing i acc with
  | zero => rfl
  | succ n ih =>
    rw [sumLoop, h i le_rfl (by omega)]
    exact ih (i + 1) _ (fun j h1 h2 => h j (by omega) (by omega))

theorem foldV_congr {op : F → F → F} {f g : Nat → F} (n i : Nat) (acc : F) (h : ∀ j, i ≤ j → j < i + n → f j = g j) :
    foldV op f n i acc = foldV op g n i acc := by
  induction n generalizing i acc with
  | zero => rfl
  | succ n ih => rw [foldV, foldV, h i le_rfl (by omega)]; exact ih _ _ (fun j h1 h2 => h j (by omega) (by omega))

theorem foldV_inv {op : F → F → F} {f : Nat → F} (P : F → Prop) (n i : Nat) (acc : F) (h : ∀ a j, i ≤ j → j < i + n → P a → P (op a (f j)))
    (ha : P acc) : P (foldV op f n i acc) := by
  induction n generalizing i acc with
  | zero => exact ha
  | succ n ih => exact ih _ _ (fun a j h1 h2 => h a j (by omega) (by omega)) (h acc i le_rfl (by omega) ha)

/-- The new `sums[k]` in `add`. -/
def addV (count delta : F) (s : Nat → F) (k : Nat) : F :=
  foldV A.add (fun i => A.mul (A.mul (coefV A k i) (A.pow (A.div delta count) i)) (s (k - i))) (k - 2) 1
    (A.add (s k) (A.mul (A.mul (A.div (A.sub count (A.ofInt 1)) (A.pow count k))
      (A.add (A.pow (A.sub count (A.ofInt 1)) (k - 1)) (A.ofInt (sign k)))) (A.pow delta k)))

theorem addEntry_val {count delta : F} {s : Nat → F} {k : Nat} (hk : k ≤ 65) :
    addEntry A count delta s k = .val (addV A count delta s k) := by
  refine sumLoop_val _ _ _ (fun j h1 h2 => ?_)
  rw [coef_ok A (by omega) hk]
  rfl

theorem addV_congr {count delta : F} {s s' : Nat → F} {k : Nat} (h : ∀ j, 2 ≤ j → j ≤ k → s j = s' j) (hk : 2 ≤ k) :
    addV A count delta s k = addV A count delta s' k := by
  unfold addV
  rw [h k hk le_rfl]
  exact foldV_congr _ _ _ (fun j h1 h2 => by rw [h (k - j) (by omega) (by omega)])

/-- The sums after `add`. -/
theorem addLoop_val {count delta : F} (n : Nat) (s : Nat → F) (hn : n ≤ 65) :
    ∃ s', addLoop A count delta n s = .val s' ∧ ∀ k, s' k = if 2 ≤ k ∧ k ≤ n then addV A count delta s k else s k := by
  induction n using Nat.strong_induction_on generalizing s with
  | _ n ih =>
    match n with
    | 0 => exact ⟨s, rfl, fun k => by rw [if_neg]; omega⟩
    | 1 => exact ⟨s, rfl, fun k => by rw [if_neg]; omega⟩
    | m + 2 =>
      obtain ⟨s', e, h⟩ := ih (m + 1) (by omega) (Function.update s (m + 2) (addV A count delta s (m + 2))) (by omega)
      refine ⟨s', ?_, fun k => ?_⟩
      · rw [addLoop, addEntry_val A hn]; exact e
      · rw [h k]
        by_cases h1 : 2 ≤ k ∧ k ≤ m + 1
        · rw [if_pos h1, if_pos ⟨h1.1, by omega⟩]
          exact addV_congr A (fun j h2 h3 => Function.update_of_ne (by omega) _ _) h1.1
        · rw [if_neg h1]
          by_cases h2 : k = m + 2
          · subst h2; rw [if_pos ⟨by omega, le_rfl⟩, Function.update_self]
          · rw [Function.update_of_ne h2, if_neg (by omega)]

/-- The new `sums[k]` in `addDecay`. -/
def decayV (d delta : F) (s : Nat → F) (k : Nat) : F :=
  foldV A.add (fun i => A.mul (A.mul (A.mul (coefV A k i) (A.pow (A.mul d delta) i)) (A.sub (A.ofInt 1) d)) (s (k - i))) (k - 2) 1
    (A.add (A.mul (A.sub (A.ofInt 1) d) (s k))
      (A.mul (A.add (A.mul (A.sub (A.ofInt 1) d) (A.pow (A.neg d) k)) (A.mul d (A.pow (A.sub (A.ofInt 1) d) k))) (A.pow delta k)))

theorem decayEntry_val {d delta : F} {s : Nat → F} {k : Nat} (hk : k ≤ 65) :
    decayEntry A d delta s k = .val (decayV A d delta s k) := by
  refine sumLoop_val _ _ _ (fun j h1 h2 => ?_)
  rw [coef_ok A (by omega) hk]
  rfl

theorem decayV_congr {d delta : F} {s s' : Nat → F} {k : Nat} (h : ∀ j, 2 ≤ j → j ≤ k → s j = s' j) (hk : 2 ≤ k) :
    decayV A d delta s k = decayV A d delta s' k := by
  unfold decayV
  rw [h k hk le_rfl]
  exact foldV_congr _ _ _ (fun j h1 h2 => by rw [h (k - j) (by omega) (by omega)])

theorem decayLoop_val {d delta : F} (n : Nat) (s : Nat → F) (hn : n ≤ 65) :
    ∃ s', decayLoop A d delta n s = .val s' ∧ ∀ k, s' k = if 2 ≤ k ∧ k ≤ n then decayV A d delta s k else s k := by
  induction n using Nat.strong_induction_on generalizing s with
  | _ n ih =>
    match n with
    | 0 => exact ⟨s, rfl, fun k => by rw [if_neg]; omega⟩
    | 1 => exact ⟨s, rfl, fun k => by rw [if_neg]; omega⟩
    | m + 2 =>
      obtain ⟨s', e, h⟩ := ih (m + 1) (by omega) (Function.update s (m + 2) (decayV A d delta s (m + 2))) (by omega)
      refine ⟨s', ?_, fun k => ?_⟩
      · rw [decayLoop, decayEntry_val A hn]; exact e
      · rw [h k]
        by_cases h1 : 2 ≤ k ∧ k ≤ m + 1
        · rw [if_pos h1, if_pos ⟨h1.1, by omega⟩]
          exact decayV_congr A (fun j h2 h3 => Function.update_of_ne (by omega) _ _) h1.1
        · rw [if_neg h1]
          by_cases h2 : k = m + 2
          · subst h2; rw [if_pos ⟨by omega, le_rfl⟩, Function.update_self]
          · rw [Function.update_of_ne h2, if_neg (by omega)]

/-- The new `sums[k]` in `remove`. -/
def removeV (count delta : F) (s : Nat → F) (k : Nat) : F :=
  foldV A.sub (fun i => A.mul (A.mul (coefV A k i) (A.pow (A.div delta (A.add count (A.ofInt 1))) i)) (s (k - i))) (k - 2) 1
    (A.sub (s k) (A.mul (A.mul (A.div count (A.pow (A.add count (A.ofInt 1)) k))
      (A.add (A.pow count (k - 1)) (A.ofInt (sign k)))) (A.pow delta k)))

theorem removeEntry_val {count delta : F} {s : Nat → F} {k : Nat} (hk : k ≤ 65) :
    removeEntry A count delta s k = .val (removeV A count delta s k) := by
  refine sumLoop_val _ _ _ (fun j h1 h2 => ?_)
  rw [coef_ok A (by omega) hk]
  rfl

theorem removeV_congr {count delta : F} {s s' : Nat → F} {k : Nat} (h : ∀ j, 2 ≤ j → j ≤ k → s j = s' j) (hk : 2 ≤ k) :
    removeV A count delta s k = removeV A count delta s' k := by
  unfold removeV
  rw [h k hk le_rfl]
  exact foldV_congr _ _ _ (fun j h1 h2 => by rw [h (k - j) (by omega) (by omega)])

/-- `remove` goes upwards: an entry is computed from the old entry and the new lower ones. -/
theorem removeLoop_val {count delta : F} (n k : Nat) (s : Nat → F) (hn : n = 0 ∨ k + n ≤ 66) (hk : 2 ≤ k) :
    ∃ s', removeLoop A count delta n k s = .val s' ∧
      ∀ j, s' j = if k ≤ j ∧ j < k + n then removeV A count delta (fun i => if i < j then s' i else s i) j else s j := by
  induction n generalizing k s with
  | zero => exact ⟨s, rfl, fun j => by rw [if_neg]; omega⟩
  | succ n ih =>
    obtain ⟨s', e, h⟩ := ih (k + 1) (Function.update s k (removeV A count delta s k)) (by omega) (by omega)
    refine ⟨s', ?_, fun j => ?_⟩
    · rw [removeLoop, removeEntry_val A (by omega)]; exact e
    · by_cases c : j = k
      · subst c
        rw [h j, if_neg (by omega), Function.update_self, if_pos (by omega)]
        refine removeV_congr A (fun i h1 h2 => ?_) hk
        by_cases c : i < j
        · rw [if_pos c, h i, if_neg (by omega), Function.update_of_ne (by omega)]
        · rw [if_neg c]
      · rw [h j]
        by_cases c2 : k + 1 ≤ j ∧ j < k + 1 + n
        · rw [if_pos c2, if_pos (by omega)]
          refine removeV_congr A (fun i h1 h2 => ?_) (by omega)
          by_cases c3 : i < j
          · rw [if_pos c3, if_pos c3]
          · rw [if_neg c3, if_neg c3, Function.update_of_ne (by omega)]
        · rw [if_neg c2, Function.update_of_ne c, if_neg (by omega)]

/-! ### Histories

The numbers decide nothing: they are carried along by the bookkeeping. `AddStep`, `DecayStep` and `RemoveStep` say how the mean and
the sums change. -/

def AddStep (len : Nat) (n : Int) (x m : F) (s : Nat → F) (m' : F) (s' : Nat → F) : Prop :=
  m' = A.add m (A.div (A.sub x m) (A.ofInt n)) ∧
    ∀ k, s' k = if 2 ≤ k ∧ k < len then addV A (A.ofInt n) (A.sub x m) s k else s k

def DecayStep (len : Nat) (d x m : F) (s : Nat → F) (m' : F) (s' : Nat → F) : Prop :=
  m' = A.add m (A.mul d (A.sub x m)) ∧ ∀ k, s' k = if 2 ≤ k ∧ k < len then decayV A d (A.sub x m) s k else s k

def RemoveStep (len : Nat) (n : Int) (y m : F) (s : Nat → F) (m' : F) (s' : Nat → F) : Prop :=
  m' = A.sub m (A.div (A.sub y m) (A.ofInt n)) ∧
    ∀ k, s' k = if 2 ≤ k ∧ k < len then removeV A (A.ofInt n) (A.sub y m') (fun i => if i < k then s' i else s i) k else s k

theorem add_val {c : Core F} (hl : c.len ≤ 66) (x : F) :
    ∃ c', add A c x = .val c' ∧ c'.len = c.len ∧ c'.window = c.window ∧ c'.decay = c.decay ∧ c'.queue = c.queue ∧
      c'.count = c.count + 1 ∧ AddStep A c.len (c.count + 1) x c.mean c.sums c'.mean c'.sums := by
  obtain ⟨s', e, h⟩ := addLoop_val A (count := A.ofInt (c.count + 1)) (delta := A.sub x c.mean) (c.len - 1) c.sums (by omega)
  refine ⟨⟨A.add c.mean (A.div (A.sub x c.mean) (A.ofInt (c.count + 1))), c.len, s', c.count + 1, c.window, c.decay, c.queue⟩,
    by simp only [add, e], rfl, rfl, rfl, rfl, rfl, rfl, fun k => ?_⟩
  dsimp only
  rw [h k]
  by_cases c1 : 2 ≤ k ∧ k < c.len
  · rw [if_pos c1, if_pos (by omega)]
  · rw [if_neg c1, if_neg (by omega)]

theorem addDecay_val {c : Core F} (hl : c.len ≤ 66) (d x : F) :
    ∃ c', addDecay A d c x = .val c' ∧ c'.len = c.len ∧ c'.window = c.window ∧ c'.decay = c.decay ∧ c'.queue = c.queue ∧
      c'.count = c.count + 1 ∧ DecayStep A c.len (if c.count = 0 then A.ofInt 1 else d) x c.mean c.sums c'.mean c'.sums := by
  have hd : (if c.count + 1 = 1 then A.ofInt 1 else d) = if c.count = 0 then A.ofInt 1 else d := by
    by_cases h : c.count = 0
    · rw [if_pos h, if_pos (by omega)]
    · rw [if_neg h, if_neg (by omega)]
  obtain ⟨s', e, h⟩ := decayLoop_val A (d := if c.count = 0 then A.ofInt 1 else d) (delta := A.sub x c.mean) (c.len - 1) c.sums (by omega)
  refine ⟨⟨A.add c.mean (A.mul (if c.count = 0 then A.ofInt 1 else d) (A.sub x c.mean)), c.len, s', c.count + 1, c.window, c.decay, c.queue⟩,
    by simp only [addDecay, hd, e], rfl, rfl, rfl, rfl, rfl, rfl, fun k => ?_⟩
  dsimp only
  rw [h k]
  by_cases c1 : 2 ≤ k ∧ k < c.len
  · rw [if_pos c1, if_pos (by omega)]
  · rw [if_neg c1, if_neg (by omega)]

theorem remove_val {c : Core F} (hl : c.len ≤ 66) (hc : 1 < c.count) (y : F) :
    ∃ c', remove A c y = .val c' ∧ c'.len = c.len ∧ c'.window = c.window ∧ c'.decay = c.decay ∧ c'.queue = c.queue ∧
      c'.count = c.count - 1 ∧ RemoveStep A c.len (c.count - 1) y c.mean c.sums c'.mean c'.sums := by
  obtain ⟨s', e, h⟩ := removeLoop_val A (count := A.ofInt (c.count - 1))
    (delta := A.sub y (A.sub c.mean (A.div (A.sub y c.mean) (A.ofInt (c.count - 1))))) (c.len - 2) 2 c.sums (by omega) le_rfl
  refine ⟨⟨A.sub c.mean (A.div (A.sub y c.mean) (A.ofInt (c.count - 1))), c.len, s', c.count - 1, c.window, c.decay, c.queue⟩,
    by simp only [remove, e]; rw [if_pos (by omega)], rfl, rfl, rfl, rfl, rfl, rfl, fun k => ?_⟩
  dsimp only
  rw [h k]
  by_cases c1 : 2 ≤ k ∧ k < c.len
  · rw [if_pos c1, if_pos (by omega)]
  · rw [if_neg c1, if_neg (by omega)]

/-- The bookkeeping of a core after the pushes `xs` since the last `Clear`. -/
structure Book (w : Nat) (d : Option F) (len : Nat) (xs : List F) (c : Core F) : Prop where
  win : c.window = w
  dec : c.decay = d
  len : c.len = len
  cap : c.queue.cap = Ring.roundUp w
  live : c.queue.disposed = false
  q : w ≠ 0 → c.queue.items = lastN w xs
  count : c.count = (lastN w xs).length

/-- The numbers: `I xs` after the pushes `xs`, `I' xs` when room for the next value has been made. -/
structure Track (w : Nat) (d : Option F) (len : Nat) (I I' : List F → F → (Nat → F) → Prop) : Prop where
  zero : I [] (A.ofInt 0) (fun _ => A.ofInt 0)
  room : ∀ xs m s, (w = 0 ∨ (lastN w xs).length < w) → I xs m s → I' xs m s
  evict1 : ∀ xs m s, w = 1 → xs ≠ [] → I xs m s → I' xs (A.ofInt 0) (fun _ => A.ofInt 0)
  evict : ∀ xs y ys m s m' s', lastN w xs = y :: ys → ys.length + 1 = w → ys ≠ [] → I xs m s →
    RemoveStep A len ys.length y m s m' s' → I' xs m' s'
  add : d = none → ∀ xs x m s m' s', I' xs m s → AddStep A len (lastN w (xs ++ [x])).length x m s m' s' → I (xs ++ [x]) m' s'
  decay : ∀ dd, d = some dd → ∀ xs x m s m' s', I' xs m s →
    DecayStep A len (if (lastN w (xs ++ [x])).length = 1 then A.ofInt 1 else dd) x m s m' s' → I (xs ++ [x]) m' s'

theorem push_track {w : Nat} {d : Option F} {len : Nat} {I I' : List F → F → (Nat → F) → Prop} (T : Track A w d len I I')
    (hl : len ≤ 66) {xs : List F} {c : Core F} (h : Book w d len xs c) (hI : I xs c.mean c.sums) (x : F) :
    ∃ c', push A c x = .val (c', none) ∧ Book w d len (xs ++ [x]) c' ∧ I (xs ++ [x]) c'.mean c'.sums := by
  have key : ∀ c1 : Core F, c1.window = w → c1.decay = d → c1.len = len → c1.queue.cap = Ring.roundUp w →
      c1.queue.disposed = false → (w ≠ 0 → c1.queue.items = lastN w (xs ++ [x])) → c1.count + 1 = (lastN w (xs ++ [x])).length →
      I' xs c1.mean c1.sums → ∃ c', pushAdd A c1 x = .val (c', none) ∧ Book w d len (xs ++ [x]) c' ∧ I (xs ++ [x]) c'.mean c'.sums := by
    intro c1 h1 h2 h3 h4 h5 h6 h7 h8
    cases hd : d with
    | none =>
      obtain ⟨c', e, a1, a2, a3, a4, a5, a6⟩ := add_val A (c := c1) (by omega) x
      refine ⟨c', by simp only [pushAdd, h2, hd, e], ⟨by rw [a2, h1], by rw [a3, h2, hd], by rw [a1, h3], by rw [a4, h4], by rw [a4, h5],
        fun hw => by rw [a4, h6 hw], by rw [a5, h7]⟩, ?_⟩
      rw [h7, h3] at a6
      exact T.add hd xs x _ _ _ _ h8 a6
    | some dd =>
      obtain ⟨c', e, a1, a2, a3, a4, a5, a6⟩ := addDecay_val A (c := c1) (by omega) dd x
      refine ⟨c', by simp only [pushAdd, h2, hd, e], ⟨by rw [a2, h1], by rw [a3, h2, hd], by rw [a1, h3], by rw [a4, h4], by rw [a4, h5],
        fun hw => by rw [a4, h6 hw], by rw [a5, h7]⟩, ?_⟩
      rw [h3] at a6
      refine T.decay dd hd xs x _ _ _ _ h8 ?_
      have : (if (lastN w (xs ++ [x])).length = 1 then A.ofInt 1 else dd) = if c1.count = 0 then A.ofInt 1 else dd := by
        by_cases c : c1.count = 0
        · rw [if_pos c, if_pos (by omega)]
        · rw [if_neg c, if_neg (by omega)]
      rw [this]
      exact a6
  unfold push
  by_cases hw : w = 0
  · subst hw
    rw [if_neg (by rw [h.win]; simp)]
    refine key c h.win h.dec h.len h.cap h.live (fun c => absurd rfl c) ?_ (T.room xs _ _ (.inl rfl) hI)
    rw [h.count]
    simp [lastN_zero]
  · rw [if_pos (by rw [h.win]; exact_mod_cast hw)]
    have hq := h.q hw
    have main : ∃ c1, FP.evict A c = .val (.ok c1) ∧ c1.window = w ∧ c1.decay = d ∧ c1.len = len ∧ c1.queue.cap = Ring.roundUp w ∧
        c1.queue.disposed = false ∧ c1.queue.items ++ [x] = lastN w (xs ++ [x]) ∧ c1.count = c1.queue.items.length ∧
        c1.queue.items.length < w ∧ I' xs c1.mean c1.sums := by
      unfold FP.evict
      by_cases hf : (lastN w xs).length = w
      · have hlen : (c.queue.len : Int) = c.window := by rw [h.win, Ring.len, hq, hf]
        rw [if_pos hlen]
        obtain ⟨y, ys, hy⟩ : ∃ y ys, lastN w xs = y :: ys := by
          apply List.exists_cons_of_ne_nil
          intro hn
          rw [hn] at hf
          exact hw hf.symm
        rw [Ring.get_ok h.live (hq.trans hy)]
        simp only
        have hcnt := h.count
        rw [hy] at hcnt hf
        simp at hcnt hf
        have hsn : ys ++ [x] = lastN w (xs ++ [x]) := by
          rw [lastN_snoc_full hw _ _ (by rw [hy]; simpa using hf), hy]; rfl
        by_cases h1 : ys = []
        · subst h1
          have e : remove A { c with queue := { c.queue with items := [] } } y =
              .val { c with queue := { c.queue with items := [] }, count := c.count - 1, mean := A.ofInt 0, sums := fun _ => A.ofInt 0 } := by
            simp only [remove]
            rw [if_neg (by simp at hcnt; omega)]
          rw [e]
          refine ⟨_, rfl, h.win, h.dec, h.len, h.cap, h.live, hsn, by simp at hcnt ⊢; omega, by simp at hf ⊢; omega, ?_⟩
          refine T.evict1 xs _ _ (by simpa using hf.symm) ?_ hI
          rintro rfl
          simp [lastN] at hy
        · have hpos : 0 < ys.length := List.length_pos_iff.2 h1
          obtain ⟨c', e, a1, a2, a3, a4, a5, a6⟩ := remove_val A (c := { c with queue := { c.queue with items := ys } })
            (by show c.len ≤ 66; rw [h.len]; exact hl) (by show 1 < c.count; omega) y
          rw [e]
          refine ⟨c', rfl, by rw [a2]; exact h.win, by rw [a3]; exact h.dec, by rw [a1]; exact h.len, by rw [a4]; exact h.cap,
            by rw [a4]; exact h.live, by rw [a4]; exact hsn, by rw [a4, a5]; show c.count - 1 = (ys.length : Int); omega, by rw [a4]; show ys.length < w; omega, ?_⟩
          have a6' : RemoveStep A c.len (c.count - 1) y c.mean c.sums c'.mean c'.sums := a6
          rw [h.len, show c.count - 1 = (ys.length : Int) by omega] at a6'
          exact T.evict xs y ys _ _ _ _ hy hf h1 hI a6'
      · have hlen : ¬ (c.queue.len : Int) = c.window := by
          rw [h.win, Ring.len, hq]; exact_mod_cast hf
        rw [if_neg hlen]
        have hle := lastN_length_le hw xs
        refine ⟨c, rfl, h.win, h.dec, h.len, h.cap, h.live, ?_, ?_, ?_, T.room xs _ _ (.inr (by omega)) hI⟩
        · rw [hq, lastN_snoc_room hw _ _ hf]
        · rw [hq]; exact h.count
        · rw [hq]; omega
    obtain ⟨c1, e, b1, b2, b3, b4, b5, b6, b7, b8, b9⟩ := main
    rw [e]
    simp only
    rw [Ring.put_ok b5 (by have := Ring.le_roundUp w; omega)]
    simp only
    exact key { c1 with queue := { c1.queue with items := c1.queue.items ++ [x] } } b1 b2 b3 b4 b5 (fun _ => b6)
      (by show c1.count + 1 = _; rw [b7, ← b6]; simp) b9

theorem clear_book {w : Nat} {d : Option F} {len : Nat} {xs : List F} {c : Core F} (h : Book w d len xs c) :
    Book w d len [] (clear A c) := by
  refine ⟨h.win, h.dec, h.len, ?_, rfl, fun _ => ?_, ?_⟩ <;> simp [clear, Ring.new, h.win, lastN]

theorem mk_book {cfg : Config F} {w : Nat} (hw : cfg.window = some (w : Int)) :
    Book w cfg.decay (mk A cfg).len [] (mk A cfg) := by
  refine ⟨?_, rfl, rfl, ?_, rfl, fun _ => ?_, ?_⟩ <;> simp [mk, hw, Ring.new, lastN]

/-- What `NewCore` lets through. -/
theorem newCore_ok [GoOrd F] {cfg : Config F} {c : Core F} (h : newCore A cfg = .ok c) :
    ∃ w : Nat, cfg.window = some (w : Int) ∧ c = mk A (Moment.setDefaults cfg) ∧
      ∀ d, cfg.decay = some d → GoOrd.le d (A.ofInt 0) = false ∧ GoOrd.le (A.ofInt 1) d = false ∧ w = 0 := by
  unfold newCore at h
  cases hv : Moment.validate (A.ofInt 0) (A.ofInt 1) (Moment.setDefaults cfg) with
  | some e => rw [hv] at h; exact absurd h (by simp)
  | none =>
    rw [hv] at h
    have hc : c = mk A (Moment.setDefaults cfg) := by simpa using h.symm
    unfold Moment.validate Moment.setDefaults at hv
    simp only at hv
    cases hw : cfg.window with
    | none => rw [hw] at hv; simp at hv
    | some w =>
      rw [hw] at hv
      simp only at hv
      by_cases h0 : w < 0
      · rw [if_pos h0] at hv; simp at hv
      · rw [if_neg h0] at hv
        refine ⟨w.toNat, by congr 1; omega, hc, fun d hd => ?_⟩
        rw [hd] at hv
        simp only at hv
        by_cases h1 : ((GoOrd.le d (A.ofInt 0)) || (GoOrd.le (A.ofInt 1) d)) = true
        · rw [if_pos h1] at hv; simp at hv
        · rw [if_neg h1] at hv
          by_cases h2 : w > 0
          · rw [if_pos h2] at hv; simp at hv
          · simp at h1
            exact ⟨h1.1, h1.2, by omega⟩

theorem mk_len (cfg : Config F) : (mk A cfg).len = (Moment.mk (⟨cfg.sums, none, none⟩ : Config ℚ)).len := rfl

theorem mk_len_le {cfg : Config F} (hs : ∀ k ∈ cfg.sums.getD [], k ≤ 65) : (mk A (Moment.setDefaults cfg)).len ≤ 66 := by
  rw [mk_len]
  exact Moment.len_le (n := 65) (by simpa [Moment.setDefaults] using hs)

theorem lt_mk_len {cfg : Config F} (k : Nat) : k < (mk A (Moment.setDefaults cfg)).len ↔ ∃ j ∈ cfg.sums.getD [], (k : Int) ≤ j := by
  rw [mk_len, Moment.lt_len]
  simp [Moment.setDefaults]

/-- Every history of pushes and clears: no panic, no error, exact bookkeeping, and the numbers follow the steps. -/
theorem run_track {w : Nat} {d : Option F} {len : Nat} {I I' : List F → F → (Nat → F) → Prop} (T : Track A w d len I I')
    (hl : len ≤ 66) {c : Core F} (h : Book w d len [] c) (hm : c.mean = A.ofInt 0) (hs : c.sums = fun _ => A.ofInt 0) (ops : List (MOp F)) :
    ∃ c', run A c ops = .val (c', []) ∧ Book w d len (since ops) c' ∧ I (since ops) c'.mean c'.sums := by
  have := Go.runOps_inv (step := logged (step A))
    (I := fun ops (s : Core F × List Err) => s.2 = [] ∧ Book w d len (since ops) s.1 ∧ I (since ops) s.1.mean s.1.sums)
    (fun ops s o hi => by
      obtain ⟨c, l⟩ := s
      obtain ⟨rfl, hb, hi⟩ := hi
      cases o with
      | push x =>
        obtain ⟨c', e, b, i⟩ := push_track A T hl hb hi x
        refine ⟨(c', []), by simp [logged, step, e], rfl, ?_⟩
        rw [show since (ops ++ [MOp.push x]) = since ops ++ [x] by simp [since, List.foldl_append]]
        exact ⟨b, i⟩
      | clear =>
        refine ⟨(clear A c, []), by simp [logged, step], rfl, ?_⟩
        rw [show since (ops ++ [(MOp.clear : MOp F)]) = [] by simp [since, List.foldl_append]]
        exact ⟨clear_book A hb, T.zero⟩)
    (c, []) [] ⟨rfl, h, by rw [hm, hs]; exact T.zero⟩ ops
  obtain ⟨⟨c', l⟩, e, rfl, hb, hi⟩ := this
  exact ⟨c', e, by simpa using hb, by simpa using hi⟩

/-- From a new core. -/
theorem core_track [GoOrd F] {cfg : Config F} {c : Core F} (hn : newCore A cfg = .ok c) (hs : ∀ k ∈ cfg.sums.getD [], k ≤ 65) {w : Nat}
    (hw : cfg.window = some (w : Int)) {I I' : List F → F → (Nat → F) → Prop} (T : Track A w cfg.decay c.len I I') (ops : List (MOp F)) :
    ∃ c', run A c ops = .val (c', []) ∧ Book w cfg.decay c.len (since ops) c' ∧ I (since ops) c'.mean c'.sums := by
  obtain ⟨-, -, rfl, -⟩ := newCore_ok A hn
  exact run_track A T (mk_len_le A hs) (mk_book A (cfg := Moment.setDefaults cfg) hw) rfl rfl ops

theorem Book.mean_error {w : Nat} {d : Option F} {len : Nat} {xs : List F} {c : Core F} (h : Book w d len xs c) :
    (∃ e, mean c = .error e) ↔ xs = [] := by
  unfold FP.mean
  rw [h.count]
  by_cases hx : xs = []
  · subst hx; simp
  · have := List.length_pos_iff.2 (lastN_ne_nil (w := w) hx)
    rw [if_neg (by omega)]
    simp [hx]

theorem Book.mean_ok {w : Nat} {d : Option F} {len : Nat} {xs : List F} {c : Core F} (h : Book w d len xs c) (hx : xs ≠ []) :
    mean c = .ok c.mean := by
  unfold FP.mean
  rw [h.count]
  have := List.length_pos_iff.2 (lastN_ne_nil (w := w) hx)
  rw [if_neg (by omega)]

theorem Book.sum_ok {w : Nat} {d : Option F} {len : Nat} {xs : List F} {c : Core F} (h : Book w d len xs c) (hx : xs ≠ []) {k : Nat}
    (h1 : 1 ≤ k) (hk : k < len) : sum c k = .ok (c.sums k) := by
  unfold FP.sum
  rw [h.count, h.len]
  have := List.length_pos_iff.2 (lastN_ne_nil (w := w) hx)
  rw [if_neg (by omega), if_neg (by omega)]
  simp

end Verif.FP
