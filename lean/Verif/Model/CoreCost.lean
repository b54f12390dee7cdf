import Verif.Model.Cost
import Verif.Model.JointFP
import Mathlib.Data.Set.Card

/-!
# Counting steps: `Push` of the two cores

The functions of `Model/MomentFP.lean` and `Model/JointFP.lean` once more with the counter of `Model/Cost.lean`. In package moment it ticks
once per iteration of every loop of core.go; in package joint also once per iteration of the loops of tuple.go and once per call of a callback
of `iter`. Everything in between is a fixed number of floating-point operations and map accesses (`math.Pow` and map accesses count as one
step). The growth of the factorial table (util/math/math.go:6-9) is not counted: it happens at most 66 times in the life of the process.
-/

namespace Verif
open Timed

/-- `n` steps. -/
def ticks (n : Nat) : Timed Unit := ⟨.val (), n⟩

@[simp] theorem ticks_bind_out {β : Type} (n : Nat) (f : Unit → Timed β) : (ticks n >>= f).out = (f ()).out := rfl
@[simp] theorem ticks_bind_cost {β : Type} (n : Nat) (f : Unit → Timed β) : (ticks n >>= f).cost = n + (f ()).cost := rfl

/-! ### moment/core.go -/

namespace FP
open Verif.Moment (Core)

variable {F : Type} (A : Arith F)

/-- The loops `for i := 1; i <= k-2; i++` of core.go:116-121, 148-153, 172-177. -/
def sumLoopT (op : F → F → F) (term : Nat → Go F) : Nat → Nat → F → Timed F
  | 0, _, acc => free (.val acc)
  | n + 1, i, acc => do
    tick
    let t ← free (term i)
    sumLoopT op term n (i + 1) (op acc t)

/-- core.go:112-121. -/
def addEntryT (count delta : F) (s : Nat → F) (k : Nat) : Timed F :=
  sumLoopT A.add (fun i => do
      let c ← coef A k i
      pure (A.mul (A.mul c (A.pow (A.div delta count) i)) (s (k - i))))
    (k - 2) 1
    (A.add (s k) (A.mul (A.mul (A.div (A.sub count (A.ofInt 1)) (A.pow count k))
      (A.add (A.pow (A.sub count (A.ofInt 1)) (k - 1)) (A.ofInt (MathUtil.sign k)))) (A.pow delta k)))

/-- core.go:111-122. -/
def addLoopT (count delta : F) : Nat → (Nat → F) → Timed (Nat → F)
  | 0, s => free (.val s)
  | 1, s => free (.val s)
  | k + 2, s => do
    tick
    let v ← addEntryT A count delta s (k + 2)
    addLoopT count delta (k + 1) (Function.update s (k + 2) v)

/-- core.go:106-123 `add`. -/
def addT (c : Core F) (x : F) : Timed (Core F) := do
  let s ← addLoopT A (A.ofInt (c.count + 1)) (A.sub x c.mean) (c.len - 1) c.sums
  free (.val { c with count := c.count + 1, mean := A.add c.mean (A.div (A.sub x c.mean) (A.ofInt (c.count + 1))), sums := s })

/-- core.go:144-154. -/
def decayEntryT (d delta : F) (s : Nat → F) (k : Nat) : Timed F :=
  sumLoopT A.add (fun i => do
      let c ← coef A k i
      pure (A.mul (A.mul (A.mul c (A.pow (A.mul d delta) i)) (A.sub (A.ofInt 1) d)) (s (k - i))))
    (k - 2) 1
    (A.add (A.mul (A.sub (A.ofInt 1) d) (s k))
      (A.mul (A.add (A.mul (A.sub (A.ofInt 1) d) (A.pow (A.neg d) k)) (A.mul d (A.pow (A.sub (A.ofInt 1) d) k))) (A.pow delta k)))

/-- core.go:143-155. -/
def decayLoopT (d delta : F) : Nat → (Nat → F) → Timed (Nat → F)
  | 0, s => free (.val s)
  | 1, s => free (.val s)
  | k + 2, s => do
    tick
    let v ← decayEntryT A d delta s (k + 2)
    decayLoopT d delta (k + 1) (Function.update s (k + 2) v)

/-- core.go:131-156 `addDecay`. -/
def addDecayT (decay : F) (c : Core F) (x : F) : Timed (Core F) := do
  let d := if c.count + 1 = 1 then A.ofInt 1 else decay
  let s ← decayLoopT A d (A.sub x c.mean) (c.len - 1) c.sums
  free (.val { c with count := c.count + 1, mean := A.add c.mean (A.mul d (A.sub x c.mean)), sums := s })

/-- core.go:168-177. -/
def removeEntryT (count delta : F) (s : Nat → F) (k : Nat) : Timed F :=
  sumLoopT A.sub (fun i => do
      let c ← coef A k i
      pure (A.mul (A.mul c (A.pow (A.div delta (A.add count (A.ofInt 1))) i)) (s (k - i))))
    (k - 2) 1
    (A.sub (s k) (A.mul (A.mul (A.div count (A.pow (A.add count (A.ofInt 1)) k))
      (A.add (A.pow count (k - 1)) (A.ofInt (MathUtil.sign k)))) (A.pow delta k)))

/-- core.go:167-178. -/
def removeLoopT (count delta : F) : Nat → Nat → (Nat → F) → Timed (Nat → F)
  | 0, _, s => free (.val s)
  | n + 1, k, s => do
    tick
    let v ← removeEntryT A count delta s k
    removeLoopT count delta n (k + 1) (Function.update s k v)

/-- core.go:161-185 `remove`; the loop of 181-183 has one iteration per sum. -/
def removeT (c : Core F) (x : F) : Timed (Core F) :=
  if c.count - 1 > 0 then do
    let count := A.ofInt (c.count - 1)
    let mean := A.sub c.mean (A.div (A.sub x c.mean) count)
    let s ← removeLoopT A count (A.sub x mean) (c.len - 2) 2 c.sums
    free (.val { c with count := c.count - 1, mean := mean, sums := s })
  else do
    ticks c.len
    free (.val { c with count := c.count - 1, mean := A.ofInt 0, sums := fun _ => A.ofInt 0 })

/-- core.go:77-84. -/
def evictT (c : Core F) : Timed (Except Err (Core F)) :=
  if (c.queue.len : Int) = c.window then do
    let r ← free c.queue.get
    match r with
    | .error e => free (.val (.error e))
    | .ok (t, q) => do
      let c ← removeT A { c with queue := q } t
      free (.val (.ok c))
  else free (.val (.ok c))

/-- core.go:92-96. -/
def pushAddT (c : Core F) (x : F) : Timed (Core F × Option Err) := do
  let c ← (match c.decay with | none => addT A c x | some d => addDecayT A d c x)
  free (.val (c, none))

/-- core.go:75-98 `UnsafePush`. -/
def pushT (c : Core F) (x : F) : Timed (Core F × Option Err) :=
  if c.window ≠ 0 then do
    let r ← evictT A c
    match r with
    | .error e => free (.val (c, some e))
    | .ok c => do
      let p ← free (c.queue.put x)
      match p with
      | .error e => free (.val (c, some e))
      | .ok q => pushAddT A { c with queue := q } x
  else pushAddT A c x

theorem sumLoopT_out (op : F → F → F) (term : Nat → Go F) (n i : Nat) (acc : F) :
    (sumLoopT op term n i acc).out = sumLoop op term n i acc := by
  induction n generalizing i acc with
  | zero => rfl
  | succ n ih =>
    simp only [sumLoopT, sumLoop, tick_bind_out, bind_out, free_out, ih]
    cases term i <;> rfl

theorem addLoopT_out (count delta : F) (n : Nat) (s : Nat → F) : (addLoopT A count delta n s).out = addLoop A count delta n s := by
  induction n generalizing s with
  | zero => rfl
  | succ n ih =>
    cases n with
    | zero => rfl
    | succ n =>
      simp only [addLoopT, addLoop, tick_bind_out, bind_out, addEntryT, sumLoopT_out, ih, addEntry]
      split <;> rename_i h <;> rw [h] <;> rfl

theorem decayLoopT_out (d delta : F) (n : Nat) (s : Nat → F) : (decayLoopT A d delta n s).out = decayLoop A d delta n s := by
  induction n generalizing s with
  | zero => rfl
  | succ n ih =>
    cases n with
    | zero => rfl
    | succ n =>
      simp only [decayLoopT, decayLoop, tick_bind_out, bind_out, decayEntryT, sumLoopT_out, ih, decayEntry]
      split <;> rename_i h <;> rw [h] <;> rfl

theorem removeLoopT_out (count delta : F) (n k : Nat) (s : Nat → F) :
    (removeLoopT A count delta n k s).out = removeLoop A count delta n k s := by
  induction n generalizing k s with
  | zero => rfl
  | succ n ih =>
    simp only [removeLoopT, removeLoop, tick_bind_out, bind_out, removeEntryT, sumLoopT_out, ih, removeEntry]
    split <;> rename_i h <;> rw [h] <;> rfl

theorem addT_out (c : Core F) (x : F) : (addT A c x).out = add A c x := by
  simp only [addT, add, bind_out, addLoopT_out, free_out]
  cases addLoop A (A.ofInt (c.count + 1)) (A.sub x c.mean) (c.len - 1) c.sums <;> rfl

theorem addDecayT_out (d : F) (c : Core F) (x : F) : (addDecayT A d c x).out = addDecay A d c x := by
  simp only [addDecayT, addDecay, bind_out, decayLoopT_out, free_out]
  cases decayLoop A (if c.count + 1 = 1 then A.ofInt 1 else d) (A.sub x c.mean) (c.len - 1) c.sums <;> rfl

theorem removeT_out (c : Core F) (x : F) : (removeT A c x).out = remove A c x := by
  unfold removeT remove
  simp only
  split
  · simp only [bind_out, removeLoopT_out, free_out]
    cases removeLoop A (A.ofInt (c.count - 1)) (A.sub x (A.sub c.mean (A.div (A.sub x c.mean) (A.ofInt (c.count - 1))))) (c.len - 2) 2 c.sums <;> rfl
  · rfl

theorem evictT_out (c : Core F) : (evictT A c).out = evict A c := by
  unfold evictT evict
  split
  · simp only [bind_out, free_out]
    cases c.queue.get with
    | panic => rfl
    | hang => rfl
    | val r =>
      cases r with
      | error e => rfl
      | ok p =>
        show (removeT A { c with queue := p.2 } p.1 >>= fun c => free (.val (Except.ok (ε := Err) c))).out = _
        rw [bind_out, removeT_out]
        simp only [free_out]
        cases remove A { c with queue := p.2 } p.1 <;> rfl
  · rfl

theorem pushAddT_out (c : Core F) (x : F) : (pushAddT A c x).out = pushAdd A c x := by
  unfold pushAddT pushAdd
  rw [bind_out]
  cases c.decay with
  | none => simp only [addT_out]; cases add A c x <;> rfl
  | some d => simp only [addDecayT_out]; cases addDecay A d c x <;> rfl

/-- The clock does not change the result. -/
theorem pushT_out (c : Core F) (x : F) : (pushT A c x).out = push A c x := by
  unfold pushT push
  split
  · rw [bind_out, evictT_out]
    cases evict A c with
    | panic => rfl
    | hang => rfl
    | val r =>
      cases r with
      | error e => rfl
      | ok c =>
        show (free (c.queue.put x) >>= _).out = _
        simp only [bind_out, free_out]
        cases c.queue.put x with
        | panic => rfl
        | hang => rfl
        | val p =>
          cases p with
          | error e => rfl
          | ok q => exact pushAddT_out A _ x
  · exact pushAddT_out A c x

end FP

/-! ### joint/tuple.go and joint/core.go -/

namespace Joint

section
variable {σ : Type}

/-- A loop calling `body` on every element: one step per iteration. -/
def forEachT {α : Type} (body : α → σ → Timed (σ × List Err)) : List α → σ → Timed (σ × List Err)
  | [], s => free (.val (s, []))
  | i :: is, s => do
    tick
    let r ← body i s
    let q ← forEachT body is r.1
    free (.val (q.1, r.2 ++ q.2))

/-- tuple.go:116-141 `iter` on the reversed tuple; each call of a callback that appends an index is a step. -/
def iterRevT (reverse : Bool) : Tuple → (Tuple → σ → Timed (σ × List Err)) → σ → Timed (σ × List Err)
  | [], cb, s => cb [] s
  | n :: rest, cb, s => forEachT (fun i s => iterRevT reverse rest (fun xs s => do tick; cb (xs ++ [i]) s) s) (indices reverse n) s

/-- tuple.go:116-141 `iter`. -/
def iterT (tuple : Tuple) (reverse : Bool) (cb : Tuple → σ → Timed (σ × List Err)) (s : σ) : Timed (σ × List Err) :=
  iterRevT reverse tuple.reverse cb s

theorem forEachT_out {α : Type} {body : α → σ → Timed (σ × List Err)} {body' : α → σ → Go (σ × List Err)}
    (h : ∀ a s, (body a s).out = body' a s) (l : List α) (s : σ) : (forEachT body l s).out = forEach body' l s := by
  induction l generalizing s with
  | nil => rfl
  | cons a l ih =>
    simp only [forEachT, forEach, bind_out, free_out, h, ih]
    cases body' a s with
    | panic => rfl
    | hang => rfl
    | val r =>
      show (forEach body' l r.1 >>= _) = _
      obtain ⟨s', e⟩ := r
      simp only
      cases forEach body' l s' <;> rfl

theorem iterRevT_out (reverse : Bool) (t : Tuple) {cb : Tuple → σ → Timed (σ × List Err)} {cb' : Tuple → σ → Go (σ × List Err)}
    (h : ∀ a s, (cb a s).out = cb' a s) (s : σ) : (iterRevT reverse t cb s).out = iterRev reverse t cb' s := by
  induction t generalizing cb cb' s with
  | nil => exact h _ _
  | cons n rest ih => exact forEachT_out (fun i s => ih (fun a s => (tick_bind_out _).trans (h (a ++ [i]) s)) s) _ s

theorem iterT_out (t : Tuple) (reverse : Bool) {cb : Tuple → σ → Timed (σ × List Err)} {cb' : Tuple → σ → Go (σ × List Err)}
    (h : ∀ a s, (cb a s).out = cb' a s) (s : σ) : (iterT t reverse cb s).out = iter t reverse cb' s :=
  iterRevT_out reverse _ h s

end

/-- The number of keys of a map, which is the number of iterations of a loop over it. -/
noncomputable def Map.keyCount {F : Type} (m : Map F) : Nat := {k | m k ≠ none}.ncard

end Joint

namespace JFP
open Verif.Joint (Tuple Map Core forEach iter iterT multinom sub hash abs eq)
open Verif.FP (Arith)

variable {F : Type} (A : Arith F)

/-- core.go:166-179, 237-251, 302-315: `multinom`, `sub` and `hash` loop over the tuple. -/
def visitPartT (r : Rule F) (sums : Map F) (a b : Tuple) (dp : F) (ns : Map F) : Timed (Map F × List Err) := do
  ticks (3 * a.length)
  free (visitPart A r sums a b dp ns)

/-- core.go:151-182, 223-254, 287-318: `pow`, `abs` and `eq` loop over the tuple. -/
def visitT (r : Rule F) (delta : List F) (sums : Map F) (a b : Tuple) (ns : Map F) : Timed (Map F × List Err) := do
  ticks (1 + 3 * b.length)
  match pow A delta b with
  | .error e => free (.val (ns, [e]))
  | .ok dp =>
    if abs b = 0 then free (.val (bump A A.add ns (hash a) (r.base (get A sums (hash a))), []))
    else if eq b a then free (.val (bump A r.op ns (hash a) (r.full (abs b).toNat dp), []))
    else visitPartT A r sums a b dp ns

/-- core.go:147-183, 219-255, 283-319: one tuple; `hash` loops over the tuple. -/
def updateTupleT (r : Rule F) (reverse : Bool) (delta : List F) (sums : Map F) (t : Tuple) (ns : Map F) : Timed (Map F × List Err) :=
  iterT t reverse (fun a ns => do
    ticks (1 + a.length)
    iterT a false (visitT A r delta sums a) (Map.set ns (hash a) (A.ofInt 0))) ns

/-- core.go:146-187 and 218-259. -/
def updateAllT (r : Rule F) (delta : List F) (sums : Map F) : List Tuple → Map F → Timed (Map F × Option Err)
  | [], ns => free (.val (ns, none))
  | t :: ts, ns => do
    tick
    let u ← updateTupleT A r true delta sums t ns
    match u with
    | (ns, []) => updateAllT r delta sums ts ns
    | (ns, e :: _) => free (.val (ns, some e))

/-- core.go:146-193 and 218-265; the loop of 189-191 and 261-263 has one iteration per key of `newSums`. -/
noncomputable def finishT (r : Rule F) (delta : List F) (c : Core F) : Timed (Core F × Option Err) := do
  let u ← updateAllT A r delta c.sums c.tuples c.newSums
  match u with
  | (ns, some e) => free (.val ({ c with newSums := ns }, some e))
  | (ns, none) => do
    ticks ns.keyCount
    free (.val ({ c with newSums := ns, sums := Map.copy c.sums ns }, none))

/-- core.go:136-194 `add`; the loop of 141-144 has one iteration per variable. -/
noncomputable def addT (c : Core F) (xs : List F) : Timed (Core F × Option Err) := do
  ticks c.means.length
  let count := A.ofInt (c.count + 1)
  let delta := List.zipWith (fun x m => A.sub x m) xs c.means
  finishT A (addRule A count) delta
    { c with count := c.count + 1, means := List.zipWith (fun m d => A.add m (A.div d count)) c.means delta }

/-- core.go:202-266 `addDecay`. -/
noncomputable def addDecayT (decay : F) (c : Core F) (xs : List F) : Timed (Core F × Option Err) := do
  ticks c.means.length
  let d := if c.count + 1 = 1 then A.ofInt 1 else decay
  let delta := List.zipWith (fun x m => A.sub x m) xs c.means
  finishT A (decayRule A d) delta
    { c with count := c.count + 1, means := List.zipWith (fun m e => A.add m (A.mul d e)) c.means delta }

/-- core.go:282-327; the copy of 324-326 is inside the loop over the tuples. -/
noncomputable def removeAllT (r : Rule F) (delta : List F) : List Tuple → Map F → Map F → Timed (Map F × Map F × Option Err)
  | [], sums, ns => free (.val (sums, ns, none))
  | t :: ts, sums, ns => do
    tick
    let u ← updateTupleT A r false delta sums t ns
    match u with
    | (ns, []) => do
      ticks ns.keyCount
      removeAllT r delta ts (Map.copy sums ns) ns
    | (ns, e :: _) => free (.val (sums, ns, some e))

/-- core.go:271-341 `remove`; the loops of 329-339 have one iteration per variable and per key of either map. -/
noncomputable def removeT (c : Core F) (xs : List F) : Timed (Core F × Option Err) :=
  if c.count - 1 > 0 then do
    ticks c.means.length
    let count := A.ofInt (c.count - 1)
    let means := List.zipWith (fun x m => A.sub m (A.div (A.sub x m) count)) xs c.means
    let delta := List.zipWith (fun x m => A.sub x m) xs means
    let u ← removeAllT A (removeRule A count) delta c.tuples c.sums c.newSums
    free (.val ({ c with count := c.count - 1, means := means, sums := u.1, newSums := u.2.1 }, u.2.2))
  else do
    ticks (c.means.length + c.sums.keyCount + c.newSums.keyCount)
    free (.val ({ c with count := c.count - 1, means := c.means.map fun _ => A.ofInt 0, sums := zeroMap A c.sums, newSums := zeroMap A c.newSums }, none))

/-- core.go:99-109. -/
noncomputable def evictT (c : Core F) : Timed (Core F × Option Err) :=
  if (c.queue.len : Int) = c.window then do
    let g ← free c.queue.get
    match g with
    | .error e => free (.val (c, some e))
    | .ok (t, q) => removeT A { c with queue := q } t
  else free (.val (c, none))

/-- core.go:117-127. -/
noncomputable def pushAddT (c : Core F) (xs : List F) : Timed (Core F × Option Err) :=
  match c.decay with
  | none => addT A c xs
  | some d => addDecayT A d c xs

/-- core.go:111-127. -/
noncomputable def pushPutT (c : Core F) (xs : List F) : Timed (Core F × Option Err) := do
  let p ← free (c.queue.put xs)
  match p with
  | .error e => free (.val (c, some e))
  | .ok q => pushAddT A { c with queue := q } xs

/-- core.go:89-128 `UnsafePush`. -/
noncomputable def pushT (c : Core F) (xs : List F) : Timed (Core F × Option Err) :=
  if xs.length ≠ c.means.length then free (.val (c, some "tried to push a wrong number of values"))
  else if c.window ≠ 0 then do
    let r ← evictT A c
    match r with
    | (c, some e) => free (.val (c, some e))
    | (c, none) => pushPutT A c xs
  else pushAddT A c xs

theorem visitT_out (r : Rule F) (delta : List F) (sums : Map F) (a b : Tuple) (ns : Map F) :
    (visitT A r delta sums a b ns).out = visit A r delta sums a b ns := by
  unfold visitT visit
  rw [ticks_bind_out]
  cases pow A delta b with
  | error e => rfl
  | ok dp =>
    simp only
    split
    · rfl
    · split <;> rfl

theorem updateTupleT_out (r : Rule F) (reverse : Bool) (delta : List F) (sums : Map F) (t : Tuple) (ns : Map F) :
    (updateTupleT A r reverse delta sums t ns).out = updateTuple A r reverse delta sums t ns :=
  Joint.iterT_out t reverse (fun a ns => by
    rw [ticks_bind_out]; exact Joint.iterT_out a false (fun b ns => visitT_out A r delta sums a b ns) _) ns

theorem updateAllT_out (r : Rule F) (delta : List F) (sums : Map F) (ts : List Tuple) (ns : Map F) :
    (updateAllT A r delta sums ts ns).out = updateAll A r delta sums ts ns := by
  induction ts generalizing ns with
  | nil => rfl
  | cons t ts ih =>
    simp only [updateAllT, updateAll, bind_out, updateTupleT_out]
    cases updateTuple A r true delta sums t ns with
    | panic => rfl
    | hang => rfl
    | val u =>
      obtain ⟨ns', e⟩ := u
      cases e with
      | nil => exact ih ns'
      | cons => rfl

theorem finishT_out (r : Rule F) (delta : List F) (c : Core F) : (finishT A r delta c).out = finish A r delta c := by
  unfold finishT finish
  rw [bind_out, updateAllT_out]
  cases updateAll A r delta c.sums c.tuples c.newSums with
  | panic => rfl
  | hang => rfl
  | val u =>
    obtain ⟨ns', e⟩ := u
    cases e <;> rfl

theorem addT_out (c : Core F) (xs : List F) : (addT A c xs).out = add A c xs := by
  unfold addT add
  rw [ticks_bind_out]
  exact finishT_out A _ _ _

theorem addDecayT_out (d : F) (c : Core F) (xs : List F) : (addDecayT A d c xs).out = addDecay A d c xs := by
  unfold addDecayT addDecay
  rw [ticks_bind_out]
  exact finishT_out A _ _ _

theorem removeAllT_out (r : Rule F) (delta : List F) (ts : List Tuple) (sums ns : Map F) :
    (removeAllT A r delta ts sums ns).out = removeAll A r delta ts sums ns := by
  induction ts generalizing sums ns with
  | nil => rfl
  | cons t ts ih =>
    simp only [removeAllT, removeAll, bind_out, updateTupleT_out]
    cases updateTuple A r false delta sums t ns with
    | panic => rfl
    | hang => rfl
    | val u =>
      obtain ⟨ns', e⟩ := u
      cases e with
      | nil => exact ih _ _
      | cons => rfl

theorem removeT_out (c : Core F) (xs : List F) : (removeT A c xs).out = remove A c xs := by
  unfold removeT remove
  simp only
  split
  · simp only [ticks_bind_out, bind_out, removeAllT_out, free_out]
    split <;> rename_i h <;> rw [h] <;> rfl
  · rfl

theorem evictT_out (c : Core F) : (evictT A c).out = evict A c := by
  unfold evictT evict
  split
  · simp only [bind_out, free_out]
    cases c.queue.get with
    | panic => rfl
    | hang => rfl
    | val r =>
      cases r with
      | error e => rfl
      | ok p => exact removeT_out A _ _
  · rfl

theorem pushAddT_out (c : Core F) (xs : List F) : (pushAddT A c xs).out = pushAdd A c xs := by
  unfold pushAddT pushAdd
  cases c.decay with
  | none => exact addT_out A c xs
  | some d => exact addDecayT_out A d c xs

theorem pushPutT_out (c : Core F) (xs : List F) : (pushPutT A c xs).out = pushPut A c xs := by
  unfold pushPutT pushPut
  simp only [bind_out, free_out]
  cases c.queue.put xs with
  | panic => rfl
  | hang => rfl
  | val p =>
    cases p with
    | error e => rfl
    | ok q => exact pushAddT_out A _ xs

/-- The clock does not change the result. -/
theorem pushT_out (c : Core F) (xs : List F) : (pushT A c xs).out = push A c xs := by
  unfold pushT push
  split
  · rfl
  · split
    · rw [bind_out, evictT_out]
      cases evict A c with
      | panic => rfl
      | hang => rfl
      | val r =>
        obtain ⟨c', e⟩ := r
        cases e with
        | some e => rfl
        | none => exact pushPutT_out A c' xs
    · exact pushAddT_out A c xs

end JFP
end Verif
