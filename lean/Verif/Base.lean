import Mathlib.Order.Defs.LinearOrder

/-!
# Base: outcomes of Go code, float comparisons

Everything here is shared infrastructure of the model, not a model of a particular file.
-/

namespace Verif



/-- Outcome of running a piece of Go code: it returns a value, it panics (nil dereference, index out of
range, integer division by zero, ...), or it never returns (blocked forever / infinite loop).
Go `error` returns are ordinary values (`Except` inside `val`). -/
inductive Go (α : Type) where
  | val (a : α)
  | panic
  | hang
  deriving DecidableEq, Repr

namespace Go

/-- Sequencing: a panic or hang of the first computation is the outcome of the whole. -/
protected def bind {α : Type} {β : Type} (m : Go α) (f : α → Go β) : Go β :=
  match m with
  | val a => f a
  | panic => panic
  | hang => hang

instance : Monad Go where
  pure := Go.val
  bind := Go.bind

@[simp] theorem val_bind {α β : Type} (a : α) (f : α → Go β) : (Go.val a >>= f) = f a := rfl
@[simp] theorem panic_bind {α β : Type} (f : α → Go β) : ((Go.panic : Go α) >>= f) = .panic := rfl
@[simp] theorem hang_bind {α β : Type} (f : α → Go β) : ((Go.hang : Go α) >>= f) = .hang := rfl
@[simp] theorem pure_eq {α : Type} (a : α) : (pure a : Go α) = .val a := rfl

instance : LawfulMonad Go := LawfulMonad.mk'
  (id_map := fun x => by cases x <;> rfl)
  (pure_bind := fun _ _ => rfl)
  (bind_assoc := fun x _ _ => by cases x <;> rfl)

theorem bind_eq_val {α β : Type} {m : Go α} {f : α → Go β} {b : β} :
    (m >>= f) = .val b ↔ ∃ a, m = .val a ∧ f a = .val b := by
  cases m <;> simp

/-- Run a list of operations in order, threading the state (a plain loop of calls by the client). -/
def runOps {σ : Type} {o : Type} (step : σ → o → Go σ) : σ → List o → Go σ
  | s, [] => .val s
  | s, x :: xs =>
    match step s x with
    | .val s' => runOps step s' xs
    | .panic => .panic
    | .hang => .hang

theorem runOps_append {σ : Type} {o : Type} (step : σ → o → Go σ) (s : σ) (xs ys : List o) :
    runOps step s (xs ++ ys) = (match runOps step s xs with
      | .val s' => runOps step s' ys
      | .panic => .panic
      | .hang => .hang) := by
  induction xs generalizing s with
  | nil => rfl
  | cons x xs ih =>
    simp only [List.cons_append, runOps]
    cases h : step s x <;> simp [ih]

/-- Invariant rule for `runOps`: if every step from a state satisfying `I` returns a state satisfying `I`
again, then every run does. -/
theorem runOps_inv {σ : Type} {o : Type} {step : σ → o → Go σ} {I : List o → σ → Prop}
    (hstep : ∀ h s x, I h s → ∃ s', step s x = .val s' ∧ I (h ++ [x]) s')
    (s₀ : σ) (h₀ : List o) (h0 : I h₀ s₀) (xs : List o) :
    ∃ s', runOps step s₀ xs = .val s' ∧ I (h₀ ++ xs) s' := by
  induction xs generalizing s₀ h₀ with
  | nil => exact ⟨s₀, rfl, by simpa using h0⟩
  | cons x xs ih =>
    obtain ⟨s₁, h1, i1⟩ := hstep h₀ s₀ x h0
    obtain ⟨s₂, h2, i2⟩ := ih s₁ (h₀ ++ [x]) i1
    exact ⟨s₂, by simp [runOps, h1, h2], by simpa using i2⟩

end Go

/-- The comparison operators of Go's `float64`, as Booleans. `a > b` in Go is `lt b a`, `a >= b` is `le b a`
(true for IEEE 754 as well).  No law is assumed: NaN has instances too. -/
class GoOrd (F : Type) where
  lt : F → F → Bool
  le : F → F → Bool
  eq : F → F → Bool

scoped infix:50 " <ᵇ " => GoOrd.lt
scoped infix:50 " ≤ᵇ " => GoOrd.le
scoped infix:50 " =ᵇ " => GoOrd.eq

/-- Comparisons of a linear order: float64 restricted to non-NaN values, with -0 and +0 identified. -/
instance (priority := 100) GoOrd.ofLinearOrder {F : Type} [LinearOrder F] : GoOrd F where
  lt a b := decide (a < b)
  le a b := decide (a ≤ b)
  eq a b := decide (a = b)

@[simp] theorem goLt_eq {F : Type} [LinearOrder F] (a b : F) : (a <ᵇ b) = decide (a < b) := rfl
@[simp] theorem goLe_eq {F : Type} [LinearOrder F] (a b : F) : (a ≤ᵇ b) = decide (a ≤ b) := rfl
@[simp] theorem goEq_eq {F : Type} [LinearOrder F] (a b : F) : (a =ᵇ b) = decide (a = b) := rfl

/-- Values of a linear order together with one NaN that compares false with everything (IEEE 754). -/
inductive WithNaN (F : Type) where
  | nan
  | num (x : F)
  deriving DecidableEq, Repr

instance {F : Type} [LinearOrder F] : GoOrd (WithNaN F) where
  lt | .num a, .num b => decide (a < b) | _, _ => false
  le | .num a, .num b => decide (a ≤ b) | _, _ => false
  eq | .num a, .num b => decide (a = b) | _, _ => false

/-- An `error` value: a tag for the `errors.New`/`Errorf` call that created it. `errors.Wrap` is ignored. -/
abbrev Err := String

/-- Turn a method returning an `error` into a step that also logs the non-nil errors, for use with `Go.runOps`. -/
def logged {σ o : Type} (step : σ → o → Go (σ × Option Err)) (p : σ × List Err) (x : o) : Go (σ × List Err) := do
  let r ← step p.1 x
  pure (r.1, p.2 ++ r.2.toList)

/-- `github.com/workiva/go-datastructures/queue.RingBuffer` (not in /repo, behaviour assumed): a bounded FIFO. -/
structure Ring (α : Type) where
  cap : Nat
  items : List α
  disposed : Bool
  deriving DecidableEq, Repr

namespace Ring

/-- Smallest power of two that is at least `n` (0 for 0), the rounding of `NewRingBuffer`. -/
def roundUp (n : Nat) : Nat := if n = 0 then 0 else 2 ^ (Nat.log2 (2 * n - 1))

/-- `queue.NewRingBuffer(uint64(n))`. -/
def new {α : Type} (n : Nat) : Ring α := ⟨roundUp n, [], false⟩

/-- `Len`. -/
def len {α : Type} (r : Ring α) : Nat := r.items.length

/-- `Put`: error when disposed, index out of range for capacity 0, blocks when full. -/
def put {α : Type} (r : Ring α) (x : α) : Go (Except Err (Ring α)) :=
  if r.disposed then .val (.error "disposed")
  else if r.cap = 0 then .panic
  else if r.items.length < r.cap then .val (.ok { r with items := r.items ++ [x] })
  else .hang

/-- `Get`: error when disposed, blocks when empty. -/
def get {α : Type} (r : Ring α) : Go (Except Err (α × Ring α)) :=
  if r.disposed then .val (.error "disposed")
  else
    match r.items with
    | [] => if r.cap = 0 then .panic else .hang
    | x :: xs => .val (.ok (x, { r with items := xs }))

/-- `Dispose`. -/
def dispose {α : Type} (r : Ring α) : Ring α := { r with disposed := true }

theorem put_ok {α : Type} {r : Ring α} (h : r.disposed = false) (hl : r.items.length < r.cap) (x : α) :
    r.put x = .val (.ok { r with items := r.items ++ [x] }) := by
  unfold put
  rw [if_neg (by simp [h]), if_neg (by omega), if_pos hl]

theorem get_ok {α : Type} {r : Ring α} (h : r.disposed = false) {y : α} {ys : List α} (hi : r.items = y :: ys) :
    r.get = .val (.ok (y, { r with items := ys })) := by
  unfold get
  rw [if_neg (by simp [h]), hi]

theorem le_roundUp (n : Nat) : n ≤ roundUp n := by
  unfold roundUp
  split_ifs with h
  · omega
  · have := Nat.lt_log2_self (n := 2 * n - 1)
    rw [Nat.pow_succ] at this; omega

end Ring

/-- The float64 operations used by the quantile code, as a parameter: instantiated exactly, or with rounding. -/
structure FOps (F : Type) where
  ofInt : Int → F
  add : F → F → F
  sub : F → F → F
  mul : F → F → F
  div : F → F → F
  /-- `math.Trunc` -/
  trunc : F → F
  /-- the conversion `int(x)` -/
  toInt : F → Int

end Verif
