import Mathlib.Data.Multiset.Sort
import Mathlib.Data.Multiset.Filter

/-!
# Specification of an order-statistic container: a multiset

Independent of any implementation.
-/

namespace Verif.Spec



/-- The mutating operations of `order.Statistic` (order.go:10-17). -/
inductive OSOp (F : Type) where
  | add (x : F)
  | remove (x : F)
  | clear
  deriving DecidableEq, Repr

variable {F : Type} [LinearOrder F]

/-- What one operation does to the multiset of live values: `remove` deletes one occurrence, if there is one. -/
def bagStep (S : Multiset F) : OSOp F → Multiset F
  | .add x => x ::ₘ S
  | .remove x => S.erase x
  | .clear => 0

/-- The live values after a history. -/
def bag (ops : List (OSOp F)) : Multiset F := ops.foldl bagStep 0

/-- The k-th smallest element (0-based, duplicates counted), `none` when out of range. -/
def kth (S : Multiset F) (k : Int) : Option F :=
  if 0 ≤ k then (S.sort (· ≤ ·))[k.toNat]? else none

/-- The number of elements strictly less than `x`. -/
def rankOf (S : Multiset F) (x : F) : Nat := (S.filter (· < x)).card

/-- Declarative form of "`v` is the k-th smallest element": `v` occurs, fewer than or exactly `k` elements are
smaller, more than `k` are smaller or equal. -/
def IsKth (S : Multiset F) (k : Nat) (v : F) : Prop :=
  v ∈ S ∧ (S.filter (· < v)).card ≤ k ∧ k < (S.filter (· ≤ v)).card

/-- A container's query answers describe exactly the multiset `S`: its size, and its k-th smallest for every
integer `k`. -/
def Describes (size : Int) (select : Int → Option F) (S : Multiset F) : Prop :=
  size = S.card ∧ ∀ k : Int, select k = kth S k

/-- Every `remove x` of the history happens when `x` is stored at most once. -/
def RemovesUnique (ops : List (OSOp F)) : Prop :=
  ∀ pre x post, ops = pre ++ .remove x :: post → (bag pre).count x ≤ 1

end Verif.Spec
