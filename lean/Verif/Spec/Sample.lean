import Mathlib.Data.List.Nodup

/-! # Specification of sampling -/

namespace Verif.Spec

/-- `s` consists of the values of `xs` at the distinct positions `pos`. -/
structure DrawnFrom {α : Type} (xs s : List α) (pos : List Nat) : Prop where
  distinct : pos.Nodup
  inside : ∀ p ∈ pos, p < xs.length
  values : s.map some = pos.map (fun p => xs[p]?)

end Verif.Spec
