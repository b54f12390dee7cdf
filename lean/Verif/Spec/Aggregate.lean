import Verif.Base

/-! # Specification of aggregates: each metric on its own -/

namespace Verif.Spec
open Verif

/-- What a client does with an aggregate. -/
inductive AOp (A : Type) where
  | push (x : A)
  | values
  | clear

/-- The same done with one metric: `Values` does not change it, errors of `Push` are ignored. -/
def alone {σ A : Type} (push : σ → A → Go (σ × Option Err)) (clear : σ → Go σ) (s : σ) : AOp A → Go σ
  | .push x => do
    let r ← push s x
    pure r.1
  | .values => .val s
  | .clear => clear s

/-- `m` is the map with exactly these entries. -/
def IsMap {K V : Type} (m : K → Option V) (entries : List (K × V)) : Prop := ∀ k v, m k = some v ↔ (k, v) ∈ entries

end Verif.Spec
