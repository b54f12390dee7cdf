import Verif.Base

/-! # What it means that `Clear` gives back a new instance -/

namespace Verif.Spec
open Verif

/-- Two runs ended the same way; if both returned, the states look the `same` and the first error log is `es` followed by the
second. -/
def Agree {S : Type} (same : S → S → Prop) (es : List Err) : Go (S × List Err) → Go (S × List Err) → Prop
  | .val (a, la), .val (b, lb) => same a b ∧ la = es ++ lb
  | .panic, .panic => True
  | .hang, .hang => True
  | _, _ => False

/-- Whatever happened `before`, an instance that is cleared and then used goes through the errors, panics and states (up to `same`)
that a new instance `s` goes through when used that way. -/
def Resets {S A : Type} (step : S → A → Go (S × Option Err)) (clr : A) (s : S) (same : S → S → Prop) : Prop :=
  ∀ before s' es, Go.runOps (logged step) (s, []) before = .val (s', es) →
    ∀ after, Agree same es (Go.runOps (logged step) (s, []) (before ++ clr :: after)) (Go.runOps (logged step) (s, []) after)

end Verif.Spec
