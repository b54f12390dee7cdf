import Verif.Proofs.Names

/-! # C58: names identify metrics -/

namespace Verif.Props
open Verif Verif.Names

variable {F : Type}

/-- As stated the property is false: the implementation of the order statistic is not part of the name of a Quantile, Median or IQR. -/
theorem C58_refuted (fmt : F → List Char) (w i : Int) :
    (MetricId.quantile w i .avl : MetricId F).string fmt = (MetricId.quantile w i .redBlack).string fmt ∧
    (MetricId.median w .avl : MetricId F).string fmt = (MetricId.median w .skipList).string fmt ∧
    (MetricId.iqr w .avl : MetricId F).string fmt = (MetricId.iqr w .skipList).string fmt := ⟨rfl, rfl, rfl⟩

/-- Missing for the full statement: the implementation (`C58_refuted`). Two metrics of any of the twenty types with the same name are of the
same type and have the same parameters except for the implementation, provided that different decays are printed differently. -/
theorem C58_names_partial (fmt : F → List Char) (hf : ∀ a b, fmt a = fmt b → a = b) (m m' : MetricId F) (h : m.string fmt = m'.string fmt) :
    m.shown = m'.shown := string_inj hf h

/-- For all other metrics the name determines everything. -/
theorem C58_other (fmt : F → List Char) (hf : ∀ a b, fmt a = fmt b → a = b) (m m' : MetricId F)
    (hm : m.shown = m) (hm' : m'.shown = m') (h : m.string fmt = m'.string fmt) : m = m' := by
  rw [← hm, ← hm', string_inj hf h]

example : (MetricId.moment 2 (-3) : MetricId Bool).string (fun b => (toString b).toList) = "moment.Moment_{k:2,window:-3}" := by decide +kernel
example : (MetricId.iqr 10 .avl : MetricId Bool).string (fun b => (toString b).toList) =
    "quantile.IQR_{quantile:quantile.Quantile_{window:10,interpolation:4}}" := by decide +kernel
example : (MetricId.moment 2 3 : MetricId Bool).shown = .moment 2 3 := rfl
example : ∀ a b : Bool, (toString a).toList = (toString b).toList → a = b := by decide +kernel

end Verif.Props
