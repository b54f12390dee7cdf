import Verif.Base

/-! # Decidable equality of results, for the concrete examples -/

namespace Verif.Props
deriving instance DecidableEq for Except
end Verif.Props
