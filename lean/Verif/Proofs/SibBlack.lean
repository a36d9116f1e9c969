import Verif.Proofs.Siblings

/-!
# Proofs: the changes of the board key by Black's moves are all different
-/

namespace Yasai.Proofs

set_option maxRecDepth 20000 in
theorem sibCheck_black : sibCheck .black 220218 = true := by decide +kernel

end Yasai.Proofs
