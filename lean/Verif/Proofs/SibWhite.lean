import Verif.Proofs.SibBlack

/-!
# Proofs: the changes of the board key by White's moves are all different

(The import only makes the two large computations run one after the other.)
-/

namespace Yasai.Proofs

set_option maxRecDepth 20000 in
theorem sibCheck_white : sibCheck .white 220218 = true := by decide +kernel

end Yasai.Proofs
