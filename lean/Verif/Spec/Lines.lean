import Verif.Spec.Rules

/-!
# Lines and betweenness
-/

namespace Yasai.Spec

open Yasai

instance (s t : Square) (df dr : Int) : Decidable (Disp s t df dr) := by
  unfold Disp; infer_instance

/-- The eight directions of the compass. -/
def directions : List (Int × Int) :=
  [(0, 1), (0, -1), (1, 0), (-1, 0), (1, 1), (1, -1), (-1, 1), (-1, -1)]

/-- `u` lies strictly between `s` and `t` on a common rank, file or diagonal. -/
def Between (s u t : Square) : Prop :=
  ∃ d ∈ directions, ∃ m n : Nat, 1 ≤ m ∧ m < n ∧
    Disp s u (m * d.1) (m * d.2) ∧ Disp s t (n * d.1) (n * d.2)

end Yasai.Spec
