import Verif.Spec.Rules

/-!
# The places of a position
-/

namespace Yasai.Spec

open Yasai

/-- A place that holds something: a square, or the pieces of one kind in one hand. -/
inductive Place where
  | square (s : Square)
  | hand (c : Color) (k : PieceKind)
deriving DecidableEq

/-- The two positions hold different things at a place. -/
def Differ (P Q : Pos) : Place → Prop
  | .square s => P.board s ≠ Q.board s
  | .hand c k => P.hand c k ≠ Q.hand c k

/-- The two positions differ at one place or at two places, whoever is to move. -/
def DifferAtOneOrTwo (P Q : Pos) : Prop :=
  (∃ x, Differ P Q x) ∧ ∃ a b, ∀ x, Differ P Q x → x = a ∨ x = b

end Yasai.Spec
