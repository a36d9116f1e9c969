import Verif.Model.ShogiCore
import Verif.Model.Bits
import Verif.Model.Tables
import Verif.Model.Zobrist
import Verif.Model.Position
import Verif.Model.Movegen
import Verif.Model.Perft
import Verif.Model.Simd
import Verif.Model.Backends
import Verif.Spec.Rules
import Verif.Spec.Lines
import Verif.Spec.Hash
import Verif.Spec.Start
import Verif.Examples.Positions
import Verif.Examples.UnitTests
import Verif.Props.Undo
import Verif.Props.Bitboards
import Verif.Props.Tables
import Verif.Props.Session
import Verif.Props.Keys
import Verif.Props.Effect
import Verif.Proofs.Repr
import Verif.Proofs.Decide
import Verif.Proofs.Check
import Verif.Proofs.Inv
import Verif.Proofs.GenList
import Verif.Proofs.Evasions
import Verif.Proofs.LegalGen
import Verif.Proofs.Drops
import Verif.Proofs.DropMate
import Verif.Props.Check
import Verif.Props.Legal
import Verif.Proofs.Symmetry
import Verif.Props.Symmetry
import Verif.Props.Perft
import Verif.Proofs.Agree
import Verif.Props.Agree
import Verif.Proofs.Capacity
import Verif.Proofs.Bound593
import Verif.Proofs.NoPanic
import Verif.Props.Capacity
import Verif.Props.Caches
import Verif.Props.Refine
import Verif.Props.Divide
import Verif.Props.Usize
import Verif.Props.PerftSym
import Verif.Proofs.PanicExact
import Verif.Props.Panic
import Verif.Props.Contracts
import Verif.Proofs.AgreeAny
import Verif.Props.Anywhere
import Verif.Props.MovePanic
import Verif.Props.PseudoCheck
import Verif.Props.Loose
import Verif.Model.Rng
import Verif.Spec.Draws
import Verif.Spec.Places
import Verif.Proofs.Rng
import Verif.Proofs.Lanes
import Verif.Proofs.TableLit
import Verif.Proofs.Separate
import Verif.Props.Zobrist
import Verif.Proofs.Siblings
import Verif.Proofs.SibBlack
import Verif.Proofs.SibWhite
import Verif.Props.Siblings
import Verif.Examples.ZobristTests
import Verif.Model.TableInit
import Verif.Props.TableInit
import Verif.Model.Unwind
import Verif.Proofs.Unwind
import Verif.Props.Wild
import Verif.Props.Games
import Verif.Proofs.Pseudo
import Verif.Props.Pseudo
import Verif.Props.Complete
import Verif.Props.NewCheck
import Verif.Props.Ignored
import Verif.Props.Crowded
import Verif.Props.Mirror
import Verif.Props.Boards
import Verif.Props.Parts
import Verif.Props.Same
import Verif.Props.WrongUndo
import Verif.Examples.Instances
import Verif.Model.Checked
import Verif.Proofs.Checked
import Verif.Proofs.CheckedOps
import Verif.Proofs.CheckedPure
import Verif.Props.InContract
import Verif.Model.Iter
import Verif.Props.Iterator
import Verif.Props.VacantExact
import Verif.Props.PawnAlone
import Verif.Props.Recorded
import Verif.Props.Machine
import Verif.Props.DeadPawns
import Verif.Props.Collide
import Verif.Props.Borrow
import Verif.Props.FirstKing
import Verif.Props.AnyMachine
import Verif.Props.Hazard
import Verif.Props.PerftAny
import Verif.Props.SanePawns
import Verif.Props.MirrorWild
import Verif.Props.PerftMirror
import Verif.Props.UsizeAny
import Verif.Props.TwoCheckers
import Verif.Props.SameAny
import Verif.Props.OneProgram
import Verif.Props.Repeat
import Verif.Props.Printed
import Verif.Props.HandKinds
import Verif.Props.Search
import Verif.Props.LazyTables
import Verif.Props.HashTable
import Verif.Props.AlphaBeta
