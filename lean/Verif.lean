import Verif.Model.Basic
import Verif.Model.NdArray
import Verif.Model.Validation
import Verif.Model.Optimizers
import Verif.Model.Strategies
import Verif.Model.Singleton
import Verif.Model.Pair
import Verif.Model.Contractors
import Verif.Model.Lib
import Verif.Spec
import Verif.SpecArray
import Verif.SpecFlow
import Verif.SpecAdds
import Verif.SpecTree
import Verif.Proofs.ListAux
import Verif.Proofs.Parse
import Verif.Proofs.Validate
import Verif.Proofs.Index
import Verif.Proofs.Views
import Verif.Proofs.Views2
import Verif.Proofs.Sum
import Verif.Proofs.Rep
import Verif.Proofs.Diag
import Verif.Proofs.Singleton
import Verif.Proofs.Stack
import Verif.Proofs.Pair
import Verif.Proofs.PairWhole
import Verif.Proofs.Path
import Verif.Proofs.Call
import Verif.Proofs.Layouts
import Verif.Proofs.Order
import Verif.Props.Validation
import Verif.Props.Examples
import Verif.Props.Main
import Verif.Props.Algebra
import Verif.Props.Special
import Verif.Props.Order
import Verif.Props.Tensordot
import Verif.Proofs.Safe
import Verif.Props.Safety
import Verif.Proofs.Broadcast
import Verif.Props.Contractors
import Verif.Props.Findings
import Verif.Model.Overflow
import Verif.Props.Overflow
import Verif.Props.NonComm
import Verif.Props.Selection
import Verif.Props.Assign
import Verif.Props.HandBuilt
import Verif.SpecExpr
import Verif.SpecNorm
import Verif.SpecMeaning
import Verif.SpecKron
import Verif.SpecBinary
import Verif.SpecReshape
import Verif.SpecBasis
import Verif.SpecNetwork
import Verif.SpecInexact
import Verif.SpecLoops
import Verif.Proofs.Natural
import Verif.Proofs.Rounding
import Verif.Props.Rounding
import Verif.Props.Calculus
import Verif.Model.Debug
import Verif.Props.Debug
import Verif.Check.RepoTests
import Verif.Props.Exact
import Verif.Props.TensordotLaws
import Verif.Props.Serde
import Verif.Proofs.Shrink
import Verif.Props.Wrapped
import Verif.Props.Lawless
import Verif.Proofs.Alike
import Verif.Props.Related
import Verif.Proofs.Floats
import Verif.Proofs.Binary64
import Verif.Props.Floats
import Verif.Props.Counters
import Verif.Props.Linear
import Verif.Props.SignedZero
import Verif.Props.Dataflow
import Verif.Props.DebugReadable
import Verif.Props.Machine
import Verif.Props.Release
import Verif.SpecWork
import Verif.Proofs.Sorts
import Verif.Props.Work
import Verif.SpecOrder
import Verif.Props.Trees
import Verif.Props.Checks
import Verif.Props.TreesLawless
import Verif.Props.Intermediates
import Verif.SpecSum
import Verif.Props.Textbook
import Verif.Props.Strides
import Verif.Props.Whole
import Verif.Props.Resized
import Verif.Props.DebugText
import Verif.Props.Units
import Verif.Props.Batch
import Verif.Props.Nested
import Verif.Props.Backward
import Verif.Props.Fold
import Verif.Props.Inside
import Verif.Props.OneOperand
import Verif.Props.Reproducible
import Verif.Props.Depth
import Verif.Props.Adds
import Verif.SpecIndex
import Verif.Props.Positions
import Verif.Props.BatchParts
import Verif.SpecOnce
import Verif.Props.Derivative
import Verif.Props.ResizedStack
import Verif.Props.Misfit
import Verif.Model.Capacity
import Verif.Proofs.Capacity
import Verif.Props.Capacity
import Verif.SpecChoice
import Verif.Props.Choices
import Verif.Props.TreeSteps
import Verif.Props.Messages
import Verif.Props.Expressible
import Verif.SpecProgram
import Verif.Props.Programs
import Verif.Props.Stored
import Verif.Props.Rewritten
import Verif.Props.Ranks
import Verif.Props.Stretch
import Verif.Props.Reverse
import Verif.Props.Broadcasting
import Verif.Model.DebugForms
import Verif.Props.DebugForms
import Verif.Props.DebugOps
import Verif.Props.Labels
import Verif.Props.Norms
import Verif.Props.Meaning
import Verif.Props.Kronecker
import Verif.Props.Binary
import Verif.Props.Reshape
import Verif.Props.Basis
import Verif.Props.Network
import Verif.Props.Inexact
import Verif.Props.Loops
import Verif.Props.RanksMany
import Verif.Props.ResizedSum
import Verif.Props.Lengths
import Verif.Props.MisfitEmpty
import Verif.Props.LengthsRepeated
import Verif.Props.CheckedInts
import Verif.Props.Additive
import Verif.Props.Swapped
import Verif.Props.AdditivePrograms
import Verif.Props.Saturating
import Verif.Props.Limits
import Verif.Props.Mean
import Verif.Props.Zeros
import Verif.Props.Antisymmetric
import Verif.Props.Mirrored
