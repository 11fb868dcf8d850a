import Verif.Model.IntOps
import Verif.Lemmas.IntOps
import Verif.Props.Arith
import Verif.Model.Clast
import Verif.Props.Expr
import Verif.Model.Bound
import Verif.Lemmas.Bound
import Verif.Props.Bounds
import Verif.Model.ClastGen
import Verif.Model.ClastSem
import Verif.Lemmas.Modulo
import Verif.Lemmas.Exec
import Verif.Props.Guards
import Verif.Model.DomainSort
import Verif.Props.DomainSort
import Verif.Model.ScalarSort
import Verif.Props.ScalarSort
import Verif.Model.Tarjan
import Verif.Props.Tarjan
import Verif.Model.Loop
import Verif.Props.Separate
import Verif.Model.FinDom
import Verif.Model.LoopSem
import Verif.Lemmas.LoopSem
import Verif.Lemmas.Gen
import Verif.Lemmas.GenSteps
import Verif.Lemmas.GenPieces
import Verif.Lemmas.GenOrder
import Verif.Lemmas.GenRec
import Verif.Lemmas.GenNest
import Verif.Lemmas.GenConv
import Verif.Lemmas.GenMain
import Verif.Lemmas.GenMono
import Verif.Model.BoxDom
import Verif.Lemmas.BoxDom
import Verif.Props.Generate
import Verif.Props.Stride
import Verif.Props.LoopOps
import Verif.Props.Simplify
import Verif.Props.Stop
import Verif.Lemmas.GenShape
import Verif.Lemmas.GenStop
import Verif.Model.Options
import Verif.Props.Options
import Verif.Props.Pipeline
import Verif.Model.Names
import Verif.Props.Names
import Verif.Model.Matrix
import Verif.Props.Matrix
import Verif.Lemmas.ClastDom
import Verif.Lemmas.ClastGuard
import Verif.Lemmas.ClastFor
import Verif.Lemmas.ClastEqn
import Verif.Props.ClastExec
import Verif.Props.OtlOff
import Verif.Model.RefCount
import Verif.Props.RefCount
import Verif.Model.Program
import Verif.Props.Program
import Verif.Props.LoopBlock
import Verif.Props.Equations
import Verif.Model.UnionDomain
import Verif.Props.UnionDomain
import Verif.Model.ImportSet
import Verif.Props.ImportSet
import Verif.Model.Filter
import Verif.Props.Filter
import Verif.Model.CText
import Verif.Model.PPrint
import Verif.Lemmas.CParse
import Verif.Lemmas.PExpr
import Verif.Lemmas.PLex
import Verif.Lemmas.PGlue
import Verif.Lemmas.PStmt
import Verif.Lemmas.PClast
import Verif.Props.PPrint
import Verif.Model.EqTable
import Verif.Props.EqTable
import Verif.Props.EqType
import Verif.Model.PText
import Verif.Props.PText
import Verif.Model.Input
import Verif.Props.Input
import Verif.Props.InputEx
import Verif.Lemmas.ClastNames
import Verif.Props.ClastNames
import Verif.Model.ProgText
import Verif.Props.ProgText
import Verif.Model.IslSet
import Verif.Lemmas.IslSet
import Verif.Props.IslSet
import Verif.Model.CMacro
import Verif.Props.Macro
import Verif.Props.ProgBrackets
import Verif.Props.Parallel
import Verif.Props.DivExpr
import Verif.Lemmas.StrideBound
import Verif.Props.StrideBound
import Verif.Model.Annotate
import Verif.Props.Annotate
import Verif.Props.OslText
import Verif.Props.OneCopy
import Verif.Props.Separated
import Verif.Props.Terminates
import Verif.Props.TermUnroll
import Verif.Props.Fused
import Verif.Props.LastLevel
import Verif.Model.MatrixConv
import Verif.Props.MatrixConv
import Verif.Model.OslImport
import Verif.Props.OslImport
import Verif.Model.FReal
import Verif.Lemmas.FReal
import Verif.Model.FText
import Verif.Lemmas.FExpr
import Verif.Props.Fortran
import Verif.Props.FNames
import Verif.Model.ProgDump
import Verif.Props.ProgDump
import Verif.Model.FProg
import Verif.Lemmas.FProg
import Verif.Lemmas.FLines
import Verif.Props.FProg
import Verif.Model.Arrays
import Verif.Props.Arrays
import Verif.Lemmas.Steady
import Verif.Props.Steady
import Verif.Model.Callable
import Verif.Props.Callable
import Verif.Model.GuardSort
import Verif.Lemmas.Order
import Verif.Props.Order
import Verif.Model.LoopCount
import Verif.Props.LoopCount
import Verif.Model.BlockCount
import Verif.Props.BlockCount
import Verif.Model.DefPair
import Verif.Props.DefPair
import Verif.Model.ImportMap
import Verif.Props.ImportMap
import Verif.Props.GivenNames
import Verif.Model.ClastMem
import Verif.Props.ClastMem
import Verif.Model.ClastFree
import Verif.Props.ClastFree
import Verif.Model.Messages
import Verif.Props.Messages
