import Verif.Lemmas.ArrayFile
import Verif.Lemmas.Assoc
import Verif.Lemmas.BinaryMatrix
import Verif.Lemmas.Bounded
import Verif.Lemmas.BoundedLaps
import Verif.Lemmas.BoundedMoves
import Verif.Lemmas.BoundedReturns
import Verif.Lemmas.BoundedScore
import Verif.Lemmas.Candidates
import Verif.Lemmas.Chosen
import Verif.Lemmas.Command
import Verif.Lemmas.ConstraintType
import Verif.Lemmas.Controller
import Verif.Lemmas.Decimal10
import Verif.Lemmas.Dependent
import Verif.Lemmas.DependentFlags
import Verif.Lemmas.DependentKey
import Verif.Lemmas.DependentLoop
import Verif.Lemmas.DependentPairs
import Verif.Lemmas.DependentRounds
import Verif.Lemmas.Example
import Verif.Lemmas.ExportLP
import Verif.Lemmas.Expression
import Verif.Lemmas.Fast
import Verif.Lemmas.GF2
import Verif.Lemmas.Graph
import Verif.Lemmas.Hot
import Verif.Lemmas.Improvability
import Verif.Lemmas.Json
import Verif.Lemmas.JsonEcho
import Verif.Lemmas.Laps
import Verif.Lemmas.Learner
import Verif.Lemmas.LinearProgram
import Verif.Lemmas.Model
import Verif.Lemmas.Moves
import Verif.Lemmas.Mps
import Verif.Lemmas.MpsFile
import Verif.Lemmas.MpsImport
import Verif.Lemmas.MpsText
import Verif.Lemmas.Neighborhood
import Verif.Lemmas.Online
import Verif.Lemmas.Pdlp
import Verif.Lemmas.Presolve
import Verif.Lemmas.PresolveLoop
import Verif.Lemmas.PresolveOpt
import Verif.Lemmas.PresolveSets
import Verif.Lemmas.Program
import Verif.Lemmas.RestartRun
import Verif.Lemmas.Scientific
import Verif.Lemmas.Search
import Verif.Lemmas.SearchScore
import Verif.Lemmas.SearchTree
import Verif.Lemmas.SelectionExtract
import Verif.Lemmas.Setup
import Verif.Lemmas.SetupDependents
import Verif.Lemmas.SetupRun
import Verif.Lemmas.SetupStages
import Verif.Lemmas.SetupVars
import Verif.Lemmas.Solution
import Verif.Lemmas.SparseMatrix
import Verif.Lemmas.Status
import Verif.Lemmas.Sums
import Verif.Lemmas.Text
import Verif.Lemmas.Tuning
import Verif.Lemmas.Update
import Verif.Lemmas.Verifier
import Verif.Lemmas.Whole
import Verif.Lemmas.WholeDep
import Verif.Lemmas.ZeroCoef
import Verif.Model.Archive
import Verif.Model.ArrayFile
import Verif.Model.Assoc
import Verif.Model.BinaryMatrix
import Verif.Model.Callback
import Verif.Model.Chain
import Verif.Model.Command
import Verif.Model.Constraint
import Verif.Model.ConstraintType
import Verif.Model.Controller
import Verif.Model.Dependent
import Verif.Model.DualBound
import Verif.Model.Expression
import Verif.Model.Flippable
import Verif.Model.GF2
import Verif.Model.Gap
import Verif.Model.Graph
import Verif.Model.HashMap
import Verif.Model.Import
import Verif.Model.Improvability
import Verif.Model.Incumbent
import Verif.Model.Json
import Verif.Model.Learner
import Verif.Model.Life
import Verif.Model.Limits
import Verif.Model.LinearProgram
import Verif.Model.LocalSearch
import Verif.Model.Memory
import Verif.Model.Model
import Verif.Model.ModelFile
import Verif.Model.Moves
import Verif.Model.Mps
import Verif.Model.MultiArray
import Verif.Model.Names
import Verif.Model.Neighborhood
import Verif.Model.Offered
import Verif.Model.Online
import Verif.Model.Option
import Verif.Model.Pdlp
import Verif.Model.Penalty
import Verif.Model.Presolve
import Verif.Model.Program
import Verif.Model.Proxy
import Verif.Model.Queue
import Verif.Model.Restart
import Verif.Model.RestartRun
import Verif.Model.Rounded
import Verif.Model.Search
import Verif.Model.SearchLoop
import Verif.Model.SearchReport
import Verif.Model.SearchTree
import Verif.Model.Selection
import Verif.Model.SelectionExtract
import Verif.Model.Setup
import Verif.Model.SizeTable
import Verif.Model.Solution
import Verif.Model.SolutionFile
import Verif.Model.SparseMatrix
import Verif.Model.Standalone
import Verif.Model.Statistics
import Verif.Model.Status
import Verif.Model.StepSize
import Verif.Model.Summary
import Verif.Model.Table
import Verif.Model.TabuSearch
import Verif.Model.Text
import Verif.Model.Trend
import Verif.Model.Tuning
import Verif.Model.UnionFind
import Verif.Model.Variable
import Verif.Model.Verifier
import Verif.Model.Whole
import Verif.Prelude
import Verif.Props.C01
import Verif.Props.C02
import Verif.Props.C03
import Verif.Props.C04
import Verif.Props.C05
import Verif.Props.C06
import Verif.Props.C07
import Verif.Props.C08
import Verif.Props.C09
import Verif.Props.C10
import Verif.Props.C100
import Verif.Props.C101
import Verif.Props.C102
import Verif.Props.C103
import Verif.Props.C104
import Verif.Props.C105
import Verif.Props.C106
import Verif.Props.C107
import Verif.Props.C108
import Verif.Props.C11
import Verif.Props.C12
import Verif.Props.C13
import Verif.Props.C14
import Verif.Props.C15
import Verif.Props.C16
import Verif.Props.C17
import Verif.Props.C18
import Verif.Props.C19
import Verif.Props.C20
import Verif.Props.C21
import Verif.Props.C22
import Verif.Props.C23
import Verif.Props.C24
import Verif.Props.C25
import Verif.Props.C26
import Verif.Props.C27
import Verif.Props.C28
import Verif.Props.C29
import Verif.Props.C30
import Verif.Props.C31
import Verif.Props.C32
import Verif.Props.C33
import Verif.Props.C34
import Verif.Props.C35
import Verif.Props.C36
import Verif.Props.C37
import Verif.Props.C38
import Verif.Props.C39
import Verif.Props.C40
import Verif.Props.C41
import Verif.Props.C42
import Verif.Props.C43
import Verif.Props.C44
import Verif.Props.C45
import Verif.Props.C46
import Verif.Props.C47
import Verif.Props.C48
import Verif.Props.C49
import Verif.Props.C50
import Verif.Props.C51
import Verif.Props.C52
import Verif.Props.C53
import Verif.Props.C54
import Verif.Props.C55
import Verif.Props.C56
import Verif.Props.C57
import Verif.Props.C58
import Verif.Props.C59
import Verif.Props.C60
import Verif.Props.C61
import Verif.Props.C62
import Verif.Props.C63
import Verif.Props.C64
import Verif.Props.C65
import Verif.Props.C66
import Verif.Props.C67
import Verif.Props.C68
import Verif.Props.C69
import Verif.Props.C70
import Verif.Props.C71
import Verif.Props.C72
import Verif.Props.C73
import Verif.Props.C74
import Verif.Props.C75
import Verif.Props.C76
import Verif.Props.C77
import Verif.Props.C78
import Verif.Props.C79
import Verif.Props.C80
import Verif.Props.C81
import Verif.Props.C82
import Verif.Props.C83
import Verif.Props.C84
import Verif.Props.C85
import Verif.Props.C86
import Verif.Props.C87
import Verif.Props.C88
import Verif.Props.C89
import Verif.Props.C90
import Verif.Props.C91
import Verif.Props.C92
import Verif.Props.C93
import Verif.Props.C94
import Verif.Props.C95
import Verif.Props.C96
import Verif.Props.C97
import Verif.Props.C98
import Verif.Props.C99
import Verif.Spec.Arith
import Verif.Spec.ArrayFile
import Verif.Spec.Bounded
import Verif.Spec.Command
import Verif.Spec.ConstraintType
import Verif.Spec.Dependent
import Verif.Spec.Feasible
import Verif.Spec.Flippable
import Verif.Spec.Graph
import Verif.Spec.Json
import Verif.Spec.JsonEcho
import Verif.Spec.Life
import Verif.Spec.LinearProgram
import Verif.Spec.Matrix
import Verif.Spec.ModelFile
import Verif.Spec.Move
import Verif.Spec.MpsFile
import Verif.Spec.Option
import Verif.Spec.Pdlp
import Verif.Spec.Program
import Verif.Spec.Proxy
import Verif.Spec.Rounds
import Verif.Spec.Score
import Verif.Spec.Search
import Verif.Spec.SearchReport
import Verif.Spec.SearchTree
import Verif.Spec.Setup
import Verif.Spec.SolutionFile
import Verif.Spec.Standalone
import Verif.Spec.Status
import Verif.Spec.Told
import Verif.Spec.Tuning
import Verif.Spec.Whole
import Verif.Spec.WholeDep
