import Verif.Model.Term
import Verif.Model.Bound
import Verif.Model.FlatTerm
import Verif.Model.Path
import Verif.Spec.Semantics
import Verif.Spec.Paths
import Verif.Lemmas.Bound
import Verif.Lemmas.FlatTerm
import Verif.Lemmas.Path
import Verif.Props.TermPaths
import Verif.Props.Opening
import Verif.Props.TermStorage
import Verif.Lemmas.Subst
import Verif.Model.Context
import Verif.Model.Typing
import Verif.Spec.Typing
import Verif.Spec.SetModel
import Verif.Spec.Demo
import Verif.Lemmas.Typing
import Verif.Lemmas.GetType
import Verif.Lemmas.CheckedType
import Verif.Props.Types
import Verif.Model.Order
import Verif.Lemmas.Order
import Verif.Lemmas.Kbo
import Verif.Props.Order
import Verif.Spec.SimplyTyped
import Verif.Lemmas.SimplyTyped
import Verif.Model.Normalize
import Verif.Lemmas.Connectives
import Verif.Lemmas.Normalize
import Verif.Lemmas.NormalizeClauseTerm
import Verif.Lemmas.NormalForm
import Verif.Spec.DemoSimple
import Verif.Props.Normalize
import Verif.Model.Literal
import Verif.Model.Clause
import Verif.Spec.Clauses
import Verif.Lemmas.VarIds
import Verif.Lemmas.Clause
import Verif.Lemmas.ClauseTotal
import Verif.Lemmas.Sorting
import Verif.Lemmas.LiteralOrder
import Verif.Lemmas.ClauseNew
import Verif.Props.Clauses
import Verif.Model.BoolReduce
import Verif.Lemmas.BoolReduce
import Verif.Lemmas.BoolReplace
import Verif.Lemmas.BoolReductionAt
import Verif.Lemmas.BoolSets
import Verif.Lemmas.BoolSound
import Verif.Props.BoolReductions
import Verif.Model.Inference
import Verif.Lemmas.Inference
import Verif.Lemmas.Extensionality
import Verif.Props.Inference
import Verif.Model.AMap
import Verif.Model.ClauseSet
import Verif.Model.EqualityGraph
import Verif.Spec.ClauseSet
import Verif.Lemmas.ClauseSet
import Verif.Props.ClauseSet
import Verif.Spec.EqualityGraph
import Verif.Lemmas.EGraphSound
import Verif.Lemmas.EGraphSoundApi
import Verif.Props.EqualityGraph
import Verif.Lemmas.EGraphStruct
import Verif.Lemmas.EGraphNoPanic
import Verif.Props.EqualityGraphPanics
import Verif.Lemmas.EGraphCong
import Verif.Lemmas.EGraphCongApi
import Verif.Props.EqualityGraphCongruence
import Verif.Model.ProofOrder
import Verif.Spec.ProofOrder
import Verif.Lemmas.ProofOrder
import Verif.Props.ProofOrder
import Verif.Model.Termination
import Verif.Spec.Termination
import Verif.Lemmas.Termination
import Verif.Props.Termination
import Verif.Model.Trace
import Verif.Spec.Trace
import Verif.Lemmas.Trace
import Verif.Props.Trace
import Verif.Model.Certificates
import Verif.Spec.Certificates
import Verif.Lemmas.Certificates
import Verif.Props.Certificates
import Verif.Model.Text
import Verif.Model.Stack
import Verif.Spec.Stack
import Verif.Lemmas.Stack
import Verif.Props.Stack
import Verif.Model.GoalPartition
import Verif.Spec.GoalPartition
import Verif.Lemmas.GoalPartition
import Verif.Props.GoalPartition
import Verif.Model.LiveDocument
import Verif.Spec.LiveDocument
import Verif.Lemmas.LiveDocument
import Verif.Props.LiveDocument
import Verif.Lemmas.Text
import Verif.Model.VariableMap
import Verif.Spec.Matching
import Verif.Lemmas.VariableMap
import Verif.Lemmas.Specialize
import Verif.Lemmas.MatchTyped
import Verif.Props.Matching
import Verif.Model.Unifier
import Verif.Spec.Unification
import Verif.Lemmas.Unifier
import Verif.Props.Unifier
import Verif.Spec.Monomorphic
import Verif.Model.Resolution
import Verif.Lemmas.UnifyTyped
import Verif.Lemmas.Resolution
import Verif.Props.Resolution
import Verif.Model.Typeclasses
import Verif.Spec.Typeclasses
import Verif.Lemmas.Typeclasses
import Verif.Props.Typeclasses
import Verif.Model.Token
import Verif.Spec.Token
import Verif.Lemmas.Token
import Verif.Props.Token
import Verif.Model.ModulePaths
import Verif.Spec.ModulePaths
import Verif.Lemmas.ModulePaths
import Verif.Props.ModulePaths
import Verif.Model.BuildCache
import Verif.Spec.BuildCache
import Verif.Lemmas.BuildCache
import Verif.Props.BuildCache
import Verif.Model.BuildSkip
import Verif.Spec.BuildSkip
import Verif.Lemmas.BuildSkip
import Verif.Props.BuildSkip
import Verif.Model.Pipeline
import Verif.Spec.Pipeline
import Verif.Lemmas.Pipeline
import Verif.Props.Pipeline
import Verif.Model.Fingerprint
import Verif.Spec.Fingerprint
import Verif.Lemmas.Fingerprint
import Verif.Props.Fingerprint
import Verif.Lemmas.FingerprintUnify
import Verif.Model.Pdt
import Verif.Spec.Pdt
import Verif.Lemmas.PdtKeys
import Verif.Lemmas.Pdt
import Verif.Lemmas.PdtTyped
import Verif.Lemmas.PdtTree
import Verif.Lemmas.PdtLiterals
import Verif.Props.Pdt
import Verif.Model.Checker
import Verif.Spec.Checker
import Verif.Lemmas.PlainTypes
import Verif.Lemmas.Tidy
import Verif.Lemmas.PlainClauses
import Verif.Lemmas.CheckerRules
import Verif.Lemmas.CheckerSound
import Verif.Model.CheckerRun
import Verif.Spec.CheckerUse
import Verif.Spec.DemoFull
import Verif.Props.Checker
import Verif.Spec.Zoo
import Verif.Model.Inhabited
import Verif.Spec.Inhabited
import Verif.Lemmas.Inhabited
import Verif.Lemmas.Elimination
import Verif.Props.Inhabited
import Verif.Model.TraceRules
import Verif.Model.TraceChecker
import Verif.Spec.BetaFree
import Verif.Spec.TraceChecker
import Verif.Spec.Witness
import Verif.Lemmas.ClaimSound
import Verif.Lemmas.MatchClause
import Verif.Lemmas.TraceRulesSound
import Verif.Lemmas.TraceSound
import Verif.Lemmas.Witness
import Verif.Props.TraceChecker
import Verif.Model.Expression
import Verif.Model.ExpressionGen
import Verif.Spec.Expression
import Verif.Lemmas.Expression
import Verif.Lemmas.ExpressionTree
import Verif.Lemmas.ExpressionChecks
import Verif.Lemmas.ExpressionRead
import Verif.Lemmas.ExpressionParse
import Verif.Lemmas.ExpressionYield
import Verif.Lemmas.ExpressionEnd
import Verif.Lemmas.ExpressionGen
import Verif.Props.Expression
import Verif.Model.Clausifier
import Verif.Spec.Clausifier
import Verif.Spec.SetModelNonempty
import Verif.Spec.DemoBox
import Verif.Lemmas.ClausifyContext
import Verif.Lemmas.ClausifyInline
import Verif.Lemmas.ClausifyLambda
import Verif.Lemmas.ClausifyExt
import Verif.Lemmas.ClausifyLits
import Verif.Props.Clausifier
import Verif.Model.AcornValue
import Verif.Model.LocalSatisfy
import Verif.Spec.ValueMeaning
import Verif.Spec.ValueNames
import Verif.Spec.ValueTyping
import Verif.Spec.ValueFrame
import Verif.Lemmas.ValueMeaning
import Verif.Lemmas.ValueSubst
import Verif.Lemmas.ValueReplace
import Verif.Lemmas.ValueExpand
import Verif.Lemmas.ValueStatements
import Verif.Lemmas.ValueLocal
import Verif.Props.Values
import Verif.Model.ValueTypes
import Verif.Model.TypeUnifier
import Verif.Spec.ValueTypes
import Verif.Spec.TypeMatching
import Verif.Lemmas.ValueTypes
import Verif.Lemmas.ValueTypesInst
import Verif.Lemmas.TypeUnifier
import Verif.Lemmas.TypeInference
import Verif.Props.ValueTypes
import Verif.Model.Lowering
import Verif.Model.MatchEliminator
import Verif.Spec.Lowering
import Verif.Spec.DemoLower
import Verif.Spec.MatchEliminator
import Verif.Lemmas.LoweringTypes
import Verif.Lemmas.LoweringValues
import Verif.Lemmas.Lowering
import Verif.Lemmas.LoweringTotal
import Verif.Lemmas.MatchEliminator
import Verif.Props.Lowering
import Verif.Props.MatchEliminator
import Verif.Model.Quote
import Verif.Spec.Quote
import Verif.Spec.DemoQuote
import Verif.Lemmas.QuoteTypes
import Verif.Lemmas.Quote
import Verif.Lemmas.QuoteClause
import Verif.Lemmas.QuoteTotal
import Verif.Props.Quote
import Verif.Model.Datatypes
import Verif.Spec.Datatypes
import Verif.Spec.SetTypes
import Verif.Lemmas.Generic
import Verif.Lemmas.Datatypes
import Verif.Lemmas.DatatypeFacts
import Verif.Lemmas.StructFacts
import Verif.Lemmas.DatatypeParadox
import Verif.Lemmas.SetInductive
import Verif.Lemmas.SetBuilt
import Verif.Lemmas.SetDatatypes
import Verif.Lemmas.SetStructs
import Verif.Spec.Variance
import Verif.Lemmas.Variance
import Verif.Props.Datatypes
import Verif.Model.Environment
import Verif.Model.LoweredModule
import Verif.Spec.Environment
import Verif.Lemmas.ModuleScope
import Verif.Lemmas.ModuleFacts
import Verif.Lemmas.ModuleExport
import Verif.Lemmas.ModuleSound
import Verif.Lemmas.ModuleBlocks
import Verif.Lemmas.ModuleTheorem
import Verif.Lemmas.ModuleMatch
import Verif.Lemmas.ModuleSatisfy
import Verif.Lemmas.ModuleInduction
import Verif.Lemmas.LoweredModule
import Verif.Props.Environment
import Verif.Model.Recursion
import Verif.Spec.Recursion
import Verif.Spec.RecursionModule
import Verif.Lemmas.Recursion
import Verif.Lemmas.RecursionSolve
import Verif.Lemmas.RecursionModule
import Verif.Props.Recursion
import Verif.Model.ProjectLoad
import Verif.Spec.ProjectLoad
import Verif.Lemmas.ProjectLoad
import Verif.Lemmas.ProjectLoadRun
import Verif.Lemmas.ProjectResult
import Verif.Props.ProjectLoad
import Verif.Model.ParallelLoad
import Verif.Spec.ParallelLoad
import Verif.Lemmas.ParallelPrepare
import Verif.Lemmas.ParallelRun
import Verif.Lemmas.ParallelEnd
import Verif.Props.ParallelLoad
import Verif.Model.ReloadTargets
import Verif.Spec.ReloadTargets
import Verif.Lemmas.ReloadTargets
import Verif.Props.ReloadTargets
import Verif.Model.Server
import Verif.Spec.Server
import Verif.Lemmas.Server
import Verif.Lemmas.ServerRuns
import Verif.Lemmas.ServerShown
import Verif.Lemmas.ServerProgress
import Verif.Props.Server
import Verif.Model.VerifyModule
import Verif.Spec.VerifyModule
import Verif.Lemmas.VerifyModule
import Verif.Lemmas.VerifyCerts
import Verif.Lemmas.VerifyLowered
import Verif.Props.VerifyModule
import Verif.Model.Simplify
import Verif.Spec.Simplify
import Verif.Lemmas.Simplify
import Verif.Lemmas.SimplifyRuns
import Verif.Props.Simplify
import Verif.Model.PassiveSet
import Verif.Spec.PassiveSet
import Verif.Lemmas.PassiveSet
import Verif.Lemmas.PassiveInv
import Verif.Lemmas.PassiveRuns
import Verif.Lemmas.PassiveSimplify
import Verif.Lemmas.PassiveSound
import Verif.Props.PassiveSet
import Verif.Model.ActiveSet
import Verif.Spec.ActiveSet
import Verif.Lemmas.ActiveUnify
import Verif.Lemmas.ActiveResolve
import Verif.Lemmas.ActiveRewrite
import Verif.Lemmas.ActiveLiterals
import Verif.Lemmas.ActiveRules
import Verif.Lemmas.ActiveSimplify
import Verif.Lemmas.ActiveActivate
import Verif.Lemmas.ActiveSteps
import Verif.Lemmas.ActiveSearch
import Verif.Lemmas.ActiveFound
import Verif.Lemmas.ActiveDropped
import Verif.Props.ActiveSet
import Verif.Model.RewriteTree
import Verif.Spec.RewriteTree
import Verif.Lemmas.RewriteRules
import Verif.Lemmas.RewriteTree
import Verif.Props.RewriteTree
import Verif.Model.TokenMap
import Verif.Spec.TokenMap
import Verif.Lemmas.TokenMap
import Verif.Props.TokenMap
import Verif.Model.WitnessOpening
import Verif.Spec.WitnessOpening
import Verif.Lemmas.WitnessFunction
import Verif.Lemmas.WitnessOrder
import Verif.Lemmas.WitnessOpening
import Verif.Lemmas.WitnessRun
import Verif.Lemmas.WitnessTotal
import Verif.Lemmas.WitnessTyped
import Verif.Props.WitnessOpening
import Verif.Model.PackagedLibrary
import Verif.Spec.PackagedLibrary
import Verif.Lemmas.PackagedLibrary
import Verif.Lemmas.PackagedRuns
import Verif.Lemmas.PackagedGoes
import Verif.Props.PackagedLibrary
import Verif.Model.SearchOutcome
import Verif.Spec.SearchOutcome
import Verif.Lemmas.SearchOutcome
import Verif.Lemmas.SearchRounds
import Verif.Lemmas.SearchLevels
import Verif.Props.SearchOutcome
import Verif.Model.Lint
import Verif.Spec.Lint
import Verif.Lemmas.Lint
import Verif.Props.Lint
import Verif.Model.ClaimArgs
import Verif.Spec.ClaimArgs
import Verif.Lemmas.ClaimArgs
import Verif.Props.ClaimArgs
import Verif.Model.LocalObligations
import Verif.Spec.LocalObligations
import Verif.Lemmas.LocalObligations
import Verif.Props.LocalObligations
