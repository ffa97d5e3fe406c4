import Verif.Audit
import Verif.Model.CacheHash
import Verif.Model.Call
import Verif.Model.Cli
import Verif.Model.Core
import Verif.Model.Cycle
import Verif.Model.Files
import Verif.Model.Formula
import Verif.Model.Helpers
import Verif.Model.History
import Verif.Model.Instantiate
import Verif.Model.Lex
import Verif.Model.Names
import Verif.Model.Order
import Verif.Model.OrderFormula
import Verif.Model.ParseDomain
import Verif.Model.ParseFormula
import Verif.Model.ParseProblem
import Verif.Model.Print
import Verif.Model.Py
import Verif.Model.Repr
import Verif.Model.Requirements
import Verif.Model.Sequences
import Verif.Model.Share
import Verif.Model.Term
import Verif.Model.TypedList
import Verif.Model.UpdateTags
import Verif.Model.Validation
import Verif.Proofs.ActionRead
import Verif.Proofs.ActionText
import Verif.Proofs.Along
import Verif.Proofs.AsRead
import Verif.Proofs.AsReadCond
import Verif.Proofs.AsReadOutcome
import Verif.Proofs.Basic
import Verif.Proofs.CacheHash
import Verif.Proofs.Cone
import Verif.Proofs.Consistent
import Verif.Proofs.Construct
import Verif.Proofs.Cost
import Verif.Proofs.Cycle
import Verif.Proofs.CycleSteps
import Verif.Proofs.DecEq
import Verif.Proofs.DeclText
import Verif.Proofs.Declared
import Verif.Proofs.DerivedMore
import Verif.Proofs.DerivedRead
import Verif.Proofs.DerivedSem
import Verif.Proofs.DomainRead
import Verif.Proofs.DomainReread
import Verif.Proofs.Dress
import Verif.Proofs.Easier
import Verif.Proofs.EasierDerived
import Verif.Proofs.Echo
import Verif.Proofs.EffectRead
import Verif.Proofs.EffectSem
import Verif.Proofs.Eq
import Verif.Proofs.EqDomain
import Verif.Proofs.Erase
import Verif.Proofs.Execute
import Verif.Proofs.Files
import Verif.Proofs.FormatExact
import Verif.Proofs.FormatTask
import Verif.Proofs.FormulaExact
import Verif.Proofs.FormulaParse
import Verif.Proofs.FormulaText
import Verif.Proofs.Frame
import Verif.Proofs.Gate
import Verif.Proofs.Goal
import Verif.Proofs.Good
import Verif.Proofs.GrammarSound
import Verif.Proofs.GroundMay
import Verif.Proofs.GroundPlan
import Verif.Proofs.GroundSem
import Verif.Proofs.Grow
import Verif.Proofs.GrowDom
import Verif.Proofs.GrowProblem
import Verif.Proofs.Hash
import Verif.Proofs.Helpers
import Verif.Proofs.HistoryState
import Verif.Proofs.Inst
import Verif.Proofs.InstAtoms
import Verif.Proofs.InstComp
import Verif.Proofs.InstSem
import Verif.Proofs.Instance
import Verif.Proofs.Interfere
import Verif.Proofs.JoinText
import Verif.Proofs.Keeps
import Verif.Proofs.KeepsText
import Verif.Proofs.Layout
import Verif.Proofs.LetterCase
import Verif.Proofs.Lex
import Verif.Proofs.MayRun
import Verif.Proofs.Monotone
import Verif.Proofs.MoreReqs
import Verif.Proofs.Names
import Verif.Proofs.NamesBy
import Verif.Proofs.NamesText
import Verif.Proofs.Order
import Verif.Proofs.OrderFormula
import Verif.Proofs.Outcome
import Verif.Proofs.OutcomeCheck
import Verif.Proofs.OutcomeGround
import Verif.Proofs.OutcomeRead
import Verif.Proofs.ParseDom
import Verif.Proofs.ParseProb
import Verif.Proofs.ParseRel
import Verif.Proofs.PlanText
import Verif.Proofs.Printable
import Verif.Proofs.Problem
import Verif.Proofs.ProblemRead
import Verif.Proofs.ProblemText
import Verif.Proofs.Provenance
import Verif.Proofs.Raises
import Verif.Proofs.RaisesDomain
import Verif.Proofs.ReadMetric
import Verif.Proofs.Reader
import Verif.Proofs.Rearranged
import Verif.Proofs.RearrangedDomain
import Verif.Proofs.RearrangedProblem
import Verif.Proofs.Reformat
import Verif.Proofs.RenameBasic
import Verif.Proofs.RenameDomain
import Verif.Proofs.RenameExchange
import Verif.Proofs.RenameExpr
import Verif.Proofs.RenameFormula
import Verif.Proofs.RenameParse
import Verif.Proofs.RenameTyped
import Verif.Proofs.RenameVars
import Verif.Proofs.RenameVarsDomain
import Verif.Proofs.RenameVarsSem
import Verif.Proofs.RenameVarsText
import Verif.Proofs.Reorder
import Verif.Proofs.Replace
import Verif.Proofs.ReplaceAction
import Verif.Proofs.Repr
import Verif.Proofs.ReprRead
import Verif.Proofs.RetagSem
import Verif.Proofs.RulesAction
import Verif.Proofs.RulesDerived
import Verif.Proofs.RulesDom
import Verif.Proofs.RulesExpr
import Verif.Proofs.RulesForm
import Verif.Proofs.RulesFuns
import Verif.Proofs.RulesGd
import Verif.Proofs.RulesProblem
import Verif.Proofs.RulesSections
import Verif.Proofs.Said
import Verif.Proofs.SaidDerived
import Verif.Proofs.SaidTask
import Verif.Proofs.SameMeaning
import Verif.Proofs.SameText
import Verif.Proofs.Scope
import Verif.Proofs.SectionText
import Verif.Proofs.SectionsRead
import Verif.Proofs.Sem
import Verif.Proofs.Share
import Verif.Proofs.ShareDom
import Verif.Proofs.ShareProb
import Verif.Proofs.ShareSound
import Verif.Proofs.ShareValue
import Verif.Proofs.Short
import Verif.Proofs.Size
import Verif.Proofs.SizeDomain
import Verif.Proofs.SizeText
import Verif.Proofs.Sub
import Verif.Proofs.Subtypes
import Verif.Proofs.Swap
import Verif.Proofs.Tags
import Verif.Proofs.TextSem
import Verif.Proofs.TokenShape
import Verif.Proofs.TypeTable
import Verif.Proofs.TypedList
import Verif.Proofs.TypedText
import Verif.Proofs.Types
import Verif.Proofs.WriteBack
import Verif.Proofs.WriteEffect
import Verif.Proofs.WriteGround
import Verif.Proofs.WriteIn
import Verif.Proofs.WriteSem
import Verif.Proofs.Written
import Verif.Proofs.WrittenProblem
import Verif.Props.Accepted
import Verif.Props.AcceptedProblem
import Verif.Props.ArgTypes
import Verif.Props.Args
import Verif.Props.AsRead
import Verif.Props.CacheHash
import Verif.Props.Call
import Verif.Props.Cli
import Verif.Props.Cone
import Verif.Props.Cost
import Verif.Props.DerivedMore
import Verif.Props.DerivedMoreText
import Verif.Props.DerivedOrder
import Verif.Props.DerivedSem
import Verif.Props.DomainRoundTrip
import Verif.Props.Easier
import Verif.Props.EasierDerived
import Verif.Props.Equality
import Verif.Props.Execute
import Verif.Props.Files
import Verif.Props.FormatTask
import Verif.Props.Formula
import Verif.Props.FormulaRoundTrip
import Verif.Props.Frame
import Verif.Props.Grammar
import Verif.Props.Ground
import Verif.Props.GroundMay
import Verif.Props.GroundOperands
import Verif.Props.GroundPlan
import Verif.Props.Grounding
import Verif.Props.Grow
import Verif.Props.GrowProblem
import Verif.Props.Helpers
import Verif.Props.History
import Verif.Props.Instance
import Verif.Props.Instantiable
import Verif.Props.Instantiate
import Verif.Props.Interfere
import Verif.Props.Interleaved
import Verif.Props.JoinPlans
import Verif.Props.LetterCase
import Verif.Props.MayRun
import Verif.Props.Meaning
import Verif.Props.Monotone
import Verif.Props.MoreRequirements
import Verif.Props.Names
import Verif.Props.ObjectType
import Verif.Props.Operands
import Verif.Props.Order
import Verif.Props.OrderFormula
import Verif.Props.Outcome
import Verif.Props.Parser
import Verif.Props.Printer
import Verif.Props.Problem
import Verif.Props.ProblemArgs
import Verif.Props.ProblemRoundTrip
import Verif.Props.Raises
import Verif.Props.ReadExecute
import Verif.Props.ReadMayRun
import Verif.Props.ReadMetric
import Verif.Props.Rearranged
import Verif.Props.RearrangedProblem
import Verif.Props.Reformat
import Verif.Props.Rename
import Verif.Props.RenameVars
import Verif.Props.Replace
import Verif.Props.Repr
import Verif.Props.ReqNames
import Verif.Props.RoundTrip
import Verif.Props.RuleInstance
import Verif.Props.Said
import Verif.Props.SaidDerived
import Verif.Props.SaidTask
import Verif.Props.SameMeaning
import Verif.Props.SameText
import Verif.Props.Sequences
import Verif.Props.Share
import Verif.Props.ShareValue
import Verif.Props.Short
import Verif.Props.Size
import Verif.Props.Steps
import Verif.Props.Swap
import Verif.Props.Symmetry
import Verif.Props.Tags
import Verif.Props.Text
import Verif.Props.TypeRounds
import Verif.Props.TypeSafe
import Verif.Props.TypedList
import Verif.Props.Undeclared
import Verif.Props.UndeclaredProblem
import Verif.Props.Validation
import Verif.Props.WriteBack
import Verif.Props.Written
import Verif.Props.WrittenProblem
import Verif.Spec.Along
import Verif.Spec.ArgTypes
import Verif.Spec.Args
import Verif.Spec.AsRead
import Verif.Spec.Built
import Verif.Spec.CacheHash
import Verif.Spec.Cli
import Verif.Spec.Cone
import Verif.Spec.Cost
import Verif.Spec.Declared
import Verif.Spec.DerivedMore
import Verif.Spec.DerivedSem
import Verif.Spec.DomainObstacle
import Verif.Spec.Easier
import Verif.Spec.EasierDerived
import Verif.Spec.Effect
import Verif.Spec.Execute
import Verif.Spec.Files
import Verif.Spec.FormatTask
import Verif.Spec.Frame
import Verif.Spec.Goal
import Verif.Spec.Grammar
import Verif.Spec.Graph
import Verif.Spec.Ground
import Verif.Spec.GroundMay
import Verif.Spec.GroundPlan
import Verif.Spec.Grow
import Verif.Spec.GrowProblem
import Verif.Spec.Helpers
import Verif.Spec.Instance
import Verif.Spec.Instantiable
import Verif.Spec.Interfere
import Verif.Spec.LetterCase
import Verif.Spec.Lex
import Verif.Spec.MayRun
import Verif.Spec.Monotone
import Verif.Spec.Names
import Verif.Spec.Operands
import Verif.Spec.OrderFormula
import Verif.Spec.Outcome
import Verif.Spec.Parse
import Verif.Spec.PrintDomain
import Verif.Spec.PrintProblem
import Verif.Spec.Printable
import Verif.Spec.Problem
import Verif.Spec.ProblemArgs
import Verif.Spec.ReadExecute
import Verif.Spec.ReadMayRun
import Verif.Spec.Rearranged
import Verif.Spec.RearrangedProblem
import Verif.Spec.Reformat
import Verif.Spec.Rename
import Verif.Spec.RenameVars
import Verif.Spec.Reorder
import Verif.Spec.Replace
import Verif.Spec.Repr
import Verif.Spec.ReqNames
import Verif.Spec.Rules
import Verif.Spec.RulesProblem
import Verif.Spec.Said
import Verif.Spec.SaidDerived
import Verif.Spec.SaidTask
import Verif.Spec.SameText
import Verif.Spec.Scope
import Verif.Spec.Sem
import Verif.Spec.Share
import Verif.Spec.ShareValue
import Verif.Spec.Short
import Verif.Spec.Size
import Verif.Spec.Subst
import Verif.Spec.Swap
import Verif.Spec.Tags
import Verif.Spec.TextSem
import Verif.Spec.TypeRounds
import Verif.Spec.TypeSafe
import Verif.Spec.TypeTable
import Verif.Spec.TypedList
import Verif.Spec.Types
import Verif.Spec.Written
import Verif.Spec.WrittenProblem
