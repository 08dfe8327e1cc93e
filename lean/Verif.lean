import Verif.DistLemmas
import Verif.Driver.Deps
import Verif.Driver.DepsLemmas
import Verif.Driver.DepsSpec
import Verif.Driver.Entailment
import Verif.Driver.Filter
import Verif.Driver.FuncEncoder
import Verif.Driver.Instantiation
import Verif.Driver.Limits
import Verif.Driver.LimitsHistory
import Verif.Driver.LimitsLemmas
import Verif.Driver.Lower
import Verif.Driver.LowerLocal
import Verif.Driver.Module
import Verif.Driver.RunFuncs
import Verif.Driver.RunUnit
import Verif.Driver.RunUnitLemmas
import Verif.Driver.Smtlib
import Verif.Driver.Verdict
import Verif.Driver.Warnings
import Verif.Ev
import Verif.FreeVars
import Verif.Front.Casts
import Verif.Front.Establish
import Verif.Front.EstablishProc
import Verif.Front.EstablishProg
import Verif.Front.LexCongr
import Verif.Front.Lexical
import Verif.Front.Locals
import Verif.Front.LocalsReads
import Verif.Front.Module
import Verif.Front.Raw
import Verif.Front.Reads
import Verif.Front.ResLex
import Verif.Front.ResRep
import Verif.Front.ResStatic
import Verif.Front.ResUnit
import Verif.Front.Resolve
import Verif.Front.Scoped
import Verif.Front.TyAgain
import Verif.Front.TyFrame
import Verif.Front.TySound
import Verif.Front.TyStmt
import Verif.Front.TyUse
import Verif.Front.Tycheck
import Verif.Front.Uses
import Verif.Front.UsesReads
import Verif.Infra.DepGraph
import Verif.Infra.Prover
import Verif.Infra.ProverSpec
import Verif.Lattice
import Verif.Mc.Det
import Verif.Mc.Diverge
import Verif.Mc.DivergeFns
import Verif.Mc.DivergeModel
import Verif.Mc.DivergeSound
import Verif.Mc.DivergeSpec
import Verif.Mc.Enc
import Verif.Mc.ExprSound
import Verif.Mc.FnModel
import Verif.Mc.FnSound
import Verif.Mc.FnSpec
import Verif.Mc.FnValue
import Verif.Mc.Jani
import Verif.Mc.Liberal
import Verif.Mc.ProcSound
import Verif.Mc.RunStorm
import Verif.Mc.Sound
import Verif.Mc.StormSpec
import Verif.Mc.Translate
import Verif.Mc.Value
import Verif.Opt.Boolify
import Verif.Opt.BoolifySound
import Verif.Opt.ConstFold
import Verif.Opt.Egraph
import Verif.Opt.FoldTame
import Verif.Opt.Preserve
import Verif.Opt.Qelim
import Verif.Opt.QelimSound
import Verif.Opt.QelimSpec
import Verif.Opt.Relational
import Verif.Opt.RelationalCalls
import Verif.Opt.RelationalSound
import Verif.Opt.RemoveParens
import Verif.Opt.Unfolder
import Verif.Opt.UnfolderSound
import Verif.Parse.Check
import Verif.Parse.Comments
import Verif.Parse.Descent
import Verif.Parse.DescentStmt
import Verif.Parse.Grammar
import Verif.Parse.Meaning
import Verif.Parse.OldTotal
import Verif.Parse.Print
import Verif.Parse.PrintParse
import Verif.Parse.Reassoc
import Verif.Parse.ResAssoc
import Verif.Procs.CalcSound
import Verif.Procs.Monotonicity
import Verif.Procs.ProcVerify
import Verif.Procs.RecLoops
import Verif.Procs.RecSound
import Verif.Procs.RecSpec
import Verif.Procs.Spec
import Verif.Procs.SpecCall
import Verif.Procs.SpecCallSound
import Verif.ProofRules.Approx
import Verif.ProofRules.Ast
import Verif.ProofRules.AstTheory
import Verif.ProofRules.Calculus
import Verif.ProofRules.CallGraph
import Verif.ProofRules.Frame
import Verif.ProofRules.InitVars
import Verif.ProofRules.Loops
import Verif.ProofRules.LoopsMono
import Verif.ProofRules.LoopsSem
import Verif.ProofRules.LoopsSound
import Verif.ProofRules.NegLoops
import Verif.ProofRules.Negations
import Verif.ProofRules.Omega
import Verif.ProofRules.Ost
import Verif.ProofRules.OstTheory
import Verif.ProofRules.Past
import Verif.ProofRules.Stochastic
import Verif.ProofRules.Tracking
import Verif.ProofRules.TrackingSound
import Verif.ProofRules.Unpack
import Verif.ProofRules.Unroll
import Verif.Props.C01
import Verif.Props.C02
import Verif.Props.C03
import Verif.Props.C04
import Verif.Props.C05
import Verif.Props.C06
import Verif.Props.C07
import Verif.Props.C08
import Verif.Props.C09
import Verif.Props.C10
import Verif.Props.C11
import Verif.Props.C12
import Verif.Props.C13
import Verif.Props.C14
import Verif.Props.C15
import Verif.Props.C16
import Verif.Props.C17
import Verif.Props.C18
import Verif.Props.C19
import Verif.Props.C20
import Verif.Props.C21
import Verif.Props.C22
import Verif.Props.C23
import Verif.Props.C24
import Verif.Props.C25
import Verif.Props.C26
import Verif.Props.C27
import Verif.Props.C28
import Verif.Props.C29
import Verif.Props.C30
import Verif.Props.C31
import Verif.Props.C32
import Verif.Props.C33
import Verif.Props.C34
import Verif.Props.C35
import Verif.Props.C36
import Verif.Props.C37
import Verif.Props.C38
import Verif.Props.C39
import Verif.Props.C40
import Verif.Props.C41
import Verif.Props.C42
import Verif.Props.C43
import Verif.Props.C44
import Verif.Props.C45
import Verif.Props.C46
import Verif.Props.C47
import Verif.Props.C48
import Verif.Props.C49
import Verif.Props.C50
import Verif.Props.C51
import Verif.Props.C52
import Verif.Props.C53
import Verif.Props.C54
import Verif.Props.C55
import Verif.Props.C56
import Verif.Props.C57
import Verif.Props.C58
import Verif.Props.C59
import Verif.Props.C60
import Verif.Props.C61
import Verif.Props.C62
import Verif.Props.C63
import Verif.Props.C64
import Verif.Props.C65
import Verif.Props.C66
import Verif.Props.C67
import Verif.Props.C68
import Verif.Props.C69
import Verif.Props.C70
import Verif.Props.C71
import Verif.Props.C72
import Verif.Props.C73
import Verif.Props.C74
import Verif.Props.C75
import Verif.Props.C76
import Verif.Props.C77
import Verif.Props.C78
import Verif.Props.C79
import Verif.Props.C80
import Verif.Props.C81
import Verif.Props.C82
import Verif.Props.C83
import Verif.Props.C84
import Verif.Props.C85
import Verif.Props.C86
import Verif.Props.C87
import Verif.Props.C88
import Verif.Props.C89
import Verif.Props.C90
import Verif.Props.C91
import Verif.Props.C92
import Verif.Props.C93
import Verif.Props.C94
import Verif.Props.C95
import Verif.Props.C96
import Verif.Props.C97
import Verif.Props.C98
import Verif.Props.C99
import Verif.ScopeMap
import Verif.Semantics
import Verif.Servers.Diag
import Verif.Servers.Emit
import Verif.Servers.Lsp
import Verif.Servers.LspHonest
import Verif.Servers.LspLemmas
import Verif.Servers.Position
import Verif.Servers.Status
import Verif.Servers.StatusLemmas
import Verif.Slicing.Compare
import Verif.Slicing.Distinct
import Verif.Slicing.Exploration
import Verif.Slicing.Failing
import Verif.Slicing.FailingSound
import Verif.Slicing.Minimizer
import Verif.Slicing.Transform
import Verif.Slicing.TransformKeeps
import Verif.Slicing.TransformSound
import Verif.Slicing.Verifying
import Verif.Smt.Accessed
import Verif.Smt.Concrete
import Verif.Smt.ConcreteList
import Verif.Smt.EUReal
import Verif.Smt.EURealLemmas
import Verif.Smt.Funcs
import Verif.Smt.FuncsSound
import Verif.Smt.List
import Verif.Smt.Literals
import Verif.Smt.LiteralsLemmas
import Verif.Smt.Orders
import Verif.Smt.PrettyRational
import Verif.Smt.Report
import Verif.Smt.Shared
import Verif.Smt.Stats
import Verif.Smt.Symbols
import Verif.Smt.Translate
import Verif.Smt.TranslateMain
import Verif.Smt.TranslateOps
import Verif.Smt.TranslateQuant
import Verif.Smt.TranslateSound
import Verif.Spec
import Verif.Subst
import Verif.Syntax
import Verif.Tot
import Verif.TyCtx
import Verif.Vc.Explain
import Verif.Vc.ExplainSound
import Verif.Vc.ExplainSpec
import Verif.Vc.Layout
import Verif.Vcgen
import Verif.VcgenLemmas
import Verif.VcgenSound
import Verif.Witness
