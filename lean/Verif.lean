import Verif.Adiabatic.Alg
import Verif.Adiabatic.Limit
import Verif.Adiabatic.Model
import Verif.Adiabatic.Refute
import Verif.Adiabatic.Semigroup
import Verif.Adiabatic.Thm
import Verif.Adiabatic.Try
import Verif.Ascii.C73
import Verif.Ascii.Circuit
import Verif.Ascii.CircuitThm
import Verif.Ascii.Print
import Verif.Ascii.Read
import Verif.Ascii.Thm
import Verif.CPerm.Lemmas
import Verif.CPerm.MapChan
import Verif.CPerm.Model
import Verif.CPerm.Spec
import Verif.CPerm.Thm
import Verif.Cache.AddRule
import Verif.Cache.AddRuleThm
import Verif.Cache.Create
import Verif.Cache.Feedback
import Verif.Cache.Key
import Verif.Cache.Rules
import Verif.Cache.RulesThm
import Verif.Circuit.Alg
import Verif.Circuit.Blocks
import Verif.Circuit.Connect
import Verif.Circuit.Create
import Verif.Circuit.FbRules
import Verif.Circuit.Inst
import Verif.Circuit.Loop
import Verif.Circuit.Model
import Verif.Circuit.Mono
import Verif.Circuit.Pad
import Verif.Circuit.Refute
import Verif.Circuit.SeriesRules
import Verif.Circuit.Spec
import Verif.Circuit.Stable
import Verif.Circuit.Term
import Verif.Circuit.TermAll
import Verif.Circuit.TermBlocks
import Verif.Circuit.TermConcat
import Verif.Circuit.TermEngine
import Verif.Circuit.TermGood
import Verif.Circuit.TermPerm
import Verif.Circuit.TermSeries
import Verif.Circuit.TermStep1
import Verif.Circuit.TermStep2
import Verif.Circuit.TermStep3
import Verif.Circuit.TermStep4
import Verif.Circuit.Thm
import Verif.Circuit.Wire
import Verif.Convert.Kets
import Verif.Convert.Main
import Verif.Convert.Model
import Verif.Convert.Ops
import Verif.Convert.OpsSympy
import Verif.Convert.Rep
import Verif.Convert.Thm
import Verif.Convert.Time
import Verif.Deriv.Main
import Verif.Deriv.Mixed
import Verif.Deriv.Model
import Verif.Deriv.Refute
import Verif.Deriv.Spec
import Verif.Deriv.Thm
import Verif.Engine.Lemmas
import Verif.Engine.Model
import Verif.Engine.Term
import Verif.Engine.Thm
import Verif.Equation.Model
import Verif.Equation.Thm
import Verif.Flat.Model
import Verif.Flat.Thm
import Verif.Hilbert.Basis
import Verif.Hilbert.Lemmas
import Verif.Hilbert.Model
import Verif.Hilbert.Ordering
import Verif.Hilbert.ProdBasis
import Verif.Hilbert.Thm
import Verif.Indexed.Driver
import Verif.Indexed.Model
import Verif.Indexed.Pow
import Verif.Indexed.Sem
import Verif.Indexed.Term
import Verif.Indexed.Thm32
import Verif.Indexed.Thm33
import Verif.Indexed.Thm34
import Verif.Indexed.Thm47
import Verif.Indexed.Thm81
import Verif.Linear.Fock
import Verif.Linear.Model
import Verif.Linear.Realize
import Verif.Linear.Refute
import Verif.Linear.Thm
import Verif.Linear.Thm69
import Verif.Liouv.C80
import Verif.Liouv.Model
import Verif.Mat.Alg
import Verif.Mat.Blocks
import Verif.Mat.Model
import Verif.Mat.Parts
import Verif.Network.Connect
import Verif.Network.Example
import Verif.Network.Law
import Verif.Network.Thm
import Verif.Order.Key
import Verif.Osc.Coherent
import Verif.Osc.Fock
import Verif.Osc.Model
import Verif.Osc.Thm
import Verif.Pattern.Dict
import Verif.Pattern.Lemmas
import Verif.Pattern.Main
import Verif.Pattern.Model
import Verif.Pattern.Spec
import Verif.Pattern.Thm
import Verif.Perm.BlockLoop
import Verif.Perm.BlockPerm
import Verif.Perm.Blocks
import Verif.Perm.Cycles
import Verif.Perm.Lemmas
import Verif.Perm.Model
import Verif.Perm.Seq
import Verif.Perm.Spec
import Verif.Perm.Thm
import Verif.Perm.Within
import Verif.PlusMinus.Example
import Verif.PlusMinus.Pm
import Verif.Print.C74
import Verif.Print.Config
import Verif.Print.Dot
import Verif.Print.Kwargs
import Verif.Print.Lex
import Verif.Print.Line
import Verif.Print.Py
import Verif.Print.Roundtrip
import Verif.Print.Srepr
import Verif.Print.SreprInd
import Verif.Print.SreprThm
import Verif.Print.TreePrint
import Verif.PyEq.C79
import Verif.PyEq.Model
import Verif.QAlg.Arith
import Verif.QAlg.Coeffs
import Verif.QAlg.Commutator
import Verif.QAlg.Diff
import Verif.QAlg.Model
import Verif.QAlg.Series
import Verif.QAlg.Term
import Verif.QAlg.Thm29
import Verif.QAlg.Thm30
import Verif.QAlg.Value
import Verif.Rewrite.Model
import Verif.Rewrite.Rules
import Verif.Rewrite.Subst
import Verif.SLH.Aff
import Verif.SLH.AffBlocks
import Verif.SLH.AffFb
import Verif.SLH.AffPerm
import Verif.SLH.Drive
import Verif.SLH.Dynamics
import Verif.SLH.Fb
import Verif.SLH.Model
import Verif.SLH.Spec
import Verif.SLH.Splitter
import Verif.SLH.Thm
import Verif.SLH.ToAff
import Verif.Scalar.Calc
import Verif.Scalar.Compare
import Verif.Scalar.Div
import Verif.Scalar.Expanded
import Verif.Scalar.Model
import Verif.Scalar.Root
import Verif.Scalar.Thm
import Verif.Scalar.Total
import Verif.Spin.Model
import Verif.Spin.Pauli
import Verif.Spin.Thm
import Verif.State.Beq
import Verif.State.Example
import Verif.State.Expand
import Verif.State.Final
import Verif.State.InBasis
import Verif.State.Main
import Verif.State.Model
import Verif.State.Spec
import Verif.State.Thm
import Verif.State.Value
import Verif.Super.Model
import Verif.Super.Order
import Verif.Super.Thm39
import Verif.Super.Thm40
import Verif.Super.Value
import Verif.SympyPrint.Derat
import Verif.SympyPrint.Latex
import Verif.SympyPrint.LatexC103
import Verif.SympyPrint.LatexC104
import Verif.SympyPrint.LatexContent
import Verif.SympyPrint.LatexDeriv
import Verif.SympyPrint.LatexEx
import Verif.SympyPrint.LatexModel
import Verif.SympyPrint.LatexOp
import Verif.SympyPrint.LatexThm
import Verif.SympyPrint.LatexWhole
import Verif.SympyPrint.UniSub
import Verif.Trace.Main
import Verif.Trace.Model
import Verif.Trace.Ptrace
import Verif.Trace.Thm
import Verif.Util.KernelRfl
import Verif.Util.PySort
import Verif.Util.Sort
import Verif.Visual.C77
import Verif.Visual.Comp
import Verif.Visual.Join
import Verif.Visual.Loop
import Verif.Visual.Parts
import Verif.Visual.Pic
