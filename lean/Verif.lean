import Verif.Props.Labels
import Verif.Props.IndexLists
import Verif.Props.Tensors
import Verif.Props.Partitions
import Verif.Props.HoleDensity
import Verif.Props.Elementary
import Verif.Props.Backtrack
import Verif.Props.MacroSearch
import Verif.Props.Contract
import Verif.Props.Commutator
import Verif.Props.Terms
import Verif.Props.Combine
import Verif.Props.Sympy
import Verif.Model.PhysOp
import Verif.Spec.Products
import Verif.Lemmas.PhysOp
import Verif.Lemmas.PhysOpUnique
import Verif.Lemmas.PhysOpRun
import Verif.Lemmas.Exec
import Verif.Props.PhysOp
import Verif.Lemmas.ContractValue
import Verif.Props.ContractValue
import Verif.Spec.Constructed
import Verif.Lemmas.RelabelTotal
import Verif.Lemmas.Ddca
import Verif.Props.Blocks
import Verif.Model.TermOps
import Verif.Lemmas.TermOps
import Verif.Spec.Excitation
import Verif.Spec.Gradient
import Verif.Lemmas.Gradient
import Verif.Lemmas.PlainCanon
import Verif.Props.TermOps
import Verif.Spec.SpinCases
import Verif.Lemmas.SpinCases
import Verif.Props.SpinCases
import Verif.Model.Ambit
import Verif.Spec.AmbitCode
import Verif.Lemmas.Ambit
import Verif.Lemmas.AmbitCode
import Verif.Lemmas.PermuteCount
import Verif.Lemmas.AmbitEffect
import Verif.Lemmas.AmbitSym
import Verif.Lemmas.Buckets
import Verif.Props.Ambit
import Verif.Props.Misc
import Verif.Props.ContractionPath
import Verif.Props.Forte
import Verif.Spec.Bch
import Verif.Model.Bch
import Verif.Lemmas.SimplifyShape
import Verif.Lemmas.Tidy
import Verif.Lemmas.SympyTidy
import Verif.Lemmas.Bch
import Verif.Spec.NestedWords
import Verif.Lemmas.NestedWords
import Verif.Props.Bch
import Verif.Spec.NestedValue
import Verif.Lemmas.BchValue
import Verif.Props.BchValue
import Verif.Lemmas.Orientation
import Verif.Lemmas.OrientationMoves
import Verif.Lemmas.SympyHalves
import Verif.Lemmas.SoundTerm
import Verif.Lemmas.SympyTotal
import Verif.Lemmas.SimplifyTotal
import Verif.Lemmas.RowTotal
import Verif.Model.Raises
import Verif.Lemmas.NoRaise
import Verif.Spec.Library
import Verif.Props.Total
import Verif.Spec.Wick
import Verif.Lemmas.WickAlgebra
import Verif.Lemmas.WickRows
import Verif.Lemmas.WickContraction
import Verif.Lemmas.WickMatch
import Verif.Lemmas.WickProduct
import Verif.Lemmas.WickValue
import Verif.Props.Wick
import Verif.Spec.Transformation
import Verif.Lemmas.WickBch
import Verif.Props.Transformation
import Verif.Spec.ConnectedProducts
import Verif.Lemmas.ConnectedRows
import Verif.Lemmas.ConnectedCancel
import Verif.Lemmas.ConnectedAlgebra
import Verif.Lemmas.ConnectedValue
import Verif.Props.Connected
import Verif.Props.Lost
import Verif.Props.Commutators
import Verif.Spec.Singlet
import Verif.Model.Singlet
import Verif.Lemmas.SignedSum
import Verif.Lemmas.SingletPair
import Verif.Lemmas.Singlet
import Verif.Lemmas.SingletRows
import Verif.Props.Singlet
import Verif.Model.ZerothOrder
import Verif.Spec.ZerothOrder
import Verif.Lemmas.ZerothOrder
import Verif.Props.ZerothOrder
import Verif.Model.Latex
import Verif.Spec.Latex
import Verif.Lemmas.Latex
import Verif.Lemmas.LatexValue
import Verif.Props.Latex
import Verif.Spec.CanonicalForm
import Verif.Lemmas.CanonUnique
import Verif.Lemmas.Naming
import Verif.Lemmas.CanonEntries
import Verif.Lemmas.CanonLeads
import Verif.Lemmas.CanonChain
import Verif.Lemmas.CanonMain
import Verif.Lemmas.CanonSame
import Verif.Lemmas.SimplifyPlain
import Verif.Lemmas.CanonSymm
import Verif.Lemmas.CanonBack
import Verif.Lemmas.Collected
import Verif.Props.Collected
import Verif.Props.CanonicalForm
import Verif.Model.Hessian
import Verif.Spec.Hessian
import Verif.Lemmas.Hessian
import Verif.Props.Hessian
import Verif.Lemmas.Printed
import Verif.Spec.EndToEnd
import Verif.Lemmas.Written
import Verif.Props.EndToEnd
import Verif.Model.DirectT3
import Verif.Spec.DirectT3
import Verif.Lemmas.DirectT3
import Verif.Props.DirectT3
import Verif.Model.AmbitText
import Verif.Spec.AmbitText
import Verif.Lemmas.AmbitText
import Verif.Props.AmbitText
import Verif.Model.ForteText
import Verif.Spec.ForteText
import Verif.Lemmas.ForteText
import Verif.Lemmas.ForteFiles
import Verif.Props.ForteText
import Verif.Spec.DirectT3Text
import Verif.Lemmas.DirectT3Text
import Verif.Props.DirectT3Text
import Verif.Model.Iteration
import Verif.Spec.Iteration
import Verif.Lemmas.Iteration
import Verif.Props.Iteration
import Verif.Model.SpaceCounter
import Verif.Props.SpaceCounter
import Verif.Model.Hashing
import Verif.Lemmas.Hashing
import Verif.Props.Hashing
import Verif.Spec.Paired
import Verif.Spec.TermCalls
import Verif.Model.TermObject
import Verif.Lemmas.TermObject
import Verif.Lemmas.TermRepeat
import Verif.Lemmas.TermRaise
import Verif.Lemmas.TermHistory
import Verif.Props.TermObject
import Verif.Model.Parse
import Verif.Spec.Parse
import Verif.Props.Parse
import Verif.Lemmas.SpinTotal
import Verif.Props.SpinLibrary
import Verif.Lemmas.ReadyTerm
import Verif.Lemmas.ReadyOps
import Verif.Lemmas.DistinctTerms
import Verif.Lemmas.LibraryNice
import Verif.Props.LibraryOps
import Verif.Spec.Program
import Verif.Props.Program
import Verif.Spec.OpenWindow
import Verif.Lemmas.OpenWindow
import Verif.Props.OpenWindow
import Verif.Lemmas.Cumulants
import Verif.Spec.SpinCode
import Verif.Lemmas.SpinCode
import Verif.Props.SpinCode
import Verif.Props.Schedule
import Verif.Props.SetOrder
import Verif.Spec.Hermitian
import Verif.Props.Hermitian
import Verif.Spec.Linked
import Verif.Lemmas.Linked
import Verif.Props.Linked
import Verif.Spec.ProperFactors
import Verif.Lemmas.ProperFactors
import Verif.Props.ProperFactors
import Verif.Props.LibraryObject
import Verif.Spec.Rank
import Verif.Lemmas.Rank
import Verif.Props.Rank
import Verif.Lemmas.RankNested
import Verif.Lemmas.Similarity
import Verif.Props.Similarity
import Verif.Lemmas.NestedWindow
import Verif.Props.NestedWindow
import Verif.Spec.NetExcitation
import Verif.Lemmas.NetExcitation
import Verif.Props.NetExcitation
import Verif.Lemmas.NetExcitationNested
