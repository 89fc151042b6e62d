import Verif.Model.Expression
import Verif.Proof.Order
import Verif.Proof.MapLemmas
import Verif.Proof.Normalize
import Verif.Proof.Soundness
import Verif.Proof.Linear
import Verif.Proof.ExprLemmas
import Verif.Proof.Canonical
import Verif.Proof.Predefined
import Verif.Proof.Fixpoint
import Verif.Proof.Reachable

import Verif.Proof.RegularF
import Verif.Proof.Regular
import Verif.Proof.Faithful
import Verif.Proof.Hom
import Verif.Proof.Conj
import Verif.Props.Order
import Verif.Props.Normalisation
import Verif.Props.Expression
import Verif.Props.Relations
import Verif.Props.Products
import Verif.Props.Alias

import Verif.Props.BitOps
import Verif.Props.Ranking
import Verif.Props.HilbertSpace
import Verif.Props.MonomialAction
import Verif.Props.StateVector
import Verif.Props.LOperator
import Verif.Props.FockProducts
import Verif.Props.CompView
import Verif.Props.Mapper
import Verif.Props.Sector
import Verif.Props.MultiSector
import Verif.Props.DisjointSets
import Verif.Props.Partition
import Verif.Props.PartitionF6
import Verif.Props.Trie
import Verif.Props.Charge
import Verif.Props.SectorAction
import Verif.Props.AllSpins
import Verif.Props.AnyScalar
import Verif.Props.MixedTypes
import Verif.Props.Tolerance
import Verif.Props.AnyConj
import Verif.Props.UserAlgebra
import Verif.Props.UserFindings
import Verif.Props.UserProducts
import Verif.Props.UserRelations
import Verif.Props.UserArithmetic
import Verif.Props.UserExamples
import Verif.Props.IntScalar
import Verif.Props.UserAction
import Verif.Props.GammaAction
import Verif.Props.Print
import Verif.Props.Eigen
import Verif.Props.ParamMove
import Verif.Props.ThrowAction
import Verif.Props.FloatBits
import Verif.Props.ViewCopy
import Verif.Props.MonomialApi
import Verif.Props.ComplexFactories
import Verif.Props.SpaceHistory
import Verif.Model.Concurrent
import Verif.Proof.Concurrent
import Verif.Proof.PartFlat
import Verif.Props.Concurrent
import Verif.Model.Faults
import Verif.Spec.Faults
import Verif.Proof.Faults
import Verif.Props.Faults
import Verif.Model.FaultsSpace
import Verif.Spec.FaultsSpace
import Verif.Proof.FaultsSpace
import Verif.Props.FaultsSpace
import Verif.Spec.Relabel
import Verif.Proof.Relabel
import Verif.Proof.RelabelSpace
import Verif.Props.Relabel
import Verif.Spec.Substitute
import Verif.Proof.Substitute
import Verif.Props.Substitute
import Verif.Model.FloatAction
import Verif.Spec.FloatAction
import Verif.Proof.FloatAction
import Verif.Proof.FloatApply
import Verif.Proof.FloatBound
import Verif.Props.FloatAction
import Verif.Model.ESpaceOps
import Verif.Props.ESpaceOps
import Verif.Model.ExprIter
import Verif.Proof.ExprIter
import Verif.Proof.ExprIterLoop
import Verif.Proof.ExprIterStep
import Verif.Props.ExprIter
import Verif.Model.FixedInt
import Verif.Spec.FixedInt
import Verif.Proof.FixedInt
import Verif.Props.FixedInt
import Verif.Spec.ConstRepr
import Verif.Proof.ConstRepr
import Verif.Props.ConstRepr
import Verif.Model.FloatViews
import Verif.Spec.FloatViews
import Verif.Proof.FloatViews
import Verif.Props.FloatViews
import Verif.Model.Heisenberg
import Verif.Proof.Heisenberg
import Verif.Props.Heisenberg
import Verif.Model.Gmp
import Verif.Spec.Gmp
import Verif.Proof.Gmp
import Verif.Props.Gmp
import Verif.Proof.MatrixFaithful
import Verif.Props.MatrixFaithful
import Verif.Proof.BlockAction
import Verif.Props.BlockAction
import Verif.Model.BasisIndex
import Verif.Spec.BasisIndex
import Verif.Proof.BasisIndex
import Verif.Props.BasisIndex
import Verif.Model.JaynesCummings
import Verif.Spec.FockVector
import Verif.Proof.FockVector
import Verif.Proof.JaynesCummings
import Verif.Props.JaynesCummings
import Verif.Spec.CoeffEval
import Verif.Model.Polynomial
import Verif.Proof.CoeffEval
import Verif.Proof.Polynomial
import Verif.Props.CoeffEval
import Verif.Model.Kanamori
import Verif.Proof.SymScalar
import Verif.Proof.Kanamori
import Verif.Props.Kanamori
import Verif.Spec.NumberOps
import Verif.Proof.NumberOps
import Verif.Props.NumberOps
import Verif.Model.Lattice
import Verif.Proof.TermsSpec
import Verif.Proof.Lattice
import Verif.Props.Lattice
import Verif.Model.FillMatrix
import Verif.Proof.FillMatrix
import Verif.Props.FillMatrix
import Verif.Model.HubbardPrograms
import Verif.Proof.HubbardPrograms
import Verif.Props.HubbardPrograms
import Verif.Proof.ChainProgram
import Verif.Props.ChainProgram
import Verif.Model.PartitionProgram
import Verif.Proof.PartitionProgram
import Verif.Proof.PartitionStates
import Verif.Props.PartitionProgram
import Verif.Model.SpinPrograms
import Verif.Proof.SpinPrograms
import Verif.Props.SpinPrograms
import Verif.Model.SpinPair
import Verif.Props.SpinPair
import Verif.Props.GammaProgram
import Verif.Props.SpinSymmetry
import Verif.Props.KanamoriSymmetry
import Verif.Props.KanamoriCommuting
import Verif.Props.PairSpin
import Verif.Props.ConjMixed
import Verif.Props.LatticeSpin
import Verif.Props.PartitionSpin
