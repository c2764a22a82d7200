import Verif.Coef
import Verif.Lemmas.Adjoint
import Verif.Lemmas.Antiunitary
import Verif.Lemmas.ArgSort
import Verif.Lemmas.Basis
import Verif.Lemmas.BasisChange
import Verif.Lemmas.BdgShift
import Verif.Lemmas.Cliques
import Verif.Lemmas.Cluster
import Verif.Lemmas.CommutingOperators
import Verif.Lemmas.Components
import Verif.Lemmas.Conversion
import Verif.Lemmas.Core
import Verif.Lemmas.Covariance
import Verif.Lemmas.Description
import Verif.Lemmas.DiagNumerics
import Verif.Lemmas.Diagonalization
import Verif.Lemmas.Distance
import Verif.Lemmas.Energies
import Verif.Lemmas.EnergyArithmetic
import Verif.Lemmas.EnergyMaps
import Verif.Lemmas.Entropy
import Verif.Lemmas.Equivariance
import Verif.Lemmas.ExactLu
import Verif.Lemmas.Expansion
import Verif.Lemmas.ExpansionLoop
import Verif.Lemmas.Explore
import Verif.Lemmas.ExploreSeveral
import Verif.Lemmas.Fermion
import Verif.Lemmas.FermionToMajorana
import Verif.Lemmas.GeneratorCumulative
import Verif.Lemmas.GeneratorNoncumulative
import Verif.Lemmas.GeneratorOne
import Verif.Lemmas.GeneratorOrthogonal
import Verif.Lemmas.GeneratorProject
import Verif.Lemmas.GeneratorSwap
import Verif.Lemmas.GeneratorVecs
import Verif.Lemmas.GeneratorVecsCumulative
import Verif.Lemmas.GreedyBasis
import Verif.Lemmas.GreedyCommutant
import Verif.Lemmas.GreedyGeneral
import Verif.Lemmas.GreedyLoop
import Verif.Lemmas.GreedyNumerics
import Verif.Lemmas.GreedyPenalty
import Verif.Lemmas.GreedySeveral
import Verif.Lemmas.GreedySolve
import Verif.Lemmas.GreedyStop
import Verif.Lemmas.GreedySymmetry
import Verif.Lemmas.Heap
import Verif.Lemmas.HeapPure
import Verif.Lemmas.Hermitian
import Verif.Lemmas.Idempotence
import Verif.Lemmas.Independent
import Verif.Lemmas.InvariantOperators
import Verif.Lemmas.JordanWigner
import Verif.Lemmas.Kramers
import Verif.Lemmas.Ladder
import Verif.Lemmas.LadderHermitian
import Verif.Lemmas.LadderInverse
import Verif.Lemmas.LadderLinAlg
import Verif.Lemmas.LadderMain
import Verif.Lemmas.LadderNumerics
import Verif.Lemmas.LadderOpen
import Verif.Lemmas.LadderOps
import Verif.Lemmas.LadderOriginal
import Verif.Lemmas.LadderTable
import Verif.Lemmas.LadderVectors
import Verif.Lemmas.Lanczos
import Verif.Lemmas.Lattice
import Verif.Lemmas.LatticeConcrete
import Verif.Lemmas.LatticeDistance
import Verif.Lemmas.LatticeIndex
import Verif.Lemmas.LatticeSymmetry
import Verif.Lemmas.LieAlgebra
import Verif.Lemmas.LieExact
import Verif.Lemmas.LieExample
import Verif.Lemmas.LieInitial
import Verif.Lemmas.LieOperators
import Verif.Lemmas.LieProjector
import Verif.Lemmas.LinAlg
import Verif.Lemmas.Liouvillian
import Verif.Lemmas.MajoranaToFermion
import Verif.Lemmas.ManyBody
import Verif.Lemmas.ManyCalls
import Verif.Lemmas.ManyOps
import Verif.Lemmas.ManyOps2
import Verif.Lemmas.ManyOps2Total
import Verif.Lemmas.ManySteps
import Verif.Lemmas.MatOf
import Verif.Lemmas.Matrix
import Verif.Lemmas.Names
import Verif.Lemmas.Operation
import Verif.Lemmas.OperationCore
import Verif.Lemmas.Operator
import Verif.Lemmas.OriginalTable
import Verif.Lemmas.PauliTrace
import Verif.Lemmas.PermGroup
import Verif.Lemmas.PermSign
import Verif.Lemmas.Permutation
import Verif.Lemmas.PointGroup
import Verif.Lemmas.Quadratic
import Verif.Lemmas.QuadraticConversion
import Verif.Lemmas.QuadraticLadder
import Verif.Lemmas.QuadraticMatrix
import Verif.Lemmas.QuadraticModes
import Verif.Lemmas.QuadraticSpectrum
import Verif.Lemmas.RealMat
import Verif.Lemmas.Reversal
import Verif.Lemmas.Rounding
import Verif.Lemmas.SelectedCi
import Verif.Lemmas.Sends
import Verif.Lemmas.Site
import Verif.Lemmas.Sort
import Verif.Lemmas.SpaceGroup
import Verif.Lemmas.SpaceGroupAlgebra
import Verif.Lemmas.Sparsify
import Verif.Lemmas.Spectrum
import Verif.Lemmas.SpectrumExact
import Verif.Lemmas.StateSymmetry
import Verif.Lemmas.StrAlg
import Verif.Lemmas.StrAlgInst
import Verif.Lemmas.StructureConstants
import Verif.Lemmas.Subsystem
import Verif.Lemmas.SymGroup
import Verif.Lemmas.Symmetrization
import Verif.Lemmas.SymmetryMatrix
import Verif.Lemmas.Text
import Verif.Lemmas.TiltedNumerics
import Verif.Lemmas.Transformation
import Verif.Lemmas.Truncate
import Verif.Lemmas.Vector
import Verif.Lemmas.Visualization
import Verif.Lemmas.ZeroModes
import Verif.Model.AlgebraMatrix
import Verif.Model.AlgebraOperator
import Verif.Model.AlgebraString
import Verif.Model.Algorithms
import Verif.Model.Basis
import Verif.Model.Cluster
import Verif.Model.Conversion
import Verif.Model.Core
import Verif.Model.Diagonalization
import Verif.Model.Distance
import Verif.Model.Entropy
import Verif.Model.Generator
import Verif.Model.GeneratorVecs
import Verif.Model.Graph
import Verif.Model.Greedy
import Verif.Model.Heap
import Verif.Model.Ladder
import Verif.Model.LadderOriginal
import Verif.Model.Lanczos
import Verif.Model.Lattice
import Verif.Model.LatticeSymmetry
import Verif.Model.LieAlgebra
import Verif.Model.LieOperators
import Verif.Model.LinAlg
import Verif.Model.ManyOps
import Verif.Model.Matrix
import Verif.Model.Names
import Verif.Model.OpString
import Verif.Model.Quadratic
import Verif.Model.QuadraticSpectrum
import Verif.Model.SelectedCi
import Verif.Model.SpaceGroup
import Verif.Model.Sparsify
import Verif.Model.Spectrum
import Verif.Model.Symmetrization
import Verif.Model.Text
import Verif.Model.Tools
import Verif.Model.Transformation
import Verif.Model.Visualization
import Verif.Props.Adjoint
import Verif.Props.AlgebraLaws
import Verif.Props.Algorithms
import Verif.Props.AnticommutingEnergies
import Verif.Props.BasisChange
import Verif.Props.BdgShift
import Verif.Props.Cluster
import Verif.Props.CommutantAlgebra
import Verif.Props.CommutantArithmetic
import Verif.Props.CommutingEnergies
import Verif.Props.Conversion
import Verif.Props.ConversionInverse
import Verif.Props.ConversionProduct
import Verif.Props.Core
import Verif.Props.Counting
import Verif.Props.Covariance
import Verif.Props.Defaults
import Verif.Props.Description
import Verif.Props.Diagonalization
import Verif.Props.Energies
import Verif.Props.EnergyArithmetic
import Verif.Props.EnergyMaps
import Verif.Props.Entropy
import Verif.Props.Equality
import Verif.Props.Equivariance
import Verif.Props.Expansion
import Verif.Props.Generator
import Verif.Props.GeneratorDefault
import Verif.Props.GeneratorOrthogonal
import Verif.Props.GeneratorVecs
import Verif.Props.Graph
import Verif.Props.Greedy
import Verif.Props.GreedyCommutant
import Verif.Props.GreedyGeneral
import Verif.Props.GreedySeveral
import Verif.Props.GreedySymmetry
import Verif.Props.GreedyTarget
import Verif.Props.Heap
import Verif.Props.HeapPure
import Verif.Props.Idempotence
import Verif.Props.InvariantContraction
import Verif.Props.Kramers
import Verif.Props.Ladder
import Verif.Props.LadderInverse
import Verif.Props.LadderOriginal
import Verif.Props.Lanczos
import Verif.Props.Lattice
import Verif.Props.LatticeSymmetry
import Verif.Props.LieAlgebra
import Verif.Props.LieOperators
import Verif.Props.LieOperatorsRefuted
import Verif.Props.LinAlg
import Verif.Props.Locality
import Verif.Props.ManyBody
import Verif.Props.ManyOps
import Verif.Props.Matrix
import Verif.Props.Names
import Verif.Props.Operator
import Verif.Props.Parameters
import Verif.Props.Quadratic
import Verif.Props.QuadraticSpectrum
import Verif.Props.Rounding
import Verif.Props.SelectedCi
import Verif.Props.SpaceGroup
import Verif.Props.SpaceGroupAlgebra
import Verif.Props.Sparsify
import Verif.Props.Spectrum
import Verif.Props.StateSymmetry
import Verif.Props.StringAlgebra
import Verif.Props.Symmetrization
import Verif.Props.SymmetryMatrix
import Verif.Props.SymmetryProducts
import Verif.Props.Text
import Verif.Props.Tools
import Verif.Props.Transformation
import Verif.Props.Visualization
import Verif.RealCoef
import Verif.Spec.Adjoint
import Verif.Spec.AlgebraLaws
import Verif.Spec.Algorithms
import Verif.Spec.BasisChange
import Verif.Spec.Cluster
import Verif.Spec.CommutantAlgebra
import Verif.Spec.Concrete
import Verif.Spec.Conversion
import Verif.Spec.ConversionProduct
import Verif.Spec.Core
import Verif.Spec.Covariance
import Verif.Spec.Defaults
import Verif.Spec.Description
import Verif.Spec.Diagonalization
import Verif.Spec.Energies
import Verif.Spec.EnergyArithmetic
import Verif.Spec.EnergyMaps
import Verif.Spec.Entropy
import Verif.Spec.Equivariance
import Verif.Spec.Expansion
import Verif.Spec.Fermion
import Verif.Spec.Generator
import Verif.Spec.GeneratorOrthogonal
import Verif.Spec.GeneratorVecs
import Verif.Spec.Graph
import Verif.Spec.Greedy
import Verif.Spec.GreedyCommutant
import Verif.Spec.GreedySeveral
import Verif.Spec.GreedySymmetry
import Verif.Spec.Histories
import Verif.Spec.JordanWigner
import Verif.Spec.Kramers
import Verif.Spec.Ladder
import Verif.Spec.LadderOriginal
import Verif.Spec.Lanczos
import Verif.Spec.Lattice
import Verif.Spec.LatticeSymmetry
import Verif.Spec.LieAlgebra
import Verif.Spec.LieOperators
import Verif.Spec.LinAlg
import Verif.Spec.Linear
import Verif.Spec.ManyBody
import Verif.Spec.ManyOps
import Verif.Spec.Matrix
import Verif.Spec.MatrixRep
import Verif.Spec.Names
import Verif.Spec.Perm
import Verif.Spec.Quadratic
import Verif.Spec.QuadraticSpectrum
import Verif.Spec.Rep
import Verif.Spec.Rounding
import Verif.Spec.SelectedCi
import Verif.Spec.Sorting
import Verif.Spec.SpaceGroup
import Verif.Spec.SpaceGroupAlgebra
import Verif.Spec.Sparsify
import Verif.Spec.Spectrum
import Verif.Spec.Symmetrization
import Verif.Spec.Transformation
import Verif.Spec.Visualization
