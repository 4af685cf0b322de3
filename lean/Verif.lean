import Verif.Operators.Props
import Verif.Hilbert.FopsProps
import Verif.Hilbert.SpaceProps
import Verif.Hilbert.ImpProps
import Verif.Hilbert.StateProps
import Verif.Utility.RealOrComplex
import Verif.Operators.Archive
import Verif.Operators.Extract
import Verif.Utility.TimePt
import Verif.Mesh.Matsubara
import Verif.Mesh.Linear
import Verif.Mesh.Lattice
import Verif.Mesh.Product
import Verif.Mesh.EqAdjoint
import Verif.Hilbert.PartitionMerge
import Verif.AtomDiag.Auto
import Verif.AtomDiag.Qn
import Verif.DetManip.Props
import Verif.DetManip.Neg
import Verif.MC.Buffered
import Verif.MC.Mersenne
import Verif.MC.Sampling
import Verif.MC.Run
import Verif.MC.Measures
import Verif.MC.Balance
import Verif.Stat.Lin
import Verif.Stat.Moments
import Verif.Stat.Log
import Verif.Stat.Mean
import Verif.Stat.Acc
import Verif.Stat.Hist
import Verif.Gfs.Dft
import Verif.Gfs.FourierMatsubara
import Verif.Gfs.FourierReal
import Verif.Lattice.Bravais
import Verif.Gfs.FourierLattice
import Verif.Lattice.TightBinding
import Verif.Lattice.Grid
import Verif.Lattice.Dos
import Verif.Gfs.ImFreq
import Verif.Gfs.Flatten
import Verif.Utility.Legendre
import Verif.Utility.Pade
import Verif.Mesh.TailFit
import Verif.Gfs.TauMoments
import Verif.AtomDiag.Complete
import Verif.AtomDiag.Matrices
import Verif.AtomDiag.Spectral
import Verif.AtomDiag.Thermal
import Verif.AtomDiag.Lehmann
import Verif.Gfs.LegendreMatsubara
import Verif.AtomDiag.LehmannLegendre
import Verif.Gfs.GfCore
import Verif.Gfs.BlockGf
import Verif.Gfs.Density
import Verif.Gfs.Rebin
import Verif.Operators.TwoBody
import Verif.Operators.Hamiltonians
import Verif.Operators.Observables
import Verif.Operators.Parts
import Verif.Operators.ThreeJ
import Verif.Operators.CubicBasis
import Verif.Operators.UMatrix
import Verif.Lattice.SuperLattice
import Verif.Utility.RootFinding
import Verif.Utility.MpiSlice
import Verif.Lattice.HilbertTransform
import Verif.Lattice.KGrid
import Verif.Lattice.DosDensity
import Verif.Gfs.PyArith
import Verif.Gfs.Dyson
import Verif.Gfs.Bath
import Verif.Gfs.BathFit
import Verif.Gfs.FitLegendre
import Verif.Gfs.Descriptors
import Verif.Gfs.LazyExpr
import Verif.Lattice.KPath
import Verif.Lattice.Wannier
import Verif.Lattice.Convert
import Verif.Gfs.Dlr
import Verif.Gfs.PyAccess
import Verif.Gfs.PyBlocks
import Verif.Gfs.PyBlock2
import Verif.Utility.H5Diff
import Verif.Gfs.TxtFiles
import Verif.Gfs.PyPlot
import Verif.Gfs.SymGrp
import Verif.Gfs.PartialTransform
import Verif.Mesh.PyFreq
import Verif.Utility.Timer
import Verif.Utility.TupleTools
import Verif.Gfs.TestTools
import Verif.Lattice.BzPatch
import Verif.Gfs.MatrixOps
import Verif.Gfs.PathPoints
import Verif.MC.Signals
import Verif.Gfs.PadeGf
import Verif.Gfs.PyGf
import Verif.Gfs.PyBlockArith
import Verif.DetManip.Archive
import Verif.MC.MoveStats
import Verif.MC.MoveArchive
import Verif.AtomDiag.AdArchive
import Verif.Mesh.Archive
import Verif.Gfs.GfArchive
import Verif.Gfs.PyCompat
import Verif.Utility.DistNodes
import Verif.Lattice.DosObjects
import Verif.Float.Binary64
import Verif.Float.Random
import Verif.Float.TimePoints
import Verif.Float.Relative
import Verif.Float.LinearMesh
import Verif.Float.Histogram
import Verif.Float.Moves
import Verif.Float.Generator
import Verif.Float.Matsubara
import Verif.Float.Mean
import Verif.Float.Progress
import Verif.Float.Thermal
import Verif.Utility.ScopeExit
import Verif.Utility.Capture
import Verif.Utility.Redirect
import Verif.Float.OperatorAlgebra
import Verif.Float.OperatorError
import Verif.Float.RootFinding
import Verif.Lattice.SumKHeap
import Verif.Float.LatticePoints
import Verif.Float.Dos
import Verif.Float.Rebin
import Verif.Float.Hermitian
import Verif.Float.ClosestPoint
import Verif.Float.Interpolation
import Verif.Float.DetTrack
import Verif.Float.Legendre
import Verif.Float.Product
import Verif.Float.Jackknife
import Verif.Float.NodeSum
import Verif.Float.TightBinding
import Verif.Float.DosBins
import Verif.Float.LinearBins
import Verif.Float.Interaction
import Verif.Float.NodeMean
import Verif.Float.OperatorParts
import Verif.Float.LegendreSum
import Verif.Float.ZeroDensity
import Verif.Float.AutoCorrelation
import Verif.Float.LogErrors
import Verif.Float.FermiDensity
import Verif.Float.SemiCircular
import Verif.Float.ErrorBars
