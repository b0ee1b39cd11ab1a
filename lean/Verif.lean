import Verif.Props.Triangular
import Verif.Props.Cholesky
import Verif.Props.Qr
import Verif.Props.Tridiagonal
import Verif.Props.Bidiagonal
import Verif.Props.Eigh
import Verif.Props.Sort
import Verif.Props.Norm
import Verif.Props.Svd
import Verif.Props.Ieee
import Verif.Props.Lobpcg
import Verif.Props.LobpcgReal
import Verif.Props.Iterator
import Verif.Props.TruncatedSvd
import Verif.Props.TruncatedSvdRitz
import Verif.Props.LobpcgRitz
import Verif.Props.LobpcgErrors
import Verif.Props.LobpcgRoom
import Verif.Props.LobpcgSubspace
import Verif.Props.Rounding
import Verif.Props.EighTerm
import Verif.Props.SvdTerm
import Verif.Props.Accuracy
import Verif.Props.IteratorOrth
import Verif.Props.Builder
import Verif.Props.RoundingQr
import Verif.Props.RoundingBidiag
import Verif.Props.RoundingTridiag
import Verif.Props.RoundingEigh
import Verif.Props.RoundingSvd
import Verif.Props.EighCycle
import Verif.Props.Underflow
import Verif.Props.CholeskySide
import Verif.Props.NaN
import Verif.Props.Infinity
import Verif.Props.Overflow
import Verif.Props.IeeeSolve
import Verif.Props.IeeeChol
import Verif.Props.IeeeNorm
import Verif.Props.SvdTranspose
import Verif.Props.Trace
import Verif.Props.EighNan
import Verif.Props.Blocks
import Verif.Props.Scaling
import Verif.Props.LobpcgGram
import Verif.Props.LobpcgFull
import Verif.Proofs.Descent
import Verif.Props.LobpcgRate
import Verif.Props.LobpcgAccuracy
import Verif.Props.TruncatedAccuracy
import Verif.Props.LobpcgSettings
import Verif.Props.Precision
import Verif.Props.LobpcgScale
import Verif.Props.FormatRange
import Verif.Props.PseudoInverse
import Verif.Props.SchurComplement
import Verif.Model.SortOrder
import Verif.Props.Signs
import Verif.Props.SortOrder
import Verif.Props.Closed
import Verif.Props.Finite
import Verif.Props.Inexact
import Verif.Props.Formats
import Verif.Props.Agree
import Verif.Props.Perturb
import Verif.Props.Bases
import Verif.Props.Vectors
import Verif.Proofs.LowRank
import Verif.Props.LowRank
import Verif.Props.Extreme
import Verif.Props.ExtremeFloat
import Verif.Props.TriangularBlocks
import Verif.Props.Cross
import Verif.Props.Diagonal
import Verif.Props.RoundingOrth
import Verif.Props.Givens
import Verif.Props.RoundingConstr
import Verif.Props.Forward
import Verif.Props.Memory
import Verif.Proofs.FloatOne
import Verif.Props.TruncatedFloat
import Verif.Spec.Scalings
import Verif.Proofs.PowerScaling
import Verif.Props.PowerScaling
import Verif.Props.LobpcgBasis
import Verif.Props.LobpcgUnits
import Verif.Props.QrUpdate
import Verif.Proofs.CholRange
import Verif.Proofs.CholForward
import Verif.Proofs.CholSteps
import Verif.Proofs.CholSuccess
import Verif.Props.CholRange
import Verif.Proofs.SolveBound
import Verif.Proofs.SolveRange
import Verif.Proofs.SolveFinite
import Verif.Props.SolveRange
import Verif.Props.Special
import Verif.Proofs.TriRange
import Verif.Props.TriRange
import Verif.Props.NormRange
import Verif.Proofs.DotRange
import Verif.Props.DotRange
import Verif.Proofs.HouseRange
import Verif.Props.HouseRange
import Verif.Props.ReflRange
import Verif.Props.RotRange
import Verif.Props.ClearRange
import Verif.Props.RotNorm
import Verif.Props.ClearNorm
import Verif.Props.ClearPost
import Verif.Props.QrRange
import Verif.Props.QrBackward
