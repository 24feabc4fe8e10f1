import Verif.Props.Trees
import Verif.Props.TreesBraid
import Verif.Props.AbelianSym
import Verif.Props.CatBraid
import Verif.Props.Anyons
import Verif.Props.SU2
import Verif.Props.ProductSym
import Verif.Props.Labels
import Verif.Props.Config
import Verif.Props.Dtypes
import Verif.Props.Truncation
import Verif.Props.Tables
import Verif.Props.Tools
import Verif.Props.CostPoly
import Verif.Props.Mappings
import Verif.Props.Spaces
import Verif.Props.Spaces2
import Verif.Props.Legs
import Verif.Props.Legs2
import Verif.Props.TensorProduct
import Verif.Props.TensorProduct2
import Verif.Props.TreeBlocks
import Verif.Props.AbelianPipe
import Verif.Props.AbelianPipe2
import Verif.Props.AbelianLinear
import Verif.Props.AbelianInner
import Verif.Props.AbelianOuter
import Verif.Props.AbelianCompose
import Verif.Props.AbelianAlgebra
import Verif.Props.AbelianDense
import Verif.Props.AbelianDiag
import Verif.Props.AbelianDiag2
import Verif.Props.AbelianMask
import Verif.Props.AbelianMask2
import Verif.Props.AbelianMaskContract
import Verif.Props.AbelianDecomp
import Verif.Props.AbelianDecomp2
import Verif.Props.AbelianCombine
import Verif.Props.AbelianCombine2
import Verif.Props.Sparse
import Verif.Props.Sparse2
import Verif.Props.Lanczos
import Verif.Props.Lanczos2
import Verif.Props.Lanczos3
import Verif.Props.Gmres
import Verif.Props.Gmres2
import Verif.Props.Arnoldi
import Verif.Props.Arnoldi2
import Verif.Props.AbelianScale
import Verif.Props.AbelianTrace
import Verif.Props.AbelianCharge
import Verif.Props.AbelianTdot
import Verif.Props.AbelianPartialCompose
import Verif.Props.AbelianExp
import Verif.Props.AbelianCompare
import Verif.Props.AbelianTdotDiag
import Verif.Props.FTData
import Verif.Props.FTDecomp
import Verif.Props.FTDense
import Verif.Props.Sites
import Verif.Props.Couplings
import Verif.Props.Couplings2
import Verif.Props.CouplingPermute
import Verif.Props.CouplingMpo
import Verif.Props.SiteOps
import Verif.Props.Hdf5
import Verif.Props.NoSym
import Verif.Props.NoSym2
import Verif.Props.NoSym3
import Verif.Props.PermuteEngine
import Verif.Props.TreePairMapping
import Verif.Props.FactorizedMapping
import Verif.Props.Planar
import Verif.Props.PlanarPermute
import Verif.Props.PlanarContract
import Verif.Props.PlanarTrace
import Verif.Props.ContractionTree
import Verif.Props.PlanarDiagram
import Verif.Props.PlanarDiagramEdit
import Verif.Props.DirectSum
import Verif.Props.TensorGrid
import Verif.Props.TensorGrid2
import Verif.Props.AbelianHistory
import Verif.Props.TruncatedSvd
import Verif.Props.Charged
import Verif.Props.Charged2
import Verif.Props.Charged3
import Verif.Props.Charged4
import Verif.Props.TreeOuter
import Verif.Props.SU33
import Verif.Props.ProductSymN
import Verif.Props.Pinv
import Verif.Props.FTScale
import Verif.Props.FTMask
import Verif.Props.FTDiag
import Verif.Props.FTDiag2
import Verif.Props.FTDiag3
import Verif.Props.FTDiag4
import Verif.Props.FTMaskOps
import Verif.Props.FTMaskOps2
import Verif.Props.FTMaskOps3
import Verif.Props.FTMaskOps4
import Verif.Props.FTMaskOps5
import Verif.Props.FTTruncate
import Verif.Props.FTTruncate2
import Verif.Props.FTTruncate3
import Verif.Props.FTCompare
