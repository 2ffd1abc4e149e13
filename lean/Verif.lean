import Verif.Model.Py
import Verif.Model.Structure
import Verif.Spec.Structure
import Verif.Lemmas.Structure
import Verif.Lemmas.StructureEps
import Verif.Props.Structure
import Verif.Model.Lattice
import Verif.Spec.Lattice
import Verif.Lemmas.EpsMap
import Verif.Lemmas.Lattice
import Verif.Props.EpsMap
import Verif.Props.Lattice
import Verif.Props.StructureContent
import Verif.Model.Shapes
import Verif.Spec.Shapes
import Verif.Lemmas.Shapes
import Verif.Props.Shapes
import Verif.Model.Reciprocal
import Verif.Lemmas.Reciprocal
import Verif.Props.Reciprocal
import Verif.Model.SlabModes
import Verif.Spec.SlabModes
import Verif.Lemmas.SlabModes
import Verif.Props.SlabModes
import Verif.Props.LayerIntegrals
import Verif.Props.RadModes
import Verif.Props.MatrixElements
import Verif.Props.GmeFields
import Verif.Model.Utils
import Verif.Spec.Utils
import Verif.Props.Utils
import Verif.Model.Minimize
import Verif.Props.Minimize
import Verif.Model.Primitives
import Verif.Props.PrimToeplitz
import Verif.Props.PrimEigh
import Verif.Props.Primitives
import Verif.Model.Symmetry
import Verif.Spec.Symmetry
import Verif.Lemmas.Symmetry
import Verif.Props.Symmetry
import Verif.Props.SymmetryElem
import Verif.Model.GmeRun
import Verif.Spec.GmeRun
import Verif.Props.GmeRun
import Verif.Props.GmeHistory
import Verif.Model.Radiation
import Verif.Props.Radiation
import Verif.Model.Pwe
import Verif.Props.Pwe
import Verif.Model.Exc
import Verif.Spec.Exc
import Verif.Props.Exc
import Verif.Model.Hopfield
import Verif.Props.Hopfield
import Verif.Model.Guided
import Verif.Props.Guided
import Verif.Model.Plot
import Verif.Props.Plot
import Verif.Model.Backend
import Verif.Props.Backend
import Verif.Props.Dispersion
import Verif.Spec.Fourier
import Verif.Props.PolyFourier
import Verif.Props.DiscFourier
import Verif.Model.BzAxis
import Verif.Spec.Path
import Verif.Props.BzAxis
import Verif.Model.HighSym
import Verif.Props.HighSym
import Verif.Model.Lbfgs
import Verif.Spec.Lbfgs
import Verif.Props.Lbfgs
import Verif.Model.Gds
import Verif.Props.Gds
import Verif.Model.NumVjp
import Verif.Props.NumVjp
import Verif.Lemmas.Spectrum
import Verif.Model.PweSim
import Verif.Spec.PweSim
import Verif.Props.PweSim
import Verif.Model.Unpatterned
import Verif.Spec.Unpatterned
import Verif.Lemmas.Unpatterned
import Verif.Props.Unpatterned
import Verif.Props.Chi
import Verif.Model.GmeSim
import Verif.Props.GmeSim
import Verif.Lemmas.GmeInvariance
import Verif.Props.GmeInvariance
import Verif.Model.EpsPlot
import Verif.Spec.EpsPlot
import Verif.Props.EpsPlot
import Verif.Model.FieldPlanes
import Verif.Spec.FieldOverlap
import Verif.Lemmas.FieldOverlap
import Verif.Props.FieldOverlap
import Verif.Props.FieldPlanes
import Verif.Spec.PermittivityMap
import Verif.Lemmas.CellFold
import Verif.Lemmas.PermittivityMap
import Verif.Lemmas.RegionFourier
import Verif.Props.PermittivityMap
import Verif.Lemmas.MinMax
import Verif.Lemmas.GenEigen
import Verif.Props.PweOrder
import Verif.Lemmas.GmeForm
import Verif.Props.GmeOrder
import Verif.Lemmas.Weyl
import Verif.Props.Regulariser
import Verif.Spec.Constitutive
import Verif.Lemmas.Constitutive
import Verif.Props.Constitutive
import Verif.Lemmas.TimeReversal
import Verif.Props.TimeReversal
import Verif.Model.ExcSim
import Verif.Props.ExcBands
import Verif.Model.ExcWave
import Verif.Props.ExcWave
import Verif.Props.GmeBounds
import Verif.Props.PolReal
import Verif.Model.PolSim
import Verif.Props.PolSim
import Verif.Model.VizField
import Verif.Props.VizField
import Verif.Model.VizBands
import Verif.Props.VizBands
import Verif.Model.VizEps
import Verif.Props.VizEps
import Verif.Model.RadSim
import Verif.Props.RadSim
import Verif.Props.RadFlip
import Verif.Model.GuidedRun
import Verif.Lemmas.GuidedRun
import Verif.Props.GuidedRun
import Verif.Props.GuidedWhole
import Verif.Lemmas.RadOverlap
import Verif.Props.RadOverlap
import Verif.Model.KzRun
import Verif.Lemmas.KzRun
import Verif.Lemmas.KzSplit
import Verif.Props.KzRun
import Verif.Props.GuidedNorm
import Verif.Props.Similar
import Verif.Lemmas.IsoRun
import Verif.Props.IsoRun
import Verif.Spec.VizShapes
import Verif.Model.VizShapes
import Verif.Props.VizShapes
import Verif.Lemmas.ScaleRun
import Verif.Props.ScaleRun
import Verif.Lemmas.ScaleGuided
import Verif.Props.ScaleUnits
import Verif.Lemmas.RadMove
import Verif.Props.RadIso
import Verif.Lemmas.RadReverse
import Verif.Lemmas.RadReverseRun
import Verif.Props.RadReverse
import Verif.Lemmas.ScaleRad
import Verif.Props.ScaleRad
import Verif.Model.Results
import Verif.Model.VizWave
import Verif.Props.Results
import Verif.Props.VizWave
import Verif.Lemmas.RadSwap
import Verif.Lemmas.RadTurn
import Verif.Lemmas.RadSplit
import Verif.Props.RadTurn
import Verif.Lemmas.FreqsSame
import Verif.Lemmas.CutDisp
import Verif.Props.RadTurnRun
import Verif.Props.ExcSimilar
import Verif.Props.SlabAssert
import Verif.Spec.FieldMap
import Verif.Props.IsoFields
import Verif.Props.PolTurn
import Verif.Props.PrimVecs
import Verif.Lemmas.BlockIn
import Verif.Spec.Supercell
import Verif.Props.Supercell
import Verif.Props.SupercellGme
import Verif.Model.Report
import Verif.Props.Report
import Verif.Model.Constants
import Verif.Props.Constants
import Verif.Model.EpsEff
import Verif.Props.EpsEff
import Verif.Props.SupercellCode
import Verif.Props.SupercellExc
import Verif.Lemmas.EigDeriv
import Verif.Model.PweGrad
import Verif.Props.PweGrad
import Verif.Model.ExcGrad
import Verif.Props.ExcGrad
import Verif.Model.GmeGrad
import Verif.Props.GmeGrad
import Verif.Spec.PointWise
import Verif.Props.WaveVecs
import Verif.Model.Texts
import Verif.Spec.Units
import Verif.Props.Texts
import Verif.Props.BandSlope
import Verif.Model.WholeGrad
import Verif.Props.WholeGrad
import Verif.Props.Continuity
import Verif.Props.OrderCode
import Verif.Props.Sensitivity
import Verif.Props.GroupVelocity
import Verif.Lemmas.TraceDeriv
import Verif.Props.SymmGrad
import Verif.Props.SymmGradExc
import Verif.Props.SymmGradGme
import Verif.Props.ShapesEmpty
import Verif.Props.SumRules
import Verif.Model.GmeTbt
import Verif.Props.GmeTbt
import Verif.Props.GmeTbtBounds
import Verif.Props.GmeTbtOrder
import Verif.Props.BandChoice
import Verif.Props.ScaleTbt
import Verif.Props.Truncations
import Verif.Props.WaveVecsTbt
import Verif.Model.KzTbt
import Verif.Props.KzTbt
import Verif.Props.KzTbtSym
import Verif.Props.KzTbtAccept
