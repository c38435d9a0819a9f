import Verif.Audit
import Verif.Lemmas.AsymDescent
import Verif.Lemmas.BandStructure
import Verif.Lemmas.CG
import Verif.Lemmas.CellVol
import Verif.Lemmas.CubeVol
import Verif.Lemmas.Descent
import Verif.Lemmas.DosChemical
import Verif.Lemmas.DosInit
import Verif.Lemmas.DosThermal
import Verif.Lemmas.Files
import Verif.Lemmas.Formats
import Verif.Lemmas.Fourier
import Verif.Lemmas.FreeElectronModel
import Verif.Lemmas.Gauss
import Verif.Lemmas.HamiltonianSymmetry
import Verif.Lemmas.Icosahedral
import Verif.Lemmas.Interpolate
import Verif.Lemmas.Namelist
import Verif.Lemmas.Optimize
import Verif.Lemmas.OptimizeTb
import Verif.Lemmas.PosPart
import Verif.Lemmas.QeBinary
import Verif.Lemmas.QeOutput
import Verif.Lemmas.Reduce
import Verif.Lemmas.RepSum
import Verif.Lemmas.SimpleEigen
import Verif.Lemmas.SpaceGroup
import Verif.Lemmas.Supercell
import Verif.Lemmas.SupercellSum
import Verif.Lemmas.Symmetrizer
import Verif.Lemmas.Symmetry
import Verif.Lemmas.SymmetryDiv
import Verif.Lemmas.SymmetryPoints
import Verif.Lemmas.TbmDescent
import Verif.Lemmas.TbmInitRef
import Verif.Lemmas.TetraLimit
import Verif.Lemmas.TetraVol
import Verif.Lemmas.TightBinding
import Verif.Lemmas.UnitaryRep
import Verif.Lemmas.Weyl
import Verif.Lemmas.Zone
import Verif.Lemmas.ZoneRhomb
import Verif.Lemmas.ZoneThree
import Verif.Model.AsymDescent
import Verif.Model.Autofit
import Verif.Model.BandStructure
import Verif.Model.Bulk
import Verif.Model.BulkCubic
import Verif.Model.CheckSym
import Verif.Model.CubeSamples
import Verif.Model.Descent
import Verif.Model.Dos
import Verif.Model.DosInit
import Verif.Model.DosThermal
import Verif.Model.EigGrad
import Verif.Model.Elements
import Verif.Model.Err
import Verif.Model.ExtraCubes
import Verif.Model.FermiSamples
import Verif.Model.FermiSurface
import Verif.Model.Files
import Verif.Model.Formats
import Verif.Model.Fourier
import Verif.Model.FreeElectronModel
import Verif.Model.FromDisk
import Verif.Model.Gauss
import Verif.Model.Geigh
import Verif.Model.HamiltonianSymmetry
import Verif.Model.Icosahedral
import Verif.Model.InitRef
import Verif.Model.Interpolate
import Verif.Model.KIntegral
import Verif.Model.KIntegralCache
import Verif.Model.KPath
import Verif.Model.KPoints
import Verif.Model.Lattice
import Verif.Model.Linalg
import Verif.Model.Logger
import Verif.Model.Loss
import Verif.Model.MergeAxes
import Verif.Model.Naive
import Verif.Model.NamedGroups
import Verif.Model.NamedReps
import Verif.Model.ObjExport
import Verif.Model.Optimize
import Verif.Model.Phonon
import Verif.Model.Plots
import Verif.Model.QeBinary
import Verif.Model.QeCards
import Verif.Model.QeInput
import Verif.Model.QeOutput
import Verif.Model.QePrepare
import Verif.Model.QeRead
import Verif.Model.QeShow
import Verif.Model.Randomize
import Verif.Model.Sharing
import Verif.Model.Smearing
import Verif.Model.SpaceGroup
import Verif.Model.Supercell
import Verif.Model.Symmetry
import Verif.Model.SymmetryDiv
import Verif.Model.SymmetryPoints
import Verif.Model.TbmDescent
import Verif.Model.TbmInitRef
import Verif.Model.TetraGrid
import Verif.Model.TightBinding
import Verif.Model.UnitaryRep
import Verif.Model.WannierGrid
import Verif.Props.AsymDescent
import Verif.Props.Autofit
import Verif.Props.BandStructure
import Verif.Props.BandStructureGrad
import Verif.Props.BandStructureNorm
import Verif.Props.BandStructureOps
import Verif.Props.Bulk
import Verif.Props.BulkCubic
import Verif.Props.BulkHall
import Verif.Props.CG
import Verif.Props.CheckSym
import Verif.Props.CubeAll
import Verif.Props.CubeSamples
import Verif.Props.CyclicGroups
import Verif.Props.Descent
import Verif.Props.Dos
import Verif.Props.DosChemical
import Verif.Props.DosConv
import Verif.Props.DosCurve
import Verif.Props.DosEnergy
import Verif.Props.DosFermi
import Verif.Props.DosInit
import Verif.Props.DosInt
import Verif.Props.DosSecant
import Verif.Props.DosThermo
import Verif.Props.DosWarmEnergy
import Verif.Props.EigGrad
import Verif.Props.Elements
import Verif.Props.ExtraCubes
import Verif.Props.FermiPlot
import Verif.Props.FermiSamples
import Verif.Props.FermiSurface
import Verif.Props.Files
import Verif.Props.Formats
import Verif.Props.FormatsJson
import Verif.Props.FormatsSpec
import Verif.Props.Fourier
import Verif.Props.FreeElectronModel
import Verif.Props.FreeElectrons
import Verif.Props.FromDisk
import Verif.Props.Gauss
import Verif.Props.Geigh
import Verif.Props.HamiltonianAppend
import Verif.Props.HamiltonianApply
import Verif.Props.HamiltonianDiamond
import Verif.Props.HamiltonianFourier
import Verif.Props.HamiltonianSymmetrizer
import Verif.Props.HamiltonianSymmetry
import Verif.Props.HamiltonianSymmetryEx
import Verif.Props.Icosahedral
import Verif.Props.InitRef
import Verif.Props.Interpolate
import Verif.Props.KIntegral
import Verif.Props.KIntegralCache
import Verif.Props.KPath
import Verif.Props.KPlot
import Verif.Props.KPoints
import Verif.Props.KPointsTetragonal
import Verif.Props.KPointsTrigonal
import Verif.Props.Lattice
import Verif.Props.LatticeSphere
import Verif.Props.Linalg
import Verif.Props.Lipschitz
import Verif.Props.Logger
import Verif.Props.Loss
import Verif.Props.MergeAxes
import Verif.Props.Naive
import Verif.Props.NamedGroups
import Verif.Props.NamedReps
import Verif.Props.ObjExport
import Verif.Props.OptimizeBs
import Verif.Props.OptimizeCg
import Verif.Props.OptimizeTb
import Verif.Props.Phonon
import Verif.Props.QeBinary
import Verif.Props.QeCards
import Verif.Props.QeInput
import Verif.Props.QeOutput
import Verif.Props.QePrepare
import Verif.Props.QeRead
import Verif.Props.QeShow
import Verif.Props.Randomize
import Verif.Props.ReadBands
import Verif.Props.RealizeAverage
import Verif.Props.Reduce
import Verif.Props.Sharing
import Verif.Props.SimpleBands
import Verif.Props.SmearCube
import Verif.Props.SmearKernels
import Verif.Props.SpaceGroup
import Verif.Props.Subspaces
import Verif.Props.Supercell
import Verif.Props.SupercellBands
import Verif.Props.SupercellEx
import Verif.Props.Symmetrize
import Verif.Props.SymmetrizePoints
import Verif.Props.Symmetrizer
import Verif.Props.Symmetry
import Verif.Props.SymmetryClasses
import Verif.Props.SymmetryDiv
import Verif.Props.SymmetryPoints
import Verif.Props.TbModel
import Verif.Props.TbmDescent
import Verif.Props.TbmInitRef
import Verif.Props.TetraAll
import Verif.Props.TightBinding
import Verif.Props.UnitaryRep
import Verif.Props.UnitaryRepOps
import Verif.Props.Unstructured
import Verif.Props.WannierGrid
import Verif.Spec.Affine
import Verif.Spec.Cards
import Verif.Spec.Group
import Verif.Spec.Hamiltonian
import Verif.Spec.Integral
import Verif.Spec.Namelist
import Verif.Spec.ObjFile
import Verif.Spec.PeriodicTable
import Verif.Spec.ProjXml
import Verif.Spec.QeFiles
import Verif.Spec.QeOutput
import Verif.Spec.QeXml
import Verif.Spec.Representation
import Verif.Spec.Shell
import Verif.Spec.TetraCell
import Verif.Spec.Zone
