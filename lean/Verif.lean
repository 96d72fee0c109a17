import Verif.Props.Arith
import Verif.Props.Gauss
import Verif.Props.GaussRad
import Verif.Props.GaussBarcodes
import Verif.Props.Complexes
import Verif.Props.Barcode
import Verif.Props.PH
import Verif.Props.LocalPH
import Verif.Props.ImageKernel
import Verif.Props.Cover
import Verif.Props.ModuleHomology
import Verif.Props.QuotCoords
import Verif.Props.Chains
import Verif.Props.Pages
import Verif.Props.MV
import Verif.Props.Cech
import Verif.Props.Lift
import Verif.Props.ZigZag
import Verif.Props.Wrong
import Verif.Props.PageTwo
import Verif.Props.Components
import Verif.Props.Samples
import Verif.Props.Broken
import Verif.Lemmas.Strip
import Verif.Lemmas.PlaneRes
import Verif.Lemmas.PlaneQuot
import Verif.Lemmas.PlaneMph
import Verif.Lemmas.PlaneMid
import Verif.Lemmas.PlaneTwo
import Verif.Lemmas.PlaneLift
import Verif.Lemmas.PlaneExt
import Verif.Lemmas.PlanePages
import Verif.Lemmas.PlaneDiag
import Verif.Props.Plane
import Verif.Props.PlaneEx
import Verif.Lemmas.StripPages
import Verif.Lemmas.StripTrack
import Verif.Lemmas.StripReps
import Verif.Lemmas.StripLift
import Verif.Lemmas.StripStep
import Verif.Lemmas.StripChains
import Verif.Lemmas.StripExt
import Verif.Lemmas.StripPos
import Verif.Lemmas.StripDiag
import Verif.Lemmas.StripLine
import Verif.Spec.Thin
import Verif.Lemmas.Thin
import Verif.Props.Strip
import Verif.Props.Thin
import Verif.Lemmas.LocalRanks
import Verif.Lemmas.SwapPoints
import Verif.Lemmas.GraphComponents
import Verif.Props.Invariance
import Verif.Lemmas.TwoPageTotal
import Verif.Lemmas.RowTotal
import Verif.Props.Total
import Verif.Props.Break
import Verif.Lemmas.ThinLift
import Verif.Lemmas.ThinStep
import Verif.Lemmas.ThinFull
import Verif.Lemmas.ThinExt
import Verif.Lemmas.ThinPages
import Verif.Lemmas.ThinTotal
import Verif.Lemmas.Clique
import Verif.Props.FewPoints
import Verif.Props.ThinTotal
import Verif.Lemmas.Removal
import Verif.Props.Collapse
import Verif.Lemmas.CechRows
import Verif.Lemmas.NerveRows
import Verif.Props.CechRows
import Verif.Lemmas.BrokenMulti
import Verif.Lemmas.BrokenMultiLoop
import Verif.Lemmas.BrokenMultiIm
import Verif.Lemmas.BrokenGlue
import Verif.Lemmas.QuotMid
import Verif.Lemmas.IKHalf
import Verif.Lemmas.MPHAll
import Verif.Lemmas.Collapse
import Verif.Lemmas.CollapsePages
import Verif.Props.OneEntry
import Verif.Lemmas.CubeCycles
import Verif.Props.CubeCycles
import Verif.Spec.Machine
import Verif.Model.Machine
import Verif.Lemmas.Machine
import Verif.Props.Machine
import Verif.Props.OneCube
import Verif.Lemmas.Translate
import Verif.Props.Translate
import Verif.Lemmas.Euler
import Verif.Props.Euler
import Verif.Spec.Rounding
import Verif.Lemmas.Rounding
import Verif.Model.CoverR
import Verif.Lemmas.RunEnv
import Verif.Lemmas.CoverR
import Verif.Props.CoverR
import Verif.Lemmas.Clusters
import Verif.Props.Clusters
import Verif.Props.Robust
import Verif.Spec.Bottleneck
import Verif.Lemmas.Bottleneck
import Verif.Props.Bottleneck
import Verif.Model.MachineIK
import Verif.Lemmas.MachineIK
import Verif.Lemmas.MachineMPH
import Verif.Props.MachineIK
import Verif.Spec.Memory
import Verif.Model.InPlace
import Verif.Lemmas.Memory
import Verif.Lemmas.MemoryRad
import Verif.Lemmas.MemoryPH
import Verif.Props.InPlace
import Verif.Spec.Process
import Verif.Model.Shared
import Verif.Lemmas.Shared
import Verif.Props.Shared
import Verif.Spec.CycleBasis
import Verif.Lemmas.LastReps
import Verif.Props.Loops
import Verif.Lemmas.ZeroReps
import Verif.Props.PointReps
import Verif.Lemmas.Composite
import Verif.Props.Composite
import Verif.Model.ChainsMem
import Verif.Spec.Sharing
import Verif.Lemmas.ChainsMem
import Verif.Props.Sharing
import Verif.Props.CoverShapes
import Verif.Model.ExtStore
import Verif.Lemmas.ExtStore
import Verif.Props.ExtStore
import Verif.Model.ImageKernelMem
import Verif.Lemmas.ImageKernelMem
import Verif.Props.ImageKernelMem
import Verif.Model.ModuleHomologyMem
import Verif.Lemmas.ModuleHomologyMem
import Verif.Props.ModuleHomologyMem
import Verif.Props.SampleCover
import Verif.Props.SampleOrder
import Verif.Props.CoverChange
import Verif.Props.TopDegree
import Verif.Props.Tree
import Verif.Props.TreeCover
import Verif.Model.Generator
import Verif.Spec.Generator
import Verif.Props.Generator
