import Verif.Tensor
import Verif.Spec
import Verif.TensorLemmas
import Verif.MPSModel
import Verif.MPSLemmas
import Verif.MPSLemmas2
import Verif.MPSLemmas3
import Verif.MPSNorm
import Verif.Props.MPSProps
import Verif.StatesModel
import Verif.StatesLemmas
import Verif.Props.StatesProps
import Verif.MPOModel
import Verif.MPOBuild
import Verif.MPOBuild2
import Verif.MPOBuild3
import Verif.MPOLemmas
import Verif.Props.MPOProps
import Verif.LatticeModel
import Verif.LatticeSpec
import Verif.LatticeLemmas
import Verif.LatticeLemmas2
import Verif.Props.LatticeProps
import Verif.QuantumModel
import Verif.Props.QuantumProps
import Verif.ToolsModel
import Verif.Props.ToolsProps
import Verif.CanonModel
import Verif.CanonSpec
import Verif.CanonLemmas
import Verif.CanonLemmas2
import Verif.CanonLemmas3
import Verif.SvdExists
import Verif.Props.CanonProps
import Verif.Props.CanonProps2
import Verif.MPOCanonModel
import Verif.MPOCanonLemmas
import Verif.MPOCanonLemmas2
import Verif.Props.MPOCanonProps
import Verif.HamModel
import Verif.TrotterModel
import Verif.TrotterSpec
import Verif.TrotterLemmas
import Verif.TrotterLemmas2
import Verif.TrotterLemmas3
import Verif.TrotterLemmas4
import Verif.ExpmExists
import Verif.Props.TrotterProps
import Verif.Props.TrotterProps2
import Verif.Props.TrotterProps3
import Verif.Props.TrotterProps4
import Verif.HamClasses
import Verif.HamSpec
import Verif.Props.HamProps
import Verif.Props.HamProps2
import Verif.Props.HamProps3
import Verif.Props.HamProps4
import Verif.Props.HamProps5
import Verif.Props.HamProps6
import Verif.Props.HamProps7
import Verif.Props.HamProps8
import Verif.FormModel
import Verif.FormSpec
import Verif.FormLemmas
import Verif.FormLemmas2
import Verif.FormQLemmas
import Verif.FormQLemmas2
import Verif.FormQLemmas3
import Verif.FormQLemmas4
import Verif.Props.FormProps
import Verif.Props.FormProps2
import Verif.Props.FormProps3
import Verif.MinimizerModel
import Verif.MinimizerSpec
import Verif.MinimizerLemmas
import Verif.MinimizerLemmas2
import Verif.MinimizerLemmas3
import Verif.MinimizerLemmas4
import Verif.MinimizerLemmas5
import Verif.MinimizerLemmas6
import Verif.EigsExists
import Verif.Props.MinimizerProps
import Verif.Props.MinimizerProps2
import Verif.Props.MinimizerProps3
import Verif.Props.MinimizerProps4
import Verif.ObcModel
import Verif.ObcSpec
import Verif.ObcLemmas
import Verif.ObcLemmas2
import Verif.ObcLemmas3
import Verif.ObcLemmas4
import Verif.Props.ObcProps
import Verif.Props.ObcProps2
import Verif.Props.ObcProps3
import Verif.ITebdModel
import Verif.ITebdSpec
import Verif.ITebdLemmas
import Verif.ITebdLemmas2
import Verif.ITebdLemmas3
import Verif.Props.ITebdProps
import Verif.Props.ITebdProps2
import Verif.Props.ITebdProps3
import Verif.Props.ITebdProps4
import Verif.Props.ITebdProps5
import Verif.SvdSorted
import Verif.ITebdCanonModel
import Verif.ITebdCanonSpec
import Verif.ITebdCanonLemmas
import Verif.ITebdCanonLemmas2
import Verif.ITebdCanonLemmas3
import Verif.Props.ITebdCanonProps
import Verif.Props.ITebdCanonProps2
import Verif.ITebdApplySpec
import Verif.ITebdApplyLemmas
import Verif.ITebdApplyLemmas2
import Verif.EckartYoung
import Verif.Props.ITebdApplyProps
import Verif.Props.ITebdApplyProps2
import Verif.Props.ITebdApplyProps3
import Verif.Props.ITebdProps6
import Verif.Props.ITebdProps7
import Verif.ITebdShapes
import Verif.ITebdEvolveSpec
import Verif.Props.ITebdProps8
import Verif.Props.ITebdProps9
import Verif.Props.ITebdProps10
import Verif.SimplifyModel
import Verif.SimplifySpec
import Verif.SimplifyLemmas
import Verif.SimplifyLemmas2
import Verif.SimplifyLemmas3
import Verif.SimplifyLemmas4
import Verif.SimplifyLemmas5
import Verif.Props.SimplifyProps
import Verif.SimplifyLemmas6
import Verif.SimplifyLemmas7
import Verif.SimplifyLemmas8
import Verif.SimplifyLemmas9
import Verif.SimplifyLemmas10
import Verif.SimplifyLemmas11
import Verif.Props.SimplifyManyProps
import Verif.DmrgModel
import Verif.DmrgSpec
import Verif.DmrgLemmas
import Verif.DmrgLemmas2
import Verif.DmrgLemmas3
import Verif.DmrgLemmas4
import Verif.DmrgLemmas5
import Verif.DmrgLemmas6
import Verif.DmrgLemmas7
import Verif.Props.DmrgProps
import Verif.Props.DmrgProps2
import Verif.FormNonempty
import Verif.SolveModel
import Verif.SolveSpec
import Verif.SolveLemmas
import Verif.SolveLemmas2
import Verif.SolveLemmas3
import Verif.SolveLemmas4
import Verif.SolveLemmas5
import Verif.SolveLemmas6
import Verif.Props.SolveProps
import Verif.SolveLemmas7
import Verif.SolveLemmas8
import Verif.SolveLemmas9
import Verif.SolveLemmas10
import Verif.Props.SolveProps2
import Verif.Props.SolveProps3
import Verif.ObcLemmas5
import Verif.ObcLemmas6
import Verif.ArnoldiModel
import Verif.ArnoldiSpec
import Verif.ArnoldiExists
import Verif.ArnoldiLemmas
import Verif.ArnoldiLemmas2
import Verif.ArnoldiLemmas3
import Verif.ArnoldiLemmas4
import Verif.ArnoldiLemmas5
import Verif.ArnoldiLemmas6
import Verif.ArnoldiLemmas7
import Verif.ArnoldiLemmas8
import Verif.Props.ArnoldiProps
import Verif.Props.ArnoldiProps2
import Verif.MixedModel
import Verif.Props.MixedProps
import Verif.ITebdSlowModel
import Verif.ITebdSlowSpec
import Verif.ITebdSlowLemmas
import Verif.ITebdSlowLemmas2
import Verif.Props.ITebdSlowProps
import Verif.ITebdBdryModel
import Verif.ITebdBdryLemmas
import Verif.Props.ITebdBdryProps
import Verif.TrotterOrder
import Verif.TrotterOrder2
import Verif.TrotterOrder3
import Verif.TrotterOrderSpec
import Verif.TrotterOrder4
import Verif.TrotterOrder5
import Verif.TrotterOrder6
import Verif.TrotterOrder7
import Verif.Props.TrotterOrderProps
import Verif.TrotterTrunc
import Verif.TrotterTrunc2
import Verif.TrotterTrunc3
import Verif.TrotterTrunc4
import Verif.TrotterTruncSpec
import Verif.TrotterTrunc5
import Verif.Props.TrotterTruncProps
import Verif.ConstraintSpec
import Verif.ConstraintLemmas
import Verif.ConstraintLemmas2
import Verif.ConstraintLemmas3
import Verif.ConstraintLemmas4
import Verif.ConstraintLemmas5
import Verif.Props.ConstraintProps
import Verif.CanonTrunc
import Verif.CanonTrunc2
import Verif.CanonTrunc3
import Verif.CanonProj
import Verif.Props.CanonTruncProps
import Verif.CanonIdem
import Verif.CanonIdem2
import Verif.TrotterNorm
import Verif.TrotterTwo
import Verif.Props.NormalizeProps
import Verif.LayerErr
import Verif.LayerErr2
import Verif.LayerErr3
import Verif.LayerErr4
import Verif.LayerErr5
import Verif.LayerErr6
import Verif.LayerErr7
import Verif.LayerErr8
import Verif.LayerErr9
import Verif.LayerErrSpec
import Verif.LayerErr10
import Verif.Props.LayerProps
import Verif.Props.DmrgManyProps
import Verif.Props.DmrgQProps
import Verif.Props.DmrgTruncProps
import Verif.SchmidtSpec
import Verif.ApplyProj
import Verif.ApplyProj2
import Verif.ApplyProj3
import Verif.ApplyOpt
import Verif.ApplyStep
import Verif.ApplyInd
import Verif.ApplySweep
import Verif.Props.ApplyOptProps
import Verif.Props.PairOptProps
import Verif.PairProj
import Verif.EnergyLine
import Verif.Props.MinimizerTruncProps
import Verif.Props.ReversalProps
import Verif.Props.ReversalProps2
import Verif.LayerLeft
import Verif.LayerLeft2
import Verif.LayerLeft3
import Verif.LayerLeft4
import Verif.LayerSimp
import Verif.LayerSimp2
import Verif.Props.LayerSimpProps
import Verif.Props.BondProps
import Verif.Props.ObservableProps
import Verif.ImagTime
import Verif.ImagTime2
import Verif.Props.ImagTimeProps
import Verif.Props.ForestRuthImagProps
import Verif.ImagTrunc
import Verif.ImagTrunc2
import Verif.ImagTrunc3
import Verif.ImagTrunc4
import Verif.Props.ImagTruncProps
import Verif.Props.ComplexTruncProps
import Verif.Props.NoTruncProps
import Verif.Props.GroundTruncProps
import Verif.Props.ClusterProps
import Verif.Props.GroundTruncProps2
import Verif.Props.GapProps
import Verif.Props.GapProps2
import Verif.Props.ProjectProps
