import Verif.Mpo.Alg
import Verif.Mpo.SparMat
import Verif.Mpo.Sem
import Verif.Mpo.Compress
import Verif.Mpo.AxisFacts
import Verif.Mpo.DelinFacts
import Verif.Mpo.CompFacts
import Verif.Mpo.CompressSpec
import Verif.Mpo.PassFacts
import Verif.Mpo.Fsm
import Verif.Mpo.FsmFacts
import Verif.Mpo.GenFacts
import Verif.Mpo.Gen
import Verif.Mpo.Spec
import Verif.Mpo.ApiFacts
import Verif.Mpo.ApiVal
import Verif.Mpo.ApiMain
import Verif.Mpo.GradeFacts
import Verif.Mpo.GradeApi
import Verif.Mpo.QNSort
import Verif.Mpo.PropFacts
import Verif.Props.MpoGen
import Verif.Mpo.InstFacts
import Verif.Mpo.Ifsm
import Verif.Props.MpoStrings
import Verif.Props.MpoSymb
import Verif.Mps.Tensor
import Verif.Mps.Fmps
import Verif.Mps.FmpsFacts
import Verif.Mps.RevFacts
import Verif.Mps.Inst
import Verif.Props.MpsCano
import Verif.Mps.Duo
import Verif.Mps.DuoFacts
import Verif.Props.Duo
import Verif.Mps.Init
import Verif.Props.MpsInit
import Verif.Mps.Xfer
import Verif.Mps.Measure
import Verif.Mps.MeasureFacts
import Verif.Mps.MeasureLoop
import Verif.Mps.ArithFacts
import Verif.Mps.DiskMeasure
import Verif.Mps.DiskFacts
import Verif.Props.Measure
import Verif.Props.MpsArith
import Verif.Props.DiskMeasure
import Verif.Disk.Core
import Verif.Disk.Wp
import Verif.Disk.TwoSite
import Verif.Disk.TwoSiteFacts
import Verif.Disk.CrashFacts
import Verif.Props.TwoSite
import Verif.Disk.Boundary
import Verif.Disk.BoundaryFacts
import Verif.Props.Boundary
import Verif.Disk.Window
import Verif.Disk.WindowFacts
import Verif.Disk.SingleSite
import Verif.Disk.SingleSiteFacts
import Verif.Disk.InitCrash
import Verif.Props.SingleSite
import Verif.Disk.Noised
import Verif.Disk.NoisedFacts
import Verif.Props.Noised
import Verif.Disk.Sim
import Verif.Props.Restart
import Verif.Algo.Noise
import Verif.Props.Noise
import Verif.Algo.Covered
import Verif.Props.Covered
import Verif.Algo.Lanczos
import Verif.Algo.LanczosFacts
import Verif.Props.Lanczos
import Verif.Algo.LanczosSpec
import Verif.Algo.LanczosNum
import Verif.Algo.LanczosNumFacts
import Verif.Algo.LanczosNumKry
import Verif.Algo.LanczosNumLoop
import Verif.Algo.TriExists
import Verif.Props.LanczosNum
import Verif.Algo.Expmv
import Verif.Algo.ExpmvFacts
import Verif.Props.Expmv
import Verif.Disk.Tdvp
import Verif.Disk.TdvpFacts
import Verif.Props.Tdvp
import Verif.Mps.TdvpMeasure
import Verif.Mps.TdvpMeasureFacts
import Verif.Props.TdvpMeasure
import Verif.Mps.TdvpPrepareFacts
import Verif.Props.TdvpPrepare
import Verif.Disk.Dmrg
import Verif.Disk.DmrgSim
import Verif.Disk.DmrgFacts
import Verif.Disk.DmrgLoop
import Verif.Disk.DmrgInit
import Verif.Props.Dmrg
import Verif.Mpi.Core
import Verif.Mpi.Farm
import Verif.Mpi.FarmInv
import Verif.Mpi.FarmStep
import Verif.Mpi.FarmMaster
import Verif.Mpi.FarmMain
import Verif.Mpi.FarmUse
import Verif.Mpi.FarmFacts
import Verif.Mpi.Collect
import Verif.Mpi.Gather
import Verif.Props.Mpi
import Verif.Props.MpiGather
import Verif.Mpi.Sync
import Verif.Mpi.Handover
import Verif.Props.MpiHandover
import Verif.Mpi.Phase
import Verif.Mpi.PhaseSync
import Verif.Mpi.Prog
import Verif.Mpi.ProgFarm
import Verif.Mpi.Orders
import Verif.Mpi.OrdersSpec
import Verif.Mpi.OrdersRun
import Verif.Props.MpiOrders
import Verif.Misc.Params
import Verif.Props.Params
import Verif.Disk.Threads
import Verif.Disk.NoisedMpi
import Verif.Props.Threads
import Verif.Mps.CenterFacts
import Verif.Mps.Fmpo
import Verif.Mps.FmpoFacts
import Verif.Mps.FmpoHist
import Verif.Mps.InstE
import Verif.Mps.NormFacts
import Verif.Props.Fmpo
import Verif.Mps.TruncFacts
import Verif.Mps.TruncMps
import Verif.Props.FmpoTrunc
import Verif.Props.MpsTrunc
import Verif.Mps.VarProd
import Verif.Mps.VarProdFacts
import Verif.Mps.VarSweep
import Verif.Mps.VarInit
import Verif.Props.VarProd
import Verif.Mps.ExpMpo
import Verif.Props.ExpSpec
import Verif.Props.ExpFacts
import Verif.Props.ExpRun
import Verif.Props.ExpMpo
import Verif.Props.FockSpec
import Verif.Props.FockFacts
import Verif.Props.FockAlg
import Verif.Mpo.Models
import Verif.Mpo.ModelFacts
import Verif.Props.ModelSpec
import Verif.Props.ModelTerms
import Verif.Props.ModelVals
import Verif.Props.Models
import Verif.Props.HamSpec
import Verif.Props.HamFacts
import Verif.Props.Ham
import Verif.Mps.Vmps
import Verif.Mps.VmpsSpec
import Verif.Mps.VmpsFacts
import Verif.Mps.VmpsStep
import Verif.Mps.VmpsUpd
import Verif.Mps.VmpsRunSpec
import Verif.Mps.VmpsRun
import Verif.Mps.VmpsInst
import Verif.Props.Vmps
import Verif.Algo.ExpmvExact
import Verif.Mps.TdvpNum
import Verif.Mps.TdvpNumSpec
import Verif.Mps.OneSite
import Verif.Mps.TdvpRun
import Verif.Props.TdvpNum
import Verif.Props.ExpmvFull
import Verif.Mpo.Tensors
import Verif.Mpo.TensorFacts
import Verif.Mpo.LabelFacts
import Verif.Mpo.Dense
import Verif.Props.HamEnergySpec
import Verif.Props.HamHerm
import Verif.Props.HamEnergy
import Verif.Mpo.MatRepr
import Verif.Mps.DmrgNum
import Verif.Mps.DmrgNumFacts
import Verif.Mps.DmrgNumRun
import Verif.Mps.DmrgGauge
import Verif.Mpo.MatReprFacts
import Verif.Props.DmrgNum
import Verif.Props.DmrgHamSpec
import Verif.Props.DmrgHam
import Verif.Mpi.DmrgProg
import Verif.Mpi.DmrgPhases
import Verif.Mpi.DmrgRun
import Verif.Props.MpiDmrg
import Verif.Algo.LanczosStep
import Verif.Mpi.DmrgEng
import Verif.Mpi.DmrgEngRun
import Verif.Props.MpiDmrgNum
import Verif.Mps.SsNum
import Verif.Mps.SsFacts
import Verif.Mps.SsSpec
import Verif.Mps.SsStep
import Verif.Mps.SsRun
import Verif.Props.SsNum
import Verif.Props.SsNumEx
import Verif.Mps.VmpsGauge
import Verif.Mps.TnNum
import Verif.Mps.TnSpec
import Verif.Mps.TnStep
import Verif.Mps.TnRun
import Verif.Props.TnNum
import Verif.Props.TnNumEx
import Verif.Props.VmpsBoundary
import Verif.Mpi.VmpsEng
import Verif.Mpi.VmpsEngRun
import Verif.Mpi.VmpsJobs
import Verif.Props.MpiVmpsNum
import Verif.Mps.Entropy
import Verif.Mps.EntropyFacts
import Verif.Mps.EntropyRun
import Verif.Mps.SvdExists
import Verif.Props.Entropy
import Verif.Mps.TdvpProg
import Verif.Mps.TdvpProgFacts
import Verif.Props.TdvpProgram
import Verif.Props.TdvpMaster
import Verif.Props.MpiTdvpNum
import Verif.Mpi.TnEng
import Verif.Mpi.TnEngRun
import Verif.Props.MpiTnNum
import Verif.Mpo.Impo
import Verif.Props.Impo
import Verif.Props.JsonSpec
import Verif.Mps.Dump
import Verif.Props.DumpFacts
import Verif.Props.Dump
import Verif.Mps.Names
import Verif.Props.Names
import Verif.Props.HamAllSpec
import Verif.Props.HamAll
import Verif.Mps.TdvpFile
import Verif.Props.TdvpFile
import Verif.Props.GreenSpec
import Verif.Props.Green
import Verif.Props.StaticSpec
import Verif.Props.Static
import Verif.Mps.MpsIo
import Verif.Props.MpsIo
import Verif.Props.WorkflowSpec
import Verif.Props.Workflow
import Verif.Mps.VmpsObj
import Verif.Props.VmpsObj
import Verif.Mps.Combine
import Verif.Props.Combine
import Verif.Mpo.SiteVec
import Verif.Props.SiteVec
import Verif.Props.WorkflowNoiseSpec
import Verif.Props.WorkflowNoise
import Verif.Props.SequenceSpec
import Verif.Props.Sequence
import Verif.Props.SequenceFockSpec
import Verif.Props.SequenceFock
import Verif.Props.SingleAfterTwo
import Verif.Props.KeptSpec
import Verif.Props.Kept
import Verif.Props.KeptNum
