import Verif.Basic
import Verif.BondDim
import Verif.BondDimLemmas
import Verif.Canon
import Verif.CanonEvd
import Verif.CanonEvdLemmas
import Verif.CanonLeft
import Verif.CanonLeftLemmas
import Verif.CanonLemmas
import Verif.Chain
import Verif.CheckRCF
import Verif.Chunks
import Verif.ChunksLemmas
import Verif.Compiled
import Verif.Contracts
import Verif.ContractsChol
import Verif.ContractsSpec
import Verif.ContractsString
import Verif.ContractsSvd
import Verif.ContractsSweep
import Verif.CorrLemmas
import Verif.CorrMain
import Verif.CorrSpec
import Verif.CorrValue
import Verif.Correl
import Verif.Density
import Verif.Diss
import Verif.DissLemmas
import Verif.DissSpec
import Verif.Drivers
import Verif.DriversLemmas
import Verif.DriversSpec
import Verif.DynExp
import Verif.DynExpLemmas
import Verif.DynExpSpec
import Verif.EffMpo
import Verif.EffOps
import Verif.EffOpsBond
import Verif.EffOpsLemmas
import Verif.EffOpsMore
import Verif.EffOpsPair
import Verif.EffOpsSite
import Verif.EffOpsSpec
import Verif.Energy
import Verif.EnergyLemmas
import Verif.EpsMaps
import Verif.Excite
import Verif.ExciteAssemble
import Verif.ExciteBHB
import Verif.ExciteCore
import Verif.ExciteHerm
import Verif.ExciteLimit
import Verif.ExciteLocal
import Verif.ExcitePrep
import Verif.ExciteReady
import Verif.ExciteSep
import Verif.ExciteSepLemmas
import Verif.ExciteSepSpec
import Verif.ExciteSpec
import Verif.ExciteSum
import Verif.ExciteTotal
import Verif.ExciteTp
import Verif.ExciteTpLemmas
import Verif.ExciteWindow
import Verif.Expmv
import Verif.ExpmvLemmas
import Verif.Fidelity
import Verif.FidelityLemmas
import Verif.FidelityMain
import Verif.FidelitySpec
import Verif.GenBond
import Verif.GenCG
import Verif.GenSweep
import Verif.GenSweepLemmas
import Verif.GenSweepPath
import Verif.GenSweepSpec
import Verif.GoLoop
import Verif.Gpu
import Verif.GpuLemmas
import Verif.GpuTangent
import Verif.GpuTangentLemmas
import Verif.HalfChain
import Verif.HalfChainLemmas
import Verif.HalfChainSpec
import Verif.HalfString
import Verif.HalfStringLemmas
import Verif.HalfStringSpec
import Verif.HamTable
import Verif.InitState
import Verif.InitStateLemmas
import Verif.Inner
import Verif.LineSearch
import Verif.LineSearchLemmas
import Verif.LineSearchSpec
import Verif.Loops
import Verif.LowRank
import Verif.MatMul
import Verif.MatMulLemmas
import Verif.Measure
import Verif.Mpo
import Verif.MpoLemmas
import Verif.MpoTangent
import Verif.MpoTangentLemmas
import Verif.MpsGen
import Verif.MultiLemmas
import Verif.Noise
import Verif.Nullspace
import Verif.NullspaceLemmas
import Verif.Overlap
import Verif.PackCG
import Verif.PairGauge
import Verif.PairTangent
import Verif.Persist
import Verif.PhaseTdvp
import Verif.Props.BondDim
import Verif.Props.Canon
import Verif.Props.CanonEvd
import Verif.Props.CanonLeft
import Verif.Props.CheckRCF
import Verif.Props.Chunks
import Verif.Props.Compiled
import Verif.Props.Contract
import Verif.Props.Corr
import Verif.Props.Correl
import Verif.Props.Density
import Verif.Props.Diss
import Verif.Props.Drivers
import Verif.Props.DynExp
import Verif.Props.EffMpo
import Verif.Props.EffOps
import Verif.Props.Energy
import Verif.Props.Example
import Verif.Props.Excite
import Verif.Props.ExciteSep
import Verif.Props.ExciteTp
import Verif.Props.Expmv
import Verif.Props.Fidelity
import Verif.Props.GenBond
import Verif.Props.GenCG
import Verif.Props.GenSweep
import Verif.Props.GoLoop
import Verif.Props.Gpu
import Verif.Props.GpuTangent
import Verif.Props.HalfChain
import Verif.Props.HalfString
import Verif.Props.HamTable
import Verif.Props.InitState
import Verif.Props.Inner
import Verif.Props.LineSearch
import Verif.Props.MatMul
import Verif.Props.Measure
import Verif.Props.Mpo
import Verif.Props.MpoTangent
import Verif.Props.Multi
import Verif.Props.Noise
import Verif.Props.Nullspace
import Verif.Props.PackCG
import Verif.Props.Persist
import Verif.Props.PhaseTdvp
import Verif.Props.Renorm
import Verif.Props.Retry
import Verif.Props.Sandwich
import Verif.Props.Schmidt
import Verif.Props.SetState
import Verif.Props.SplitStep
import Verif.Props.Step
import Verif.Props.SvdNull
import Verif.Props.SwBuild
import Verif.Props.SwCF
import Verif.Props.SwDyn
import Verif.Props.SwEnergy
import Verif.Props.SwFromMps
import Verif.Props.SwGrad
import Verif.Props.SwGrow
import Verif.Props.SwOverlap
import Verif.Props.SwStep
import Verif.Props.SwTangent
import Verif.Props.Sweep
import Verif.Props.Tangent
import Verif.Props.TensorProd
import Verif.Props.TruncUpdate
import Verif.Props.Truncate
import Verif.Props.TwoSplit
import Verif.Props.UniformBlock
import Verif.Props.UniformBuild
import Verif.Props.UniformCF
import Verif.Props.UniformDyn
import Verif.Props.UniformEnv
import Verif.Props.UniformExpect
import Verif.Props.UniformK
import Verif.Props.UniformLimit
import Verif.Props.UniformOverlap
import Verif.Props.UniformPinv
import Verif.Props.UniformResize
import Verif.Props.UniformSearch
import Verif.Props.UniformTangent
import Verif.Props.UniformTangentExp
import Verif.Props.UniformTransfer
import Verif.Props.UniformTrunc
import Verif.Renorm
import Verif.RenormLemmas
import Verif.Retry
import Verif.Sandwich
import Verif.SandwichLemmas
import Verif.SandwichSpec
import Verif.Schmidt
import Verif.SchmidtLemmas
import Verif.SetState
import Verif.SetStateLemmas
import Verif.Spec
import Verif.Spectral
import Verif.SplitStep
import Verif.SplitStepLemmas
import Verif.SplitStepSpec
import Verif.Step
import Verif.StepDeriv
import Verif.StepLemmas
import Verif.StepSpec
import Verif.StepUnique
import Verif.SvdNull
import Verif.SwBuild
import Verif.SwBulkLemmas
import Verif.SwCF
import Verif.SwCFLemmas
import Verif.SwCFMain
import Verif.SwCFSpec
import Verif.SwChainLemmas
import Verif.SwDyn
import Verif.SwDynLemmas
import Verif.SwDynSpec
import Verif.SwEnergy
import Verif.SwEnergyLemmas
import Verif.SwEnergyMain
import Verif.SwEnergySpec
import Verif.SwFromMps
import Verif.SwGrad
import Verif.SwGradLemmas
import Verif.SwGradLimit
import Verif.SwGradMain
import Verif.SwGradSite
import Verif.SwGradSpec
import Verif.SwGrow
import Verif.SwGrowLemmas
import Verif.SwOverlap
import Verif.SwOverlapLemmas
import Verif.SwOverlapSpec
import Verif.SwStep
import Verif.SwStepLemmas
import Verif.SwStepMain
import Verif.SwStepNorm
import Verif.SwStepRet
import Verif.SwStepSpec
import Verif.SwTangent
import Verif.SwTangentLemmas
import Verif.SwTangentSpec
import Verif.SwUpdate
import Verif.Sweep
import Verif.SweepInv
import Verif.SweepLemmas
import Verif.SweepLin
import Verif.SweepPath
import Verif.SweepSpec
import Verif.Tangent
import Verif.TangentGauge
import Verif.TangentGrad
import Verif.TangentLeft
import Verif.TangentLemmas
import Verif.TangentOverlap
import Verif.TangentSpec
import Verif.TensorProd
import Verif.TensorProdLemmas
import Verif.TensorProdSpec
import Verif.TruncUpdate
import Verif.TruncUpdateLemmas
import Verif.Truncate
import Verif.TruncateLemmas
import Verif.TwoSite
import Verif.TwoSiteLemmas
import Verif.TwoSplit
import Verif.TwoSplitLemmas
import Verif.TwoSplitSpec
import Verif.TwoSplitState
import Verif.Uniform
import Verif.UniformBlock
import Verif.UniformBlockLemmas
import Verif.UniformBuild
import Verif.UniformCF
import Verif.UniformCFLemmas
import Verif.UniformCFRank
import Verif.UniformCFSpec
import Verif.UniformDyn
import Verif.UniformDynLemmas
import Verif.UniformDynSpec
import Verif.UniformEig
import Verif.UniformEnv
import Verif.UniformEnvLemmas
import Verif.UniformExpect
import Verif.UniformExpectLemmas
import Verif.UniformK
import Verif.UniformKLemmas
import Verif.UniformKSpec
import Verif.UniformLemmas
import Verif.UniformLimit
import Verif.UniformOverlap
import Verif.UniformOverlapLemmas
import Verif.UniformOverlapSpec
import Verif.UniformPinv
import Verif.UniformPinvLemmas
import Verif.UniformResize
import Verif.UniformSearch
import Verif.UniformSearchLemmas
import Verif.UniformSpec
import Verif.UniformTangent
import Verif.UniformTangentExp
import Verif.UniformTangentExpLemmas
import Verif.UniformTangentExpSpec
import Verif.UniformTangentLemmas
import Verif.UniformTangentSpec
import Verif.UniformTrunc
import Verif.UniformTruncLemmas
import Verif.Witness
import Verif.Audit
