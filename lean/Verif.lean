import Verif.TagSet.Props
import Verif.QN.Props
import Verif.Index.Props
import Verif.Index.SwapPrimes
import Verif.Tensor.RangeProps
import Verif.Tensor.Slice
import Verif.Tensor.Gemm
import Verif.Tensor.ContractProps
import Verif.QDense.AddProps
import Verif.QDense.Combiner
import Verif.QDense.Combine
import Verif.QDense.Uncombine
import Verif.QDense.RemoveQNs
import Verif.QDense.ScheduleProps
import Verif.Util.Args
import Verif.Util.ArgsString
import Verif.Util.ArgsStream
import Verif.Util.AutoVector
import Verif.Util.StreamProps
import Verif.Decomp.TruncateProps
import Verif.MPS.Sweeps
import Verif.MPS.LatticeProps
import Verif.MPS.Misc
import Verif.Net.ITensor
import Verif.MPS.InnerEx
import Verif.MPS.InnerTwo
import Verif.MPS.InnerTwoMain
import Verif.MPS.InnerTwoC105
import Verif.MPS.InnerTwoOps
import Verif.MPS.ErrorC105
import Verif.MPS.ErrorEx
import Verif.MPS.LocalMPOSet
import Verif.MPS.LimitsEx
import Verif.MPS.Disk
import Verif.Net.DiagC28
import Verif.Net.Add
import Verif.Net.Mixed
import Verif.Net.Combine
import Verif.MPS.Sum
import Verif.MPS.SumProps
import Verif.MPS.SumC43
import Verif.AutoMPO.Terms
import Verif.AutoMPO.TermsProps
import Verif.AutoMPO.TermsEx
import Verif.AutoMPO.Exact
import Verif.AutoMPO.ExactProps
import Verif.AutoMPO.ExactEx
import Verif.AutoMPO.Sites
import Verif.AutoMPO.JW
import Verif.AutoMPO.JWSites
import Verif.AutoMPO.JWExact
import Verif.AutoMPO.Svd
import Verif.AutoMPO.SvdParts
import Verif.AutoMPO.SvdTerms
import Verif.AutoMPO.SvdProps
import Verif.AutoMPO.SvdVec
import Verif.AutoMPO.SvdOps
import Verif.AutoMPO.SvdEx
import Verif.Diag.Ops
import Verif.QDense.QDiagDense
import Verif.Store.CowTasks
import Verif.Decomp.SvdEx
import Verif.Solvers.DavidsonEx
import Verif.Solvers.GmresC70
import Verif.Expo.PadeC71
import Verif.Expo.ApplyExpBad
import Verif.MPS.DmrgC73
import Verif.MPS.FitApplyEx
import Verif.MPS.FitOneEx
import Verif.MPS.IntegratorsEx
import Verif.MPS.ObserverEx
import Verif.MPS.TEvolC74
import Verif.MPS.ApplyMPOC75
import Verif.MPS.Orthogonalize
import Verif.Solvers.ArnoldiC77
import Verif.Decomp.HermitianEx
import Verif.MPS.SumNumC79
import Verif.Sites.FermiC80
import Verif.AutoMPO.ToExpEx
import Verif.QDense.FluxEx
import Verif.Util.InputTable
import Verif.Tensor.ViewsEx
import Verif.MPS.ExcitedC90
import Verif.MPS.CorrelEx
import Verif.Decomp.SvdRefEx
import Verif.Decomp.LayoutEx
import Verif.Decomp.QrQNEx
import Verif.MPS.SvdBond
import Verif.MPS.SvdBondSpec
import Verif.MPS.SvdBondDen
import Verif.MPS.SvdBondC96
import Verif.MPS.SvdBondEx
import Verif.MPS.NMult
import Verif.MPS.NMultSum
import Verif.MPS.NMultSpec
import Verif.MPS.NMultRounds
import Verif.MPS.NMultC97
import Verif.MPS.NMultEx
import Verif.Net.DirectSum
import Verif.Net.DirectSumC98
import Verif.Net.NcProd
import Verif.QDense.NcProd
import Verif.Net.NcProdC99
import Verif.Net.Permute
import Verif.Net.PermuteC100
import Verif.MPS.InitState
import Verif.MPS.InitStateProps
import Verif.MPS.InitStateQ
import Verif.MPS.InitStateC101
import Verif.MPS.InitStateD
import Verif.MPS.InitStateEx
import Verif.MPS.Trace
import Verif.MPS.TraceAB
import Verif.MPS.TraceC102
import Verif.MPS.TraceEx
import Verif.QDense.DiagContract
import Verif.QDense.DiagContractLemmas
import Verif.QDense.DiagContractSteps
import Verif.QDense.DiagContractProps
import Verif.QDense.DiagContractC103
import Verif.Decomp.Factor
import Verif.Decomp.FactorC104
import Verif.Decomp.PolarC104
import Verif.Decomp.PolarEx
import Verif.Util.Hdf5
import Verif.Util.Hdf5Props
import Verif.Decomp.Eigen
import Verif.Decomp.EigenC108
import Verif.Decomp.EigenEx
import Verif.AutoMPO.Compare
import Verif.Tensor.Orthog
import Verif.Tensor.OrthogEx
import Verif.Util.Mpi
import Verif.Util.MpiC111
import Verif.Util.MpiGather
import Verif.Util.MpiSum
import Verif.Util.LogNum
import Verif.MPS.CheckMPO
import Verif.Util.MpiSync
import Verif.MPS.SiteStore
import Verif.MPS.LocalOpSize
import Verif.MPS.SwapSites
import Verif.Util.Itertools
