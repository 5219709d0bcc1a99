import Verif.Props.Emd1d
import Verif.Props.LpDual
import Verif.Props.Optim
import Verif.Props.Gromov
import Verif.Props.GromovBary
import Verif.Props.GromovUnb
import Verif.Props.Simplex
import Verif.Props.Arcs
import Verif.Props.PackedState
import Verif.Props.SparseGraph
import Verif.Props.EmdPy
import Verif.Props.EmdSparse
import Verif.Props.Utils
import Verif.Props.Sinkhorn
import Verif.Props.SinkhornLog
import Verif.Props.SinkhornStab
import Verif.Props.Greenkhorn
import Verif.Props.SinkhornHists
import Verif.Props.Partial
import Verif.Props.PartialEntropic
import Verif.Props.Partial1d
import Verif.Props.Unbalanced
import Verif.Props.UnbalancedStab
import Verif.Props.UnbalancedTi
import Verif.Props.Mm
import Verif.Props.Uot1d
import Verif.Props.Smooth
import Verif.Props.Stochastic
import Verif.Props.Dmmot
import Verif.Props.Circle
import Verif.Props.CircleSearch
import Verif.Props.Barycenter
import Verif.Props.Coot
import Verif.Props.Weak
import Verif.Props.Factored
import Verif.Props.Sliced
import Verif.Props.SlicedPlan
import Verif.Props.Gaussian
import Verif.Props.GaussBary
import Verif.Props.GaussGw
import Verif.Props.Gmm
import Verif.Props.GmmBary
import Verif.Props.EntBary
import Verif.Props.EntBaryStab
import Verif.Props.Debiased
import Verif.Props.Solve
import Verif.Props.GwEntropic
import Verif.Props.GwPartialEntropic
import Verif.Props.SolveGromov
import Verif.Props.Da
import Verif.Props.DaReg
import Verif.Props.Mapping
import Verif.Props.Brenier
import Verif.Props.UnbBary
import Verif.Props.RegPath
import Verif.Props.LowRank
import Verif.Props.LowRankGw
import Verif.Props.Lbfgs
import Verif.Spec.Conv
import Verif.Model.Conv
import Verif.Lemmas.GaussKernel
import Verif.Lemmas.Conv
import Verif.Props.Conv
import Verif.Model.BatchSolve
import Verif.Lemmas.BatchSolve
import Verif.Props.BatchSolve
import Verif.Spec.BatchGromov
import Verif.Model.BatchGromov
import Verif.Lemmas.BatchGromov
import Verif.Props.BatchGromov
import Verif.Model.Bapg
import Verif.Lemmas.Bapg
import Verif.Props.Bapg
import Verif.Spec.Usot
import Verif.Model.Usot
import Verif.Lemmas.FwDual
import Verif.Lemmas.Usot
import Verif.Props.Usot
import Verif.Spec.Screen
import Verif.Model.Screen
import Verif.Lemmas.Screen
import Verif.Props.Screen
import Verif.Spec.Estim
import Verif.Model.Estim
import Verif.Lemmas.Estim
import Verif.Props.Estim
import Verif.Props.Unmix
import Verif.Props.Jcpot
import Verif.Props.Spherical
import Verif.Props.Quantized
import Verif.Props.Sgot
import Verif.Props.Bsp
import Verif.Props.GwDict
import Verif.Props.EmdLazy
import Verif.Props.SolveSample
import Verif.Props.Prw
import Verif.Props.Ewca
import Verif.Props.Fda
import Verif.Props.GwBary
import Verif.Props.FreeSinkhorn
import Verif.Props.SemiPath
import Verif.Props.Scaler
import Verif.Props.WarmStart
import Verif.Props.SemiInit
import Verif.Props.Gnn
import Verif.Props.PartialGw
import Verif.Props.ProjSdp
import Verif.Props.Nystroem
import Verif.Props.Estimator
import Verif.Props.Helpers
