import Verif.Props.BackwardOps
import Verif.Props.Context
import Verif.Props.Dict
import Verif.Props.BayesNet
import Verif.Props.Observe
import Verif.Props.Shape
import Verif.Props.Guards
import Verif.Props.DistShape
import Verif.Props.LogProbShape
import Verif.Props.Normal
import Verif.Props.Discrete1
import Verif.Props.Continuous1
import Verif.Props.LogExp
import Verif.Props.Arith
import Verif.Props.VObjective
import Verif.Props.Elbo
import Verif.Props.Estimators
import Verif.Props.ScoreEst
import Verif.Props.MovingMean
import Verif.Props.PathGrad
import Verif.Props.Discrete2
import Verif.Props.MvNormal
import Verif.Props.Simplex
import Verif.Props.Concrete
import Verif.Props.Hmc
import Verif.Props.HmcNumeric
import Verif.Props.HmcAdapt
import Verif.Props.HmcApi
import Verif.Props.Ais
import Verif.Props.Sgmcmc
import Verif.Props.Diagnostics
import Verif.Props.Transform
import Verif.Props.Special
import Verif.Props.ExampleUtils
import Verif.Props.GaussianProcess
import Verif.Props.Program
import Verif.Props.EndToEnd
import Verif.Props.IsLogLik
import Verif.Props.Calls
import Verif.Props.Ctors
import Verif.Props.Vars
import Verif.Props.BatchSample
import Verif.Props.BatchLogProb
import Verif.Props.BatchSampleMv
import Verif.Props.BatchSampleCat
import Verif.Props.HmcRuns
import Verif.Props.NetMcmc
import Verif.Props.NetAis
import Verif.Props.NetIw
import Verif.Props.NetGrad
import Verif.Props.Checked
import Verif.Props.Outside
import Verif.Props.ObjState
import Verif.Props.SgmcmcGauss
import Verif.Props.HmcConv
import Verif.Props.HmcTune
import Verif.Props.IwTight
import Verif.Props.NetHmcConv
import Verif.Props.AisMany
import Verif.Props.NetAisMany
import Verif.Spec.SgmcmcWeak
import Verif.Lemmas.WeakExpansion
import Verif.Lemmas.WeakNormal
import Verif.Props.SgmcmcWeak
import Verif.Props.SgmcmcWeakHmc
import Verif.Props.SgmcmcWeakNht
import Verif.Props.SgmcmcWeakNhtStep
import Verif.Props.SgmcmcWeakNht2
import Verif.Props.SgmcmcWeakCases
import Verif.Props.SgmcmcWeakRms
import Verif.Props.SgmcmcWeakRmsBias
import Verif.Model.Minibatch
import Verif.Spec.Minibatch
import Verif.Props.Minibatch
import Verif.Props.MinibatchSgmcmc
import Verif.Props.MinibatchCases
import Verif.Spec.SgldLoop
import Verif.Model.SgldLoop
import Verif.Lemmas.Euclid
import Verif.Lemmas.StrongConcave
import Verif.Lemmas.Mala
import Verif.Lemmas.MalaReject
import Verif.Lemmas.SgldStep
import Verif.Lemmas.SgldBounds
import Verif.Lemmas.SgldCoupling
import Verif.Lemmas.SgldEpoch
import Verif.Lemmas.SgldChain
import Verif.Lemmas.SgldNear
import Verif.Props.SgldConv
import Verif.Spec.Pmf
import Verif.Model.Pmf
import Verif.Lemmas.PmfSelect
import Verif.Lemmas.Gibbs
import Verif.Lemmas.PmfDensity
import Verif.Lemmas.PmfStep
import Verif.Lemmas.PmfRun
import Verif.Props.Pmf
import Verif.Model.MinibatchVi
import Verif.Props.MinibatchVi
import Verif.Model.Svgp
import Verif.Spec.Svgp
import Verif.Lemmas.Svgp
import Verif.Props.Svgp
import Verif.Spec.MinibatchVi
import Verif.Model.Lntm
import Verif.Spec.Lntm
import Verif.Lemmas.Lntm
import Verif.Lemmas.LntmEm
import Verif.Props.Lntm
import Verif.Props.LntmAis
import Verif.Model.Vae
import Verif.Spec.Vae
import Verif.Lemmas.GaussLatent
import Verif.Props.Vae
import Verif.Model.Ssl
import Verif.Spec.Ssl
import Verif.Props.Ssl
import Verif.Model.Adamax
import Verif.Props.Adamax
import Verif.Spec.Sbn
import Verif.Model.Sbn
import Verif.Props.Sbn
import Verif.Spec.Dropout
import Verif.Model.Dropout
import Verif.Props.Dropout
import Verif.Spec.Gan
import Verif.Model.Gan
import Verif.Props.Gan
import Verif.Spec.Toy
import Verif.Model.Toy
import Verif.Props.Toy
import Verif.Spec.BernVae
import Verif.Model.BernVae
import Verif.Props.BernVae
import Verif.Model.ConvVae
import Verif.Props.ConvVae
import Verif.Model.SslIs
import Verif.Props.SslIs
import Verif.Model.Dataset
import Verif.Props.Dataset
import Verif.Model.Dtypes
import Verif.Props.Dtypes
import Verif.Model.MetaArgs
import Verif.Props.MetaArgs
import Verif.Model.BnnSg
import Verif.Props.BnnSg
import Verif.Model.KernelBatch
import Verif.Props.KernelBatch
import Verif.Model.FloatDraw
import Verif.Lemmas.FloatDraw
import Verif.Props.FloatDraw
import Verif.Model.Session
import Verif.Spec.Session
import Verif.Props.Session
import Verif.Model.FloatLse
import Verif.Lemmas.FloatLse
import Verif.Props.FloatLse
import Verif.Model.ZeroDensity
import Verif.Props.ZeroDensity
import Verif.Model.SgShared
import Verif.Props.SgShared
import Verif.Model.FloatBern
import Verif.Props.FloatBern
import Verif.Model.Threads
import Verif.Props.Threads
import Verif.Model.HmcFetch
import Verif.Props.HmcFetch
import Verif.Model.Resume
import Verif.Props.Resume
import Verif.Model.Dataflow
import Verif.Lemmas.Dataflow
import Verif.Model.HmcGraph
import Verif.Props.HmcGraph
import Verif.Model.HmcInterp
import Verif.Props.HmcInterp
import Verif.Model.SgGraph
import Verif.Props.SgGraph
import Verif.Model.SgInterp
import Verif.Props.SgInterp
import Verif.Model.AisRun
import Verif.Props.AisRun
import Verif.Model.HmcShared
import Verif.Props.HmcShared
