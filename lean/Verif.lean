import Verif.Props.Parallel
import Verif.Props.Split
import Verif.Props.Search
import Verif.Props.CrossVal
import Verif.Props.Matrix
import Verif.Props.LinClone
import Verif.Props.Pipeline
import Verif.Props.Label
import Verif.Props.Scale
import Verif.Props.Poly
import Verif.Props.OneHot
import Verif.Props.Shuffler
import Verif.Props.Imputer
import Verif.Props.KBins
import Verif.Props.Power
import Verif.Props.QuantileT
import Verif.Props.Classification
import Verif.Props.PRF
import Verif.Props.Regression
import Verif.Props.Ranking
import Verif.Props.RankAverage
import Verif.Props.PRCurve
import Verif.Model.Neighbors
import Verif.Spec.Nearest
import Verif.Props.Neighbors
import Verif.Lemmas.KDQuery
import Verif.Lemmas.KDBuild
import Verif.Props.KDTree
import Verif.Model.Dbscan
import Verif.Spec.Density
import Verif.Lemmas.Dbscan
import Verif.Props.Dbscan
import Verif.Model.KMeans
import Verif.Lemmas.KMeans
import Verif.Props.KMeans
import Verif.Model.KnnPredict
import Verif.Props.KnnPredict
import Verif.Model.Svm
import Verif.Spec.Svm
import Verif.Lemmas.Svm
import Verif.Props.SvmCache
import Verif.Props.Svc
import Verif.Props.Svr
import Verif.Model.NaiveBayes
import Verif.Props.NaiveBayes
import Verif.Props.NaiveBayesPredict
import Verif.Model.EnetCD
import Verif.Props.EnetCD
import Verif.Model.Linear
import Verif.Props.Linear
import Verif.Props.LinearGrad
import Verif.Model.Mlp
import Verif.Props.MlpGrad
import Verif.Props.Mlp
import Verif.Model.Kernels
import Verif.Props.Kernels
import Verif.Props.KernelParams
import Verif.Props.Gpr
import Verif.Model.Interpolate
import Verif.Props.Interp1d
import Verif.Props.CubicSpline
import Verif.Props.Interp2d
import Verif.Model.Optimizer
import Verif.Props.Optimizer
import Verif.Model.Octave
import Verif.Props.Octave
import Verif.Model.BayesRidge
import Verif.Props.BayesRidge
import Verif.Model.Pca
import Verif.Props.Pca
import Verif.Model.EnetMT
import Verif.Model.EnetFit
import Verif.Props.EnetMT
import Verif.Props.EnetFit
import Verif.Model.Logistic
import Verif.Props.Logistic
import Verif.Model.Datasets
import Verif.Props.Datasets
import Verif.Model.Rectangle
import Verif.Props.Rectangle
import Verif.Model.General64
import Verif.Props.General64
import Verif.Model.MlpFit
import Verif.Props.MlpAdaptive
import Verif.Props.MlpFit
import Verif.Model.Tensor
import Verif.Props.Tensor
import Verif.Model.BaseMat
import Verif.Props.BaseMat
import Verif.Model.PrepHelpers
import Verif.Props.PrepHelpers
import Verif.Model.Source
import Verif.Props.Source
import Verif.Model.TransClone
import Verif.Props.TransClone
import Verif.Model.Scores
import Verif.Props.Scores
import Verif.Model.Views
import Verif.Props.Views
import Verif.Model.Params
import Verif.Props.Params
import Verif.Model.NeighState
import Verif.Props.NeighState
import Verif.Model.NBClone
import Verif.Props.NBClone
import Verif.Model.SvmState
import Verif.Props.SvmState
import Verif.Model.TransClone2
import Verif.Props.TransClone2
import Verif.Model.MlpOpt
import Verif.Props.MlpOpt
import Verif.Model.PowerFit
import Verif.Props.PowerFit
import Verif.Model.LogClone
import Verif.Props.LogClone
import Verif.Model.SearchObj
import Verif.Props.SearchObj
import Verif.Model.PipeObj
import Verif.Props.PipeObj
import Verif.Model.PipeInv
import Verif.Props.PipeInv
import Verif.Model.ConfusionMulti
import Verif.Props.ConfusionMulti
import Verif.Props.GprTheta
import Verif.Model.GprClone
import Verif.Props.GprClone
import Verif.Model.Scores2
import Verif.Props.Scores2
import Verif.Props.SvmKkt
import Verif.Model.LinFitGom
import Verif.Props.LinFitGom
import Verif.Props.SvrTerm
import Verif.Model.SgdFit
import Verif.Props.SgdFit
import Verif.Model.NOutputs
import Verif.Props.NOutputs
import Verif.Props.ShufflerReach
import Verif.Props.GomJoint
import Verif.Props.LossMono
import Verif.Model.MlpDeliver
import Verif.Props.MlpDeliver
import Verif.Model.MultiLabel
import Verif.Props.MultiLabel
import Verif.Model.LinFit
import Verif.Props.LinFit
import Verif.Model.OptNames
import Verif.Props.OptNames
import Verif.Model.InterpShare
import Verif.Props.InterpShare
import Verif.Props.CrossKFold
import Verif.Model.InitParams
import Verif.Props.InitParams
import Verif.Spec.Copies
import Verif.Props.Repeats
import Verif.Props.RowOrder
import Verif.Props.Ranks
import Verif.Props.Units
import Verif.Props.Duality
import Verif.Props.Chains
import Verif.Props.KnnInvariance
import Verif.Props.BayesInvariance
import Verif.Props.ClusterInvariance
import Verif.Props.OlsInvariance
import Verif.Props.LabelUnseen
import Verif.Props.EnetAgree
import Verif.Model.BayesRidgeFit
import Verif.Props.BayesRidgeInv
import Verif.Props.SvmSymmetry
import Verif.Props.LogisticInv
import Verif.Props.PcaInv
import Verif.Props.InterpInv
import Verif.Props.GprInv
import Verif.Props.SvrDup
import Verif.Model.RawLoops
import Verif.Props.RawLoops
import Verif.Props.RawLoops2
import Verif.Model.PipeHeap
import Verif.Props.PipeHeap
import Verif.Props.ScaledPipes
import Verif.Props.DbscanMono
import Verif.Props.KnnMono
import Verif.Props.EnetExact
import Verif.Props.RidgeInv
import Verif.Props.Penalty
import Verif.Model.PipeHeapInv
import Verif.Props.PipeHeapInv
import Verif.Props.MlpInv
import Verif.Model.CrossKnn
import Verif.Props.CrossKnn
import Verif.Props.SvmOptimal
import Verif.Props.SvmKernels
import Verif.Props.PcaGeometry
import Verif.Props.SplineSmooth
import Verif.Props.SgdReach
import Verif.Model.KDMatrix
import Verif.Props.KDMatrix
import Verif.Model.KnnTree
import Verif.Props.KnnTree
import Verif.Props.EnetMTExact
import Verif.Props.Regions
import Verif.Props.PolyFit
import Verif.Props.KernelFeatures
import Verif.Props.BestConstant
import Verif.Props.InterpError
import Verif.Props.Residuals
import Verif.Props.SvmAgree
import Verif.Model.LabelBuf
import Verif.Props.LabelBuf
import Verif.Model.LossAct
import Verif.Props.LossAct
import Verif.Props.KMeansRecover
import Verif.Props.GroupsApart
import Verif.Props.KMeansCost
import Verif.Props.PrepRank
import Verif.Props.Interp2dError
import Verif.Props.ScoreFacts
import Verif.Props.Sensitivity
import Verif.Props.Robust
import Verif.Props.Outliers
import Verif.Props.ConfusionFacts
import Verif.Props.PolyOrder
import Verif.Props.InterpMono
import Verif.Props.LeftOut
import Verif.Props.Copies
import Verif.Props.CopiesBayes
import Verif.Props.CopiesEnet
import Verif.Props.Correlation
import Verif.Props.Imputed
import Verif.Props.Parts
import Verif.Props.BayesNearest
import Verif.Props.MlpMoves
import Verif.Props.SvmBounded
