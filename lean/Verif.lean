import Verif.Scope
import Verif.ScopeProps
import Verif.LogSpace
import Verif.Circuit
import Verif.CircuitLemmas
import Verif.CircuitInt
import Verif.Leaves
import Verif.CircuitProps
import Verif.Marginalize
import Verif.MarginalizeProps
import Verif.Sampling
import Verif.SamplingLemmas
import Verif.SamplingLaw
import Verif.SamplingProps
import Verif.MpeProps
import Verif.Routing
import Verif.RoutingProps
import Verif.Replace
import Verif.ReplaceProps
import Verif.Cache
import Verif.CacheProps
import Verif.EmLoop
import Verif.EmLoopProps
import Verif.Projections
import Verif.ProjectionsProps
import Verif.RepMixing
import Verif.RepMixingProps
import Verif.Hypergeom
import Verif.HypergeomProps
import Verif.Splits
import Verif.SplitsProps
import Verif.Outer
import Verif.OuterProps
import Verif.Factorize
import Verif.FactorizeProps
import Verif.Signed
import Verif.SignedProps
import Verif.Graph
import Verif.GraphProps
import Verif.StatsProps
import Verif.Einsum
import Verif.EinsumProps
import Verif.Em
import Verif.EmProps
import Verif.Prune
import Verif.PruneProps
import Verif.Histogram
import Verif.HistogramProps
import Verif.CLTree
import Verif.CLTreeProps
import Verif.SpanTree
import Verif.Mst
import Verif.MstProps
import Verif.MstTopk
import Verif.PrimProps
import Verif.Prometheus
import Verif.PrometheusProps
import Verif.BuildKit
import Verif.LearnSpn
import Verif.LearnSpnProps
import Verif.CNet
import Verif.CNetProps
import Verif.LeafFit
import Verif.LeafFitProps
import Verif.LeafFitMore
import Verif.Inner
import Verif.InnerProps
import Verif.InnerLeaves
import Verif.Socs
import Verif.SocsProps
import Verif.SocsMissing
import Verif.SocsSampler
import Verif.Interval
import Verif.IntervalLeaves
import Verif.IntervalProps
import Verif.Measures
import Verif.MeasuresProps
import Verif.MeasuresInfo
import Verif.MeasuresLaws
import Verif.MeasuresWoe
import Verif.MeasuresEx
import Verif.MpeGreedy
import Verif.Classify
import Verif.ClassifyProps
import Verif.NaiveBayes
import Verif.NaiveBayesProps
import Verif.NaiveBayesFit
import Verif.Conv
import Verif.ConvProps
import Verif.SumConvProps
import Verif.ConvNet
import Verif.ConvPcProps
import Verif.ConvSample
import Verif.ConvPcNeg
import Verif.Dsl
import Verif.DslProps
import Verif.DslAlgebra
import Verif.WeightedSum
import Verif.WeightedSumProps
import Verif.Pic
import Verif.PicProps
import Verif.PicGraph
import Verif.PicEnd
import Verif.PicWitness
import Verif.Cms
import Verif.CmsProps
import Verif.CmsTree
import Verif.CmsNeg
import Verif.CmsSelect
import Verif.ElemSum
import Verif.ElemSumProps
import Verif.ElemSumLaw
import Verif.ElemSumSample
import Verif.ElemSumRoot
import Verif.ElemSumEm
import Verif.ElemSumMarg
import Verif.ElemSumWit
import Verif.Rat
import Verif.RatProps
import Verif.RatLL
import Verif.RatNaN
import Verif.RatSample
import Verif.RatModel
import Verif.RatBuild
import Verif.RatLeaves
import Verif.RatSound
import Verif.RatSpnProps
import Verif.RatSpnWit
import Verif.Einet
import Verif.EinetProps
import Verif.EinetWit
import Verif.ListProd
import Verif.ListProdProps
import Verif.ListProdSample
import Verif.ListProdMain
import Verif.ListProdWit
import Verif.HcltTree
import Verif.Hclt
import Verif.HcltProps
import Verif.HcltMain
import Verif.HcltIndep
import Verif.HcltBuild
import Verif.HcltLearn
import Verif.HcltWit
import Verif.ChowLiu
import Verif.Mi
import Verif.MiProps
import Verif.MiCat
import Verif.MiMain
import Verif.MiBin
import Verif.MiTrees
import Verif.MiEdge
import Verif.CltFit
import Verif.CltFitProps
import Verif.CltFitTree
import Verif.CltFitMain
import Verif.CltFitWit
import Verif.Pwl
import Verif.PwlProps
import Verif.PwlFit
import Verif.PwlSample
import Verif.PwlMain
import Verif.PwlLeaf
import Verif.PwlWit
import Verif.Simple
import Verif.SimpleProps
import Verif.SimpleLeaves
import Verif.SimpleTrunc
import Verif.SimpleWit
import Verif.SimpleCirc
import Verif.Apc
import Verif.ApcKl
import Verif.ApcStats
import Verif.ApcTrain
import Verif.ApcTrainProps
import Verif.ApcMix
import Verif.ApcEnc
import Verif.ApcEncProps
import Verif.ApcEncLaw
import Verif.ApcEncWit
import Verif.PromModel
import Verif.PromForest
import Verif.PromParts
import Verif.PromLink
import Verif.PromCorr
import Verif.PromProps
import Verif.PromLearn
import Verif.PromMain
import Verif.PromWit
import Verif.Triple
import Verif.TripleProps
import Verif.TripleMain
import Verif.TripleWit
import Verif.SosModel
import Verif.SosTree
import Verif.SosBuild
import Verif.SosMain
import Verif.SosExp
import Verif.SosWit
import Verif.PwlBins
import Verif.ApcRecord
import Verif.BuildSocs
import Verif.BuildSocsProps
import Verif.BuildSocsMain
import Verif.BuildSocsBuild
import Verif.BuildSocsWit
import Verif.GradDesc
import Verif.GradDescProps
import Verif.Sklearn
import Verif.SklearnProps
import Verif.SklearnMain
import Verif.Qpc
import Verif.QpcNum
import Verif.QpcList
import Verif.QpcLevel
import Verif.QpcMix
import Verif.QpcBuild
import Verif.QpcHeight
import Verif.QpcMain
import Verif.QpcProps
import Verif.QpcSem
import Verif.QpcInt
import Verif.QpcWit
import Verif.Image
import Verif.ImageProps
import Verif.ImageMarg
import Verif.ImageWit
import Verif.TLayer
import Verif.TLayerProps
import Verif.TLayerMain
import Verif.TLayerInt
import Verif.TLayerShape
import Verif.TLayerWit
import Verif.JEnc
import Verif.JEncProps
import Verif.JEncMain
import Verif.JEncLaw
import Verif.JEncTop
import Verif.JEncNeg
import Verif.JEncPerm
import Verif.FnGroup
import Verif.FnGroupProps
import Verif.FnGroupMat
import Verif.IpMemo
import Verif.IpMemoProps
import Verif.IpMemo3
import Verif.IpMemoWit
import Verif.Decoder
import Verif.DecoderProps
import Verif.DecoderMain
import Verif.DecoderWit
import Verif.GammaFit
import Verif.GammaFitMore
import Verif.NaiveBayesGamma
import Verif.CountInner
import Verif.NegBinInner
import Verif.Tightened
import Verif.CountMode
