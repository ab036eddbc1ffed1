import Verif.Props.FixedPoint
import Verif.Props.Quantizer
import Verif.Props.Container
import Verif.Props.Layer
import Verif.Props.Net
import Verif.Props.BatchNorm
import Verif.Props.Apf
import Verif.Props.ProducedType
import Verif.Props.Narrow
import Verif.Props.Merge
import Verif.Props.Accum
import Verif.Props.Refuse
import Verif.Props.Weights
import Verif.Props.UnaryLut
import Verif.Props.Produced2
import Verif.Props.ProducedExact
import Verif.Props.Convert
import Verif.Props.ProxyGraph
import Verif.Props.ProxyHGQ
import Verif.Props.Tables
import Verif.Props.Trace
import Verif.Props.Linear
import Verif.Props.Bops
import Verif.Props.BitsFlow
import Verif.Lemmas.Config
import Verif.Props.Config
import Verif.Props.BopsModel
import Verif.Lemmas.Tensor
import Verif.Props.Tensor
import Verif.Props.TensorExact
import Verif.Lemmas.Float32
import Verif.Lemmas.Float32Ops
import Verif.Props.Float32
import Verif.Props.Adapt
import Verif.Spec.QKeras
import Verif.Props.Qkeras
import Verif.Model.LayerFloat32
import Verif.Props.LayerFloat32
import Verif.Model.Serialize
import Verif.Props.Serialize
import Verif.Model.Activation
import Verif.Props.Activation
import Verif.Model.Train32
import Verif.Lemmas.Train32
import Verif.Props.Train32
import Verif.Model.Attention
import Verif.Spec.Attention
import Verif.Lemmas.Attention
import Verif.Props.Attention
import Verif.Model.Callbacks
import Verif.Props.Callbacks
import Verif.Model.Loss
import Verif.Props.Loss
import Verif.Model.BNFit
import Verif.Props.BNFit
import Verif.Model.LossGrad
import Verif.Props.LossGrad
import Verif.Props.Narrow2
import Verif.Props.Narrow3
import Verif.Model.PrecGraph
import Verif.Lemmas.PrecGraph
import Verif.Props.PrecGraph
import Verif.Props.Register
import Verif.Lemmas.DataPath
import Verif.Props.DataPath
import Verif.Model.Deploy
import Verif.Lemmas.Deploy
import Verif.Props.Deploy
import Verif.Lemmas.FitsRange
import Verif.Lemmas.KeepsSat
import Verif.Lemmas.FitsGraph
import Verif.Lemmas.Attained
import Verif.Lemmas.DeployRec
import Verif.Lemmas.DeployRec2
import Verif.Props.DeployMild
import Verif.Model.Compiled
import Verif.Model.CompiledTrain
import Verif.Model.Import
import Verif.Model.Signature
import Verif.Props.Compiled
import Verif.Props.Recording
import Verif.Props.CompiledTrain
import Verif.Props.Import
import Verif.Props.Signature
import Verif.Model.Net32
import Verif.Lemmas.Net32
import Verif.Props.Net32
import Verif.Model.Shared
import Verif.Lemmas.Shared
import Verif.Props.Shared
import Verif.Props.Narrow4
import Verif.Props.Pruned
import Verif.Model.Int8
import Verif.Props.Int8
import Verif.Props.MoreData
import Verif.Props.Saturate
import Verif.Props.MoreBits
import Verif.Props.Overflow
import Verif.Props.Conforming
import Verif.Props.QuantError
import Verif.Props.TrainNet
import Verif.Props.Frozen
import Verif.Props.RegisterFix
import Verif.Props.InputReg
import Verif.Props.NarrowExact
import Verif.Lemmas.FloatSpecial
import Verif.Props.TraceTwice
import Verif.Spec.GraphWhole
import Verif.Lemmas.ConvertWhole
import Verif.Props.ConvertWhole
import Verif.Spec.SwitchedOff
import Verif.Props.SwitchedOff
import Verif.Model.FusedNet
import Verif.Spec.FusedNet
import Verif.Lemmas.FusedNet
import Verif.Props.FusedNet
import Verif.Props.FusedStats
import Verif.Props.FusedVars
import Verif.Props.FusedBias
import Verif.Props.BitsPermute
import Verif.Props.BitsPool
import Verif.Props.FusedDropout
import Verif.Props.TruncIff
import Verif.Props.BiasIff
import Verif.Props.ShutupIff
import Verif.Props.ArrBitsIff
import Verif.Props.WrapIff
import Verif.Props.BiasSeen
import Verif.Props.HalfIff
import Verif.Props.RegIff
import Verif.Props.QWrapIff
import Verif.Props.DeployIff
import Verif.Props.ChannelsFirst
import Verif.Props.FlattenFirst
import Verif.Props.BitsTrainIff
import Verif.Props.BopsTrainNet
import Verif.Props.ArrBits32Iff
import Verif.Props.BopsTrain32
