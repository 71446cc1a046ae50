import Verif.Model.Res
import Verif.Model.Wrap
import Verif.Model.Sort
import Verif.Model.Sampler
import Verif.Props.Wrap
import Verif.Props.Sampler
import Verif.Props.SamplerMoves
import Verif.Props.SamplerSafe
import Verif.Model.Restart
import Verif.Props.Restart
import Verif.Model.Postprocess
import Verif.Props.Postprocess
import Verif.Model.Semisep
import Verif.Model.Pivot
import Verif.Model.BlockInv
import Verif.Props.Semisep
import Verif.Props.BlockInv
import Verif.Props.Pivot
import Verif.Model.Like
import Verif.Model.Line
import Verif.Props.Like
import Verif.Model.Kernel
import Verif.Model.LineParams
import Verif.Props.Kernel
import Verif.Proof.BandError
import Verif.Proof.BandError2
import Verif.Proof.BandError3
import Verif.Props.Band
import Verif.Props.RowOrder
import Verif.Props.Order
import Verif.Proof.Reorder
import Verif.Props.Labels
import Verif.Proof.Merge
import Verif.Proof.MoreData
import Verif.Props.MoreData
import Verif.Proof.ChainRule
import Verif.Props.ChainRule
import Verif.Props.Merge
import Verif.Props.Nested
import Verif.Props.NestedPrior
import Verif.Props.Units
import Verif.Props.TimeOrigin
import Verif.Model.ConRanges
import Verif.Proof.TimeUnit
import Verif.Proof.TimeUnit2
import Verif.Props.TimeUnit
import Verif.Proof.Symmetry
import Verif.Props.LineParams
import Verif.Model.Misc
import Verif.Props.Misc
import Verif.Model.Text
import Verif.Model.Config
import Verif.Props.Config
import Verif.Model.Data
import Verif.Props.Data
import Verif.Model.Scale
import Verif.Props.Scale
import Verif.Props.Spans
import Verif.Model.Priors
import Verif.Props.Priors
import Verif.Model.Recon
import Verif.Props.Recon
import Verif.Model.Pmap
import Verif.Props.Pmap
import Verif.Model.Vmap
import Verif.Props.Vmap
import Verif.Props.VmapLike
import Verif.Props.Reversible
import Verif.Props.Workspace
import Verif.Model.Decomp
import Verif.Spec.Decomp
import Verif.Proof.Decomp
import Verif.Props.Decomp
import Verif.Model.ArrayKernel
import Verif.Proof.ArrayKernel
import Verif.Props.ArrayKernel
import Verif.Model.VmapRec
import Verif.Proof.VmapRec
import Verif.Props.VmapRec
import Verif.Model.Getopt
import Verif.Spec.CmdLine
import Verif.Proof.Getopt
import Verif.Props.CmdLine
import Verif.Model.RunPlan
import Verif.Proof.RunArgs
import Verif.Props.RunArgs
import Verif.Proof.RunPlan
import Verif.Proof.OutFile
import Verif.Model.RunFiles
import Verif.Props.RunPlan
import Verif.Props.RunFiles
import Verif.Model.Resume
import Verif.Props.Resume
import Verif.Model.ParNames
import Verif.Proof.ParNames
import Verif.Props.ParNames
import Verif.Spec.Sessions
import Verif.Proof.Sessions
import Verif.Props.Sessions
import Verif.Model.Heap
import Verif.Proof.Heap
import Verif.Proof.HeapDnest
import Verif.Proof.HeapRun
import Verif.Proof.HeapLine
import Verif.Proof.HeapRec
import Verif.Proof.HeapDec
import Verif.Props.Heap
import Verif.Spec.Options
import Verif.Model.Options
import Verif.Proof.Options
import Verif.Proof.OptNum
import Verif.Props.Options
import Verif.Props.DecompFiles
import Verif.Model.SciText
import Verif.Proof.SciText
import Verif.Props.OutText
import Verif.Props.ParText
import Verif.Proof.NumText
import Verif.Model.SampleText
import Verif.Proof.SampleText
import Verif.Props.SampleText
import Verif.Props.Digits
import Verif.Model.Flat
import Verif.Model.FlatLine
import Verif.Model.LU
import Verif.Spec.Flat
import Verif.Proof.Flat
import Verif.Proof.FlatSemi
import Verif.Proof.FlatCon
import Verif.Proof.FlatVec
import Verif.Proof.FlatLoop
import Verif.Proof.FlatTri
import Verif.Proof.FlatBand
import Verif.Proof.FlatIter
import Verif.Proof.FlatFill
import Verif.Proof.FlatLine
import Verif.Proof.LU
import Verif.Props.Flat
import Verif.Props.FlatCon
import Verif.Props.FlatLine
import Verif.Props.LU
import Verif.Model.Joint
import Verif.Spec.Invariance
import Verif.Proof.Invariance1
import Verif.Proof.Invariance2
import Verif.Proof.Invariance3
import Verif.Proof.Invariance4
import Verif.Proof.Invariance5
import Verif.Proof.Invariance6
import Verif.Proof.Invariance7
import Verif.Proof.Invariance8
import Verif.Proof.Invariance9
import Verif.Proof.Invariance10
import Verif.Props.Stationary
import Verif.Model.PyAccess
import Verif.Props.PyAccess
import Verif.Model.PySession
import Verif.Props.PySession
import Verif.Model.PyPriors
import Verif.Props.PyPriors
import Verif.Proof.PyText
import Verif.Model.PyData
import Verif.Props.PyData
import Verif.Model.PyPost
import Verif.Proof.PyPost
import Verif.Props.PyPost
import Verif.Model.PyCols
import Verif.Proof.PyCols
import Verif.Props.PyCols
import Verif.Model.PySetup
import Verif.Spec.PySetup
import Verif.Proof.PySetup
import Verif.Proof.PySetupClass
import Verif.Proof.PySetupAgain
import Verif.Props.PySetup
import Verif.Props.PySetupOpts
import Verif.Props.PySetupAgain
import Verif.Spec.InitLaw
import Verif.Proof.InitLaw
import Verif.Proof.InitOrder
import Verif.Props.InitLaw
import Verif.Model.SamplerFl
import Verif.Model.PostFl
import Verif.Spec.SamplerFl
import Verif.Proof.SamplerFl
import Verif.Proof.SamplerFl2
import Verif.Proof.SamplerFlExample
import Verif.Proof.PostFl
import Verif.Props.SamplerFl
import Verif.Model.Round
import Verif.Spec.Round
import Verif.Proof.Round
import Verif.Props.Round
import Verif.Model.Defaults
import Verif.Spec.Defaults
import Verif.Proof.Defaults
import Verif.Proof.Defaults2
import Verif.Props.Defaults
import Verif.Spec.AutoLevels
import Verif.Proof.AutoLevels
import Verif.Props.AutoLevels
import Verif.Spec.Independent
import Verif.Proof.Independent
import Verif.Proof.Independent2
import Verif.Proof.Independent3
import Verif.Props.Independent
import Verif.Model.LibArgs
import Verif.Spec.LibArgs
import Verif.Proof.LibArgs
import Verif.Props.LibArgs
import Verif.Model.PlotFig
import Verif.Spec.PlotFig
import Verif.Proof.PlotFig
import Verif.Proof.Quantile
import Verif.Props.PlotFig
import Verif.Model.PlotPanels
import Verif.Props.PlotPanels
import Verif.Spec.Reach
import Verif.Proof.Reach
import Verif.Proof.Reach2
import Verif.Props.Reach
import Verif.Model.Mock
import Verif.Proof.Mock
import Verif.Proof.Mock2
import Verif.Proof.Mock3
import Verif.Props.Mock
import Verif.Props.Mock2
import Verif.Proof.Mirror
import Verif.Props.Mirror
import Verif.Model.Stages
import Verif.Props.Stages
import Verif.Proof.Relabel
import Verif.Props.Relabel
import Verif.Model.TfChoice
import Verif.Props.TfChoice
import Verif.Props.LevelMean
import Verif.Model.PyEvidence
import Verif.Props.PyEvidence
import Verif.Model.Whole
import Verif.Proof.Whole
import Verif.Props.Whole
import Verif.Proof.Width
import Verif.Props.Width
import Verif.Props.Temper
import Verif.Model.WholeFl
import Verif.Proof.WholeFl
import Verif.Props.WholeFl
import Verif.Props.WholePmap
import Verif.Model.Progress
import Verif.Proof.Progress
import Verif.Props.Progress
import Verif.Model.StartDir
import Verif.Proof.StartDir
import Verif.Props.StartDir
import Verif.Model.PyObjects
import Verif.Spec.PyObjects
import Verif.Proof.PyObjects
import Verif.Props.PyObjects
import Verif.Model.PyObjEvidence
import Verif.Props.PyObjEvidence
