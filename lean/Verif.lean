import Verif.Accel.CudaModel
import Verif.Accel.CudaProps
import Verif.Accel.Fixed
import Verif.Accel.Model
import Verif.Accel.NppModel
import Verif.Accel.NppProps
import Verif.Accel.OptModel
import Verif.Accel.OptProps
import Verif.Accel.Props
import Verif.Accel.RotModel
import Verif.Accel.RotProps
import Verif.Accel.StreamModel
import Verif.Accel.StreamProps
import Verif.Accel.Threads
import Verif.Accel.Units
import Verif.Affine.Model
import Verif.Affine.Props
import Verif.Align.Drift
import Verif.Align.DriftProps
import Verif.Align.Seq
import Verif.Align.SeqModel
import Verif.Align.Slits
import Verif.Align.SlitsProps
import Verif.Base
import Verif.Bench.Compare
import Verif.Bench.Convert
import Verif.Bench.Model
import Verif.Bench.Props
import Verif.Bench.Quantify
import Verif.Bench.Rescale
import Verif.CInt.Model
import Verif.CInt.Props
import Verif.Cdf.Model
import Verif.Cdf.Props
import Verif.Center.EmptyProps
import Verif.Center.Entropy
import Verif.Center.EntropyProps
import Verif.Center.Model
import Verif.Center.Props
import Verif.Corr.Exact
import Verif.Corr.Filt
import Verif.Corr.Filt2
import Verif.Corr.FiltModel
import Verif.Corr.Med2
import Verif.Corr.Med2Model
import Verif.Corr.Median3d
import Verif.Corr.Model
import Verif.Corr.Props
import Verif.Corr.Qsort
import Verif.Corr.QsortModel
import Verif.Dtype.Model
import Verif.Dtype.Props
import Verif.Dtype.Ptr
import Verif.Dtype.PtrModel
import Verif.Extern.Model
import Verif.Extern.Props
import Verif.Files.CenterModel
import Verif.Files.CenterProps
import Verif.Files.Model
import Verif.Files.Props
import Verif.Fl.Alone
import Verif.Fl.ArtModel
import Verif.Fl.Bin
import Verif.Fl.BinModel
import Verif.Fl.Ext
import Verif.Fl.Fbp
import Verif.Fl.Flat
import Verif.Fl.FlatModel
import Verif.Fl.Len
import Verif.Fl.LenModel
import Verif.Fl.Model
import Verif.Fl.Near
import Verif.Fl.Neg
import Verif.Fl.Norm
import Verif.Fl.NormModel
import Verif.Fl.OsemAcc
import Verif.Fl.OsemModel
import Verif.Fl.OsemProps
import Verif.Fl.Own
import Verif.Fl.Props
import Verif.Fl.QuadModel
import Verif.Fl.QuadProps
import Verif.Fl.Round
import Verif.Fl.Sum
import Verif.Gpu.Call
import Verif.Gpu.Model
import Verif.Gpu.Props
import Verif.Gridrec.Exact
import Verif.Gridrec.Filters
import Verif.Gridrec.Index
import Verif.Gridrec.Init
import Verif.Gridrec.Model
import Verif.Gridrec.Pixel
import Verif.Gridrec.Slices
import Verif.Gridrec.Sym
import Verif.Gridrec.Tables
import Verif.Gridrec.Value
import Verif.Gridrec.Window
import Verif.Heap.Model
import Verif.Heap.Peak
import Verif.Heap.Props
import Verif.Inpaint.Fill
import Verif.Inpaint.Model
import Verif.Inpaint.Parallel
import Verif.Inpaint.Props
import Verif.Iter.Alone
import Verif.Iter.AlonePml
import Verif.Iter.Art
import Verif.Iter.BartConv
import Verif.Iter.Basic
import Verif.Iter.Continue
import Verif.Iter.ConvArt
import Verif.Iter.ConvMlem
import Verif.Iter.ConvMlem2
import Verif.Iter.ConvPml
import Verif.Iter.ConvPmlRef
import Verif.Iter.ConvPmlRun
import Verif.Iter.ConvSirt
import Verif.Iter.ConvTracer
import Verif.Iter.EmConv
import Verif.Iter.Grad
import Verif.Iter.GradConv
import Verif.Iter.HitData
import Verif.Iter.Kaczmarz
import Verif.Iter.Landweber
import Verif.Iter.Linear
import Verif.Iter.Model
import Verif.Iter.Os
import Verif.Iter.Osem
import Verif.Iter.Ospml
import Verif.Iter.Pdhg
import Verif.Iter.PmlModel
import Verif.Iter.Project
import Verif.Iter.Relabel
import Verif.Iter.Scale
import Verif.Iter.SirtExact
import Verif.Iter.Subsets
import Verif.Iter.Tracer
import Verif.Iter.Turn
import Verif.Iter.Tv
import Verif.Iter.TvConv
import Verif.Iter.TvModel
import Verif.Iter.TvSaddle
import Verif.Iter.Vector
import Verif.Iter.VectorConv
import Verif.Iter.Views
import Verif.Load.Model
import Verif.Load.Props
import Verif.Morph.Exact
import Verif.Morph.Model
import Verif.Morph.PadNd
import Verif.Morph.Props
import Verif.Morph.Sample
import Verif.Morph.TrimModel
import Verif.Morph.TrimProps
import Verif.Mproc.Exact
import Verif.Mproc.Lemmas
import Verif.Mproc.Model
import Verif.Mproc.Props
import Verif.Normalize.Alone
import Verif.Normalize.AloneModel
import Verif.Normalize.Exact
import Verif.Normalize.LogModel
import Verif.Normalize.LogProps
import Verif.Normalize.Model
import Verif.Normalize.Props
import Verif.Num.Order
import Verif.Par.Lemmas
import Verif.Par.Model
import Verif.Par.Sets
import Verif.Par.Stencil
import Verif.Phantom.Model
import Verif.Phantom.Props
import Verif.Phase.Energy
import Verif.Phase.Mirror
import Verif.Phase.Model
import Verif.Phase.Props
import Verif.Probe.Field
import Verif.Probe.Model
import Verif.Probe.Scan
import Verif.Probe.Tie
import Verif.Ray.Axis
import Verif.Ray.Border
import Verif.Ray.Model
import Verif.Ray.Opposite
import Verif.Ray.Order
import Verif.Ray.Quadrant
import Verif.Ray.Safety
import Verif.Ray.Turn
import Verif.Recon.ArgModel
import Verif.Recon.ArgProps
import Verif.Recon.Continue
import Verif.Recon.InitModel
import Verif.Recon.InitProps
import Verif.Recon.Kernels
import Verif.Recon.Larger
import Verif.Recon.Lemmas
import Verif.Recon.Model
import Verif.Recon.Procs
import Verif.Recon.ProcsModel
import Verif.Recon.Props
import Verif.Recon.RoundTrip
import Verif.Ring.Call
import Verif.Ring.CallModel
import Verif.Ring.Mean
import Verif.Ring.Median
import Verif.Ring.Model
import Verif.Ring.Props
import Verif.Ring.Sort
import Verif.Sim.Border
import Verif.Sim.Model
import Verif.Sim.Noise
import Verif.Sim.NoiseModel
import Verif.Sim.Props
import Verif.Sim.Turn
import Verif.Sim.VecModel
import Verif.Sim.VecProps
import Verif.Sim.Width
import Verif.Stripe.Alone
import Verif.Stripe.AloneModel
import Verif.Stripe.Db2
import Verif.Stripe.Detect
import Verif.Stripe.Filter
import Verif.Stripe.FilterModel
import Verif.Stripe.Fit
import Verif.Stripe.FitModel
import Verif.Stripe.Fw
import Verif.Stripe.FwModel
import Verif.Stripe.Loop
import Verif.Stripe.Mask
import Verif.Stripe.Model3d
import Verif.Stripe.Sf
import Verif.Stripe.SfModel
import Verif.Stripe.Sort
import Verif.Stripe.SortModel
import Verif.Stripe.Ti
import Verif.Stripe.TiCg
import Verif.Stripe.TiModel
import Verif.Stripe.TiProps
import Verif.Stripe.Vo
import Verif.Stripe.VoModel
import Verif.Stripe.VoProps
import Verif.Sym.Detect
import Verif.Sym.Filters
import Verif.Sym.Gain
import Verif.Sym.Median3d
import Verif.Sym.Mirror
import Verif.Sym.Order
import Verif.Sym.Outlier
import Verif.Sym.StripeLog
import Verif.Sym.StripeUnits
import Verif.Sym.Units2d
import Verif.Warp.Model
import Verif.Warp.Props
import Verif.Wrap.Model
import Verif.Wrap.Props
import Verif.Wrap.Ufo
import Verif.Wrap.UfoModel
