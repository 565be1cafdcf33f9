import Verif.Nd
import Verif.Model.Parallel
import Verif.Props.Blockdist
import Verif.Props.Distribute
import Verif.Props.NpyFile
import Verif.Model.Reduce
import Verif.Props.Reduce
import Verif.Props.Subcomm
import Verif.Model.Reader
import Verif.Props.Reader1
import Verif.Props.Reader2
import Verif.Props.Reader3
import Verif.Model.SpodBase
import Verif.Model.SpodStd
import Verif.Props.Blocks
import Verif.Props.Mean
import Verif.Props.Freq
import Verif.Props.SpodAlgebra
import Verif.Model.Disk2
import Verif.Props.Disk2
import Verif.Model.Names
import Verif.Model.Store
import Verif.Props.Names
import Verif.Props.Store
import Verif.Model.Cache
import Verif.Model.History
import Verif.Props.Cache
import Verif.Props.Crash
import Verif.Model.Streaming
import Verif.Props.StreamBlocks
import Verif.Props.StreamBasis
import Verif.Props.StreamSource
import Verif.Props.NormData
import Verif.Model.Coeffs
import Verif.Props.Lookup
import Verif.Props.Coeffs
import Verif.Props.ConvCoeffs
import Verif.Model.Pod
import Verif.Props.Pod
import Verif.Model.Emulation
import Verif.Props.Emulation
import Verif.Model.GeoWeights
import Verif.Props.GeoWeights
import Verif.Model.Errors
import Verif.Props.Errors
import Verif.Model.Energy
import Verif.Props.Energy
import Verif.Model.Config
import Verif.Props.Config
import Verif.Model.Ortho
import Verif.Props.Ortho
import Verif.Model.Fit
import Verif.Props.Fit
import Verif.Props.FitFormula
import Verif.Model.Setup
import Verif.Props.Setup
import Verif.Model.FitFiles
import Verif.Props.FitFiles
import Verif.Model.Spmd
import Verif.Props.Spmd
import Verif.Model.Workflow
import Verif.Props.Workflow
import Verif.Model.SharedWrite
import Verif.Props.SharedWrite
import Verif.Model.StreamFit
import Verif.Props.Svd
import Verif.Props.StreamFit
import Verif.Model.Project
import Verif.Props.Project
import Verif.Props.SvdFree
import Verif.Props.Pipeline
import Verif.Props.FlatProject
import Verif.Model.PodFit
import Verif.Props.PodFit
import Verif.Model.Plots
import Verif.Props.Plots
import Verif.Model.Peaks
import Verif.Props.Peaks
import Verif.Model.ByteOrder
import Verif.Props.ByteOrder
import Verif.Model.Api
import Verif.Props.Api
import Verif.Model.Objects
import Verif.Props.Objects
import Verif.Model.Figures
import Verif.Props.Figures
import Verif.Model.Training
import Verif.Props.Training
import Verif.Model.ConvFit
import Verif.Props.ConvFit
import Verif.Props.Optimal
import Verif.Props.Invariance
import Verif.Props.Parseval
import Verif.Props.Best
import Verif.Props.PodInvariance
import Verif.Model.Methods
import Verif.Props.Methods
import Verif.Props.Influence
import Verif.Props.Units
import Verif.Props.ReadWrite
import Verif.Props.Patterns
import Verif.Model.Finite
import Verif.Props.Finite
import Verif.Model.NormFit
import Verif.Props.NormFit
import Verif.Model.StreamFloat
import Verif.Model.Attributes
import Verif.Props.StreamInv
import Verif.Props.StreamFinite
import Verif.Props.StreamOptions
import Verif.Props.StreamUnique
import Verif.Props.StreamImage
import Verif.Model.Slices
import Verif.Props.Slices
import Verif.Model.StreamErrors
import Verif.Props.StreamErrors
import Verif.Model.CachedFit
import Verif.Props.CachedFit
import Verif.Props.Perturb
import Verif.Props.StreamTrunc
import Verif.Props.PodPerturb
import Verif.Props.Stable
import Verif.Props.Subdomains
import Verif.Props.NpyLoad
import Verif.Props.Succeeds
import Verif.Props.PodError
import Verif.Props.Constraints
import Verif.Props.OtherGrid
import Verif.Props.EmulateFlow
import Verif.Model.PodNorm
import Verif.Props.PodNorm
import Verif.Props.Rank
import Verif.Props.PodParts
import Verif.Props.StreamNoise
import Verif.Model.StreamProject
import Verif.Props.PodOther
import Verif.Props.StreamProject
import Verif.Props.ChunkSize
import Verif.Props.StreamLonger
import Verif.Model.PodCrash
import Verif.Props.PodCrash
import Verif.Model.Rounding
import Verif.Props.Rounding
import Verif.Props.PodRounding
import Verif.Model.RealIfClose
import Verif.Props.RealIfClose
import Verif.Model.FitRounding
import Verif.Props.FitRounding
import Verif.Props.Periodic
import Verif.Model.ModeRounding
import Verif.Props.ModeRounding
import Verif.Model.Double
import Verif.Props.Double
import Verif.Model.VarRounding
import Verif.Props.VarRounding
import Verif.Model.ScalingDouble
import Verif.Props.ScalingDouble
import Verif.Model.OrthoRounding
import Verif.Props.OrthoRounding
import Verif.Model.ProjRounding
import Verif.Props.ProjRounding
import Verif.Model.StreamRounding
import Verif.Props.StreamRounding
import Verif.Model.BasisRounding
import Verif.Props.BasisRounding
import Verif.Model.ConvRounding
import Verif.Props.ConvRounding
import Verif.Model.NormRounding
import Verif.Props.NormRounding
import Verif.Model.ErrRounding
import Verif.Props.ErrRounding
import Verif.Model.Overflow
import Verif.Props.Overflow
import Verif.Model.OverflowMore
import Verif.Props.OverflowMore
import Verif.Model.IntData
import Verif.Props.IntData
import Verif.Props.PowerTwo
import Verif.Model.OrderedCorr
import Verif.Props.RealEigs
