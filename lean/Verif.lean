import Verif.Props.Sector
import Verif.Props.Lookup
import Verif.Props.EspaceDim
import Verif.Props.Operators
import Verif.Props.Hopping
import Verif.Props.Local
import Verif.Props.NonLocal
import Verif.Props.Matvec
import Verif.Props.Espace
import Verif.Props.Screen
import Verif.Props.NonInt
import Verif.Props.Project
import Verif.Props.GfExact
import Verif.Props.ContFrac
import Verif.Props.Lanczos
import Verif.Props.Gf2
import Verif.Props.Observs
import Verif.Props.Mpi
import Verif.Props.LanczosMpi
import Verif.Props.Bath
import Verif.Props.Dmft
import Verif.Props.FitCg
import Verif.Props.SqTunneling
import Verif.Props.SqBuild
import Verif.Props.Cotunneling
import Verif.Props.CotunnelingExact
import Verif.Proof.RateDict
import Verif.Props.Cotnl
import Verif.Props.NTransitions
import Verif.Props.NShape
import Verif.Model.RatesPy
import Verif.Spec.Eig
import Verif.Props.RatesPy
import Verif.Spec.Entropy
import Verif.Model.Entropy
import Verif.Props.Entropy
import Verif.Model.Sampler
import Verif.Props.Sampler
import Verif.Proof.PartialFrac
import Verif.Model.Ded
import Verif.Props.Ded
import Verif.Model.LineSearch
import Verif.Props.LineSearch
import Verif.Model.BathC
import Verif.Props.BathC
import Verif.Model.Eshow
import Verif.Props.Eshow
import Verif.Model.IntegrateGf
import Verif.Proof.Matsubara
import Verif.Props.IntegrateGf
import Verif.Model.GramSchmidt
import Verif.Props.GramSchmidt
import Verif.Model.DedSolve
import Verif.Props.DedSolve
import Verif.Props.Moam
import Verif.Spec.Thermal
import Verif.Proof.Thermal
import Verif.Proof.Sectors
import Verif.Proof.EigenEspace
import Verif.Proof.Lehmann
import Verif.Model.Gf2Exact
import Verif.Props.ThermalGf
import Verif.Props.SqCurrent
import Verif.Props.CoAmplitude
import Verif.Props.PhaseSpace
import Verif.Model.GfLanczos
import Verif.Spec.GreenParts
import Verif.Proof.FockResolvent
import Verif.Proof.SectorTrace
import Verif.Proof.LanczosRows
import Verif.Proof.GfHalf
import Verif.Proof.GfLoop
import Verif.Proof.LanczosStop
import Verif.Props.GfLanczos
import Verif.Proof.GfOff
import Verif.Props.Gf2Lanczos
import Verif.Props.Gf2Split
import Verif.Model.ZeroFermi
import Verif.Proof.ZeroFermi
import Verif.Proof.TanhFrac
import Verif.Props.ZeroFermi
import Verif.Spec.ThermalOcc
import Verif.Props.OccupationGf
import Verif.Model.NanoDmft
import Verif.Spec.LocalGf
import Verif.Props.Nano
import Verif.Proof.Eom
import Verif.Props.Free
import Verif.Spec.SelfEnergy
import Verif.Proof.LocalDyson
import Verif.Props.SelfEnergy
import Verif.Proof.FockSym
import Verif.Props.Symmetry
import Verif.Proof.ParticleHole
import Verif.Props.HalfFilling
import Verif.Props.Atomic
import Verif.Model.SpinImp
import Verif.Props.Relabel
import Verif.Props.SpinImp
import Verif.Model.DmftLoop
import Verif.Props.DmftLoop
import Verif.Proof.GfLoopSub
import Verif.Props.GfScreened
import Verif.Model.ImpSolve
import Verif.Props.ImpSolve
import Verif.Props.SolveHot
import Verif.Model.SlSolve
import Verif.Props.SlSolve
import Verif.Props.MatsumError
import Verif.Model.NanoOcc
import Verif.Props.NanoOcc
import Verif.Model.ImpIntegrate
import Verif.Props.ImpIntegrate
import Verif.Model.LocalMoments
import Verif.Props.OccTruncated
import Verif.Model.BandLanczos
import Verif.Proof.BandLanczos
import Verif.Props.BandLanczos
import Verif.Props.Variational
import Verif.Proof.Filling
import Verif.Props.Filling
import Verif.Proof.Moment
import Verif.Props.Moment
import Verif.Proof.SpinAlg
import Verif.Proof.Levels
import Verif.Props.SpinMultiplet
import Verif.Props.LevelSymm
import Verif.Proof.Causal
import Verif.Props.SelfCausal
import Verif.Model.DedPass
import Verif.Props.DedPass
import Verif.Model.DedDev
import Verif.Props.DedDev
import Verif.Model.Smooth
import Verif.Props.Smooth
import Verif.Props.EigChoice
import Verif.Model.SpinLoop
import Verif.Props.SpinLoop
import Verif.Model.Extract
import Verif.Props.Extract
import Verif.Model.Draw
import Verif.Props.Draw
import Verif.Model.NanoSpin
import Verif.Props.NanoSpin
import Verif.Props.CoBuild
import Verif.Props.FitSymm
import Verif.Props.HalfLoop
import Verif.Props.CoBalance
import Verif.Props.SmallBias
import Verif.Props.NScreen
import Verif.Props.Interference
import Verif.Proof.Gibbs
import Verif.Props.Response
import Verif.Spec.Ground
import Verif.Proof.ColdLimit
import Verif.Props.Temperature
import Verif.Proof.Perturb
import Verif.Props.Stable
import Verif.Proof.GreenPert
import Verif.Props.GreenStable
import Verif.Props.SqElements
import Verif.Props.Blockade
import Verif.Props.SqChoice
import Verif.Proof.Slater
import Verif.Props.FreeSpectrum
import Verif.Props.Thermo
import Verif.Proof.HellmannFeynman
import Verif.Props.FreeDeriv
import Verif.Model.DedLoop
import Verif.Props.DedLoop
import Verif.Model.Pdisplay
import Verif.Props.Pdisplay
import Verif.Proof.KrylovMoments
import Verif.Props.LanczosMoments
import Verif.Spec.TriLowest
import Verif.Props.LanczosGs
import Verif.Props.NCurrent
import Verif.Props.SqLevels
import Verif.Spec.NEspace
import Verif.Proof.NEspace
import Verif.Props.NEspace
import Verif.Props.NLevels
import Verif.Props.NChoice
import Verif.Props.NAmplitude
import Verif.Props.NAmplitudeEdge
import Verif.Props.CotnlBalance
import Verif.Props.CotnlBalanceEdge
import Verif.Props.CotnlIntegrate
import Verif.Props.CoWindow
import Verif.Props.CotnlLevels
import Verif.Proof.Moment2
import Verif.Props.SigmaTail
import Verif.Proof.Stieltjes
import Verif.Props.SpectralWeight
import Verif.Props.LanczosCausal
import Verif.Spec.Split
import Verif.Proof.Decouple
import Verif.Proof.SplitHam
import Verif.Props.Decouple
import Verif.Spec.SameBath
import Verif.Proof.Rotate
import Verif.Proof.SpecMeasure
import Verif.Proof.RotateHam
import Verif.Props.SameBath
import Verif.Spec.Signs
import Verif.Proof.Signs
import Verif.Props.Signs
import Verif.Spec.FirstSites
import Verif.Proof.Embed
import Verif.Proof.EmbedHam
import Verif.Props.FirstSites
import Verif.Spec.SameImpurity
import Verif.Proof.PadBath
import Verif.Props.SameImpurity
import Verif.Spec.SameCluster
import Verif.Proof.ClusterBasis
import Verif.Proof.ClusterHam
import Verif.Props.SameCluster
import Verif.Proof.ClusterDyson
import Verif.Props.ClusterSelf
import Verif.Spec.Weighted
import Verif.Proof.PartsFermi
import Verif.Props.PartsFermi
import Verif.Proof.NumRange
import Verif.Proof.ResolventApprox
import Verif.Props.LanczosRate
import Verif.Model.MoamPass
import Verif.Spec.MoamPass
import Verif.Spec.PlainHam
import Verif.Props.MoamPass
import Verif.Spec.MatrixOrder
import Verif.Props.MatrixOrder
import Verif.Model.NnzCsr
import Verif.Props.NnzCsr
import Verif.Props.ConjGrad
import Verif.Spec.WeightAt
import Verif.Props.LanczosSaad
import Verif.Props.Witnesses
import Verif.Props.Witnesses2
import Verif.Spec.Background
import Verif.Spec.SpecMean
import Verif.Proof.Migdal
import Verif.Props.Migdal
import Verif.Model.LinMix
import Verif.Proof.LinMix
import Verif.Props.LinMix
import Verif.Spec.Units
import Verif.Proof.Units
import Verif.Props.Units
import Verif.Props.UnitsRate
import Verif.Props.Witnesses3
import Verif.Spec.Sector
import Verif.Spec.Solved
import Verif.Spec.CodeHam
import Verif.Spec.Field
import Verif.Props.Field
import Verif.Props.LanczosSymm
import Verif.Spec.Poles
import Verif.Proof.Dilation
import Verif.Props.Reflect
import Verif.Spec.Reverse
import Verif.Proof.Shiba
import Verif.Props.Reverse
import Verif.Spec.MinMax
import Verif.Proof.MinMax
import Verif.Props.MinMax
import Verif.Spec.Linked
import Verif.Props.Linked
import Verif.Spec.Orderly
import Verif.Proof.Perron
import Verif.Props.Orderly
import Verif.Props.MeanField
import Verif.Spec.Attractive
import Verif.Proof.Lieb
import Verif.Proof.LiebFock
import Verif.Props.Lieb
import Verif.Proof.Elastic
import Verif.Props.ElasticCurrent
import Verif.Proof.PairTurn
import Verif.Props.LiebSpin
import Verif.Proof.PairBind
import Verif.Props.PairBinding
import Verif.Proof.Maxwell
import Verif.Props.Reciprocity
import Verif.Model.Skeleton
import Verif.Props.Skeleton
import Verif.Model.NanoOccSpin
import Verif.Props.NanoOccSpin
import Verif.Proof.MaxwellTemp
import Verif.Props.EntropyLevel
import Verif.Proof.Kubo
import Verif.Props.LevelBound
import Verif.Props.Fluctuation
import Verif.Props.HeatCapacity
import Verif.Props.FillingLipschitz
import Verif.Props.NMinMax
import Verif.Props.KyFan
import Verif.Props.Peierls
