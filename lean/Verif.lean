import Verif.Lemmas.AbInitio
import Verif.Lemmas.AbInitioOnTheFly
import Verif.Lemmas.AbInitioRun
import Verif.Lemmas.AbInitioSparse
import Verif.Lemmas.ArgpsModel
import Verif.Lemmas.Asep
import Verif.Lemmas.AsepMaximum
import Verif.Lemmas.AsepSpectrum
import Verif.Lemmas.Autoreg
import Verif.Lemmas.AutoregGood
import Verif.Lemmas.BackflowScript
import Verif.Lemmas.BasisChange
import Verif.Lemmas.Border
import Verif.Lemmas.Boundary
import Verif.Lemmas.ChainFrequency
import Verif.Lemmas.Cholesky
import Verif.Lemmas.Clocks
import Verif.Lemmas.ElectronList
import Verif.Lemmas.Evidence
import Verif.Lemmas.Expressive
import Verif.Lemmas.Fermion
import Verif.Lemmas.FloatSelect
import Verif.Lemmas.Fock
import Verif.Lemmas.FockAct
import Verif.Lemmas.FockAlg
import Verif.Lemmas.FreeElectrons
import Verif.Lemmas.GaussianIntegral
import Verif.Lemmas.Growing
import Verif.Lemmas.HeisenbergExact
import Verif.Lemmas.HoppingChain
import Verif.Lemmas.HoppingRule
import Verif.Lemmas.Hubbard
import Verif.Lemmas.Iid
import Verif.Lemmas.MargLik
import Verif.Lemmas.Markov
import Verif.Lemmas.MarkovPath
import Verif.Lemmas.MatrixDeriv
import Verif.Lemmas.ModePerm
import Verif.Lemmas.OneBody
import Verif.Lemmas.OptAlpha
import Verif.Lemmas.Options
import Verif.Lemmas.OrbitalRotation
import Verif.Lemmas.PairState
import Verif.Lemmas.Parallel
import Verif.Lemmas.ParticleHole
import Verif.Lemmas.PerronFrobenius
import Verif.Lemmas.Pfaffian
import Verif.Lemmas.PfaffianLoop
import Verif.Lemmas.PosDefOpen
import Verif.Lemmas.PrefixCount
import Verif.Lemmas.RankOne
import Verif.Lemmas.Reference
import Verif.Lemmas.SampledUpdate
import Verif.Lemmas.SamplerChain
import Verif.Lemmas.Sector
import Verif.Lemmas.SharedFiles
import Verif.Lemmas.Slater
import Verif.Lemmas.SlaterBridge
import Verif.Lemmas.SlaterState
import Verif.Lemmas.SpinAlg
import Verif.Lemmas.SpinProjection
import Verif.Lemmas.Stoquastic
import Verif.Lemmas.Supervised
import Verif.Lemmas.SupervisedFit
import Verif.Lemmas.Sweep
import Verif.Lemmas.SweepLimit
import Verif.Lemmas.Updates
import Verif.Lemmas.Workdir
import Verif.Lemmas.ZeroEnergy
import Verif.Lemmas.ZeroSampler
import Verif.Model.ARSampler
import Verif.Model.AbInitio
import Verif.Model.AbInitioOnTheFly
import Verif.Model.AbInitioRun
import Verif.Model.AbInitioSparse
import Verif.Model.AfterSetup
import Verif.Model.AmpSource
import Verif.Model.ArgpsModel
import Verif.Model.ArgpsRun
import Verif.Model.Asep
import Verif.Model.AsepTutorial
import Verif.Model.Autoreg
import Verif.Model.AutoregFermion
import Verif.Model.AutoregFull
import Verif.Model.AutoregPlaquette
import Verif.Model.AutoregTutorial
import Verif.Model.Backflow
import Verif.Model.BackflowRun
import Verif.Model.BackflowScript
import Verif.Model.CPDBackflow
import Verif.Model.Composite
import Verif.Model.CrystalRdm
import Verif.Model.DriverHistory
import Verif.Model.DriverSetup
import Verif.Model.Electrons
import Verif.Model.Expect
import Verif.Model.ExpectGrad
import Verif.Model.Fermion
import Verif.Model.FloatSelect
import Verif.Model.FrozenRun
import Verif.Model.GaussLegendre
import Verif.Model.GenLin
import Verif.Model.GenLinFit
import Verif.Model.Geometry
import Verif.Model.GrowingRVM
import Verif.Model.H2O
import Verif.Model.Hilbert
import Verif.Model.HoppingRule
import Verif.Model.Hubbard
import Verif.Model.HubbardOnTheFly
import Verif.Model.HubbardScript
import Verif.Model.ImagTime
import Verif.Model.Initializers
import Verif.Model.Integrals
import Verif.Model.J1J2
import Verif.Model.Jastrow
import Verif.Model.Keys
import Verif.Model.MargLik
import Verif.Model.Metropolis
import Verif.Model.MinSR
import Verif.Model.ModPhase
import Verif.Model.OnTheFly
import Verif.Model.OptAlpha
import Verif.Model.Options
import Verif.Model.OrbitalBasis
import Verif.Model.Padded
import Verif.Model.Pairing
import Verif.Model.Parallel
import Verif.Model.Pfaffian
import Verif.Model.PixelCNN
import Verif.Model.PlaquetteQGPS
import Verif.Model.Pruning
import Verif.Model.PyCall
import Verif.Model.QGPS
import Verif.Model.RMSProp
import Verif.Model.Rdms
import Verif.Model.Reference
import Verif.Model.Runs
import Verif.Model.SRPrecond
import Verif.Model.SamplerChain
import Verif.Model.Segmented
import Verif.Model.SharedFiles
import Verif.Model.Slater
import Verif.Model.Solvers
import Verif.Model.SplitBasis
import Verif.Model.StateFitting
import Verif.Model.Stratified
import Verif.Model.Supervised
import Verif.Model.SupervisedAlpha
import Verif.Model.SupervisedError
import Verif.Model.SupervisedFit
import Verif.Model.SupervisedSweep
import Verif.Model.Systems
import Verif.Model.Timer
import Verif.Model.UniqueCache
import Verif.Model.UniqueSamples
import Verif.Model.Workdir
import Verif.Model.ZeroEnergy
import Verif.Model.ZeroSampler
import Verif.Props.ARSampler
import Verif.Props.AbInitio
import Verif.Props.AbInitioBest
import Verif.Props.AbInitioCrystal
import Verif.Props.AbInitioFails
import Verif.Props.AbInitioHistories
import Verif.Props.AbInitioOnTheFly
import Verif.Props.AbInitioSparse
import Verif.Props.AbInitioUninterrupted
import Verif.Props.AfterSetup
import Verif.Props.ArgpsConfig
import Verif.Props.ArgpsFails
import Verif.Props.ArgpsMetrics
import Verif.Props.ArgpsModel
import Verif.Props.ArgpsRun
import Verif.Props.ArgpsUninterrupted
import Verif.Props.Asep
import Verif.Props.AsepMaximum
import Verif.Props.AsepSpectrum
import Verif.Props.Autoreg
import Verif.Props.AutoregDescent
import Verif.Props.AutoregFull
import Verif.Props.AutoregTutorial
import Verif.Props.Backflow
import Verif.Props.BackflowBest
import Verif.Props.BackflowFails
import Verif.Props.BackflowLineage
import Verif.Props.BackflowOneDown
import Verif.Props.BackflowRun
import Verif.Props.BackflowScript
import Verif.Props.BackflowUninterrupted
import Verif.Props.Balance
import Verif.Props.CPDAmplitude
import Verif.Props.CPDBackflow
import Verif.Props.Composite
import Verif.Props.Containment
import Verif.Props.Correlations
import Verif.Props.CorrelationsFails
import Verif.Props.CorrelationsScript
import Verif.Props.CrystalRdm
import Verif.Props.Descent
import Verif.Props.DetExpressive
import Verif.Props.DirectBias
import Verif.Props.DirectEnergy
import Verif.Props.DriverHistory
import Verif.Props.DriverSetup
import Verif.Props.Electrons
import Verif.Props.EnergyGradient
import Verif.Props.ExchangeChain
import Verif.Props.Expect
import Verif.Props.ExpectGrad
import Verif.Props.Expressive
import Verif.Props.FloatSelect
import Verif.Props.FreeBracket
import Verif.Props.FreeElectrons
import Verif.Props.FreeGround
import Verif.Props.FrozenRun
import Verif.Props.Gauge
import Verif.Props.GenLin
import Verif.Props.GenLinEvidence
import Verif.Props.GenLinFit
import Verif.Props.Geometry
import Verif.Props.GroundHubbard
import Verif.Props.GroundSpins
import Verif.Props.Growing
import Verif.Props.GrowingExp
import Verif.Props.GrowingFails
import Verif.Props.GrowingFit
import Verif.Props.H2O
import Verif.Props.HeisenbergExact
import Verif.Props.Hilbert
import Verif.Props.Holomorphic
import Verif.Props.HoppingChain
import Verif.Props.HoppingRule
import Verif.Props.Hubbard
import Verif.Props.HubbardScript
import Verif.Props.ImagProjection
import Verif.Props.ImagTime
import Verif.Props.ImagTimeConvergence
import Verif.Props.ImagTimeEnergy
import Verif.Props.Initializers
import Verif.Props.Integrals
import Verif.Props.Interaction
import Verif.Props.J1J2
import Verif.Props.Jastrow
import Verif.Props.Keys
import Verif.Props.LatticeSymmetry
import Verif.Props.MargLik
import Verif.Props.MargLikAlpha
import Verif.Props.MargLikNoise
import Verif.Props.MargLikNoiseExpand
import Verif.Props.MargLikNoiseLog
import Verif.Props.MargLikZero
import Verif.Props.Metropolis
import Verif.Props.MinSR
import Verif.Props.ModPhase
import Verif.Props.OnTheFly
import Verif.Props.OptAlpha
import Verif.Props.OptConsistent
import Verif.Props.OptNoise
import Verif.Props.Options
import Verif.Props.OrbitalBasis
import Verif.Props.OrbitalSigns
import Verif.Props.Padded
import Verif.Props.PairState
import Verif.Props.Pairing
import Verif.Props.Parallel
import Verif.Props.ParticleHole
import Verif.Props.Pfaffian
import Verif.Props.PixelCNN
import Verif.Props.PlaquetteQGPS
import Verif.Props.Pruning
import Verif.Props.PyCall
import Verif.Props.QGPS
import Verif.Props.RMSProp
import Verif.Props.Rdms
import Verif.Props.RdmsFails
import Verif.Props.RdmsScript
import Verif.Props.RealRuns
import Verif.Props.Reference
import Verif.Props.Response
import Verif.Props.SRPrecond
import Verif.Props.SampledDescent
import Verif.Props.SampledEnergy
import Verif.Props.SampledRMSProp
import Verif.Props.SampledUpdate
import Verif.Props.SavedEnergy
import Verif.Props.Segmented
import Verif.Props.SharedFiles
import Verif.Props.ShiftLimits
import Verif.Props.SignRule
import Verif.Props.SizeConsistency
import Verif.Props.SizeConsistencyAb
import Verif.Props.Slater
import Verif.Props.SlaterState
import Verif.Props.Solvers
import Verif.Props.SpinProjection
import Verif.Props.SpinResponse
import Verif.Props.SplitBasis
import Verif.Props.StateDistance
import Verif.Props.StateFitting
import Verif.Props.Stratified
import Verif.Props.SupervisedAlpha
import Verif.Props.SupervisedCache
import Verif.Props.SupervisedError
import Verif.Props.SupervisedFit
import Verif.Props.Sweep
import Verif.Props.SweepLimit
import Verif.Props.SymmetricDet
import Verif.Props.Systems
import Verif.Props.Timer
import Verif.Props.TotalSpin
import Verif.Props.UniqueBias
import Verif.Props.UniqueCache
import Verif.Props.UniqueSamples
import Verif.Props.ZeroEnergy
import Verif.Props.ZeroSampler
import Verif.Props.ZeroVariance
import Verif.Spec.Asep
import Verif.Spec.Autoreg
import Verif.Spec.Boundary
import Verif.Spec.Direct
import Verif.Spec.EarlyStopping
import Verif.Spec.Energy
import Verif.Spec.Evidence
import Verif.Spec.Fock
import Verif.Spec.FreeElectrons
import Verif.Spec.FrozenRun
import Verif.Spec.GenLin
import Verif.Spec.HartreeFock
import Verif.Spec.Interaction
import Verif.Spec.LatticeSymmetry
import Verif.Spec.Markov
import Verif.Spec.MarkovPath
import Verif.Spec.Metropolis
import Verif.Spec.Occupation
import Verif.Spec.Options
import Verif.Spec.PairState
import Verif.Spec.Parallel
import Verif.Spec.ParticleHole
import Verif.Spec.Pfaffian
import Verif.Spec.Rayleigh
import Verif.Spec.Rdm
import Verif.Spec.Response
import Verif.Spec.Ridge
import Verif.Spec.SameSystem
import Verif.Spec.SampledUpdate
import Verif.Spec.Sampling
import Verif.Spec.SharedFiles
import Verif.Spec.SignRule
import Verif.Spec.SlaterState
import Verif.Spec.SpinGround
import Verif.Spec.SpinProjection
import Verif.Spec.Spins
import Verif.Spec.Supervised
import Verif.Spec.Sweep
import Verif.Spec.SymmetryGroup
import Verif.Spec.TotalSpin
import Verif.Spec.Training
import Verif.Spec.Updates
import Verif.Spec.ZeroEnergy
import Verif.Spec.ZeroSampler
