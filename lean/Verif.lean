import Verif.Lemmas.Interface
import Verif.Model.Interface
import Verif.Props.Interface
import Verif.Model.Discrete
import Verif.Spec.HMM
import Verif.Lemmas.Discrete
import Verif.Props.Discrete
import Verif.Model.Linalg
import Verif.Lemmas.Linalg
import Verif.Props.Linalg
import Verif.Spec.Gaussian
import Verif.Lemmas.Gaussian
import Verif.Model.Stats
import Verif.Lemmas.Stats
import Verif.Props.Stats
import Verif.Model.Kalman
import Verif.Lemmas.KalmanAlg
import Verif.Spec.Conditioning
import Verif.Lemmas.KalmanStep
import Verif.Lemmas.Bayes
import Verif.Spec.LGSSM
import Verif.Lemmas.LGSSM
import Verif.Lemmas.KalmanRun
import Verif.Lemmas.KalmanReindex
import Verif.Lemmas.KalmanPar
import Verif.Props.Kalman
import Verif.Props.KalmanExact
import Verif.Lemmas.KalmanSmooth
import Verif.Lemmas.KalmanSample
import Verif.Props.KalmanSmoother
import Verif.Props.KalmanSampler
import Verif.Props.KalmanRoots
import Verif.Model.Linearize
import Verif.Lemmas.Linearize
import Verif.Props.Linearize
import Verif.Spec.FeynmanKac
import Verif.Lemmas.LinearizedRun
import Verif.Lemmas.GaussInj
import Verif.Props.LinearizedFilters
import Verif.Props.TaylorFilter
import Verif.Props.LinearizedSmoothers
import Verif.Props.LinearizedSteps
import Verif.Props.Quadrature
import Verif.Props.CholeskyUpdate
import Verif.Props.QuadratureLinearize
import Verif.Props.MeanPrev
import Verif.Model.Resampling
import Verif.Spec.Resampling
import Verif.Lemmas.Resampling
import Verif.Props.Resampling
import Verif.Spec.Random
import Verif.Lemmas.MeasurableFl
import Verif.Lemmas.Random
import Verif.Lemmas.SortedUniforms
import Verif.Lemmas.ResamplingLaw
import Verif.Lemmas.ConditionalLaw
import Verif.Lemmas.ConditionalSystematic
import Verif.Props.ResamplingLaw
import Verif.Model.SMC
import Verif.Spec.SMC
import Verif.Lemmas.SMC
import Verif.Lemmas.SMCRun
import Verif.Lemmas.SMCResamplers
import Verif.Lemmas.SMCLaw
import Verif.Lemmas.Shift
import Verif.Props.ParticleFilter
import Verif.Props.Consistency
import Verif.Props.ResamplingError
import Verif.Props.ParticleFilterKeys
import Verif.Props.ParticleFilterRuns
import Verif.Lemmas.ParticleSmoother
import Verif.Props.ParticleSmoother
import Verif.Props.TracingSmoother
import Verif.Spec.BackwardSampling
import Verif.Lemmas.BackwardSampling
import Verif.Props.BackwardSampling
import Verif.Lemmas.IMH
import Verif.Props.MCMCSmoother
import Verif.Props.MarginalFilter
import Verif.Model.Utils
import Verif.Spec.Pytree
import Verif.Props.Utils
import Verif.Model.Generate
import Verif.Spec.Generate
import Verif.Lemmas.GenRandom
import Verif.Props.Generate
import Verif.Props.Simulation
import Verif.Spec.Parallel
import Verif.Props.Parallel
import Verif.Spec.Simulates
import Verif.Lemmas.Agreement
import Verif.Props.Agreement
import Verif.Spec.Uncertainty
import Verif.Lemmas.Uncertainty
import Verif.Props.Uncertainty
import Verif.Spec.Transform
import Verif.Props.Transform
import Verif.Spec.Lumping
import Verif.Props.Lumping
import Verif.Props.LogLik
import Verif.Spec.Grid
import Verif.Props.Grid
import Verif.Props.GridDiscrete
import Verif.Props.TracingConsistency
import Verif.Lemmas.BackwardVariance
import Verif.Lemmas.BackwardError
import Verif.Props.BackwardConsistency
import Verif.Lemmas.IMHConvergence
import Verif.Props.MCMCConvergence
import Verif.Lemmas.Relational
import Verif.Props.Superposition
import Verif.Props.NanWeights
import Verif.Lemmas.Mixing
import Verif.Props.Forgetting
import Verif.Props.Calibration
import Verif.Props.CalibrationDiscrete
import Verif.Props.NanStates
import Verif.Spec.LeastSquares
import Verif.Props.MapTrajectory
import Verif.Props.GaussNewton
import Verif.Props.Placeholder
import Verif.Props.KalmanForgetting
import Verif.Spec.EM
import Verif.Lemmas.JointMeasure
import Verif.Props.EM
import Verif.Model.LinearizeAux
import Verif.Props.LinearizeAux
import Verif.Spec.Pseudoinverse
import Verif.Lemmas.Pseudoinverse
import Verif.Props.SingularPotential
import Verif.Props.AdaptiveSmoother
import Verif.Props.IndefinitePotential
import Verif.Props.PotentialConstant
import Verif.Spec.BaumWelch
import Verif.Props.BaumWelch
import Verif.Props.ExtendedKalman
import Verif.Props.IteratedTaylor
import Verif.Props.Subsystems
import Verif.Props.SubsystemsDiscrete
import Verif.Props.Innovations
import Verif.Props.Smoothness
import Verif.Props.SmoothnessDiscrete
import Verif.Props.LogEvidence
import Verif.Props.MarginalProposals
import Verif.Props.Padding
import Verif.Spec.SteadyState
import Verif.Props.SteadyState
import Verif.Props.StaticState
import Verif.Props.ParticleMap
import Verif.Spec.SecondOrder
import Verif.Lemmas.SecondOrder
import Verif.Props.BestLinear
import Verif.Props.EvidenceBounds
import Verif.Props.EvidenceBoundsExact
import Verif.Spec.MetropolisHastings
import Verif.Props.ParticleMarginal
import Verif.Spec.Forgetting
import Verif.Lemmas.SMCUniform
import Verif.Props.UniformError
import Verif.Lemmas.SMCEvidence
import Verif.Props.EvidenceGrowth
import Verif.Props.Branches
import Verif.Props.SigmaTaylor
import Verif.Props.AdaptiveThreshold
import Verif.Lemmas.FlatResampling
import Verif.Props.EvidenceGradient
import Verif.Props.ResamplingVariance
import Verif.Props.MCMCTrajectories
import Verif.Props.PathDegeneracy
import Verif.Lemmas.InvariantBackward
import Verif.Props.MCMCUnbiased
import Verif.Spec.ParticleGibbs
import Verif.Lemmas.ConditionalFilter
import Verif.Lemmas.ParticleGibbs
import Verif.Lemmas.ConditionalResamplers
import Verif.Props.ParticleGibbs
import Verif.Model.RoundedResampling
import Verif.Spec.Rounding
import Verif.Lemmas.Rounding
import Verif.Props.Rounding
import Verif.Model.RoundedDiscrete
import Verif.Spec.Near
import Verif.Spec.Arith
import Verif.Lemmas.Near
import Verif.Lemmas.RoundedDiscrete
import Verif.Lemmas.Bracketing
import Verif.Props.RoundedDiscrete
import Verif.Props.RoundedSmoother
import Verif.Model.RoundedWeights
import Verif.Spec.RoundedWeights
import Verif.Props.RoundedWeights
import Verif.Model.RoundedKalman
import Verif.Spec.RoundedKalman
import Verif.Lemmas.RoundedKalman
import Verif.Props.RoundedKalman
import Verif.Props.RoundedRts
import Verif.Props.ModelComparison
import Verif.Props.ModelComparisonDiscrete
import Verif.Props.Mixture
import Verif.Props.MissingLimit
import Verif.Props.Diffuse
import Verif.Props.Register
import Verif.Props.RegisterDiscrete
import Verif.Model.RoundedParticleFilter
import Verif.Props.RoundedParticleFilter
import Verif.Spec.Constraints
import Verif.Props.Constraints
import Verif.Spec.NoiseFree
import Verif.Props.NoiseFree
import Verif.Props.ParticleConstraints
import Verif.Spec.Misspecified
import Verif.Lemmas.Inflate
import Verif.Props.Misspecified
import Verif.Spec.Reversal
import Verif.Props.ReversalDiscrete
import Verif.Spec.ReversalLG
import Verif.Lemmas.ReversalLG
import Verif.Props.ReversalKalman
import Verif.Spec.Sufficient
import Verif.Props.Sufficient
import Verif.Spec.MomentsMap
import Verif.Props.MomentsMap
import Verif.Props.MomentsMapSmoother
