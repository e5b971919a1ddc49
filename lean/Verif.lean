import Verif.Model.Py
import Verif.Model.Discrete
import Verif.Lemmas.FrankWolfe
import Verif.Lemmas.Py
import Verif.Lemmas.Discrete
import Verif.Spec.Discrete
import Verif.Lemmas.DiscreteResult
import Verif.Props.Discrete
import Verif.Model.PyFloat
import Verif.Model.Constraints
import Verif.Spec.Constraints
import Verif.Lemmas.Constraints
import Verif.Props.Constraints
import Verif.Spec.Prob
import Verif.Model.Risk
import Verif.Spec.Risk
import Verif.Lemmas.Risk
import Verif.Props.Risk
import Verif.Model.Probabilities
import Verif.Lemmas.Gibbs
import Verif.Lemmas.Probabilities
import Verif.Props.Probabilities
import Verif.Model.EntropyPooling
import Verif.Spec.EntropyPooling
import Verif.Lemmas.EntropyPooling
import Verif.Props.EntropyPooling
import Verif.Model.Views
import Verif.Spec.Views
import Verif.Lemmas.Views
import Verif.Spec.ViewsOracle
import Verif.Props.Views
import Verif.Props.ViewsPipeline
import Verif.Props.ViewsCtor
import Verif.Model.BlackLitterman
import Verif.Lemmas.BlackLitterman
import Verif.Props.BlackLitterman
import Verif.Model.Validation
import Verif.Lemmas.Psd
import Verif.Props.Validation
import Verif.Model.Moments
import Verif.Lemmas.Moments
import Verif.Props.Moments
import Verif.Model.MomentsRobust
import Verif.Lemmas.MomentsRobust
import Verif.Props.MomentsRobust
import Verif.Model.Frontier
import Verif.Lemmas.Envelope
import Verif.Spec.Frontier
import Verif.Lemmas.Frontier
import Verif.Props.Frontier
import Verif.Model.Ensembles
import Verif.Spec.Ensembles
import Verif.Lemmas.Ensembles
import Verif.Props.Ensembles
import Verif.Model.Projection
import Verif.Lemmas.Projection
import Verif.Props.Projection
import Verif.Model.Performance
import Verif.Lemmas.Performance
import Verif.Props.Drawdown
import Verif.Props.Performance
import Verif.Props.Horizon
import Verif.Model.Bayesian
import Verif.Spec.Bayesian
import Verif.Props.Bayesian
import Verif.Props.BayesRobust
import Verif.Model.Optimization
import Verif.Spec.Optimization
import Verif.Lemmas.Optimization
import Verif.Lemmas.OptExist
import Verif.Props.OptCvar
import Verif.Props.OptMv
import Verif.Props.OptFrontier
import Verif.Props.OptSharpe
import Verif.Props.OptRobust
import Verif.Props.OptRrp
import Verif.Model.Distribution
import Verif.Spec.Distribution
import Verif.Lemmas.Distribution
import Verif.Props.Distribution
import Verif.Props.Factories
import Verif.Model.Wrapper
import Verif.Spec.Wrapper
import Verif.Props.Wrapper
import Verif.Props.WrapperCvar
import Verif.Props.StressHelpers
import Verif.Props.FromMoments
import Verif.Props.WrapperRobust
import Verif.Props.WrapperRrp
import Verif.Props.WrapperCosts
import Verif.Props.Selectors
import Verif.Props.Assemble
import Verif.Model.Samples
import Verif.Props.Samples
import Verif.Model.EnsembleSpec
import Verif.Props.EnsembleSpec
import Verif.Model.SpecDist
import Verif.Model.StressInvariants
import Verif.Props.SpecDist
import Verif.Model.Invariants
import Verif.Props.Invariants
import Verif.Model.Glasso
import Verif.Lemmas.Glasso
import Verif.Props.Glasso
import Verif.Model.MomentsApi
import Verif.Props.MomentsApi
import Verif.Model.BlackLittermanApi
import Verif.Spec.BlackLitterman
import Verif.Props.BlackLittermanApi
import Verif.Model.DataHelpers
import Verif.Props.DataHelpers
import Verif.Model.FrontierEnsembles
import Verif.Model.FrontierTable
import Verif.Model.ConstraintsDict
import Verif.Props.FrontierEnsembles
import Verif.Props.FrontierTable
import Verif.Props.ConstraintsDict
import Verif.Model.Poet
import Verif.Props.Poet
import Verif.Model.ViewsApi
import Verif.Lemmas.Cholesky
import Verif.Props.ViewsApi
import Verif.Props.ViewsHandoff
import Verif.Props.ViewsHigher
import Verif.Props.PathTypes
import Verif.Props.EnsembleResult
import Verif.Lemmas.Equivariance
import Verif.Lemmas.EquivariancePoet
import Verif.Props.Equivariance
import Verif.Props.ScenarioOrder
import Verif.Props.Translation
import Verif.Props.Units
import Verif.Props.ViewsRanges
import Verif.Props.ViewsSource
import Verif.Model.WrapperReports
import Verif.Props.WrapperReports
import Verif.Model.BlackLittermanHandoff
import Verif.Props.BlackLittermanHandoff
import Verif.Model.Pipeline
import Verif.Props.Pipeline
import Verif.Props.BlackLittermanLabels
import Verif.Model.DiscreteFloat
import Verif.Props.DiscreteFloat
import Verif.Props.FrontierUnique
import Verif.Props.DiscreteFallback
import Verif.Model.Plotting
import Verif.Spec.Plotting
import Verif.Props.Plotting
import Verif.Props.PlottingGrid
import Verif.Props.PlottingReport
import Verif.Props.PlottingBars
import Verif.Model.Plotting3d
import Verif.Props.Plotting3d
import Verif.Props.CvarSolver
import Verif.Props.FrontierShape
import Verif.Props.FrontierRelax
import Verif.Lemmas.DiscreteSim
import Verif.Props.DiscreteUnits
import Verif.Props.DiscreteExact
import Verif.Lemmas.ViewsMaps
import Verif.Props.ViewsInvariance
import Verif.Model.RiskMany
import Verif.Props.RiskMany
import Verif.Props.BlackLittermanInvariance
import Verif.Props.FrontierSpacing
import Verif.Props.LawInvariance
import Verif.Model.Labels
import Verif.Props.Labels
import Verif.Model.LowLevel
import Verif.Props.LowLevel
import Verif.Lemmas.ViewsSplit
import Verif.Props.ViewsLaw
import Verif.Props.ViewsInformation
import Verif.Props.TradingCosts
import Verif.Model.Aliasing
import Verif.Props.Aliasing
import Verif.Props.Transfer
import Verif.Props.FrontierQueries
import Verif.Props.DiscreteCompare
import Verif.Props.StressInvariants
import Verif.Props.EnsembleRisk
import Verif.Props.RobustOrder
import Verif.Props.BayesLinear
import Verif.Props.BlackLittermanSubset
import Verif.Props.ViewsSubset
import Verif.Props.ViewsUnits
import Verif.Props.MomentsLinear
import Verif.Props.DiscreteLots
import Verif.Props.Excluded
import Verif.Props.Prices
import Verif.Props.Effective
import Verif.Props.RobustDuality
import Verif.Props.BayesLimits
import Verif.Props.AssetOrder
import Verif.Props.DiscreteOptions
import Verif.Props.FrontierAlong
import Verif.Props.RrpOrder
import Verif.Lemmas.NormUnique
import Verif.Props.RrpUnique
import Verif.Props.RobustUnique
import Verif.Props.RrpUnits
import Verif.Props.RrpPrice
import Verif.Props.SelectorsMonotone
import Verif.Props.BlackLittermanFirmer
import Verif.Props.Shift
import Verif.Props.RobustShift
import Verif.Props.RrpBudgets
import Verif.Model.LabelledMoments
import Verif.Props.LabelledMoments
import Verif.Props.DiscreteIgnored
import Verif.Props.KernelUnits
import Verif.Props.Credibility
import Verif.Props.FinerSelection
import Verif.Props.HuberLoss
import Verif.Props.Outliers
import Verif.Props.TwoFunds
import Verif.Props.Certificate
import Verif.Props.Mixtures
import Verif.Props.Rounding
import Verif.Props.RiskBounds
import Verif.Props.Tyler
import Verif.Props.Compounding
import Verif.Props.BlackLittermanInstalments
import Verif.Props.DiscreteRebuild
import Verif.Props.BestReturn
import Verif.Props.PsdGuard
import Verif.Props.Demand
import Verif.Props.Stability
import Verif.Props.WorstCase
import Verif.Props.StressSize
import Verif.Props.Minimax
import Verif.Props.LongerHorizon
import Verif.Props.Dominated
import Verif.Props.CashPenalty
import Verif.Props.EffectiveCount
import Verif.Props.Updating
import Verif.Props.MarketPortfolio
import Verif.Model.BayesFlags
import Verif.Props.Rebalancing
import Verif.Props.BayesFlags
import Verif.Props.Leverage
import Verif.Props.ConstraintsErrors
import Verif.Props.UnboundedTail
import Verif.Props.MarketLine
import Verif.Props.ErrorClasses
import Verif.Props.UnboundedFrontier
import Verif.Props.ErrorClassesMore
import Verif.Props.ErrorClassesRest
import Verif.Props.RobustAccepts
import Verif.Props.ViewsRankExample
