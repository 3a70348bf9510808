import Verif.Num.FloatInst
import Verif.Num.Rounded
import Verif.Num.Scalar
import Verif.Num.XR
import Verif.Model.Arr
import Verif.Model.Backtests
import Verif.Model.Ccp
import Verif.Model.CmIewma
import Verif.Model.CmMean
import Verif.Model.CmRewma
import Verif.Model.Combination
import Verif.Model.Compound
import Verif.Model.Ewma
import Verif.Model.EwmaOrder
import Verif.Model.EwmaVec
import Verif.Model.EwmaVecHelpers
import Verif.Model.ExpUtils
import Verif.Model.Experiment
import Verif.Model.FactorModel
import Verif.Model.FromEwmas
import Verif.Model.Generative
import Verif.Model.GrowthTable
import Verif.Model.IteratedVec
import Verif.Model.LargeUniverses
import Verif.Model.LinAlg
import Verif.Model.LowRankEwma
import Verif.Model.MarimoDemo
import Verif.Model.Mgarch
import Verif.Model.MseTable
import Verif.Model.Pipeline
import Verif.Model.Prescient
import Verif.Model.Readme
import Verif.Model.RealizedEwma
import Verif.Model.Regrets
import Verif.Model.Regularization
import Verif.Model.ReturnCombination
import Verif.Model.RhoBands
import Verif.Model.Sessions
import Verif.Model.Signals
import Verif.Model.Smoothing
import Verif.Model.SmoothingRates
import Verif.Model.SolveCall
import Verif.Model.Trading
import Verif.Model.TradingCalls
import Verif.Model.Tune
import Verif.Model.YearlySR
import Verif.Model.YearlyWeights
import Verif.Spec.Backtests
import Verif.Spec.Certificate
import Verif.Spec.CmForgetting
import Verif.Spec.CmIewma
import Verif.Spec.CmMean
import Verif.Spec.CmRewma
import Verif.Spec.Combination
import Verif.Spec.Compound
import Verif.Spec.Conditioning
import Verif.Spec.Consistency
import Verif.Spec.Continuity
import Verif.Spec.Ewma
import Verif.Spec.EwmaOrder
import Verif.Spec.ExpUtils
import Verif.Spec.Experiment
import Verif.Spec.ExpertSets
import Verif.Spec.FactorModel
import Verif.Spec.FactorModelErrors
import Verif.Spec.Iewma
import Verif.Spec.Influence
import Verif.Spec.Labels
import Verif.Spec.LinAlg
import Verif.Spec.MarimoDemo
import Verif.Spec.Metrics
import Verif.Spec.MseTable
import Verif.Spec.Online
import Verif.Spec.OnlineMethod
import Verif.Spec.Pipeline
import Verif.Spec.Portfolio
import Verif.Spec.PortfolioRun
import Verif.Spec.Prescient
import Verif.Spec.Random
import Verif.Spec.RandomScores
import Verif.Spec.Readme
import Verif.Spec.Regrets
import Verif.Spec.Regularization
import Verif.Spec.ReturnCombination
import Verif.Spec.ReturnsContinuity
import Verif.Spec.RhoBands
import Verif.Spec.Rounded
import Verif.Spec.RoundedIewma
import Verif.Spec.RoundedMethod
import Verif.Spec.RunErrors
import Verif.Spec.Sessions
import Verif.Spec.Signals
import Verif.Spec.Smoothing
import Verif.Spec.SmoothingRates
import Verif.Spec.Solve
import Verif.Spec.Tune
import Verif.Spec.Units
import Verif.Spec.Unpredictable
import Verif.Lemmas.Align
import Verif.Lemmas.Backtests
import Verif.Lemmas.BlendUniform
import Verif.Lemmas.Ccp
import Verif.Lemmas.Ccp2
import Verif.Lemmas.ChoiceContinuity
import Verif.Lemmas.CmIewma
import Verif.Lemmas.CmMean
import Verif.Lemmas.Combination
import Verif.Lemmas.Consistency
import Verif.Lemmas.Continuity
import Verif.Lemmas.EM
import Verif.Lemmas.Eigen
import Verif.Lemmas.Equiv
import Verif.Lemmas.EwmStd
import Verif.Lemmas.EwmaOrder
import Verif.Lemmas.FactorModel
import Verif.Lemmas.FactorModel2
import Verif.Lemmas.FactorModel3
import Verif.Lemmas.FactorModel4
import Verif.Lemmas.FactorModel5
import Verif.Lemmas.Forgetting
import Verif.Lemmas.FromEwmas
import Verif.Lemmas.FromSigmas
import Verif.Lemmas.General
import Verif.Lemmas.Iewma
import Verif.Lemmas.IewmaContinuity
import Verif.Lemmas.IewmaMain
import Verif.Lemmas.Inv
import Verif.Lemmas.Jacobi
import Verif.Lemmas.Lasso
import Verif.Lemmas.Likelihood
import Verif.Lemmas.LinAlg
import Verif.Lemmas.Loop
import Verif.Lemmas.LowRankEwma
import Verif.Lemmas.MarimoDemo
import Verif.Lemmas.MeanRun
import Verif.Lemmas.PortfolioExist
import Verif.Lemmas.PortfolioRun
import Verif.Lemmas.Pure
import Verif.Lemmas.Readme
import Verif.Lemmas.Regularize
import Verif.Lemmas.RegularizeMore
import Verif.Lemmas.ReturnCombination
import Verif.Lemmas.RhoBands
import Verif.Lemmas.Rounded
import Verif.Lemmas.Rounded2
import Verif.Lemmas.Rounded3
import Verif.Lemmas.Rounded4
import Verif.Lemmas.Rounded5
import Verif.Lemmas.Rounded6
import Verif.Lemmas.RunErrors
import Verif.Lemmas.SigmaRun
import Verif.Lemmas.Solve
import Verif.Lemmas.SolveCall
import Verif.Lemmas.Span
import Verif.Lemmas.VarSeq
import Verif.Lemmas.XR
import Verif.Props.AssetOrder
import Verif.Props.Autocorr
import Verif.Props.Backtests
import Verif.Props.Backtests2
import Verif.Props.Backtests3
import Verif.Props.BacktestsExamples
import Verif.Props.Blend
import Verif.Props.Causality
import Verif.Props.Ccp
import Verif.Props.Certificate
import Verif.Props.CmForgetting
import Verif.Props.CmForgettingExample
import Verif.Props.CmIewma
import Verif.Props.CmMean
import Verif.Props.CmMeanUnits
import Verif.Props.CmRestart
import Verif.Props.CmRewma
import Verif.Props.CombEquiv
import Verif.Props.CombExamples
import Verif.Props.Compound
import Verif.Props.Conditioning
import Verif.Props.Consistency
import Verif.Props.Continuity
import Verif.Props.Dilution
import Verif.Props.Drawdown
import Verif.Props.EM
import Verif.Props.EmConverge
import Verif.Props.EmFixed
import Verif.Props.EmScore
import Verif.Props.EndToEnd
import Verif.Props.EndToEnd2
import Verif.Props.Equivariance
import Verif.Props.EwmaOrder
import Verif.Props.EwmaVec
import Verif.Props.EwmaVecHelpers
import Verif.Props.Examples
import Verif.Props.ExpUtils
import Verif.Props.Experiment
import Verif.Props.ExpertSets
import Verif.Props.FactorModel
import Verif.Props.FactorModelErrors
import Verif.Props.FactorModelExample
import Verif.Props.FiniteSample
import Verif.Props.Forgetting
import Verif.Props.FromEwmas
import Verif.Props.Generative
import Verif.Props.GrowthTable
import Verif.Props.Iewma
import Verif.Props.IewmaMore
import Verif.Props.Influence
import Verif.Props.IteratedVec
import Verif.Props.LargeUniverses
import Verif.Props.Limits
import Verif.Props.LowRankCausal
import Verif.Props.LowRankEwma
import Verif.Props.MarimoDemo
import Verif.Props.Memory
import Verif.Props.Mgarch
import Verif.Props.Missing
import Verif.Props.MseTable
import Verif.Props.Online
import Verif.Props.OnlineMethod
import Verif.Props.OnlineMethodExample
import Verif.Props.Packed
import Verif.Props.Pipeline
import Verif.Props.PipelineContinuity
import Verif.Props.Portfolio
import Verif.Props.Portfolio2
import Verif.Props.Portfolio3
import Verif.Props.PortfolioExist
import Verif.Props.PortfolioInfluence
import Verif.Props.PortfolioRun
import Verif.Props.Prescient
import Verif.Props.Random
import Verif.Props.RandomPortfolio
import Verif.Props.RandomScores
import Verif.Props.Readme
import Verif.Props.ReadmeRun
import Verif.Props.RealizedEwma
import Verif.Props.Regrets
import Verif.Props.Regularize
import Verif.Props.RegularizeError
import Verif.Props.RegularizeMore
import Verif.Props.RegularizeStable
import Verif.Props.Restart
import Verif.Props.ReturnCombination
import Verif.Props.ReturnCombination2
import Verif.Props.ReturnCombination3
import Verif.Props.ReturnCombination4
import Verif.Props.ReturnCombinationExamples
import Verif.Props.ReturnsContinuity
import Verif.Props.RhoBands
import Verif.Props.Rolling
import Verif.Props.Rounded
import Verif.Props.RoundedIewma
import Verif.Props.RoundedMethod
import Verif.Props.RunErrors
import Verif.Props.Schedule
import Verif.Props.Scores
import Verif.Props.Sessions
import Verif.Props.Signals
import Verif.Props.Smoothing
import Verif.Props.SmoothingEwma
import Verif.Props.SmoothingRates
import Verif.Props.Solve
import Verif.Props.SolveCall
import Verif.Props.Special
import Verif.Props.Tolerance
import Verif.Props.Trader
import Verif.Props.TradingCalls
import Verif.Props.Tune
import Verif.Props.Units
import Verif.Props.Unpredictable
import Verif.Props.Volatility
import Verif.Props.YearlySR
import Verif.Props.YearlyWeights
import Verif.Run.FloatRun
