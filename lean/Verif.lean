import Verif.Name.Props
import Verif.Name.Memory
import Verif.Name.AddNames
import Verif.Data.CopyProps
import Verif.Data.ChainCopy
import Verif.Realloc.Props
import Verif.Text.Props
import Verif.Pages.Props
import Verif.Access.Props
import Verif.Stack.SplitProps
import Verif.Stack.TwoByTwo
import Verif.Views.Props
import Verif.Views.Find
import Verif.Rows.Props
import Verif.Rows.ColProps
import Verif.Transpose.Props
import Verif.Sort.Props
import Verif.Settings.Props
import Verif.Settings.Owner
import Verif.Settings.OwnerProps
import Verif.Settings.OwnerThms
import Verif.Settings.OwnerBad
import Verif.Settings.OwnerKde
import Verif.Vtable.Props
import Verif.Vtable.Race
import Verif.Pack.Props
import Verif.Conv.FillProps
import Verif.Conv.CrossTrip
import Verif.Asst.Paste
import Verif.Asst.Harmonic
import Verif.Asst.Rng
import Verif.Asst.Regex
import Verif.Parse.Files
import Verif.Parse.DataFile
import Verif.Parse.Fixed
import Verif.Parse.Quote
import Verif.Par.Loop
import Verif.Par.Sections
import Verif.Map.Rowwise
import Verif.Map.Older
import Verif.Map.Names
import Verif.Asst.Draws
import Verif.Stats.Unbiased
import Verif.Stats.Percentiles
import Verif.Stats.Distance
import Verif.Stats.Normalize
import Verif.Stats.CovMatrix
import Verif.Stats.Entropy
import Verif.Stats.Summary
import Verif.Stats.ModelEntropy
import Verif.Pmf.Compress
import Verif.Pmf.Draw
import Verif.Pmf.Prob
import Verif.Pmf.KL
import Verif.Pmf.Cache
import Verif.Pmf.Concurrent
import Verif.Mcmc.Chain
import Verif.Mcmc.Balance
import Verif.Mcmc.Blocks
import Verif.Dist.LogLik
import Verif.Dist.Score
import Verif.Dist.Estimate
import Verif.Dist.Update
import Verif.Dist.Moments
import Verif.Dist.TrueMoments
import Verif.Dist.Multinomial
import Verif.Dist.MultinomialEst
import Verif.Rng.Reject
import Verif.Rng.Zipf
import Verif.Rng.Yule
import Verif.Rng.Cdf
import Verif.Rng.Threads
import Verif.Arms.Meet
import Verif.Arms.Envelope
import Verif.Arms.Update
import Verif.Arms.Reach
import Verif.Arms.Piece
import Verif.Arms.Invert
import Verif.Arms.Draw
import Verif.Arms.Test
import Verif.Arms.Accept
import Verif.Arms.Law
import Verif.Arms.Round
import Verif.Arms.Cases
import Verif.Transform.FixParams
import Verif.Transform.FixShared
import Verif.Transform.Dconstrain
import Verif.Transform.Mixture
import Verif.Transform.MixConstraint
import Verif.Transform.Predict
import Verif.Transform.MixDraw
import Verif.Transform.Cross
import Verif.Transform.Impute
import Verif.Regress.Unique
import Verif.Regress.Factors
import Verif.Regress.DummyOpts
import Verif.Regress.OlsNames
import Verif.Regress.Dot
import Verif.Regress.Ols
import Verif.Regress.Iv
import Verif.Regress.OlsLik
import Verif.Regress.OlsScore
import Verif.Regress.OlsDraw
import Verif.Regress.ParamTest
import Verif.Opt.LinearConstraint
import Verif.Opt.ModelConstraints
import Verif.Opt.Jackknife
import Verif.Opt.Bootstrap
import Verif.Rake.Model
import Verif.Rake.Steps
import Verif.Rake.Kl
import Verif.Rake.Props
import Verif.Rake.Setup
import Verif.Hist.MovingAverage
import Verif.Hist.Bins
import Verif.Hist.ToPmf
import Verif.Hist.Smirnov
import Verif.Hist.Kolmogorov
import Verif.Hist.Ks
import Verif.Hist.GoodnessOfFit
import Verif.Tests.TTest
import Verif.Tests.FTest
import Verif.Tests.Independence
import Verif.Tests.Anova
import Verif.Tests.Lookup
import Verif.Db.Aggregates
import Verif.Db.ToData
import Verif.Db.ToText
import Verif.Db.Mixed
import Verif.Db.ToDb
import Verif.Db.ToDbWide
import Verif.Db.Session
import Verif.Db.Import
import Verif.Db.ImportLiteral
import Verif.Mod.ClearProps
import Verif.Mod.Prob
import Verif.Mod.CdfProps
import Verif.Mod.Dispatch
import Verif.Out.Num
import Verif.Out.Print
import Verif.Out.Title
import Verif.Out.Lines
import Verif.Out.Read
import Verif.Out.ReadProps
import Verif.Out.Vector
import Verif.Out.Show
import Verif.Out.Pages
import Verif.Mle.Deriv
import Verif.Mle.Gradient
import Verif.Mle.Hessian
import Verif.Mle.Shell
import Verif.Mle.Info
import Verif.Mle.Status
import Verif.Mle.Restart
import Verif.Mle.Anneal
import Verif.Mle.AnnealStatus
import Verif.Mle.Cycle
import Verif.Choice.Logit
import Verif.Choice.Phi
import Verif.Choice.Probit
import Verif.Choice.Prep
import Verif.Choice.Draw
import Verif.Density.Kernel
import Verif.Density.Mvn
import Verif.Density.Dirichlet
import Verif.Transform.Coord
import Verif.Linalg.Psd
import Verif.Linalg.ToPsd
import Verif.Linalg.Pca
import Verif.Linalg.MvGamma
import Verif.Mcmc.General
import Verif.Mcmc.Adapt
import Verif.Mcmc.Constraint
import Verif.Update.Weighted
import Verif.Update.Product
import Verif.Update.Setup
import Verif.Fisher.Sum
import Verif.Fisher.Completion
import Verif.Fisher.Daughter
import Verif.Fisher.Enum
import Verif.Fisher.Walk
import Verif.Fisher.DaughterThms
import Verif.Fisher.Columns
import Verif.Fisher.Network
import Verif.Fisher.NetBasics
import Verif.Fisher.NetDaughters
import Verif.Fisher.NetTables
import Verif.Fisher.NetThms
import Verif.Fisher.NetMain
import Verif.Fisher.Spec
import Verif.Fisher.Exact
import Verif.Fisher.ExactNet
import Verif.Fisher.ExactThms
import Verif.Fisher.PValue
import Verif.Fisher.Layout
import Verif.Fisher.TwoCols
import Verif.Fisher.KeysFit
import Verif.Fisher.Small
import Verif.Fisher.F3
import Verif.Fisher.F3Math
import Verif.Fisher.F3Enum
import Verif.Fisher.F3Thms
import Verif.Fisher.F3DP
import Verif.Fisher.F3Bound
import Verif.Fisher.F3Claims
import Verif.Fisher.F4
import Verif.Fisher.F4Math
import Verif.Fisher.F4Peel
import Verif.Fisher.F4Thms
import Verif.Fisher.F4Bound
import Verif.Fisher.F4Exact
import Verif.Fisher.F4Claims
import Verif.Fisher.Isort
import Verif.Fisher.IsortThms
import Verif.Fisher.IsortClaims
import Verif.Rake.VarList
import Verif.Mod.ParamModel
import Verif.Dist.CovPages
import Verif.Dist.Cdf
import Verif.Dist.BetaDraw
import Verif.Dist.TEstimate
import Verif.Mod.Reestimate
import Verif.Mod.DrawRace
import Verif.Mod.BootCov
