import Verif.Props.Lags
import Verif.Props.QNames
import Verif.Props.OLS
import Verif.Props.TSLS
import Verif.Props.GM
import Verif.Props.LM
import Verif.Props.Cache
import Verif.Props.Regimes
import Verif.Props.Regimes2
import Verif.Props.RegimesMat
import Verif.Props.Impacts
import Verif.Props.DGP
import Verif.Props.Checks
import Verif.Props.ML
import Verif.Props.ML2
import Verif.Props.Panel
import Verif.Props.SUR
import Verif.Props.SUR2
import Verif.Props.SUR3
import Verif.Props.Diagnostics
import Verif.Props.Diagnostics2
import Verif.Props.Diagnostics3
import Verif.Props.DiagPanel
import Verif.Props.Spsearch3
import Verif.Props.OptimK
import Verif.Props.Skater4
import Verif.Model.GMIter
import Verif.Props.GMIter
import Verif.Spec.Score
import Verif.Props.LMScore
import Verif.Props.GMIter2
import Verif.Props.GMIter3
import Verif.Model.Probit
import Verif.Props.Normal
import Verif.Props.Probit
import Verif.Props.Probit2
import Verif.Props.Probit3
import Verif.Spec.Gauss
import Verif.Model.PanelML
import Verif.Props.PanelML
import Verif.Props.PanelML2
import Verif.Props.PanelML3
import Verif.Props.PanelML4
import Verif.Props.PanelML5
import Verif.Props.PanelML6
import Verif.Props.PanelMLEx
import Verif.Model.PanelGLS
import Verif.Props.PanelGLS
import Verif.Props.PanelGLS2
import Verif.Props.PanelGLS3
import Verif.Props.PanelGLS4
import Verif.Props.PanelGLS5
import Verif.Props.PanelGLS6
import Verif.Model.NSLX
import Verif.Props.NSLX
import Verif.Props.NSLX2
import Verif.Model.SURSpatial
import Verif.Props.SURSpatial
import Verif.Props.SURSpatial2
import Verif.Props.SURSpatial3
import Verif.Props.SURUnits
import Verif.Props.SURUnits2
import Verif.Props.SURExamples
import Verif.Props.SUROrder
import Verif.Props.SUROrder2
import Verif.Props.SUROrder3
import Verif.Spec.Fisher
import Verif.Props.Fisher
import Verif.Props.Fisher2
import Verif.Props.Fisher3
import Verif.Props.Fisher4
import Verif.Props.Fisher5
import Verif.Props.Fisher6
import Verif.Model.Chow
import Verif.Props.Chow
import Verif.Model.NameY
import Verif.Props.NameY
import Verif.Model.Output
import Verif.Props.Output
import Verif.Props.Output2
import Verif.Props.Output3
import Verif.Model.RegimesMulti
import Verif.Props.RegimesMulti
import Verif.Model.Calls
import Verif.Props.Calls
import Verif.Model.GMEndog
import Verif.Props.GMEquiv
import Verif.Props.GMEquiv2
import Verif.Props.GMEquiv3
import Verif.Props.GMOptim
import Verif.Model.GMRegimes
import Verif.Props.GMRegimes
import Verif.Props.GMRegimes2
import Verif.Model.WRegimes
import Verif.Props.WRegimes
import Verif.Model.LagRegimes
import Verif.Props.LagRegimes
import Verif.Model.KKPOld
import Verif.Props.KKPOld
import Verif.Model.MLFull
import Verif.Props.MLEquiv
import Verif.Props.LMEquiv
import Verif.Model.PanelOld
import Verif.Props.PanelOld
import Verif.Model.Tables
import Verif.Model.Dispatch
import Verif.Props.Tables
import Verif.Props.Dispatch
import Verif.Model.OptGMM
import Verif.Props.OptGMM
import Verif.Model.Residuals
import Verif.Props.Residuals
import Verif.Model.Endog
import Verif.Props.Endog
import Verif.Props.Endog2
import Verif.Model.RegDurbin
import Verif.Props.RegDurbin
import Verif.Model.PooledRegimes
import Verif.Props.Relabel
import Verif.Props.GMRelabel
import Verif.Props.MLRelabel
import Verif.Model.RegDiag
import Verif.Props.RegDiag
import Verif.Props.ProbitEquiv
import Verif.Props.RegHAC
import Verif.Model.HardBound
import Verif.Props.HardBound
import Verif.Spec.Errors
import Verif.Model.DGPRandom
import Verif.Props.DGPRandom
import Verif.Props.Density
import Verif.Props.Sampling
import Verif.Props.SamplingFE
import Verif.Props.Moments
import Verif.Props.MomentsKKP
import Verif.Props.Moran
import Verif.Model.SURLag
import Verif.Spec.SURLag
import Verif.Props.SURLag
import Verif.Props.SURData
import Verif.Model.SURSummary
import Verif.Spec.Float
import Verif.Props.SURSummary
import Verif.Spec.Blue
import Verif.Props.Blue
import Verif.Spec.Student
import Verif.Props.Exact
import Verif.Model.PValues
import Verif.Props.ExactSize
import Verif.Spec.Centre
import Verif.Props.Centre
import Verif.Model.RegWork
import Verif.Spec.Local
import Verif.Props.RegWork
import Verif.Model.RegWorkLag
import Verif.Props.RegWorkLag
import Verif.Props.RegWorkViol
import Verif.Props.RegWorkEx
import Verif.Model.SURReg
import Verif.Props.SURReg
import Verif.Model.OLSChow
import Verif.Spec.ChiSq
import Verif.Props.OLSChow
import Verif.Props.OLSChowSize
import Verif.Props.Lags2
import Verif.Model.VmPrint
import Verif.Props.VmPrint
import Verif.Model.Sputils
import Verif.Props.Sputils
import Verif.Spec.Consistent
import Verif.Props.Consist
import Verif.Props.ConsistEx
import Verif.Props.ConsistVar
import Verif.Props.ConsistVarEx
import Verif.Spec.Pairs
import Verif.Props.QuadLLN
import Verif.Props.ErrConsist
import Verif.Props.GMErrorConsist
import Verif.Props.GMErrorConsistEx
import Verif.Props.Leftover
import Verif.Model.PanelTable
import Verif.Props.PanelTable
import Verif.Props.TSLSVar
import Verif.Props.TSLSVarEx
import Verif.Spec.HetErrors
import Verif.Props.HetOpt
import Verif.Props.HetConv
import Verif.Props.GMHetConsist
import Verif.Props.GMHetConsistEx
import Verif.Spec.HomErrors
import Verif.Props.HomConv
import Verif.Props.HomLoop
import Verif.Props.GMHomConsist
import Verif.Props.GMHomConsistEx
import Verif.Spec.EndogError
import Verif.Spec.ComboModel
import Verif.Props.EndogConsist
import Verif.Props.EndogConsistEx
import Verif.Model.EndogArgs
import Verif.Spec.EndogArgs
import Verif.Props.EndogArgs
import Verif.Model.Coords
import Verif.Props.Coords
