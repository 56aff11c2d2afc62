import Verif.Conj.Props
import Verif.Conj.Shape
import Verif.Conj.ShapeIff
import Verif.Conj.ArrayProps
import Verif.Mvn.Props
import Verif.PG.Props
import Verif.Horseshoe.Props
import Verif.Horseshoe.ArrayProps
import Verif.CRT.Props
import Verif.FFBS.Props
import Verif.Trans.Props
import Verif.Match.Props
import Verif.Graph.Order
import Verif.Graph.SweepWitness
import Verif.Track.Props
import Verif.Track.Siblings
import Verif.Track.Updates
import Verif.Subs.Props
import Verif.Info.Props
import Verif.Prior.Props
import Verif.Ver.Props
import Verif.Nuts.Props
import Verif.Nuts.LawExample
import Verif.Nuts.BlockExample
import Verif.Shapes.Props
import Verif.Shapes.BatchProps
import Verif.NbReg.Props
import Verif.HsDisp.Props
import Verif.HsReg.Props
import Verif.PG.Siblings
import Verif.Horseshoe.AnyPrior
import Verif.PG.AnyPrior
import Verif.Shared.Props
import Verif.Ver.LookupProps
import Verif.Track.RouteProps
import Verif.Track.Families
import Verif.Iter.Props
import Verif.Iter.AverageProps
import Verif.Iter.JointProps
import Verif.Whole.Props
import Verif.Whole.SeqProps
import Verif.Whole.ExactProps
import Verif.Hier.Props
import Verif.Hier.Witness
import Verif.Hier.BetaProps
import Verif.Hier.RegProps
import Verif.Hier.RegWitness
import Verif.Parts.Props
import Verif.Parts.Witness
import Verif.Parts.Found
import Verif.Parts.Joint
import Verif.Parts.JointWitness
import Verif.PG.SymmProps
import Verif.Horseshoe.Symm
import Verif.CRT.Symm
import Verif.Prior.Law
import Verif.Track.Batches
import Verif.FFBS.Symm
import Verif.Iter.StrongProps
import Verif.Calib.Props
import Verif.Calib.Conj
import Verif.Calib.Horseshoe
import Verif.Rev.Props
import Verif.CRT.BatchProps
import Verif.FFBS.StableProps
import Verif.Rev.KeepProps
import Verif.PG.BlocksProps
import Verif.FFBS.Product
import Verif.Track.OrderProps
import Verif.FFBS.RangeProps
import Verif.Match.Prepare
import Verif.Match.PrepareProps
import Verif.Prob.Order
import Verif.Prob.Tilt
import Verif.CRT.Order
import Verif.CRT.OrderProps
import Verif.PG.Order
import Verif.PG.OrderProps
import Verif.Horseshoe.Order
import Verif.Horseshoe.OrderProps
import Verif.Conj.OrderProps
import Verif.CRT.Mean
import Verif.Horseshoe.OrderStrict
import Verif.Ver.RunProps
import Verif.Ver.KeywordProps
import Verif.Fail.Props
import Verif.NoData.Props
import Verif.Graph.RenameProps
import Verif.Graph.Data
import Verif.Match.Rename
import Verif.Iter.ErrorProps
import Verif.Prob.Quantiles
import Verif.Iter.QuantileProps
import Verif.Prob.LagRuns
import Verif.Iter.LagProps
import Verif.FFBS.Forget
import Verif.FFBS.ForgetProps
import Verif.Prob.Settle
import Verif.Conj.SettleProps
import Verif.Mvn.SettleProps
import Verif.PG.RotateProps
import Verif.Prob.Laplace
import Verif.PG.PoolProps
import Verif.Ver.Styles
import Verif.Prob.Near
import Verif.PG.NearProps
import Verif.Horseshoe.NearProps
import Verif.CRT.NearProps
import Verif.NbReg.NearProps
import Verif.HsReg.NearProps
import Verif.Mvn.FitProps
import Verif.Mvn.SpreadProps
import Verif.PG.ScaleProps
import Verif.HsReg.ScaleProps
import Verif.Fail.NeedProps
import Verif.HsReg.ContProps
