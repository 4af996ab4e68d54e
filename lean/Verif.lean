import Verif.Props.Base
import Verif.Props.Search
import Verif.Props.Dag
import Verif.Props.Sp
import Verif.Props.Flow
import Verif.Props.Misc
import Verif.Props.Spatial
import Verif.Props.Tsp
import Verif.Props.Rail
import Verif.Props.Jam
import Verif.Props.More
import Verif.Props.Scoped
import Verif.Props.Relate
import Verif.Props.Sched
import Verif.Props.Plot
import Verif.Props.Tour
import Verif.Props.Checks
import Verif.Props.Round
import Verif.Props.Invariance
import Verif.Props.FlowInt
import Verif.Props.Heap
import Verif.Props.Extens
import Verif.Props.AnyValue
import Verif.Props.Load
import Verif.Props.Gens
import Verif.Props.Inherit
import Verif.Props.CpmRound
import Verif.Props.Numbers
import Verif.Props.JamHash
import Verif.Props.OneSupply
import Verif.Props.WtapRound
import Verif.Props.ApspRound
import Verif.Props.Compare
import Verif.Props.CompareMore
import Verif.Props.Bisect
import Verif.Props.Heapq
import Verif.Props.NoneNode
import Verif.Props.WorkBound
import Verif.Props.Values
import Verif.Props.FlowRatio
import Verif.Props.Unhash
import Verif.Props.ApRound
import Verif.Props.TspRound
import Verif.Props.LegsRound
import Verif.Props.MinCostRound
import Verif.Props.BidirRound
import Verif.Props.BidirSimple
import Verif.Props.MemoRound
import Verif.Props.FlowFp
import Verif.Props.DmRound
import Verif.Props.MinCutRound
import Verif.Props.WorkFlow
