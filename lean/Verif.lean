import Verif.Proof.Query
import Verif.Proof.Ite
import Verif.Proof.Det
import Verif.Proof.OpTree
import Verif.Proof.DetTree
import Verif.Proof.TreeLaw
import Verif.Proof.Build
import Verif.Proof.Rebase
import Verif.Proof.Limited
import Verif.Proof.Hist
import Verif.Props.Ops
import Verif.Props.Canon
import Verif.Props.Memo
import Verif.Props.Capacity
import Verif.Props.Ranges
import Verif.Props.Query
import Verif.Props.Coll
import Verif.Props.CollAnd
import Verif.Props.CollQuery
import Verif.Props.Gc
import Verif.Props.GcShrink
import Verif.Props.GcReturn
import Verif.Props.GcHang
import Verif.Props.GcBad
import Verif.Props.Destroy
import Verif.Props.Pages
import Verif.Props.Depth
import Verif.Props.Twin
import Verif.Props.Forget
import Verif.Props.CollOrVar
import Verif.Props.CollBuild
import Verif.Props.CollNav
import Verif.Props.RangesBad
import Verif.Props.VarLimit
import Verif.Props.Alloc
import Verif.Props.Handle
import Verif.Props.CollReduce
import Verif.Props.CollWrap
import Verif.Props.Repeat
import Verif.Props.Seen
import Verif.Props.Ask
import Verif.Props.Caught
import Verif.Props.CollClose
import Verif.Props.Order
import Verif.Props.Marks
import Verif.Props.Text
import Verif.Proof.Nest
import Verif.Props.Nest
import Verif.Model.CollEntry
import Verif.Props.CollCanon
import Verif.Props.CollEntry
import Verif.Model.Temps
import Verif.Model.TempsColl
import Verif.Proof.Temps
import Verif.Proof.TempsOps
import Verif.Proof.TempsFn
import Verif.Proof.TempsRun
import Verif.Proof.TempsColl
import Verif.Props.Temps
import Verif.Model.Cost
import Verif.Spec.Cost
import Verif.Proof.Cost
import Verif.Proof.CostTree
import Verif.Proof.Coll.Cost
import Verif.Props.Cost
import Verif.Props.CollCost
import Verif.Spec.CollNest
import Verif.Spec.Residual
import Verif.Proof.Coll.Nest
import Verif.Props.CollNest
import Verif.Props.Minimal
import Verif.Spec.Store
import Verif.Proof.KeepVars
import Verif.Props.Store
import Verif.Proof.MixedCount
import Verif.Spec.StoreMixed
import Verif.Props.StoreMixed
import Verif.Spec.WorldMixed
import Verif.Props.WorldMixed
import Verif.Spec.System
import Verif.Props.System
import Verif.Spec.Safe
import Verif.Props.Safe
import Verif.Model.CostOps
import Verif.Proof.CostMemo
import Verif.Proof.CostOps
import Verif.Proof.CostIte
import Verif.Props.CostOps
import Verif.Model.Query
import Verif.Spec.Query
import Verif.Props.Observe
import Verif.Spec.Limited
import Verif.Props.Limited
import Verif.Spec.Bounds
import Verif.Props.Bounds
import Verif.Spec.Formula
import Verif.Props.Formula
import Verif.Props.Rename
import Verif.Spec.World
import Verif.Props.World
