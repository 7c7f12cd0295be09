import Verif.Spec.Prefix
import Verif.Core.BTree
import Verif.Num.Model
import Verif.Num.Bits
import Verif.Num.WF
import Verif.Num.Shape
import Verif.Num.History
import Verif.Num.Misc
import Verif.Props.Numtree
import Verif.Core.Bytes
import Verif.Spec.OrdMap
import Verif.Spec.Merge
import Verif.Spec.Subtree
import Verif.Core.Merge
import Verif.Spec.RedBlack
import Verif.RB.Model
import Verif.RB.Order
import Verif.RB.Balance
import Verif.RB.History
import Verif.RB.Merge
import Verif.RB.Map
import Verif.Strtree.Model
import Verif.Strtree.Lemmas
import Verif.Props.Strtree
import Verif.Spec.DomainText
import Verif.Domain.Model
import Verif.Domain.Parse
import Verif.Domain.Labels
import Verif.Props.Domain
import Verif.DL.Model
import Verif.DL.Lemmas
import Verif.DL.Step
import Verif.Props.Dltree
import Verif.Spec.DomMap
import Verif.Spec.DomClosed
import Verif.DomTree.Model
import Verif.DomTree.Lemmas
import Verif.DomTree.History
import Verif.DomTree.Enum
import Verif.DomTree.Run
import Verif.DomTree.Inplace
import Verif.DomTree.Closed
import Verif.Props.Domaintree
import Verif.Spec.Net
import Verif.IP.Net
import Verif.IP.Bits
import Verif.IP.Model
import Verif.IP.Pack
import Verif.IP.Lemmas
import Verif.IP.Step
import Verif.IP.Enum
import Verif.IP.History
import Verif.IP.Update
import Verif.Props.Iptree
import Verif.Props.IptreeUpdate
import Verif.UIP.Model
import Verif.UIP.Lemmas
import Verif.UIP.History
import Verif.Props.UIptree
import Verif.Heap.Prog
import Verif.Heap.Store
import Verif.Heap.Interleave
import Verif.Heap.Reach
import Verif.Heap.Client
import Verif.NumHeap.Model
import Verif.NumHeap.Refine
import Verif.NumHeap.History
import Verif.NumHeap.Node
import Verif.Props.NumtreeHeap
import Verif.RBHeap.Model
import Verif.RBHeap.Basic
import Verif.RBHeap.Insert
import Verif.RBHeap.Del
import Verif.RBHeap.History
import Verif.Props.StrtreeHeap
import Verif.Heap.Obj
import Verif.Heap.Lift
import Verif.Heap.Crash
import Verif.Num.Map
import Verif.NumHeap.Map
import Verif.IPHeap.Model
import Verif.IPHeap.Rep
import Verif.IPHeap.Ops
import Verif.IPHeap.Refine
import Verif.IPHeap.Inplace
import Verif.IPHeap.History
import Verif.Props.IptreeHeap
import Verif.IPHeap.UpdateModel
import Verif.IPHeap.UpdateWalk
import Verif.IPHeap.Update
import Verif.IP.UHistory
import Verif.IPHeap.UHistory
import Verif.Heap.Touch
import Verif.IPHeap.Touch
import Verif.IPHeap.Shared
import Verif.Spec.Path
import Verif.Spec.Select
import Verif.Spec.Levels
import Verif.Spec.Delivery
import Verif.Etc.Path
import Verif.Etc.Model
import Verif.Etc.Clean
import Verif.Etc.Names
import Verif.Etc.Data
import Verif.Props.Etc
import Verif.Dot.Model
import Verif.Dot.Lemmas
import Verif.Props.Dot
import Verif.Chan.Model
import Verif.Chan.Lemmas
import Verif.Props.Chan
import Verif.DLHeap.Model
import Verif.DLHeap.Rep
import Verif.DomHeap.Model
import Verif.DomHeap.Rep
import Verif.DomHeap.Ops
import Verif.DomHeap.Insert
import Verif.DomHeap.Inplace
import Verif.DomHeap.Delete
import Verif.DomHeap.Read
import Verif.DomHeap.History
import Verif.DomHeap.Crash
import Verif.DLHeap.History
import Verif.Props.DltreeHeap
import Verif.Props.DomaintreeHeap
import Verif.Heap.Fleet
import Verif.Heap.Session
import Verif.Heap.ToObj
import Verif.Heap.Keep
import Verif.Num.Same
import Verif.Num.Node
import Verif.UIPHeap.Model
import Verif.UIPHeap.Rep
import Verif.UIPHeap.Ops
import Verif.UIPHeap.Refine
import Verif.UIPHeap.Inplace
import Verif.UIPHeap.History
import Verif.Props.UIptreeHeap
import Verif.Props.Goroutines
import Verif.Props.IptreeUpdateHeap
import Verif.Heap.Cost
import Verif.NumHeap.Cost
import Verif.RBHeap.Cost
import Verif.IPHeap.Cost
import Verif.UIPHeap.Cost
import Verif.DLHeap.Cost
import Verif.DomHeap.Cost
import Verif.Props.Cost
import Verif.Pipe.Model
import Verif.Pipe.Sound
import Verif.Pipe.Rules
import Verif.Pipe.Zone
import Verif.Pipe.Script
import Verif.Pipe.Fuel
import Verif.Pipe.Walks
import Verif.Pipe.Loops
import Verif.Pipe.IPLoop
import Verif.Pipe.UIPLoop
import Verif.Pipe.DomLoop
import Verif.Pipe.Exec
import Verif.Pipe.Leak
import Verif.Pipe.UpdateModel
import Verif.Pipe.Update
import Verif.Pipe.Rescue
import Verif.Pipe.Asked
import Verif.Pipe.AskedUpdate
import Verif.Props.Iterate
import Verif.Props.Abandon
import Verif.Props.UpdateSchedules
import Verif.Pipe.Crew
import Verif.Pipe.CrewExec
import Verif.Props.Crews
import Verif.Domain.Classify
import Verif.Props.Parsing
import Verif.Spec.Catalog
import Verif.Etc.Files
import Verif.Etc.Execute
import Verif.Etc.FileLemmas
import Verif.Etc.Run
import Verif.Etc.Outcome
import Verif.Props.EtcRun
import Verif.Spec.Graphviz
import Verif.Dot.Text
import Verif.Dot.TextLemmas
import Verif.Dot.Decode
import Verif.Dot.Quote
import Verif.Props.DotText
import Verif.RB.Steps
import Verif.RB.AnyCmp
import Verif.Strtree.AnyCmp
import Verif.Props.AnyCompare
import Verif.Miss.Model
import Verif.Miss.Lemmas
import Verif.Props.Lookup
import Verif.DL.Trace
import Verif.Props.LongLabels
import Verif.Own.Model
import Verif.Own.Lemmas
import Verif.Props.KeyMemory
import Verif.Heap.Shared
import Verif.NumHeap.Shared
import Verif.NumHeap.KinHistory
import Verif.Props.SharedInsert
import Verif.Num.Held
import Verif.IP.Held
import Verif.UIP.Held
import Verif.Heap.Held
import Verif.IPHeap.Held
import Verif.UIPHeap.Held
import Verif.DLHeap.Held
import Verif.DomHeap.Held
import Verif.Props.Retention
import Verif.Props.Merge
import Verif.Props.Nodes
import Verif.Spec.Publish
import Verif.Heap.Publish
import Verif.Heap.Atomic
import Verif.Props.Published
import Verif.Heap.GiveUp
import Verif.RBHeap.Panic
import Verif.RBHeap.Try
import Verif.Props.GiveUp
import Verif.Num.Zero
import Verif.NumHeap.Zero
import Verif.RBHeap.Zero
import Verif.Props.Zero
import Verif.Heap.Follow
import Verif.Spec.Until
import Verif.IPHeap.CbPanic
import Verif.IPHeap.Recover
import Verif.Props.CbPanic
import Verif.Props.Agree
import Verif.Spec.Guard
import Verif.Heap.Guard
import Verif.Props.Guarded
import Verif.Heap.Fair
import Verif.Props.Fair
import Verif.Pipe.Break
import Verif.Pipe.BreakFuel
import Verif.Props.Leave
import Verif.Spec.Ranging
import Verif.Pipe.Ranging
import Verif.Pipe.RangingSound
import Verif.Pipe.RangingEnds
import Verif.Pipe.RangingExec
import Verif.Props.Ranging
import Verif.Spec.Locked
import Verif.Pipe.Locked
import Verif.Pipe.LockedEnds
import Verif.Pipe.LockedExec
import Verif.Props.Locked
import Verif.Heap.Report
import Verif.Report.Trees
import Verif.Report.Claims
import Verif.Props.Reports
import Verif.Props.UpdateShared
import Verif.Heap.Kin
import Verif.IPHeap.Homes
import Verif.IPHeap.Spread
import Verif.IPHeap.KinHistory
import Verif.Props.SharedIptree
import Verif.UIPHeap.Homes
import Verif.UIPHeap.Spread
import Verif.UIPHeap.KinHistory
import Verif.Props.SharedUIptree
import Verif.Heap.Tidy
import Verif.RBHeap.Tidy
import Verif.DLHeap.Tidy
import Verif.Props.SharedStrtree
import Verif.Heap.Confine
import Verif.RBHeap.Confine
import Verif.DLHeap.Confine
import Verif.DomHeap.Confine
import Verif.Props.Quarantine
import Verif.Heap.Typed
import Verif.RBHeap.Typed
import Verif.DomHeap.Paths
import Verif.Props.SharedDomain
import Verif.Heap.Blind
import Verif.Heap.Alone
import Verif.RBHeap.Blind
import Verif.DLHeap.Blind
import Verif.DomHeap.Blind
import Verif.NumHeap.Blind
import Verif.IPHeap.Blind
import Verif.UIPHeap.Blind
import Verif.Props.Isolated
import Verif.Heap.Team
import Verif.Heap.Job
import Verif.Props.Separate
import Verif.Heap.OneSupply
import Verif.Props.OneSupply
import Verif.Heap.Relay
import Verif.Heap.RelayInv
import Verif.Heap.RelayOwn
import Verif.Props.BlindReads
import Verif.Props.Relay
import Verif.Props.Rescue
import Verif.Props.Asked
import Verif.Dot.Heap
import Verif.Props.DotHeap
import Verif.Dot.Cost
import Verif.Props.DotCost
import Verif.Props.AnyOffset
