import Verif.Model.Verify
import Verif.Props.Codec
import Verif.Props.Map
import Verif.Props.Atomic
import Verif.Props.Calm
import Verif.Props.Total
import Verif.Props.Append
import Verif.Props.Torn
import Verif.Props.Bulk
import Verif.Props.Bucket
import Verif.Props.Address
import Verif.Props.Create
import Verif.Props.Reject
import Verif.Props.Visit
import Verif.Props.Rekey
import Verif.Proof.Blind
import Verif.Proof.Pow2
import Verif.Proof.Bucket
import Verif.Props.Conform
import Verif.Props.Verify
import Verif.Props.VerifySound
import Verif.Props.VerifyWeak
import Verif.Props.Progress
import Verif.Props.Pool
import Verif.Props.List
import Verif.Props.Sched
import Verif.Props.Concurrent
import Verif.Props.ConcCrash
import Verif.Props.XXHash
import Verif.Props.Log
import Verif.Props.FailedRead
import Verif.Props.Lifetime
import Verif.Props.SharedLife
import Verif.Props.Full
import Verif.Props.Native
import Verif.Props.Heap
import Verif.Props.Params
import Verif.Spec.Race
import Verif.Model.Race
import Verif.Proof.Race
import Verif.Proof.RaceOrder
import Verif.Proof.RaceFree
import Verif.Proof.RaceEc
import Verif.Props.Race
import Verif.Model.HeapRead
import Verif.Proof.HeapRead
import Verif.Proof.HeapLookup
import Verif.Proof.HeapRekey
import Verif.Proof.HeapVerify
import Verif.Props.HeapRead
import Verif.Model.Throttle
import Verif.Props.Throttle
import Verif.Spec.Damage
import Verif.Proof.Damage
import Verif.Proof.Damage2
import Verif.Proof.Damage3
import Verif.Proof.Damage4
import Verif.Proof.Damage5
import Verif.Proof.Damage6
import Verif.Proof.Damage7
import Verif.Proof.Damage8
import Verif.Proof.Damage9
import Verif.Props.Damage
import Verif.Spec.Ends
import Verif.Proof.Ends
import Verif.Proof.Ends2
import Verif.Proof.Ends3
import Verif.Proof.Ends4
import Verif.Proof.Ends5
import Verif.Proof.Ends6
import Verif.Props.Ends
import Verif.Spec.Share
import Verif.Props.Share
import Verif.Spec.Live
import Verif.Props.Live
import Verif.Spec.Remove
import Verif.Props.Remove
import Verif.Model.Error
import Verif.Props.Error
import Verif.Model.Genlock
import Verif.Spec.Genlock
import Verif.Props.Genlock
import Verif.Model.ErrorRef
import Verif.Spec.ErrorRef
import Verif.Props.ErrorRef
import Verif.Model.Word
import Verif.Props.Word
import Verif.Model.Nested
import Verif.Spec.Nested
import Verif.Props.Nested
import Verif.Spec.Cost
import Verif.Props.Cost
import Verif.Model.ContextThrow
import Verif.Spec.SchedThrow
import Verif.Proof.ContextThrow
import Verif.Props.ContextThrow
import Verif.Spec.Locks
import Verif.Props.Locks
import Verif.Model.Handle
import Verif.Spec.Handle
import Verif.Proof.Handle
import Verif.Proof.HandleFuns
import Verif.Props.Handle
import Verif.Model.ContextEnd
import Verif.Spec.Stop
import Verif.Proof.Stop
import Verif.Props.ContextEnd
import Verif.Spec.Work
import Verif.Proof.Work
import Verif.Props.Work
import Verif.Props.Report
import Verif.Props.Average
import Verif.Props.RekeyCount
import Verif.Props.Ratios
import Verif.Props.Rounding
import Verif.Props.FailFile
import Verif.Props.XorShift
import Verif.Props.Tool
import Verif.Props.Choice
import Verif.Props.Meanwhile
import Verif.Props.Display
import Verif.Props.Example
import Verif.Model.Bench
import Verif.Props.Bench
