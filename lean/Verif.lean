import Verif.Model.Prefixed
import Verif.Proof.Reach
import Verif.Props.History
import Verif.Props.Contents
import Verif.Props.Structure
import Verif.Props.Traversal
import Verif.Props.Repoll
import Verif.Props.Handles
import Verif.Props.Config
import Verif.Props.Prefixed
import Verif.Props.Codec
import Verif.Props.Header
import Verif.Props.Debug
import Verif.Props.Replica
import Verif.Props.Cost
import Verif.Props.Ffi
import Verif.Props.Corrupt
import Verif.Props.Damage
import Verif.Props.Concurrent
import Verif.Props.Meddle
import Verif.Props.Wire
import Verif.Props.Foreign
import Verif.Props.Log
import Verif.Props.Machine
import Verif.Props.SubMachine
import Verif.Props.Share
import Verif.Props.Lossy
import Verif.SpecTrouble
import Verif.Proof.Trouble
import Verif.Props.Trouble
import Verif.SpecPaging
import Verif.Proof.Paging
import Verif.Props.Paging
import Verif.SpecSub
import Verif.Proof.SubTrouble
import Verif.Props.SubTrouble
import Verif.Model.Turmoil
import Verif.Proof.Turmoil
import Verif.Props.Turmoil
import Verif.Proof.Standstill
import Verif.Props.Standstill
import Verif.Props.Rivals
import Verif.Props.Own
import Verif.Props.Among
import Verif.Props.Check
import Verif.Props.Flaky
import Verif.Props.Gate
import Verif.Props.Space
import Verif.Props.Lazy
import Verif.Proof.Lengths
import Verif.Props.Bytes
import Verif.Props.External
import Verif.Model.Fmt
import Verif.Proof.Fmt
import Verif.Props.Fmt
import Verif.Model.Peer
import Verif.Proof.Dream
import Verif.Proof.PeerSim
import Verif.Proof.DreamRun
import Verif.Proof.Peer
import Verif.Props.Peer
import Verif.Model.SubAsync
import Verif.Proof.SubAsync
import Verif.Props.SubConcurrent
import Verif.Props.Suite
import Verif.SpecCover
import Verif.Model.Handmade
import Verif.Proof.Alike
import Verif.Props.Handmade
import Verif.SpecSteps
import Verif.Proof.Once
import Verif.Props.Once
import Verif.Proof.Steps
import Verif.Proof.StepsCall
import Verif.Props.Steps
import Verif.Model.Closure
import Verif.SpecClosure
import Verif.Proof.Closure
import Verif.Props.Closure
import Verif.Model.Drop
import Verif.Proof.Drop
import Verif.Props.Drop
import Verif.SpecReplay
import Verif.Proof.Replay
import Verif.Props.Replay
import Verif.Proof.Pace
import Verif.Props.Pace
import Verif.Proof.PageEnds
import Verif.Props.PageEnds
import Verif.Proof.TroubleSteps
import Verif.Props.TroubleSteps
import Verif.Proof.DebugAsync
import Verif.Props.DebugAsync
import Verif.Props.DebugMachine
import Verif.Proof.DebugOwn
import Verif.Props.DebugOwn
import Verif.SpecSubPaging
import Verif.Model.SubPaging
import Verif.Proof.SubPaging
import Verif.Props.SubPaging
import Verif.SpecSubCover
import Verif.Model.SubHandmade
import Verif.Proof.SubHandmade
import Verif.Props.SubHandmade
import Verif.Props.SubWhole
import Verif.Model.SubFlaky
import Verif.Proof.SubFlaky
import Verif.Props.SubFlaky
import Verif.Proof.SubGaps
import Verif.Props.SubGaps
import Verif.Props.PageFaults
