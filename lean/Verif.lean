import Verif.Model.Pollard
import Verif.Props.Pollard
import Verif.Props.Track
import Verif.Props.Exact
import Verif.Props.Memory
import Verif.Props.Bind
import Verif.Props.Wire
import Verif.Props.Heap
import Verif.Props.Compare
import Verif.Props.Foreign
import Verif.Props.Checks
import Verif.Props.Later
import Verif.Props.Fuzz
import Verif.Props.Order
import Verif.Props.Restore
import Verif.Props.Fresh
import Verif.Props.Reorg
import Verif.Props.Stale
import Verif.Props.Base
import Verif.Props.Copy
import Verif.Props.Large
import Verif.Props.Counters
import Verif.Model.File
import Verif.Model.Sha512
import Verif.Proof.Pos
import Verif.Proof.Roots
import Verif.Proof.ProofPos
import Verif.Props.State
import Verif.Props.Codec
import Verif.Props.Batch
import Verif.Props.Transform
import Verif.Props.Ram
import Verif.Props.File
import Verif.Props.Sha
import Verif.Props.Undo
import Verif.Props.Above
import Verif.Props.Record
import Verif.Props.Object
import Verif.Props.Print
import Verif.Props.Text
import Verif.Props.Fire
import Verif.Props.Hashes
import Verif.Props.Bench
import Verif.Props.Size
import Verif.Props.Table
import Verif.Props.Work
import Verif.Props.Alloc
import Verif.Props.Stream
import Verif.Props.Scan
import Verif.Props.Free
import Verif.Props.Tests
import Verif.Props.Suite
import Verif.Props.Conform
import Verif.Props.Single
import Verif.Props.Args
import Verif.Props.Kept
import Verif.Props.Memorable
import Verif.Props.Tail
import Verif.Props.Shelf
import Verif.Props.Learn
import Verif.Props.Runner
import Verif.Props.Pieces
import Verif.Props.Remember
import Verif.Props.Local
import Verif.Props.Intact
import Verif.Props.Inner
import Verif.Props.OneGone
import Verif.Props.Scale
