import Verif.Props.Codec
import Verif.Props.CodecPanic
import Verif.Props.CodecReplies
import Verif.Props.Server
import Verif.Props.Client
import Verif.Props.Dead
import Verif.Props.Remote
import Verif.Props.Ufs
import Verif.Props.UfsPaths
import Verif.Props.UfsHandles
import Verif.Props.UfsData
import Verif.Props.UfsWstat
import Verif.Props.Debug
import Verif.Props.Listener
import Verif.Props.Conns
import Verif.Props.Gen
import Verif.Props.Stack
import Verif.Props.UfsMore
import Verif.Props.DebugLog
import Verif.Props.Flush
import Verif.Props.Threads
import Verif.Props.Calls
import Verif.Props.Means
import Verif.Props.Copy
import Verif.Props.Walks
import Verif.Props.Follow
import Verif.Props.Slots
import Verif.Props.Stubs
import Verif.Props.Exact
import Verif.Props.Crash
import Verif.Props.Many
import Verif.Props.App
import Verif.Props.Bytes
import Verif.Props.BytesCut
import Verif.Props.BytesAll
import Verif.Props.Busy
import Verif.Props.Atomic
import Verif.Props.Apart
import Verif.Props.SiteAtomic
import Verif.Props.Process
import Verif.Props.Leak
import Verif.Props.Site
import Verif.Props.Job
import Verif.Props.Transfer
import Verif.Props.Listing
import Verif.Props.StatCut
import Verif.Props.Own
import Verif.Lemmas.Near
import Verif.Props.Near
import Verif.Props.Along
import Verif.Props.Create
import Verif.Props.Fresh
import Verif.Client.New
import Verif.Props.New
import Verif.Ufs.Logged
import Verif.Lemmas.Logged
import Verif.Props.Logged
import Verif.Spec.Layout
import Verif.Lemmas.Layout
import Verif.Props.Malformed
import Verif.Spec.Oversize
import Verif.Props.Oversize
import Verif.Props.Replies
import Verif.Server.Trace
import Verif.Props.Trace
import Verif.Props.Modes
import Verif.Props.Msize
import Verif.Props.Ignored
import Verif.Props.Cuts
import Verif.Props.ExactMore
import Verif.Props.Attrs
import Verif.Props.Climb
import Verif.Props.ClientTrace
import Verif.Props.Race
import Verif.Props.ServerRace
import Verif.Props.Fields
import Verif.Props.Written
import Verif.Props.Outside
import Verif.Props.Links
import Verif.Props.LinksIn
import Verif.Ufs.Shared
import Verif.Lemmas.Shared
import Verif.Lemmas.SharedUse
import Verif.Props.Shared
import Verif.Props.SharedEnds
import Verif.Props.Serial
import Verif.Props.SharedOrder
import Verif.Props.Release
import Verif.Props.Bounds
import Verif.Props.OwnCalls
import Verif.Props.Reasons
import Verif.Props.Moments
import Verif.Props.Effects
import Verif.Props.Subjects
import Verif.Tests
