# Formal model of Harvey-OS/ninep in Lean 4

Everything is in `lean/`; `lake build` there checks it.  No module of Mathlib is imported.

## Layout

| module (`lean/Verif/…`) | what it is |
|---|---|
| `Go/Bytes` | `bytes.Buffer`, byte slices with their spare capacity |
| `Go/Path` | `path.Clean`, `path.Join`, `path.Dir`, `filepath.IsAbs` (byte level) |
| `Proto/Types`, `Proto/Marshal`, `Proto/Unmarshal`, `Proto/Codec` | `protocol/protocol.go`, `protocol/genout.go`: types, encoders, decoders, and tables of both |
| `Gen/Model`, `Gen/Packets`, `Gen/Stubs`, `Spec/Gen` | `protocol/gen.go`: the generator of genout.go, the structs it is run on, names and stubs, and the wire format by type |
| `Server/Dispatch`, `Server/Serve` | `NineServer`, `SrvR*`, `Dispatch`, `ServerError`, `conn.serve` (`protocol/server.go`, `genout.go`) |
| `Server/Listener` | `Listener`: `Serve`, `Shutdown`, `trackListener`, `closeListenersLocked` (`protocol/server.go`) |
| `Server/Debug` | `pkg/debugfs/debug.go` |
| `Server/Trace` | `conn.serve` once more with the calls of a tracer (`protocol/server.go`) |
| `Client/Model`, `Client/Calls`, `Client/Remote`, `Client/Many`, `Client/App`, `Client/Bytes`, `Client/Busy`, `Client/Site`, `Client/Job` | `protocol/client.go`: `IO`, `readNetPackets`, tag pool, `GetFID`, `CallT*` of `genout.go`; one client and a server together, many clients and the file server together, a program with many clients (with failing writes), client and server over byte streams, many clients whose requests overlap inside the server, the same over byte streams that may break, programs that use the clients |
| `Client/Race` | the accesses of the goroutines of a client and its users to shared memory, and their order in the Go memory model (`protocol/client.go`, `protocol/genout.go`) |
| `Server/Race` | the accesses of the goroutines of a server to shared memory, and their order in the Go memory model (`protocol/server.go`) |
| `Client/Trace` | the calls of the tracer in `IO` and `readNetPackets` (`protocol/client.go`) |
| `Client/New` | the constructors `NewClient`, `NewListener`, `NewUFS` with their options, and the start of `cmd/ufs` |
| `Ufs/Host`, `Ufs/Model` | `filesystem/*.go` over an abstract host operating system |
| `Ufs/Conns` | many connections to one `NewUFS`, one request at a time |
| `Ufs/Prog`, `Ufs/Threads` | the same file server as programs that make host calls one by one (proved equal to `Ufs/Model`), and many connections whose requests overlap |
| `Ufs/Shared` | the file server a third time: one `FileServer` used by several goroutines, with its mutex, the table of pointers, and single loads and stores (for a goroutine with fids of its own proved equal to `Ufs/Prog`) |
| `Ufs/Process` | `cmd/ufs/ufs.go`: the whole program, with the accept loop, a byte stream for each connection, the read loops and the requests |
| `Spec/Oversize` | what is left of a request on the wire whose arguments are too long (specification) |
| `Spec/Layout` | the fields of each request type, and how much of them is there in arbitrary bytes (specification) |
| `Ufs/Logged` | the whole program with the flag `debug` set: requests go through `debugfs`, whose lines are events of their own in one log |
| `Ufs/Mem` | a small host in memory, used by examples and counterexamples only |
| `Spec/Wire`, `Spec/Server`, `Spec/Path`, `Spec/Ufs` | what the theorems are stated with: the 9P2000 wire format, sequential message processing, places in a tree of names, fids; independent of the model's functions |
| `Lemmas/*` | lemmas |
| `Props/*` | the theorems named in MANIFEST.json, with examples and counterexamples |
| `Tests` | the tests of the project (`protocol/protocol_test.go`, `filesystem/filesystem_test.go`) run on the model, as a check of the model |

## Modelling decisions

* A Go string or `[]byte` is a list of bytes.  A `bytes.Buffer` is three lists: bytes already read, unread
  bytes, and the bytes between `len` and `cap` of the backing array.  The last part is needed because
  `b.Bytes()[:l]` in the generated code is allowed to reach into it.
* The generated decoders ignore the count returned by `b.Read`, so a short read keeps stale bytes in the
  scratch array `u`.  The model keeps `u`.
* A decoder returns all its named results together with an optional error, as the Go code does, because
  the server goes on to use the partially decoded values.  A Go run-time panic is a separate outcome.
* Integers are Lean's fixed width `UInt8/16/32/64`, `Int32` for `Count` and `Int64`, with Go's wrap-around.
* A `NineServer` is a record of state-passing functions over an arbitrary state type, each able to panic.
* A network connection is a list of segments; one `Read` returns bytes of one segment only.
* The client is a labelled transition system; one transition per channel operation or network operation
  of each goroutine, in any interleaving.  So is the listener.
* The host operating system under ufs is a record of arbitrary functions over an arbitrary world type; every call,
  also `Lstat` and `Stat`, may change the world, so other processes may do anything between two host calls of a
  request (`Host.Quiet` says that they do not, and is assumed where a theorem says so);
  where a property needs the host to behave (a read sees a write) the law is an explicit hypothesis
  (`FileView`, `DirView`, `FailsClean`, `KeepsTimes`, …), and the in-memory host is proved to satisfy it.
* The Go field `Type` is called `Typ`.

A property that turned out to be false of the code is kept as it is in properties.jsonl.  Its counterexample is a
theorem (`…_counterexample`), what is true of it is a theorem with suffix `_partial`.

## The properties, one by one

Status and theorem names are in MANIFEST.json; here is what each one is about in the model and how it is proved.

| | property | status | model and proof |
|---|---|---|---|
| C01 | Request round trip | proved | the 13 `MarshalT*Pkt` and the decoders of the server; every decoder step is the inverse of an encoder step (`lawsT`), composed over the decoder monad |
| C02 | Reply round trip | proved | the same for `MarshalR*Pkt` and the decoders of the client |
| C03 | Directory entry round trip | proved | `Marshaldir`/`Unmarshaldir`; also a list of records read one after the other |
| C04 | Wire layout | proved | encoders equal to the independent wire specification `Spec/Wire` |
| C05 | Size field is the packet length | proved | size field of every encoder's output, below 2³² bytes |
| C06 | Encoders do not depend on old buffer contents | proved | every encoder resets the buffer; its output equals the specification whatever the buffer held |
| C07 | Encodings are unambiguous | proved | injectivity of the encodings from C01, prefix-freeness from the size field (C05) |
| C08 | Accepted packets are canonical | proved | every decoder step only accepts what the encoder step writes, up to truncation |
| C09 | Truncated packets are rejected | partial | false: counterexamples for short packets; true part: an unnoticed cut lies inside the last field (`C09_truncation_partial`), and exactly which cuts go unnoticed (`C09_exact_partial`), by following the eight bytes the decoders read into and the memory behind the packet, field by field |
| C10 | Trailing garbage is rejected | proved | every decoder ends with a check that nothing is left |
| C11 | Decoders do not crash | proved | exact condition under which a decoder panics, for every buffer |
| C12 | Over-long strings are not silently delivered | proved | the 2-byte length wraps around and leaves trailing bytes, so C10 applies |
| C13 | Tag patching | proved | bytes 5-6 of the specification are the tag |
| C14 | One reply per request, same tag | proved | `serve` over a segmented stream, induction over the packets read |
| C15 | Nothing before Tversion | proved | file server wrapped in a recorder; induction over packets |
| C16 | Unsupported requests | proved | `Dispatch` on types outside the 12 requests, with recorder |
| C17 | Dispatch is faithful | proved | `Dispatch` refines the message-level call, for every message that fits |
| C18 | Malformed requests have no effect | partial | false: counterexamples; true part: requests the decoder accepts, and connections without a Tversion; exact: what is done for a request the decoder does not accept (`C18_exact_partial`) |
| C19 | Pipelined requests are answered in order | proved | `serve` on the concatenation of any requests equals sequential processing |
| C20 | Segmentation independence | partial | false if a header is cut; true part: all segmentations that leave headers whole; exact: every segmentation is served up to its first cut header (`C20_exact_partial`, `C20_first_cut`) |
| C21 | Cut-off requests are not executed | partial | false for EOF in a body; true part: the stream ends with an error, or between packets; exact: at most the cut off packet is executed in addition |
| C22 | A dead connection executes nothing more | proved | no request after the first that cannot be answered or read |
| C23 | Connections do not share fids | proved | memory with `FileServer` objects and connections pointing to them; pointers stay distinct (invariant), so a step on one connection leaves the others alone; each connection is a `Hist` with the others as environment |
| C24 | Payload handed to the file server stays intact | proved | payload slices of Twrite/Twstat alias the request buffer; they are outside what the reply overwrites |
| C25 | Tags on the wire are legal | proved | client transition system: invariant that the tag list is a permutation of the pool |
| C26 | Tags in flight are unique | proved | same invariant |
| C27 | Tags are conserved | proved | same invariant |
| C28 | Replies go to the right caller | proved | invariant that ties calls, tags and replies |
| C29 | Calls complete | proved | a measure that every step of the client or server decreases, and no stuck state with a call open |
| C30 | A protocol-abiding server never crashes the client | proved | invariant |
| C31 | A misbehaving server cannot crash the client | partial | false: counterexamples; true part: exact reasons of a panic, in both directions (`C31_panic_partial`, `C31_exact_partial`) |
| C32 | Connection loss is reported to callers | partial | false: counterexample; true part: earlier replies are delivered |
| C33 | Tracing is optional | partial | false: counterexample; true part: no difference before the first reply |
| C34 | FIDs are unique | proved | `GetFID` counter |
| C35 | Calls return what the server answered | proved | `CallT*` on every kind of reply |
| C36 | Remote calls behave like local calls | proved | client, network, server and codec composed; simulation of local calls; real-time order; termination; the requests that are made may be restricted by a predicate |
| C37 | Version negotiation | proved | `Rversion` |
| C38 | Attach stays below the root | proved | `path.Join("/", aname)` under the root: lexical path theorem |
| C39 | Walk and create stay below the root | partial | false for names with `..` or `/`; true part: invariant over histories, and independence of everything outside the root; the calls of overlapping requests by a safety predicate on programs and an invariant of the interleaved steps |
| C40 | Rename stays below the root | partial | false; true part: `rename` targets lexically inside |
| C41 | Unknown fids | proved | case analysis of all requests |
| C42 | Requests touch only their fids | proved | frame: only fids named in the request change |
| C43 | Clunk and remove free the fid | proved | clunk and remove free the fid whatever the host says |
| C44 | Walk results | proved | walk against a specification that walks step by step |
| C45 | Walk does not steal fids | proved | walk and clone to fids in use |
| C46 | Fid life cycle | proved | history of fids: in use exactly if the last attach/walk/clunk/remove says so |
| C47 | Fids are independent | partial | false; true part: numbered host files, invariant that no file belongs to two fids if no open fid is cloned; without a condition on the client: the exact requests that close a file under another fid (`C47_stale_cause`, `C47_stale`) |
| C48 | Open mode translation | proved | open and create flags against a table |
| C49 | I/O needs an open fid | proved | read/write need an open fid; the same host file is used |
| C50 | Read returns the requested bytes | proved | hosts satisfying `FileView`; slice of the contents |
| C51 | A write is seen by later reads | proved | hosts satisfying `FileView`; overlay, and any harmless history in between |
| C52 | No request crashes the server | partial | false; true part: the only request that can panic |
| C53 | Directory listing is complete | partial | false; true part: induction over the entries left (`DirView`); exact: the listing is the longest prefix of entries that fit (`C53_exact_partial`) |
| C54 | Re-reading a directory | proved | `DirView`: seek to the start, then the first entry |
| C55 | Stat describes the file | proved | stat record of the host's FileInfo decodes to it |
| C56 | Wstat with nothing to change | proved | all parts of wstat are skipped |
| C57 | Wstat is all or nothing | partial | false; true part: the parts of wstat as a list; a failing one leaves the state, the ones before are done |
| C58 | Wstat leaves don't-touch times alone | partial | false for the access time, for every host; true for the modification time |
| C59 | Create reports failure | partial | false for directories; true for plain files, and for directories that are not there afterwards |
| C60 | Open files are eventually closed | partial | false; true part: numbered host files, invariant over tidy histories; without a condition on the client: the exact requests that close (`C60_closes`) and that lose a file (`C60_leak_cause`, `C60_leaks`), and that a lost file stays open (`C60_leaked_stays`) |
| C61 | Debug wrapper is transparent | proved | simulation between wrapped and plain server, lifted through `Dispatch` and `serve` |
| C62 | Shutdown closes every listener | proved | transition system of all `Serve` and `Shutdown` calls; invariant about tracked, served and closed listeners |
| C63 | Accept back-off is bounded | proved | same transition system; waits as a function of the outcomes of `Accept` |
| C64 | Client finds the packets of the server | proved | `readNetPackets` of the client over segmented streams |
| C65 | The code generator is right for every packet | proved | the emitter of gen.go with its `inBWrite` flag writes tokens, which are parsed and run (Gen/Model.lean); invariant of the emitter by induction over the type; decoders by composition of the laws of their statements |
| C66 | genout.go is the output of gen.go | proved | the structs of protocol.go as lists of types (Gen/Packets.lean); both sides are equal to the specified packet (encoders), or the same statements on other results (decoders) |
| C67 | The whole stack | proved | C36 for the Unix file server: its replies fit the length fields for every host with short names and error texts (Props/Stack.lean), and it does not panic on ordinary requests |
| C68 | Reads are never longer than asked for | proved | cases of Rread |
| C69 | What the replies say about a fid stays true | proved | knowledge of the client as a function of the history (Spec/Ufs.lean, `known`); invariant over histories with a step lemma for every request |
| C70 | The debug log is a transcript | proved | spec of a request line, a reply line and a transcript, independent of the wrapper (Props/DebugLog.lean); step lemma for every request, induction over the sequence; injectivity of the request lines |
| C71 | Attach does not take a fid in use | partial | false; true part by cases of Rattach; exact: when an attach succeeds, and that the fid table has no influence (`C71_exact_partial`) |
| C72 | Open is refused on an open fid | partial | false for open; true part: what open does on an open fid, and that create is refused |
| C73 | Flush orders and has no other effect | proved | two runs of `serve`, both reduced to the list of answers (C19), related by induction over the requests (Props/Flush.lean) |
| C74 | Version starts a new session | partial | false; true part: simulation between the runs with and without the Tversion, which differ in one unused flag |
| C75 | Replies fit the agreed size | partial | false; true part: length of each reply from the request alone |
| C76 | A connection that ended leaves nothing behind | partial | false for the open files; true part over the actions of the process model |
| C77 | QIDs are those of files that exist | proved | invariant over histories: every QID in the fid table is that of a reported file; cases of the four requests; arithmetic of the time stamps |
| C78 | The version in a QID changes with the file | partial | false within a millisecond and after 2^32 milliseconds; true part and exact condition by arithmetic |
| C79 | Requests that overlap act as if served one by one | proved | the methods are rewritten as programs whose steps are host calls and proved equal to the methods; a step relation interleaves them; per-connection simulation by induction on the steps against a scripted host that replays the answers |
| C80 | Every request ends after boundedly many host calls | proved | a bound on the calls of each program by structural induction; progress by the panics theorem C52 transferred along the replay; the bound is shown to be reached by a 12 byte body |
| C81 | Renaming never replaces a directory | partial | false: check and rename are separate host calls, and a directory made in between by another connection is replaced (counterexample by a schedule); true parts: the check immediately precedes the rename among the calls of its connection (induction on programs and on steps), and without interruption it decides |
| C82 | Requests on a dead client fail | partial | false: nothing looks at Dead. Counterexample: on a client without FromNet every call hangs, its request is sent and no goroutine can go on; no execution delivers a reply or panics (invariant). For an ended connection see C32 (the process dies). True part: no call started on a dead client ever gets a reply (the invariant of the client plus: the peer's answers no longer grow) |
| C83 | A request touches only the file of its fid | proved | `MayCall` lists, message by message, which system calls are allowed, in terms of the fid table at the time the packet was taken. Each operation's program satisfies it (structural induction on programs, `means_*`); an invariant of the interleaved runs of `Threads` (`cause_inv`) connects each call with the packet last taken by its connection. The read-only corollary follows from the table. |
| C84 | Files can be copied piece by piece | proved | Induction on the sequence of reads or writes: one read is a slice of the contents (C50), one write an overlay (C51), harmless histories leave the contents alone (`harmless_step`), and overlays of adjacent pieces are the overlay of their concatenation. The end of reading is proved by induction on the bytes left. |
| C85 | Walks compose | proved | The loop over a concatenation is the loop over the first part continued (`walkLoop_append`, induction on the names); the cases of `Rwalk` are compared on both sides. Nothing is assumed of the host. Down and up: places of paths (C39). |
| C86 | A fid stands for the same file | partial | Invariant over histories: the path of the fid leads to the node. The world after a request is related to the one before by the host calls the request may make (`call_world`, from C83), none of which disturbs the path; a wstat of the fid itself changes path and world together (`follows_wstat`). For renames by other fids there is a counterexample. |
| C87 | The goroutines of a client do not race for the table of calls | partial | From the invariant of the client: every tag is in exactly one place, so the tag the sender is about to store is not that of a reply that has arrived. With a peer that sends packets nobody asked for there is a counterexample. |
| C88 | One client cannot end the service of the others | partial | false: a read with a negative count and a write or wstat with a count beyond the memory of the packet end the process; exact condition for any packet on any connection of a process with any number of them (`Deadly`), from C11, C52 and the separation of connections (C23) |
| C89 | Many clients share one file system consistently | proved | invariant with a global list of answered calls: what each client got are the entries of the list that belong to it, and the direct calls in the order of the list lead to the present world and file servers, with the changes that other processes make in the execution and no others in between; progress by the work measure of one client, which steps of the others do not change; a request is one step (overlapping requests: C79, C80) |
| C90 | One server cannot end a program that talks to others | partial | false: closing one connection ends the program (`C90_counterexample`, for every state with a closed connection, by the work measure and C32); exact condition for the program to be able to end at the next step; it never ends while servers only answer, writes succeed and tracers are set, by projecting on each client (C30) |
| C91 | The generator's naming rule is enough | partial | lists of names are words and commas, parsed as Go parses them, and names are looked up in Go's scopes (`Gen/Stubs`); false for the rule as written (`C91_counterexample`: a field `Tversion` replaces the type byte, a field `Rerror` hides errors); proved instead that the code is right if and only if the names are clean (`C91_exact_partial`), that the packets of the protocol are, and that `SrvR*` and `CallT*` as modelled from genout.go are the instances |
| C92 | Calls over byte streams that may break | partial | client and server joined by two byte streams (`Client/Bytes`); every step with bytes is a step with packets or none (`wired_step`, invariant `Framed`), so C36 carries over; false when the connection ends with an end of file inside of a packet, which `io.Copy` does not report: a read returns wrong data without an error (`C92_counterexample`, for all cut-off points `C92_cut_read`); proved for every other way of losing the connection, and progress when headers arrive whole and nothing is lost; with such an end of file, too, at most one call gets a wrong result, its packet is a proper beginning of the right one, and it goes unnoticed only if the missing bytes are in the last field (`C92_cut_partial`, by a simulation in which one reply is cut off wherever the client has it); an incomplete request is the last the server deals with (`C92_last_partial`), but it is dealt with (`C92_counterexample_write`); all executions together: `C92_any_partial`, by running the same system with a file server that is called with other arguments once (`swapped`) |
| C93 | Calls of many clients with requests that overlap | proved | clients, connection goroutines and calls of the operating system as one transition system (`Client/Busy`); an invariant (`BInv`) keeps for every connection the list of requests with the calls of the operating system made for each (`Account`), replayed against the sequential method (`Played`); `C93_returns`: an execution in which connection and client `i` are scheduled lets every call of `i` return, whatever the others do |
| C94 | Requests of different clients are atomic | partial | on the model of C93: false (`C94_counterexample`: a create that fails while another client removes the file, although it succeeds in both orders); proved by a forward simulation (`AInv`, requests take effect at their last call) for all executions in which nobody uses the operating system in the middle of a request (`C94_atomic_partial`), and with no such condition for all requests that make at most one call of the operating system (`C94_brief_partial`), and by moving calls past calls they can wait for (`gives_first`) for all executions in which what others do in the middle of a request can as well be done before what was done for the request so far (`C94_apart_partial`); special cases are clients whose calls of the operating system commute (`C94_sorted_partial`) and requests that only look (`C94_looks_partial`); carried over to byte streams and to programs that use clients by the refinements of C96 and C98 (`C94_site_*`, `C94_programs_*`): where each program is follows from the outcomes of its calls in the common order |
| C95 | The program ufs as a whole | proved | accept loop, byte streams, read loops and request programs as one transition system (`Ufs/Process`); an invariant per connection (`CInv`) keeps how the bytes were cut (`Framing`) and the requests worked on with their calls of the operating system (`Worked`); `C95_packets` against `Spec.frames`, `C95_requests` against `Spec.answers`, `C95_threads` and `C95_accepts` project the runs on those of C79-C81 and C63, `C95_ends` and `C95_deadly` give the exact ends with `Deadly` of C88, `C95_listens` says who closes the socket, `C95_waits` that there is no deadlock |
| C96 | Clients and the program ufs together | proved | clients of `Client/Bytes` and goroutines of `Client/Busy` as one transition system (`Client/Site`); every step of it is none or one of the system of C93 (`site_busy`), kept by an invariant on the bytes under way (`Streams`), so the accounts of C93 hold (`C96_clients`); `C96_alive` from the invariant of C93, `C96_returns` by a measure (work left of the client, bytes in flight, rest of the request program) |
| C97 | Wstat acts on whole stat records only | partial | `Spec.lacking` says for all bytes what is missing; the decoder follows it field by field (`ReadsItems`), so acceptance and the text of every error are exact; `C97_accepted` and `C97_cut` use the laws of the decoder (`decodes_dir`); false for the size, for bytes behind the record and for the last byte (`C97_counterexample`) |
| C98 | A program that uses a client works as if it called the file server itself | proved | programs as trees of calls (`Client/Job`) on top of the system of C96; an invariant (`JobInv`) ties the calls that a program has made to the calls written by its client, so the hypotheses of C96 hold of themselves and the account of C96 is the program run on the spot (`C98_same`); replayed on the host when nobody else is active (`C98_alone`); `C98_stuck` and `C98_ends` from C96_returns, the latter by induction over the program; `C98_completes` from both |
| C99 | What one client writes to a file another client reads | proved | on top of C98: a rely predicate for programs of the file server with other processes around (`Sure`: whatever the others do within a relation R before, between and after the calls), carried along an execution by the path that C98 gives (`job_sure`); for `fetch` and `store` it is proved call by call, by induction over the walk, over the number of reads and over the pieces, from the host's laws `FileView`, `NameView` and `Opens`; `C99_copy` composes them; `C99_fetched` and `C99_stored` use the same rules with the extra knowledge that calls do not fail in the worlds `J`; the laws are proved of the example host, and a run of two clients is computed |
| C100 | A directory listed through a client is complete | proved | as C99, with the rule for `readAll` on an open directory (`sure_listAll`): by induction over the number of reads, with the entries already delivered and those to come, from the host's laws `DirView` and `OpensDirs`; the bytes are decoded by C03_dir_list |
| C101 | A connection uses only files that it has opened itself | proved | `Prog.Keeps`, a predicate of request programs that follows the files a program has got: every call works on a file of a set `S` to which the answers of os.OpenFile are added, and the fids left have files of this set; proved of every method and of `Dispatch`, then an invariant of the runs of Ufs/Threads (`own_inv`), carried over to the whole program by C95_threads |
| C102 | Clients that work on other files do not disturb each other | proved | two more predicates of request programs, proved of every method and of `Dispatch`: `NamedBy` (the paths that fids get come from the request) and `Prog.Yields` (the open files of some fids are those they had or got from os.OpenFile); `job_asked` says that what a goroutine works on is a message of the client's program; then an invariant of the executions of Client/Job (`Peace.Inv`) by which every call made for another client leaves the file alone, so C99 applies |
| C103 | What the constructors make | proved | Client/New models the constructors over arbitrary options, with a channel whose senders wait for ever when it is full; induction over the options and over the tags; `C103_init` and `C103_ufs` tie the results to the initial states of the models of clients and file servers |
| C104 | Clients that work at the same time get everything | proved | the host is extended by the set of files that client `i` has opened (`tagged`), so that the results of C99 and C100 about one program apply to it; an invariant of the executions of Client/Job (`KeptApart`) says that the others hold and use only other open files (from the predicate `Prog.Keeps` of C101) and make only calls that their messages allow (C83); together with the invariant of C102 this gives the hypotheses of the programs at every step |
| C105 | Files made, removed and renamed through a client | proved | the programs are carried out by the goroutines of client and server as in C98 and C99; the rule for a program of a connection alongside others (`Sure`) is applied to attach, walk, create, write, remove and wstat, with the relation that what is at the path, if anything, is left alone; the record of the rename is encoded and decoded again by the codec of the model |
| C106 | Create makes something new and opens it | partial | false: an existing plain file is emptied and opened, and for a directory an existing file of any kind is taken, whose fid is not open (counterexamples on the example host). Proved instead: exactly when a create succeeds and what the fid is then, for both kinds; for plain files that the fid is open on the empty file under the name, which is the one that was there if there was one |
| C107 | The debug log of the program | proved | a second model of the program in which a request is a program that makes host calls and writes lines; a simulation in both directions against `Ufs/Process`, and an invariant that relates the lines of a connection to the requests taken from its byte stream |
| C108 | Packets that are not messages | proved | a layout of the fields of each request type (`Spec/Layout`) from which the fields that are there in full are cut off, independently of the decoders; for each decoder statement what it does on a whole field, on nothing and on a part of a field, composed along the layout; the program by replaying the answers of the operating system |
| C109 | Arguments too long for the wire | partial | false: the encoders write lengths modulo 2^16 and then all the bytes, so the rest of a long name is read as the fields behind it (counterexample for every target request); proved instead: the request that is carried out is the specified function `onWire` of the call, which is the identity exactly on the arguments that fit; from C108 by uniqueness of the request made of the bytes, lifted to executions of client and server by an invariant as in C36 |
| C110 | A call that succeeds has got its reply | partial | false: the type byte of a reply is only compared with Rerror (counterexample for every call, reply and type byte), and some cuts are not noticed (C09); true part: the packet has a tag and the fields of the result behind its type; from the inversion laws of the decoders |
| C111 | Messages too long for the wire are refused by the receiver | partial | false for Twalk: with three names the bytes of a name of 2^16 bytes can be taken for two names exactly (counterexample); all other requests by computing what is left over, all replies by comparing lengths with the inversion laws of the decoders |
| C112 | Tracing a connection | proved | the loop is modelled once more with the calls of the tracer (any function on any state); induction on the length of the input shows that erasing them gives the loop without, and that the calls are those of a transcript defined on requests, replies and reason of the end |
| C113 | Modes and permissions are honoured or refused | partial | false: ORCLOSE, DMAPPEND, DMEXCL are accepted and ignored (counterexamples); the exact set of bits that have an effect, as an equivalence: two modes and permissions are told apart by some host iff they differ in these bits |
| C114 | What a request says is honoured or refused | partial | false (counterexample); the fields that are ignored, as a relation between requests: related histories of a connection have the same replies (but for the size that is repeated), the same effect on the host and the same end; for each field of the requests whether it makes a difference, as an equivalence |
| C115 | What wstat sets, stat reports | partial | false for symbolic links and for the access time (counterexamples); for everything else by composing the parts of a wstat over a host that keeps attributes, and comparing the two stat records through a specification on records only |
| C116 | The trace of a client is a transcript | proved | the steps of the client with the lines each goroutine says on the way; two invariants by induction over the executions tie the lines of each goroutine to what was written, what arrived and which call has which reply |
| C117 | Requests fit the agreed size | partial | exact lengths of all requests on the wire (from the invariant of C25); the size in a Tversion changes no result but its echo, by induction over the requests; counterexample for every size and host: from every reachable state of client and server any request that fits the wire is sent and answered |
| C118 | A client can be shared by goroutines without data races | partial | record of accesses with the set of accesses that happened before each, carried by channels and by requests and their answers; invariant: what is known at the place where a tag, a call or a packet is covers all accesses to what belongs to it, with the uniqueness of tags and calls from the invariant of C25; refinement in both directions between executions with and without the record; counterexamples |
| C119 | A server has no data races | proved | record of accesses with the set of accesses that happened before each, carried by passing the listener on, by go statements and by the mutex; invariant: the mutex knows all accesses to the set of listeners, the goroutine of a connection all accesses to its objects, and everybody that has the listener knows the writes of the options; refinement in both directions between executions with and without the record |
| C120 | Offsets, counts and lengths are not wrapped around | partial | false for writes of 2 GB and more (counterexample for all of them); the conversions between signed and unsigned numbers of each width, exactly, with the laws of the host for its side |
| C121 | What lies outside of the root is neither seen nor changed | partial | false: a client can move a relative link (counterexample on a small file system with links); noninterference between executions in file systems with the same inside, step by step with C39_depth_calls_partial, for every host whose calls with paths below the root keep the inside apart; the example host without links is one; a second example host, with symbolic links (`Props/LinksIn`), for links that are absolute and lead straight down from the root, by induction on the resolution of a path |
| C122 | One file server can be used by several goroutines | partial | a third model of the file server with the mutex, a table of pointers and single loads and stores; a discipline that all methods follow (which operations with the mutex held, what is known of the table), invariant of all executions; happens-before from program order and the mutex; a structure is put into the table once, in the call that made it, so a call reaches the structures of the fids it names only, and every race is of one of four kinds; for goroutines with fids of their own, simulation by `Ufs/Prog`. False as a whole: Rattach does not lock, Rversion sets a field, and calls on the same fid race (counterexamples) |
| C123 | Calls on a shared file server end | proved | every program of `Ufs/Shared` within twenty steps and one for each name, by recursion on the programs; the discipline of C122 for the mutex; a measure that every step decreases, for all schedulers that let some goroutine go on while one can |
| C124 | Which calls on a shared file server must not overlap | proved | happens-before from program order and the mutex; structures are put into the table once, in the call that has made them, so a call reaches those of the fids it names only; from the discipline of C122, for all executions |
| C125 | Calls on a shared file server can overlap if none changes a fid that another one names | proved | a simulation for all executions: every running call has pointers that it may look at (those of the fids it names) and among them pointers of its own (those of the fids it changes and those it allocates), which no other running call looks at; it is related to the program of `Ufs/Prog` on the object that the finished calls have left; that program depends on, and changes, the fids it names only; whether a read stores into the structure is read off the rest of the execution; the counterexample: no history of one goroutine has a walk that reaches a fid which an attach has just set |
| C126 | Calls on a shared file server that are kept apart do not race | proved | two accesses that Go does not order are in calls of which C122 says what they are; such calls must not overlap, so that the one is done before the other begins, and the chain access, end, beginning, access orders them; what a call changes is the same at all its steps |
| C127 | A fid of a shared file server is given out and released once | proved | two invariants of all executions that balance the books: the entry of the fid against the calls that may still set it and those that have deleted it, and against the calls that have set it and those that may still delete it; the phases of every method are found by a predicate on its program |
| C128 | A shared file server stays below its root, however calls overlap | proved | an invariant of all executions of Ufs/Shared: the names of all structures that the table or a running call refers to lie below the root, and all open files come from a call before; a predicate on the programs of the methods follows which addresses and open files a goroutine knows |
| C129 | Goroutines that share a file server get the answers to their own calls | proved | a predicate on the programs of the methods says which calls they make and how the result follows from the last one; it is carried through all executions of Ufs/Shared |
| C130 | An error of a shared file server has its reason in the same call | proved | the predicate of C129 on the programs of the methods, for the errors instead of the replies; it is carried through all executions of Ufs/Shared |
| C131 | What a shared file server says of a fid was so during the call | proved | a predicate on the programs of the methods says how the result follows from what was seen of the table; by induction on the executions of Ufs/Shared everything seen was so in a state after the beginning of the call |
| C132 | A call on a shared file server has set or released its fid before it returns | proved | as C131, with what the program has made of the table besides what it has seen |
| C133 | A shared file server acts on the file that the fid stood for during the call | proved | a predicate on the programs of the methods says which facts about the memory they know when they call the operating system; by induction on the executions of Ufs/Shared the facts held at moments of the call |

## What the code does wrong

Found while proving; each is a theorem.

* C09, C18, C11: short packets are decoded with stale bytes and the request is carried out; some counts make
  the decoder panic (`C11_*`), which takes the whole server down.
* C20, C21: a packet header that arrives in two segments ends the connection; a request cut off by EOF is
  carried out with what has arrived.
* C31, C32, C33: the client panics on a reply with an unknown tag, when the server closes the connection, and
  on the first reply if it has no tracer.
* C39, C40: names containing `..` or `/` in walk and create, and new names in wstat, lead out of the root.
* C47, C60: cloning an open fid shares the host file; opening twice leaks one.
* C52: a read with a negative count panics.
* C53: a directory entry longer than the count is lost and looks like the end of the directory.
* C57, C58, C59: wstat changes the mode and then refuses the owner; setting the modification time sets the access time
  to 2106; create reports success if mkdir failed because there is something of that name.
* C65: the generator drops fields of types it does not know, and its stat encoder does not compile if the struct ends
  in a number (neither happens with the structs of protocol.go).
* C71, C72: attach takes a fid in use away from its file; an open fid can be opened again.
* C74, C75: version neither ends the session before nor limits the size of replies.
* C76: hanging up does not close the files of a connection.
* C78: the version in a QID does not change within a millisecond.
* C80: a packet of 12 bytes behind the type makes the server call `Lstat` up to 65535 times.
* C81: a directory made between the check and the rename of a wstat is replaced.
* C82: a call on a client that is marked dead does not fail: without `FromNet` it hangs for ever, after the end of
  the connection the process dies (C32).
* C86: a fid is a path: if another fid renames the file, it stands for nothing, or for whatever is put at the old path.
* C88: a panic on one connection ends the process, so one client can end the service of all others.
* C90: in a program with several clients the end of one connection, or a failed write on it, ends the program.
* C91: the naming rule in protocol.go is not enough: a field named like the message replaces the type byte, a field `Rerror MType` hides
  error replies; and `RattachPkt` breaks the rule although its code is right.
* C94: a create of a file that exists, while another client removes it, can fail with "does not exist" although it succeeds in both orders.
* C92: when the connection ends inside of a reply to a read, the client takes the part for the whole: the call returns the data that has
  arrived followed by whatever is in the buffer behind it (usually zeros), without an error.  Likewise the server carries out a write that
  has been cut off, with data that was never sent.
* C97: wstat does not look at the size of the stat record nor at bytes behind it, and accepts most records that have lost their last byte.
* C62: a `Serve` that has not registered its listener yet escapes `Shutdown`.

## Trusted base

* Lean's kernel (version 4.33.0), which checks every proof; `lake build` and the Lean elaborator for turning
  the files into kernel terms.
* The axioms `propext`, `Quot.sound` and `Classical.choice`, as listed per theorem below.  There are no others: no
  `sorry`, no `native_decide`, no `bv_decide`, no axioms of our own.
* The reading of the Go code: that the definitions in `Go`, `Proto`, `Gen`, `Server`, `Client` and `Ufs` do what the
  lines cited in their comments do.  The seeded mistakes in `seeded/LOG.jsonl` test the theorems, not this.
  `Tests` checks this for the packets and calls that the tests of the project use: the model passes them all, and makes the same packets
  as the 9P programs whose traces they quote.
* The definitions in `Spec` and the statements of the theorems.
* What the model says about the parts of the Go standard library that are used: `bytes.Buffer` (`Bytes`, `Next`,
  `Read`, `Reset`, `Write`, `Truncate`), `io.Copy`/`io.LimitReader`, channels, maps, `path` and `path/filepath`, `time` arithmetic,
  `fmt.Sprintf` for the messages that reach a client; and the values of `os.O_*` and `os.Mode*` on Linux.

Not modelled: flag parsing and the setting up of the
listening socket in `cmd/ufs`, the Windows variants in `filesystem` (they refer to a type `File` that the package does not have, so they do not
compile), text that only goes to a log other than that of `debugfs` and the traces of a server and a client, `String` methods, lack of memory,
garbage collection (in particular finalizers that close files), and `time.Sleep` as real time.

### Axioms by theorem

`Classical.choice, Quot.sound, propext`: C01_request_round_trip, C02_reply_round_trip, C03_dir_round_trip, C03_dir_list, C04_wire_layout, C05_size_field, C06_old_contents, C07_unambiguous, C07_replies, C08_accepted_canonical, C09_truncation_partial, C09_exact_partial, C09_counterexample, C10_trailing_rejected, C11_panic_iff, C11_overread, C12_long_error, C13_tag_patching, C14_one_reply, C15_version_first, C16_unsupported, C16_texts, C17_faithful, C18_malformed_partial, C18_exact_partial, C19_pipelined, C20_segmentation_partial, C20_exact_partial, C20_first_cut, C20_counterexample, C21_cut_off_partial, C21_exact_partial, C21_counterexample, C22_dead_connection, C24_payload_intact, Client.C25_tags_legal, Client.C26_tags_distinct, Client.C27_tags_conserved, Client.C28_right_reply, Client.C29_all_answered, Client.C30_no_panic, Client.C31_panic_partial, Client.C31_exact_partial, Client.C31_counterexample_duplicate, Client.C32_delivered_partial, Client.C32_counterexample, Client.C33_counterexample, Client.C34_fids_fresh, Client.C35_call_results, Client.C36_remote_is_local, Client.C36_real_time, Client.C36_calls_return, Client.C64_client_framing, Ufs.C39_below_partial, Ufs.C39_confined_partial, Ufs.C39_depth_partial, Ufs.C39_depth_confined_partial, Ufs.C39_default_root, Ufs.C40_rename_partial, Ufs.C40_counterexample, Ufs.C40_counterexample_root, Ufs.C44_walk, Ufs.C45_no_steal, Ufs.C46_life_cycle, Ufs.C48_create, Ufs.C52_panic_partial, Ufs.C55_stat, Ufs.C47_independent_partial, Ufs.C47_stale_cause, Ufs.C47_stale, Ufs.C53_terminates_partial, Ufs.C53_decodes, Ufs.C53_no_overflow, Ufs.C56_nothing_record, Ufs.C57_counterexample, Ufs.C58_mtime_kept_record_partial, Ufs.C58_atime_overwritten_record, Ufs.C58_counterexample, Ufs.C59_file_partial, Ufs.C59_directory_partial, Ufs.C60_closed_partial, Ufs.C60_all_closed_partial, Ufs.C60_closes, Ufs.C60_leak_cause, Ufs.C60_leaks, Ufs.C60_leaked_stays, Listen.C62_shutdown, Listen.C62_shutdown_closes, Listen.C62_all_closed, Listen.C62_at_most_once, Listen.C63_backoff, Listen.C63_closed_and_forgotten, Ufs.C23_history, Ufs.C23_version, Ufs.C23_alone, Gen.C65_encoder, Gen.C65_decoder, Gen.C65_trailing, Gen.C65_accepted, Gen.C65_round_trip, Gen.C65_unsupported_dropped, Gen.C65_dir, Gen.C65_dir_number_last, Gen.C66_request_encoders, Gen.C66_reply_encoders, Gen.C66_stat_encoder, Gen.C66_reply_decoders, Ufs.C67_stack, Ufs.C67_returns, Ufs.C69_known, Debugfs.C70_transcript, C73_flush, Ufs.C75_reply_bound_partial, Ufs.C76_ended_partial, Ufs.C77_qids, Ufs.C77_qids_from_start, Ufs.C79_serial, Ufs.C79_midway, Ufs.C79_history, Ufs.C80_names, Ufs.C80_progress, Client.C82_no_reply_partial, Client.C82_counterexample, Ufs.C85_split, Ufs.C85_join, Ufs.C85_short, Ufs.C85_clone, Ufs.C85_up, Ufs.C86_follows_partial, Ufs.C86_counterexample, Client.C87_slots_partial, Client.C87_counterexample, Ufs.C88_crash_partial, Ufs.C88_well_formed, Client.C89_one_order, Client.C89_calls_return, Ufs.C89_ufs, Ufs.C89_ufs_returns, Client.C90_exact_partial, Client.C90_orderly_partial, Client.C90_counterexample, Gen.C91_exact_partial, Gen.C91_counterexample, Gen.C91_packets, Gen.C91_version, Gen.C91_attach, Gen.C91_flush, Gen.C91_walk, Gen.C91_open, Gen.C91_create, Gen.C91_stat, Gen.C91_wstat, Gen.C91_clunk, Gen.C91_remove, Gen.C91_read, Gen.C91_write, Client.C92_bytes_partial, Client.C92_real_time_partial, Client.C92_returns_partial, Client.C92_cut_read, Client.C92_counterexample, Client.C92_counterexample_write, Client.C92_cut_reply, Client.C92_cut_partial, Client.C92_last_partial, Client.C92_any_partial, Client.C92_reads_on, Ufs.C92_stack_cut_partial, Ufs.C92_stack_any_partial, Ufs.C92_stack_partial, Ufs.C92_stack_returns_partial, Client.C93_overlap, Client.C93_returns, Client.C94_atomic_partial, Client.C94_brief_partial, Client.C94_apart_partial, Client.C94_sorted_partial, Client.C94_looks_partial, Client.C94_site_sorted_partial, Client.C94_site_looks_partial, Client.C94_programs_partial, Client.C94_programs_look_partial, Client.C94_counterexample, Ufs.C95_requests, Ufs.C95_ends, Ufs.C95_deadly, Ufs.C95_listens, Client.C96_clients, Client.C96_alive, Client.C96_returns, Ufs.C97_wstat_partial, Ufs.C97_accepted, Ufs.C97_cut, Ufs.C97_counterexample, Client.C98_same, Client.C98_between, Client.C98_alone, Client.C98_stuck, Client.C98_ends, Client.C98_completes, Client.C99_fetch, Client.C99_store, Client.C99_copy, Client.C99_fetched, Client.C99_stored, Client.C100_list, Client.C100_listed, Ufs.C101_abandoned, Client.C102_undisturbed, Client.C102_tasks, Client.C102_fetch, Client.C102_store, Make.C103_tags, Client.C104_fetch, Client.C104_store, Client.C104_tasks, Client.C104_list, Client.C105_make, Client.C105_made, Client.C105_found, Client.C105_remove, Client.C105_removed, Client.C105_gone, Client.C105_rename, Client.C105_renamed, Ufs.C106_exact_partial, Ufs.C106_emptied_partial, Ufs.C106_directory_partial, Ufs.C106_counterexample, Ufs.C107_transcript, Ufs.C107_pending, Ufs.C107_crash, C108_proper, C108_acts, Ufs.C108_program, C109_onWire, C109_acts_partial, C109_counterexample, C109_counterexample_attach, Client.C109_remote_partial, Client.C109_calls_return_partial, Client.C110_success_partial, Client.C110_remote_partial, Client.C110_counterexample, Client.C111_replies, Client.C111_calls, Client.C111_requests_partial, Client.C111_counterexample, Trace.C112_trace, Trace.C112_transparent, Trace.C112_read, Ufs.C113_create_partial, Ufs.C114_call_partial, Ufs.C114_connection_partial, Ufs.C114_exact_partial, Ufs.C115_wstat_stat_partial, Ufs.mem_keepsAttrs, Ufs.C115_counterexample_link, Ufs.C115_counterexample_atime, Client.C116_sent, Client.C116_writes, Client.C116_received, Client.C116_replies, Client.C116_finished, Client.C117_length_partial, Ufs.C117_unlimited, Ufs.C117_counterexample, Client.C118_partial, Client.C118_order, Client.C118_alone, Client.C118_counterexample, Listen.C119_no_races, Listen.C119_every, Ufs.C120_exact_partial, Ufs.C120_offset_partial, Ufs.C120_length_partial, Ufs.Links.links_apart, Ufs.Links.C121_links_partial, Ufs.Links.C121_counterexample, Ufs.Shared.C122_table_guarded, Ufs.Shared.C122_races, Ufs.Shared.C122_races_partial, Ufs.Shared.C122_independent_partial, Ufs.Shared.C122_panics_partial, Ufs.Shared.C123_ends, Ufs.Shared.C124_free, Ufs.Shared.C125_serial, Ufs.Shared.C125_panics, Ufs.Shared.C125_overlap_counterexample, Ufs.Shared.C126_race_free, Ufs.Shared.C127_released, Ufs.Shared.C127_once, Ufs.Shared.C127_walks, Ufs.Shared.C127_one_walk, Ufs.Shared.C129_stands, Ufs.Shared.C129_answers, Ufs.Shared.C129_walk, Ufs.Shared.C129_read_only, Ufs.Shared.C130_reason, Ufs.Shared.C130_own_texts, Ufs.Shared.C131_used, Ufs.Shared.C131_unused, Ufs.Shared.C131_in_use, Ufs.Shared.C131_free, Ufs.Shared.C132_released, Ufs.Shared.C132_attached, Ufs.Shared.C132_walked, Ufs.Shared.C133_on.

`Quot.sound, propext`: C11_dir_no_panic, C16_names, C18_counterexample, C18_counterexample_remove, Client.C31_counterexample, Client.C33_same_until_reply_partial, Client.C64_counterexample_cut, Ufs.C37_version, Ufs.C38_attach_below, Ufs.C38_attach_place, Ufs.C39_calls_partial, Ufs.C39_depth_calls_partial, Ufs.C39_walk_exact, Ufs.C39_create_exact, Ufs.C39_walk_place, Ufs.C39_walk_place_rel, Ufs.C39_counterexample, Ufs.C39_counterexample_create, Ufs.C40_root_exact, Ufs.C41_unknown_fid, Ufs.C42_frame, Ufs.C43_clunk_remove, Ufs.C44_clone, Ufs.C45_clone_in_use, Ufs.C48_open, Ufs.C49_needs_open, Ufs.C49_reaches_file, Ufs.C52_counterexample, Ufs.C47_counterexample, Ufs.traced_same, Ufs.C50_read, Ufs.C51_write_read, Ufs.C53_listing_partial, Ufs.C53_exact_partial, Ufs.C53_next, Ufs.C53_counterexample, Ufs.C53_counterexample_lost, Ufs.C54_restart, Ufs.C56_nothing, Ufs.C57_all_or_nothing_partial, Ufs.C57_prefix_partial, Ufs.C58_atime_only_partial, Ufs.C58_mtime_kept_partial, Ufs.C58_atime_overwritten, Ufs.C59_counterexample, Ufs.C60_clunk_closes, Ufs.C60_counterexample_twice, Ufs.C60_counterexample_leak, Debugfs.C61_transparent, Debugfs.C61_same_connection, Listen.C62_too_early, Listen.C63_goes_on, Ufs.C23_frame, Gen.C66_request_decoders, Gen.C66_stat_decoder, Ufs.C68_read_bound, Debugfs.C70_unambiguous, Ufs.C71_attach_partial, Ufs.C71_exact_partial, Ufs.Mem.C71_counterexample, Ufs.C72_open_partial, Ufs.Mem.C72_counterexample, Ufs.C73_ufs, Ufs.C74_version_partial, Ufs.Mem.C74_counterexample, Ufs.C75_read_fits_partial, Ufs.Mem.C75_counterexample, Ufs.C76_counterexample, Ufs.C78_version_partial, Ufs.C78_counterexample, Ufs.C79_world, Ufs.C79_uninterrupted, Ufs.C80_bounded, Ufs.C80_amplified, Ufs.C81_checked_partial, Ufs.C81_alone_partial, Ufs.C81_counterexample, Ufs.C83_means, Ufs.C83_read_only, Ufs.C84_read, Ufs.C84_copy, Ufs.C84_ends, Ufs.C88_quiet, Ufs.C88_counterexample, Client.C92_gives_up, Ufs.C95_threads, Ufs.C95_accepts, Ufs.C95_packets, Ufs.C95_waits, Client.C96_ended, Ufs.C101_own, Ufs.C101_apart, Ufs.C101_fresh, Ufs.C101_program, Make.C103_returns, Make.C103_made, Make.C103_fails, Make.C103_init, Ufs.C106_counterexample_directory, Ufs.C107_same, Ufs.C107_every, Ufs.C113_open_partial, Ufs.C113_counterexample_rclose, Ufs.C113_counterexample_append, Ufs.C113_counterexample_excl, Ufs.Mem.C114_counterexample, Client.C116_transparent, Ufs.C117_server_partial, Client.C118_fid, Client.C118_dead, Client.race_exec, Client.race_lift, Listen.C119_same, Ufs.Mem.C120_counterexample, Ufs.C121_unseen_partial, Ufs.C121_unchanged_partial, Ufs.Mem.mem_apart, Ufs.Shared.C122_no_deadlock, Ufs.Shared.C122_released, Ufs.Shared.C122_held_calls, Ufs.Shared.C122_table_partial, Ufs.Shared.C122_attach_counterexample, Ufs.Shared.C122_version_counterexample, Ufs.Shared.C122_open_counterexample, Ufs.Shared.C122_table_counterexample, Ufs.Shared.C123_bounded, Ufs.Shared.C123_stuck, Ufs.Shared.C125_plain_read, Ufs.Shared.C126_callers_counterexample, Ufs.Shared.C126_attach_counterexample, Ufs.Shared.C126_open_counterexample, Ufs.Shared.C127_attach_counterexample, Ufs.Shared.C128_below, Ufs.Shared.C128_under, Ufs.Shared.C128_slash, Ufs.Shared.C128_counterexample, Ufs.Shared.C129_attach_counterexample.

`none`: Make.C103_listener, Make.C103_start.

`propext`: Ufs.C77_distinct, Ufs.C78_exact_partial, Make.C103_ufs, C108_requests.
