{"id": "C01", "title": "Request round trip", "statement": "For every 9P request kind, decoding the bytes the encoder produced gives back exactly the tag and field values that were encoded and no error, whatever spare capacity lies behind the packet in memory.", "quantifier": "all 12 request kinds, all tags, all field values whose strings are shorter than 65536 bytes, path lists shorter than 65536, payloads shorter than 2^32 (2^16 for stat), all buffers", "why_tests_cant": "the value space is unbounded (strings, lists, payloads); tests encode a handful of literals", "anchors": ["protocol/genout.go: Marshal*Pkt/Unmarshal*Pkt for T messages"]}
{"id": "C02", "title": "Reply round trip", "statement": "For every 9P reply kind including Rerror, decoding the bytes the encoder produced gives back exactly the tag and field values that were encoded and no error.", "quantifier": "all 13 reply kinds, all tags, all field values within the wire length limits, all buffers", "why_tests_cant": "unbounded value space", "anchors": ["protocol/genout.go: Marshal*Pkt/Unmarshal*Pkt for R messages"]}
{"id": "C03", "title": "Directory entry round trip", "statement": "Encoding a Dir and decoding the result gives back the same Dir with no error; bytes that follow the entry are left unread, so a client can decode a concatenation of entries one by one.", "quantifier": "all Dir values with strings shorter than 65536 bytes, all trailing bytes, all lists of entries", "why_tests_cant": "unbounded value space and unbounded number of concatenated entries", "anchors": ["protocol/genout.go: Marshaldir, Unmarshaldir"]}
{"id": "C04", "title": "Wire layout", "statement": "The bytes of every encoded message are exactly the 9P2000 layout: size[4] type[1] tag[2] followed by the fields in order, integers little endian, strings with 2-byte counts, lists with 2-byte counts, data with 4-byte counts, stat data with a 2-byte count.", "quantifier": "all 25 message kinds and the stat record, all tags and all field values", "why_tests_cant": "interoperability must hold for every value, not the two captured traces in the test file", "anchors": ["protocol/genout.go: Marshal*Pkt, Marshaldir", "protocol/protocol.go: message constants"]}
{"id": "C05", "title": "Size field is the packet length", "statement": "In every encoded packet shorter than 2^32 bytes, the first four bytes read as a little-endian number equal the number of bytes of the packet, byte 4 is the message type and bytes 5-6 the tag.", "quantifier": "all message kinds and field values", "why_tests_cant": "framing correctness over unbounded packet contents", "anchors": ["protocol/genout.go: Marshal*Pkt (size patch)"]}
{"id": "C06", "title": "Encoders do not depend on old buffer contents", "statement": "The bytes an encoder leaves in a buffer do not depend on what the buffer held or how much of it had been read before.", "quantifier": "all message kinds, all pairs of buffers, all values", "why_tests_cant": "quantifies over all prior buffer states", "anchors": ["protocol/genout.go: Marshal*Pkt (b.Reset)"]}
{"id": "C07", "title": "Encodings are unambiguous", "statement": "Two requests, of the same or of different kinds, that have the same packet bytes have the same tag and the same field values; and no encoded request is a proper prefix of another, so a byte stream splits into packets in one way only.", "quantifier": "all pairs of requests within the wire length limits; all concatenations", "why_tests_cant": "quantifies over all pairs of messages", "anchors": ["protocol/genout.go: MarshalT*Pkt"]}
{"id": "C08", "title": "Accepted packets are canonical", "statement": "If a decoder accepts a packet body without error then that body is an initial segment of the canonical encoding of what it returned, and it is the whole of it whenever it has the full length; the decoder never reinterprets bytes.", "quantifier": "all byte strings fed to each of the 25 decoders, all spare memory behind the buffer", "why_tests_cant": "quantifies over arbitrary (hostile) input", "anchors": ["protocol/genout.go: Unmarshal*Pkt"]}
{"id": "C09", "title": "Truncated packets are rejected", "statement": "A decoder reports an error for every proper initial segment of an encoded packet body.", "quantifier": "all messages, all truncation points", "why_tests_cant": "quantifies over all messages and cut points; the interesting cuts fall inside the last integer field", "anchors": ["protocol/genout.go: Unmarshal*Pkt (b.Read into u[:n] with the count ignored)"]}
{"id": "C10", "title": "Trailing garbage is rejected", "statement": "A decoder reports an error for every encoded packet body followed by at least one more byte.", "quantifier": "all message kinds, all values, all non-empty suffixes", "why_tests_cant": "unbounded suffixes and values", "anchors": ["protocol/genout.go: Unmarshal*Pkt (Packet too long)"]}
{"id": "C11", "title": "Decoders do not crash", "statement": "Decoding arbitrary bytes never panics, except for the four messages that carry a counted payload (Rread, Twrite, Rstat, Twstat), which panic exactly when the count exceeds the memory behind the packet; when the count exceeds the packet but not that memory, bytes beyond the packet are returned as payload without an error.", "quantifier": "all byte strings, all spare memory, all 25 decoders and the stat decoder", "why_tests_cant": "quantifies over arbitrary input", "anchors": ["protocol/genout.go: Unmarshal*Pkt, Unmarshaldir (b.Bytes()[:l])"]}
{"id": "C12", "title": "Over-long strings are not silently delivered", "statement": "An error text of 65536 bytes or more is never received as a valid Rerror: decoding its encoding always reports an error.", "quantifier": "all strings of at least 65536 bytes, all tags", "why_tests_cant": "unbounded lengths", "anchors": ["protocol/genout.go: MarshalRerrorPkt, UnmarshalRerrorPkt"]}
{"id": "C13", "title": "Tag patching", "statement": "Overwriting bytes 5 and 6 of an encoded request with a tag gives exactly the encoding of the same request with that tag.", "quantifier": "all requests, all tags", "why_tests_cant": "unbounded values", "anchors": ["protocol/client.go: Client.IO (r.b[5], r.b[6])", "protocol/genout.go: CallT* (encode with tag 0)"]}
{"id": "C14", "title": "One reply per request, same tag", "statement": "Whatever packet body of at least two bytes a connection receives, if neither the decoder nor the file server crashes, exactly one reply is produced; it carries the request's tag, its size field is its length (modulo 2^32), and its type is the request's type plus one or Rerror.", "quantifier": "all packet types 0..255, all bodies, all file servers and their states", "why_tests_cant": "quantifies over arbitrary input and arbitrary file server implementations", "anchors": ["protocol/server.go: Dispatch, conn.serve", "protocol/genout.go: SrvR*"]}
{"id": "C15", "title": "Nothing before Tversion", "statement": "Until a Tversion has been received on a connection every other request is answered with Rerror and no file server method is called; from the first Tversion on requests are passed through, even if that Tversion itself was refused.", "quantifier": "all request sequences, all file servers", "why_tests_cant": "quantifies over all request histories", "anchors": ["protocol/server.go: Dispatch (Versioned)"]}
{"id": "C16", "title": "Unsupported requests", "statement": "A packet whose type is not one of the 12 supported requests is answered with an Rerror carrying its tag and does not reach the file server.", "quantifier": "all other 244 type codes, all bodies, all states", "why_tests_cant": "quantifies over bodies and server states", "anchors": ["protocol/server.go: Dispatch (not supported)", "protocol/genout.go: ServerError"]}
{"id": "C17", "title": "Dispatch is faithful", "statement": "For a well formed request on a versioned connection the file server method of that name is called exactly once with exactly the encoded arguments, and the reply is the encoding of what it returned: its values if it reported no error, otherwise Rerror with the error text.", "quantifier": "all requests within wire limits, all file servers, all states", "why_tests_cant": "quantifies over all messages and all file server behaviours", "anchors": ["protocol/genout.go: SrvR*", "protocol/server.go: Dispatch"]}
{"id": "C18", "title": "Malformed requests have no effect", "statement": "A request whose body does not decode is answered with Rerror and does not reach the file server.", "quantifier": "all bodies that a decoder rejects, all file servers", "why_tests_cant": "quantifies over arbitrary malformed input", "anchors": ["protocol/genout.go: SrvR* (ignored err)"]}
{"id": "C19", "title": "Pipelined requests are answered in order", "statement": "If requests are sent back to back on one connection, the bytes written back are the replies of the requests processed one after the other in the order sent, nothing skipped or duplicated.", "quantifier": "all finite sequences of requests, all file servers, all body segmentations", "why_tests_cant": "unbounded sequences", "anchors": ["protocol/server.go: conn.serve"]}
{"id": "C20", "title": "Segmentation independence", "statement": "What a connection answers does not depend on how the network splits the byte stream into segments.", "quantifier": "all byte streams and all ways of cutting them", "why_tests_cant": "quantifies over all segmentations", "anchors": ["protocol/server.go: conn.serve (rwc.Read of 7 bytes, io.Copy of the rest)"]}
{"id": "C21", "title": "Cut-off requests are not executed", "statement": "A request of which only an initial part arrived before the peer closed the connection is not executed.", "quantifier": "all requests, all cut points", "why_tests_cant": "quantifies over all crash points of the peer", "anchors": ["protocol/server.go: conn.serve (io.Copy from LimitReader ends silently at EOF)"]}
{"id": "C22", "title": "A dead connection executes nothing more", "statement": "After a reply could not be written, or the header of a packet could not be read, or the connection failed inside a packet body, no further request of that connection is executed and nothing more is written.", "quantifier": "all streams, all positions of the failure", "why_tests_cant": "quantifies over all failure points", "anchors": ["protocol/server.go: conn.serve (dead)"]}
{"id": "C23", "title": "Connections do not share fids", "statement": "Requests on one connection never change the fid table or the version state of another.", "quantifier": "all interleavings of requests on any number of connections", "why_tests_cant": "quantifies over interleavings", "anchors": ["protocol/server.go: newConn (nsCreator per connection)", "filesystem/filesystem.go: NewUFS"]}
{"id": "C24", "title": "Payload handed to the file server stays intact", "statement": "A file server that keeps the byte slice it got in a successful write or wstat call still sees the same bytes after the reply has been encoded into the same buffer.", "quantifier": "all payloads, tags, buffers", "why_tests_cant": "aliasing over all sizes", "anchors": ["protocol/genout.go: SrvRwrite, SrvRwstat, MarshalRwritePkt, MarshalRwstatPkt"]}
{"id": "C25", "title": "Tags on the wire are legal", "statement": "Every request the client writes carries a tag between 1 and 65534; 0 and NOTAG are never used.", "quantifier": "all executions, all interleavings of callers, sender, receiver and a protocol-abiding server", "why_tests_cant": "quantifies over schedules", "anchors": ["protocol/client.go: NewClient (tag pool), IO"]}
{"id": "C26", "title": "Tags in flight are unique", "statement": "At no time do two unanswered requests of a client have the same tag.", "quantifier": "all executions with any number of concurrent callers and a server that answers each request at most once", "why_tests_cant": "quantifies over schedules", "anchors": ["protocol/client.go: Client.IO, Tags"]}
{"id": "C27", "title": "Tags are conserved", "statement": "Free tags, tags in flight and tags taken by GetTag together are always exactly 1..65534, each once; in particular when no request is in flight all tags not taken by GetTag are free again, and returning a tag never blocks.", "quantifier": "all executions, protocol-abiding server", "why_tests_cant": "quantifies over schedules and histories", "anchors": ["protocol/client.go: Tags, GetTag, IO"]}
{"id": "C28", "title": "Replies go to the right caller", "statement": "A call returns the reply the server gave to that very call's request, and no reply is delivered to two calls.", "quantifier": "all executions with any number of concurrent callers, replies in any order", "why_tests_cant": "quantifies over schedules and reply orders", "anchors": ["protocol/client.go: Client.IO, RPC table", "protocol/genout.go: CallT*"]}
{"id": "C29", "title": "Calls complete", "statement": "With a server that answers every request, from every reachable state every execution of the client without new calls is finite and ends with every started call answered (no deadlock, no lost wake-up), whatever the scheduler does.", "quantifier": "all reachable states, all schedules", "why_tests_cant": "liveness over all schedules", "anchors": ["protocol/client.go: IO, readNetPackets", "protocol/genout.go: CallT*"]}
{"id": "C30", "title": "A protocol-abiding server never crashes the client", "statement": "With a tracer installed and a server that only answers outstanding tags, at most once each, the client never panics.", "quantifier": "all executions", "why_tests_cant": "quantifies over schedules", "anchors": ["protocol/client.go: IO (panics)"]}
{"id": "C31", "title": "A misbehaving server cannot crash the client", "statement": "Whatever bytes the server sends, the client does not panic.", "quantifier": "all reply packets in all states", "why_tests_cant": "quantifies over hostile input", "anchors": ["protocol/client.go: IO (tag checks, nil RPC entry)"]}
{"id": "C32", "title": "Connection loss is reported to callers", "statement": "When the server closes the connection, pending and later calls return an error.", "quantifier": "all states in which the connection can be lost", "why_tests_cant": "quantifies over crash points", "anchors": ["protocol/client.go: readNetPackets (close FromServer), IO"]}
{"id": "C33", "title": "Tracing is optional", "statement": "A client built without a tracer behaves like one with a tracer.", "quantifier": "all executions", "why_tests_cant": "quantifies over executions", "anchors": ["protocol/client.go: IO (unconditional c.Trace)"]}
{"id": "C34", "title": "FIDs are unique", "statement": "The FIDs returned by two calls of GetFID on one client are equal only if the calls are a positive multiple of 2^32 apart in the order in which they took effect; in particular any 2^32 consecutive calls return distinct FIDs.", "quantifier": "all pairs of calls, all interleavings (GetFID is one atomic addition)", "why_tests_cant": "2^32 calls cannot be tested", "anchors": ["protocol/client.go: GetFID"]}
{"id": "C35", "title": "Calls return what the server answered", "statement": "A client call returns exactly the values in the reply if the reply is of the matching kind, and an error with exactly the server's text if it is Rerror.", "quantifier": "all 12 calls, all replies within wire limits", "why_tests_cant": "unbounded values", "anchors": ["protocol/genout.go: CallT*"]}
{"id": "C36", "title": "Remote calls behave like local calls", "statement": "With a client and a server of this library joined by a connection and any number of concurrent callers, every call returns exactly what the file server method returned, and the file server executed each call's method once, in one sequential order that respects the order in which requests were written.", "quantifier": "all executions, all callers, all requests within wire limits, all file servers", "why_tests_cant": "quantifies over schedules and histories", "anchors": ["protocol/client.go: IO", "protocol/server.go: conn.serve, Dispatch", "protocol/genout.go: CallT*, SrvR*"]}
{"id": "C37", "title": "Version negotiation", "statement": "The file server accepts exactly the version string 9P2000 and then returns the client's message size and version unchanged; any other version is refused with an error.", "quantifier": "all version strings and sizes", "why_tests_cant": "unbounded strings", "anchors": ["filesystem/filesystem.go: Rversion"]}
{"id": "C38", "title": "Attach stays below the root", "statement": "Whatever attach name a client gives, the path the file server looks up is the export root or lies lexically below it and contains no dot or dot-dot element; attach with an auth fid is refused.", "quantifier": "all attach names, all root paths (absolute, relative or empty), all file system states", "why_tests_cant": "quantifies over all strings, including hostile ones", "anchors": ["filesystem/filesystem.go: Rattach"]}
{"id": "C39", "title": "Walk and create stay below the root", "statement": "No sequence of walks and creates gives a fid a path outside the export root.", "quantifier": "all request histories, all names, all root paths", "why_tests_cant": "quantifies over all histories and hostile names", "anchors": ["filesystem/filesystem.go: Rwalk, Rcreate"]}
{"id": "C40", "title": "Rename stays below the root", "statement": "A rename by wstat never moves a file out of the export root.", "quantifier": "all names, all fid paths below the root", "why_tests_cant": "quantifies over hostile names", "anchors": ["filesystem/filesystem.go: Rwstat (absolute renaming)"]}
{"id": "C41", "title": "Unknown fids", "statement": "A request other than attach on a fid that is not in use gets an error, changes no fid and makes no change to the host file system.", "quantifier": "all requests, all states, all host file systems", "why_tests_cant": "quantifies over states", "anchors": ["filesystem/filesystem.go: getFile, Rwalk, Ropen, Rcreate, Rstat, Rwstat, clunk, Rread, Rwrite"]}
{"id": "C42", "title": "Requests touch only their fids", "statement": "A request changes the table entry of no fid other than the ones it names.", "quantifier": "all requests, all states, all host file systems", "why_tests_cant": "quantifies over states", "anchors": ["filesystem/filesystem.go: FileServer methods"]}
{"id": "C43", "title": "Clunk and remove free the fid", "statement": "After clunk or remove of a fid in use the fid is not in use, whether or not closing the file or removing it failed; remove removes exactly the path of the fid and reports the host's verdict.", "quantifier": "all states, all host file systems", "why_tests_cant": "quantifies over host failures", "anchors": ["filesystem/filesystem.go: clunk, Rclunk, Rremove"]}
{"id": "C44", "title": "Walk results", "statement": "A walk returns one QID per element walked, in order, each describing the file reached by that many elements; if the first element fails it returns an error, if a later one fails it returns the QIDs before it; the new fid is set only if every element was walked, and then refers to the file reached.", "quantifier": "all name lists, all file system states, all fid tables", "why_tests_cant": "unbounded name lists", "anchors": ["filesystem/filesystem.go: Rwalk"]}
{"id": "C45", "title": "Walk does not steal fids", "statement": "A walk (including a clone) to a new fid that is already in use and differs from the source fid fails and leaves the fid table unchanged.", "quantifier": "all states, all name lists", "why_tests_cant": "quantifies over states", "anchors": ["filesystem/filesystem.go: Rwalk"]}
{"id": "C46", "title": "Fid life cycle", "statement": "After any history of requests a fid is in use exactly if the last request that successfully attached it, walked or cloned to it, came after the last clunk or remove of it.", "quantifier": "all request histories, all host file systems", "why_tests_cant": "unbounded histories", "anchors": ["filesystem/filesystem.go: FileServer.files"]}
{"id": "C47", "title": "Fids are independent", "statement": "Closing one fid does not close the file of another.", "quantifier": "all request histories", "why_tests_cant": "unbounded histories", "anchors": ["filesystem/filesystem.go: Rwalk (clone copies *file), clunk"]}
{"id": "C48", "title": "Open mode translation", "statement": "For every 9P open mode, the host open flags are read-only for OREAD and OEXEC, write-only for OWRITE, read-write for ORDWR, plus truncation exactly if OTRUNC is set; no other flag is ever passed by open; create adds exactly create and truncate.", "quantifier": "all 256 modes", "why_tests_cant": "all mode bytes, not the three used in tests", "anchors": ["filesystem/ninep.go: modeToUnixFlags", "filesystem/filesystem.go: Ropen, Rcreate"]}
{"id": "C49", "title": "I/O needs an open fid", "statement": "Read and write on a fid that was not opened or created fail without touching the host; after a successful open they reach the file that was opened; create on an open fid fails and changes nothing.", "quantifier": "all states and requests", "why_tests_cant": "quantifies over states", "anchors": ["filesystem/filesystem.go: Rread, Rwrite, Rcreate"]}
{"id": "C50", "title": "Read returns the requested bytes", "statement": "A successful read of a plain file returns at most the requested number of bytes, and exactly the file's bytes from the offset up to that many or the end of file; end of file is an empty success.", "quantifier": "all contents, offsets and non-negative counts", "why_tests_cant": "unbounded contents and offsets", "anchors": ["filesystem/filesystem.go: Rread"]}
{"id": "C51", "title": "A write is seen by later reads", "statement": "After a successful write, a read of any range through any fid opened on that file returns the old contents overlaid with the written bytes.", "quantifier": "all contents, offsets, data, ranges", "why_tests_cant": "unbounded contents and ranges", "anchors": ["filesystem/filesystem.go: Rwrite, Rread"]}
{"id": "C52", "title": "No request crashes the server", "statement": "No request makes the file server panic.", "quantifier": "all requests, all states", "why_tests_cant": "quantifies over hostile input", "anchors": ["filesystem/filesystem.go: Rread (make([]byte, c) with int32 c)", "protocol/genout.go: UnmarshalTwritePkt"]}
{"id": "C53", "title": "Directory listing is complete", "statement": "Reading a directory from offset 0 until an empty result yields each entry of the directory exactly once, in host order, each as one decodable stat record.", "quantifier": "all directories, all counts", "why_tests_cant": "unbounded directories and every count", "anchors": ["filesystem/filesystem.go: Rread (directory branch)"]}
{"id": "C54", "title": "Re-reading a directory", "statement": "A directory read at offset 0 starts the listing again from the first entry, whatever was read before.", "quantifier": "all read histories", "why_tests_cant": "unbounded histories", "anchors": ["filesystem/filesystem.go: Rread, resetDir"]}
{"id": "C55", "title": "Stat describes the file", "statement": "The stat of a fid decodes to a Dir carrying the file's name, length, modification time and permission bits, the server's user name as owner and group, and a QID equal to the one walk returns for the same file; the directory bit of the mode is set exactly if the directory bit of the QID type is.", "quantifier": "all files, all user names shorter than 65536 bytes", "why_tests_cant": "all metadata values", "anchors": ["filesystem/filesystem.go: Rstat, stat", "filesystem/ninep.go: dirTo9p2000Dir, dirTo9p2000Mode, dirToQIDType", "filesystem/ninep_unix.go: fileInfoToQID"]}
{"id": "C56", "title": "Wstat with nothing to change", "statement": "A wstat whose fields all hold the don't-touch values changes nothing on the host except possibly syncing the open file, and succeeds.", "quantifier": "all fids, all values of the fields that cannot be set", "why_tests_cant": "quantifies over states and ignored fields", "anchors": ["filesystem/filesystem.go: Rwstat"]}
{"id": "C57", "title": "Wstat is all or nothing", "statement": "A wstat that reports an error has changed nothing.", "quantifier": "all stat records, all states", "why_tests_cant": "quantifies over failure points", "anchors": ["filesystem/filesystem.go: Rwstat (sequential updates)"]}
{"id": "C58", "title": "Wstat leaves don't-touch times alone", "statement": "A wstat that sets only one of the two times leaves the other one unchanged.", "quantifier": "all times, all states", "why_tests_cant": "quantifies over all time values", "anchors": ["filesystem/filesystem.go: Rwstat (time handling)"]}
{"id": "C59", "title": "Create reports failure", "statement": "A create that the host refused is reported as an error.", "quantifier": "all names, permissions, modes, host states", "why_tests_cant": "quantifies over host failures", "anchors": ["filesystem/filesystem.go: Rcreate (os.Mkdir error dropped)"]}
{"id": "C60", "title": "Open files are eventually closed", "statement": "Every host file opened by a fid is closed once that fid has been clunked, and no host file is closed twice.", "quantifier": "all request histories", "why_tests_cant": "unbounded histories", "anchors": ["filesystem/filesystem.go: Ropen, Rwalk, Rattach, clunk"]}
{"id": "C61", "title": "Debug wrapper is transparent", "statement": "Putting the debugging wrapper around a file server changes no result, no error and no state, and never crashes where the wrapped server does not.", "quantifier": "all file servers, all requests", "why_tests_cant": "quantifies over all file servers and payloads", "anchors": ["pkg/debugfs/debug.go: DebugFileServer"]}
{"id": "C62", "title": "Shutdown closes every listener", "statement": "Shutdown closes every listener being served exactly once, forgets them all, and returns the first close error if any.", "quantifier": "all sets of listeners, all close outcomes, all histories of Serve/Shutdown bookkeeping", "why_tests_cant": "unbounded sets and histories", "anchors": ["protocol/server.go: Shutdown, closeListenersLocked, trackListener, Serve"]}
{"id": "C63", "title": "Accept back-off is bounded", "statement": "After a temporary accept error the listener waits at least 5ms and at most 1s, doubling on consecutive errors, and a successful accept starts over; a permanent error ends Serve with that error and with the listener closed and forgotten.", "quantifier": "all sequences of accept outcomes", "why_tests_cant": "unbounded sequences", "anchors": ["protocol/server.go: Serve"]}
{"id": "C64", "title": "Client finds the packets of the server", "statement": "If the bytes from the server consist of packets with correct size fields, the client hands over exactly these packets, in order, however the bytes are cut into segments outside of packet headers.", "quantifier": "all packet sequences, all segmentations that leave headers whole", "why_tests_cant": "exponentially many segmentations of arbitrarily long streams", "anchors": ["protocol/client.go: readNetPackets"]}
{"id": "C65", "title": "The code generator is right for every packet", "statement": "For every packet struct made of the types the generator knows, in any order and nesting, the encoder it writes is a well formed program that produces the 9P packet of the fields in order, and the decoder it writes reads these values back, rejects bytes behind the last field and accepts nothing but (the beginning of) the packet of the values it returns. For the stat record the same holds unless the struct ends in a number, in which case the generated text does not compile.", "quantifier": "all lists of field types, nested to any depth, all field values that fit the counts", "why_tests_cant": "the generator is only ever run on the 25 structs of this protocol; the correctness of its bookkeeping of open b.Write calls over all structs cannot be sampled", "anchors": ["protocol/gen.go: genEncodeData, genEncodeStruct, genEncodeSlice, genDecodeData, genDecodeStruct, genDecodeSlice, emitEncodeInt, emitEncodeString, genMsgRPC, main"]}
{"id": "C66", "title": "genout.go is the output of gen.go", "statement": "Every encoder and decoder of genout.go computes what the generator's output for the corresponding struct of protocol.go computes, errors, panics and bytes left over included.", "quantifier": "all packets, tags, values and buffers", "why_tests_cant": "equality of functions on all inputs, including malformed packets", "anchors": ["protocol/gen.go", "protocol/genout.go", "protocol/protocol.go: packet structs"]}
{"id": "C67", "title": "The whole stack", "statement": "With the library's client, the library's server and the Unix file server joined by a connection, and any number of concurrent callers, every call returns exactly what the file server method returned; the methods were executed once each, in one order that respects real time; and every call returns.", "quantifier": "all executions (any interleaving of callers, client goroutines, network and server), all ordinary requests, all hosts with short names and error texts", "why_tests_cant": "unbounded concurrency and all host behaviours at once", "anchors": ["protocol/client.go", "protocol/server.go: serve, Dispatch", "filesystem/filesystem.go", "protocol/genout.go"]}
{"id": "C68", "title": "Reads are never longer than asked for", "statement": "A successful read, of a file or of a directory, returns at most the requested number of bytes, whatever the host does.", "quantifier": "all states, hosts, fids, offsets and counts", "why_tests_cant": "quantifies over all host behaviours, including a host that reports more than it was asked for", "anchors": ["filesystem/filesystem.go: Rread"]}
{"id": "C69", "title": "What the replies say about a fid stays true", "statement": "After any history of a connection the file server knows exactly those fids that the client knows from the replies, with the QIDs the replies told; open answers with this QID; reads and writes are refused unless the replies say that the fid is open, and create is refused if they do.", "quantifier": "all histories of requests, all hosts, anything other processes do in between", "why_tests_cant": "an invariant over unbounded histories", "anchors": ["filesystem/filesystem.go: Rattach, Rwalk, Ropen, Rcreate, Rwstat, clunk, Rread, Rwrite"]}
{"id": "C70", "title": "The debug log is a transcript", "statement": "Whatever is asked of a file server with debugging on, the log grows by two lines for each request, in order: the request with its arguments, and the values or the error of the reply. Two sequences of requests with the same log agree request by request, up to the data of writes and wstats that carry no stat record.", "quantifier": "all file servers, states, sequences of requests", "why_tests_cant": "quantifies over all servers and sequences; that different requests never look the same in the log is a statement about pairs", "anchors": ["pkg/debugfs/debug.go"]}
{"id": "C71", "title": "Attach does not take a fid in use", "statement": "Attach is refused if the fid is in use; a refused attach changes no fid, and a successful one only the fid it names.", "quantifier": "all states, hosts and attach requests", "why_tests_cant": "quantifies over all states of the fid table", "anchors": ["filesystem/filesystem.go: Rattach"]}
{"id": "C72", "title": "Open is refused on an open fid", "statement": "Open and create are refused on a fid that is open already.", "quantifier": "all states, hosts, fids and modes", "why_tests_cant": "quantifies over all states of the fid table", "anchors": ["filesystem/filesystem.go: Ropen, Rcreate"]}
{"id": "C73", "title": "Flush orders and has no other effect", "statement": "A flush is answered with its own tag once everything sent before it has been answered, and has no other effect: the connection gives all other requests the replies, and leaves the file server in the state, that it would without the flushes.", "quantifier": "all streams of requests in any packing into reads of whole packets, all file servers whose Rflush does nothing (the Unix file server among them)", "why_tests_cant": "relates two runs of unbounded length for all ways of cutting the stream", "anchors": ["filesystem/filesystem.go: Rflush", "protocol/server.go: readNetPackets, SrvRflush"]}
{"id": "C74", "title": "Version starts a new session", "statement": "After a Tversion no fid of the session before is in use (version(5)).", "quantifier": "all states, hosts and requests after it", "why_tests_cant": "quantifies over all continuations", "anchors": ["filesystem/filesystem.go: Rversion", "protocol/server.go: SrvRversion"]}
{"id": "C75", "title": "Replies fit the agreed size", "statement": "No packet that the file server sends is longer than the size agreed on by version.", "quantifier": "all histories, hosts and requests", "why_tests_cant": "quantifies over all sizes, requests and hosts", "anchors": ["filesystem/filesystem.go: Rversion, Rread, Rstat"]}
{"id": "C76", "title": "A connection that ended leaves nothing behind", "statement": "On a connection that has ended nothing is executed or written any more, and the files its fids had open are closed.", "quantifier": "all interleavings of any number of connections", "why_tests_cant": "quantifies over interleavings of unbounded length", "anchors": ["protocol/server.go: readNetPackets", "filesystem/filesystem.go: NewUFS"]}
{"id": "C77", "title": "QIDs are those of files that exist", "statement": "Every QID that any reply ever tells, of an attach, a walk, an open or a create, is that of a file the host reported: its path is the inode number, its version the modification time, and its type bits say whether the file is a directory and whether it is a symbolic link.", "quantifier": "all histories of requests, all hosts, anything other processes do in between", "why_tests_cant": "an invariant over unbounded histories and all hosts", "anchors": ["filesystem/filesystem.go: Rattach, Rwalk, Ropen, Rcreate", "filesystem/ninep.go: fileInfoToQID, dirToQIDType"]}
{"id": "C78", "title": "The version in a QID changes with the file", "statement": "Two QIDs of a file with different modification times have different versions.", "quantifier": "all pairs of modification times", "why_tests_cant": "quantifies over pairs of times", "anchors": ["filesystem/ninep.go: fileInfoToQID"]}
{"id": "C79", "title": "Requests that overlap act as if served one by one", "statement": "However the operating system calls of requests on different connections are interleaved, with each other and with other processes, each connection behaves like the only connection of a file server that works on one request after the other and whose calls get the same answers; a request that is not interrupted does exactly what Dispatch does.", "quantifier": "all interleavings of all connections at the granularity of host calls, all packets, all hosts, all interference", "why_tests_cant": "scheduling cannot be enumerated by tests", "anchors": ["protocol/server.go: Serve, conn.serve", "filesystem/filesystem.go"]}
{"id": "C80", "title": "Every request ends after boundedly many host calls", "statement": "A request makes at most six operating system calls, a walk at most one for each of its at most 65535 names, whatever else goes on; until it is answered it can always go on, whatever the other connections do, unless a decoder panics or a file is read with a negative count.", "quantifier": "all requests, all interleavings, all hosts", "why_tests_cant": "quantifies over all schedules and all answers of the host", "anchors": ["filesystem/filesystem.go", "protocol/server.go: Dispatch"]}
{"id": "C81", "title": "Renaming never replaces a directory", "statement": "Whenever a wstat renames a file, the new name is not the name of a directory at that moment.", "quantifier": "all histories, all interleavings of connections and other processes, all hosts", "why_tests_cant": "the check and the rename are two calls, so it is a matter of all schedules", "anchors": ["filesystem/filesystem.go: Rwstat"]}
{"id": "C82", "title": "Requests on a dead client fail", "statement": "Once a client is marked Dead all further requests to it will fail: a call that is made then returns an error.", "quantifier": "all executions of the client, all requests, clients without FromNet and clients whose connection has ended", "why_tests_cant": "whether a call ever returns is a statement about all interleavings and infinite executions; a test can only give up waiting", "anchors": ["protocol/client.go: Client, NewClient, readNetPackets, IO", "protocol/genout.go: CallT*"]}
{"id": "C83", "title": "A request touches only the file of its fid", "statement": "Every system call the file server makes is made on behalf of the request it is working on, and is one that this kind of request stands for, on the path or open file of the request's fid (or a path derived from it and the names in the request). Clients that only attach, walk, open without truncation, read, stat and clunk cause no call that changes a file.", "quantifier": "all numbers of connections, all interleavings of their requests at system-call level, all packets, all answers of the operating system", "why_tests_cant": "the calls of a request depend on the whole history of the fid table and on which other connections are in the middle of a request; a test sees a few histories", "anchors": ["filesystem/filesystem.go: Rattach, Rwalk, Ropen, Rcreate, Rclunk, Rremove, Rstat, Rwstat, Rread, Rwrite", "protocol/server.go: readNetPackets", "filesystem/ninep.go: modeToUnixFlags"]}
{"id": "C84", "title": "Files can be copied piece by piece", "statement": "A client that reads a plain file from offset 0 on, each time at the end of what it has, until it gets nothing, has got exactly the contents of the file. A client that writes pieces one behind the other leaves their concatenation (followed by what was behind it before). Reading to the end takes at most one read more than there are bytes.", "quantifier": "all contents, all ways to cut into pieces, all fids open on the file, all harmless requests and other processes in between, all hosts that obey the laws of files", "why_tests_cant": "there are infinitely many contents, cuts and interleavings; boundary errors show up only for particular ones", "anchors": ["filesystem/filesystem.go: Rread, Rwrite"]}
{"id": "C85", "title": "Walks compose", "statement": "Walking a list of names in one request is the same as walking the first part and then, from the fid reached, the rest, wherever the list is cut: same QIDs, same fid, same effects; if a name is missing the names behind it are not looked at. Walking from a clone is walking from the original. Walking down to a name and up again leads back to the same path.", "quantifier": "all lists of names and ways to cut them, all states of the fid table, all answers of the operating system (also if they change from call to call)", "why_tests_cant": "equality of two ways to walk for all lists, tables and hosts cannot be enumerated", "anchors": ["filesystem/filesystem.go: Rwalk"]}
{"id": "C86", "title": "A fid stands for the same file", "statement": "A fid keeps standing for the file it was walked to until it is clunked, removed, or made to stand for something else, also across renames of the file.", "quantifier": "all histories of requests, all fids, all hosts that obey the laws of names", "why_tests_cant": "whether a stale path comes to stand for another file depends on arbitrary later requests on other fids", "anchors": ["filesystem/filesystem.go: file.fullName, Rwalk, Rwstat, Rremove"]}
{"id": "C87", "title": "The goroutines of a client do not race for the table of calls", "statement": "The goroutine that sends and the one that receives never use the same entry of the table of calls at the same time.", "quantifier": "all executions of the client, all interleavings, all peers", "why_tests_cant": "a race depends on the interleaving of two goroutines and on what the peer sends when", "anchors": ["protocol/client.go: IO, Client.RPC"]}
{"id": "C88", "title": "One client cannot end the service of the others", "statement": "Whatever packets a client sends on its connection, the server process goes on and the other connections are served.", "quantifier": "for all histories of connections, packets, hang-ups and changes by other processes, all packets (well-formed or not), all memory behind the packet, with and without the debugging wrapper", "why_tests_cant": "a test kills the server with the packets its author thought of; which packets end the process depends on every decoder, every method and the fids of the connection", "anchors": ["protocol/server.go:162-170", "protocol/server.go:200-244", "protocol/genout.go", "filesystem/filesystem.go:338-391"]}
{"id": "C89", "title": "Many clients share one file system consistently", "statement": "As long as the requests of different clients do not overlap inside the server (what holds when they do is C93 and C94): when any number of clients, each with any number of concurrent callers, use one file server process over connections of their own, all calls together behave as if the methods of the file servers had been called directly, one after the other, in one order common to all clients. The order respects real time: a call that returned before another one was made, by whichever client, comes before it. No client can keep another one from getting its answers.", "quantifier": "all numbers of clients, callers and calls, all interleavings of callers, client goroutines, server goroutines and other processes in which a request is worked on without a break, all hosts with short names and error texts, all contents of memory behind packets", "why_tests_cant": "a test runs a few clients under a few schedules; consistency across clients is a statement about every interleaving and needs one order that explains all results at once", "anchors": ["protocol/client.go:123-169", "protocol/server.go:81-93", "protocol/server.go:162-170", "protocol/server.go:201-244", "filesystem/filesystem.go:449-468"]}
{"id": "C90", "title": "One server cannot end a program that talks to others", "statement": "In a program with clients for several servers, whatever one server does, the program goes on and calls to the other servers are answered.", "quantifier": "all programs with any number of clients, all calls, all behaviours of the servers and of the network, all interleavings", "why_tests_cant": "which server behaviour, in which state of the client's goroutines, ends the program depends on the interleaving; a test tries the behaviours its author thought of", "anchors": ["protocol/client.go:77-121", "protocol/client.go:123-169"]}
{"id": "C91", "title": "The generator's naming rule is enough", "statement": "For every packet whose struct members follow the rule stated in protocol.go (the names of request and reply differ, no member has the name of its type), the code gen.go writes for it compiles, and the encoders, decoders, server stub and client stub do what they are for: the arguments and results arrive in their order, the message has its type, error replies become errors.", "quantifier": "all packet descriptions: any number of fields of any types and names; all values, buffers, server states and replies", "why_tests_cant": "the generator is only ever run on the packets of this protocol; a test that compiles the output for some other structs does not cover the names somebody will choose next", "anchors": ["protocol/gen.go:129-203", "protocol/gen.go:428-456", "protocol/protocol.go:157-163"]}
{"id": "C92", "title": "Calls over byte streams that may break", "statement": "However the network cuts the byte streams between client and server into pieces, and wherever the connection breaks, every call that returns returns exactly what the method of the file server returned for it; the server executes every request at most once, in the order in which the requests were written; and if nothing is lost every call returns.", "quantifier": "all executions: any interleaving of callers, client goroutines and server, all pieces in which bytes can arrive, all points at which the connection can break, all file servers", "why_tests_cant": "the pieces and the break points are chosen by the network; a test sees a few of them on a loopback connection or a pipe", "anchors": ["protocol/client.go:77-121", "protocol/client.go:123-145", "protocol/server.go:201-244"]}
{"id": "C93", "title": "Calls of many clients with requests that overlap", "statement": "When several clients use one file server process at the same time, every call that returns returns what the method of the file server returns when it gets from the operating system the answers it really got; every request is executed at most once, in the order of its client; the calls of the operating system are exactly those that the requests make, each answered by the world as it was at that moment; and no request keeps another client's calls from returning.", "quantifier": "all executions: any number of clients, any interleaving of callers, client goroutines, connection goroutines and calls of the operating system, other processes that change the files at any moment", "why_tests_cant": "the interleaving of goroutines and of calls of the operating system is chosen by the scheduler", "anchors": ["protocol/server.go:162-170", "protocol/server.go:201-244", "filesystem/filesystem.go:60-460", "protocol/client.go:77-173"]}
{"id": "C94", "title": "Requests of different clients are atomic", "statement": "When several clients use one file server process at the same time, the outcomes of all calls are those of some order in which the requests are executed one after the other, an order that respects real time.", "quantifier": "all executions of any number of clients with requests that overlap, all requests", "why_tests_cant": "whether two requests come between each other's calls of the operating system is a matter of timing; the window is a few microseconds", "anchors": ["protocol/server.go:162-170", "filesystem/filesystem.go:104-162", "filesystem/filesystem.go:181-214", "filesystem/filesystem.go:356-362"]}
{"id": "C95", "title": "The program ufs as a whole", "statement": "The program ufs works on the packets of every connection in the order in which its peer has sent them, none left out and none twice, answers them as the file server does, and gives every accepted connection its own goroutine. Nothing but its peer keeps a connection waiting. The program ends only if it cannot listen, if Accept returns a permanent error, or if a connection sends one of the exactly described packets that make a goroutine panic; and such a packet always ends it. As long as it runs its listening socket stays open.", "quantifier": "all runs of the program: any clients and bytes, arriving in any pieces at any time, streams that end anywhere, failing writes, any interleaving of goroutines and calls of the operating system, other processes that change the files at any moment", "why_tests_cant": "the runs differ in scheduling, in how the network cuts the bytes and in what other programs do to the files", "anchors": ["cmd/ufs/ufs.go:21-37", "protocol/server.go:123-170", "protocol/server.go:201-244", "filesystem/filesystem.go:449-468"]}
{"id": "C96", "title": "Clients and the program ufs together", "statement": "Any number of clients of one process of ufs, which begin with CallTversion and make ordinary calls, over connections that carry bytes in any pieces and may break at any time, though not in the middle of a packet: every call that returns does so with the answer that its request got in one sequential history of its connection, the history keeps the order of calls that do not overlap and agrees with what the operating system was asked, no request makes the program panic, and the calls of a client whose connection does not break all return, whatever happens to the others.", "quantifier": "all executions of any number of clients with any number of callers, all ways the network cuts and breaks the byte streams, all interleavings of the goroutines of the server and of other processes between any two calls of the operating system, all hosts with error texts of bounded length", "why_tests_cant": "the executions differ in the scheduling of clients and server, in how and when bytes arrive and in when connections break", "anchors": ["protocol/client.go:90-175", "protocol/server.go:201-244", "cmd/ufs/ufs.go:24-36", "filesystem/filesystem.go:56-447"]}
{"id": "C97", "title": "Wstat acts on whole stat records only", "statement": "A Twstat on a known fid is carried out only if its data is exactly one whole stat record: the size, the fields, nothing missing and nothing left over. Otherwise the answer is an Rerror that says what is wrong, no file and no fid has changed, and the operating system has not been asked for anything.", "quantifier": "all data of a Twstat, all stat records and all places at which they can be cut off, all states of the file server and all hosts", "why_tests_cant": "what happens depends on all bytes of the record, and, because the decoder reuses a scratch array, on bytes decoded before", "anchors": ["protocol/genout.go:1806-1935", "filesystem/filesystem.go:238-247"]}
{"id": "C98", "title": "A program that uses a client works as if it called the file server itself", "statement": "A program that makes calls of a client one after the other, beginning with CallTversion, and goes on with what they return, comes to the same results as when the methods of the file server are called on the spot: with the answers that the operating system gave to the goroutine of its connection, and, if nobody else was active meanwhile, on the operating system itself, leaving the same world. It makes finitely many steps, never gets stuck before its end while the connection holds, and from anywhere can come to its end without any step of others.", "quantifier": "all programs (also unboundedly long ones, whose calls depend on earlier results), any number of clients with a program each, all executions of clients, byte streams, goroutines of the server and other processes, all hosts with error texts of bounded length", "why_tests_cant": "programs are unboundedly many, and the executions differ in the scheduling of clients and server, in how and when bytes arrive and in what other clients do", "anchors": ["protocol/genout.go:170-260", "protocol/client.go:90-175", "protocol/server.go:201-244", "filesystem/filesystem.go:56-448"]}
{"id": "C99", "title": "What one client writes to a file another client reads", "statement": "A program negotiates, attaches, walks to a file, opens it and reads it piece by piece until nothing comes. If it ends with success while the others leave this file alone, it has got exactly the contents of the file, and it has not changed them. A program that opens a file for writing with truncation and writes pieces one after the other leaves, if it ends with success, exactly the bytes of the pieces. So a second client that reads the file afterwards gets the bytes that the first one wrote, whatever the sizes of the pieces. If the calls of the operating system do not fail, both programs do end with success.", "quantifier": "all contents, all sizes and numbers of pieces, all paths that can be sent, all executions of any number of clients, byte streams, goroutines of the server and other processes that leave this file alone but are otherwise free, all hosts that obey the laws about files, names and open", "why_tests_cant": "the contents, the cuts and the interleavings are unboundedly many, and the other clients act between any two calls of the operating system", "anchors": ["filesystem/filesystem.go:63-179", "filesystem/filesystem.go:216-219", "filesystem/filesystem.go:364-447", "protocol/genout.go:170-260", "protocol/client.go:90-175", "protocol/server.go:201-244"]}
{"id": "C100", "title": "A directory listed through a client is complete", "statement": "A program negotiates, attaches, walks to a directory, opens it and reads it until nothing comes, with a count into which every entry fits. If it comes to the end while the others leave this directory alone, what it has read are the stat records of the entries, one after the other, each exactly once and in the order in which the host lists them, and the decoder makes the descriptions of the entries of them. If the calls of the operating system do not fail, it comes to the end.", "quantifier": "all directories, all counts into which each entry fits, all paths that can be sent, all executions of any number of clients, byte streams, goroutines of the server and other processes that leave this directory alone but are otherwise free, all hosts that obey the laws about directories", "why_tests_cant": "the directories, counts and interleavings are unboundedly many, and the other clients act between any two calls of the operating system", "anchors": ["filesystem/filesystem.go:63-179", "filesystem/filesystem.go:364-430", "filesystem/filesystem_unix.go:15-18", "filesystem/ninep_unix.go:1-34", "protocol/genout.go:170-260", "protocol/client.go:90-175"]}
{"id": "C101", "title": "A connection uses only files that it has opened itself", "statement": "An open file of the operating system that is read, written, listed, synced or closed for a connection is one that the same connection has got from os.OpenFile. No two connections ever work on the same open file. When a connection has ended no call works on any of its files any more; those that are still open are never closed.", "quantifier": "all numbers of connections, all bytes they send, all interleavings of their requests at system-call level, all answers of the operating system; for the second and third part all operating systems on which no two calls return the same open file", "why_tests_cant": "open files travel with the fids through walks, opens, creates and wstats of histories of any length, and which connection uses which depends on the interleaving", "anchors": ["filesystem/filesystem.go:104-447", "protocol/server.go:81-93", "protocol/server.go:201-244", "protocol/server.go:251-295"]}
{"id": "C102", "title": "Clients that work on other files do not disturb each other", "statement": "Any number of clients read and write files at the same time, each through its own connection. If no other client writes the file of a client, this client gets what the file has contained from the beginning, or puts into it what it was to put, whatever the order in which the calls of the operating system for the clients happen. More generally this holds beside all programs that, by the paths their fids stand for, truncate, create and write only files at other paths and remove and rename nothing on the path; programs that only look are such programs.", "quantifier": "all numbers of clients, all programs of theirs as described, all paths and contents, all executions of clients, byte streams and goroutines of the server, all hosts without links that obey the laws about files, names and open", "why_tests_cant": "which file a write goes to is decided by the history of the fids of a connection, and the interleavings of the clients are unboundedly many", "anchors": ["filesystem/filesystem.go:63-447", "protocol/genout.go:170-260", "protocol/client.go:90-175", "protocol/server.go:201-244"]}
{"id": "C103", "title": "What the constructors make", "statement": "NewClient always returns. It calls its options in order on a client that has every tag but 0 and NOTAG exactly once in its channel and an empty slot for each, but on which nothing runs; the goroutines are started if and only if no option fails, and otherwise the error of the first option that fails is returned and no later option is called. NewListener treats its options alike. By NewUFS every connection gets a file server of its own without fids and with the root of the flag, in the wrapper that logs if and only if the flag debug is set. The program never serves with a nil listener although it ignores the error of NewUFS.", "quantifier": "all lists of options, including options that change any field and options that fail, all values of the flags", "why_tests_cant": "the options are arbitrary functions; that filling the channel of 65534 tags never blocks depends on its capacity for exactly this number", "anchors": ["protocol/client.go:24-57", "protocol/protocol.go:89-96", "protocol/protocol.go:293-294", "protocol/server.go:18-34", "protocol/server.go:67-79", "filesystem/filesystem.go:449-468", "cmd/ufs/ufs.go:21-37"]}
{"id": "C104", "title": "Clients that work at the same time get everything", "statement": "Any number of clients read, write and list at the same time, each through its own connection, and the calls of the operating system for a client do not fail. A client that reads a file which no other client writes gets the whole file; a client that writes a file which no other client writes has written everything, and the file contains nothing else; a client that lists a directory while the others only look gets all entries, in order and each one once. In particular no other client can close, read or move a file that the client has opened.", "quantifier": "all numbers of clients, all programs of theirs as described, all paths and contents, all executions of clients, byte streams and goroutines of the server, all hosts without links that obey the laws about files, names and open and return new files from os.OpenFile", "why_tests_cant": "whether another connection gets hold of an open file depends on the history of all fids of all connections, and the interleavings of the clients are unboundedly many", "anchors": ["filesystem/filesystem.go:63-447", "protocol/genout.go:170-260", "protocol/client.go:90-175", "protocol/server.go:201-244"]}
{"id": "C105", "title": "Files made, removed and renamed through a client", "statement": "A client that makes a plain file, writes to it and is told that it succeeded has made a file with exactly these contents where a walk to its name leads, and another client that then reads it by its name gets these contents. A client that removes a file and is told that it succeeded leaves nothing at the path, and another client that wants to read it there is told that it failed. A client that renames a file by a stat record that changes only the name, and is told that it succeeded, leaves the same file with the same contents under the new name and nothing under the old one. If the operating system does not fail, all three succeed.", "quantifier": "all numbers of clients and all their programs, all directories, names, permissions and contents, all executions of clients, byte streams and goroutines of the server in which the others leave the path alone, all hosts that obey the laws about files, names, open, unlink and rename", "why_tests_cant": "the other clients, the streams and the goroutines interleave in unboundedly many ways, and names and contents are arbitrary", "anchors": ["filesystem/filesystem.go:130-420", "protocol/genout.go:170-260", "protocol/client.go:90-175", "protocol/genout.go:1746-1870"]}
{"id": "C106", "title": "Create makes something new and opens it", "statement": "A create succeeds only if nothing had the name before, and afterwards the fid is open on what has been made, so that it can be read or written (open(5)).", "quantifier": "all directories, names, permissions, modes, host states", "why_tests_cant": "what the host has under a name is arbitrary, and the test of create uses new names only", "anchors": ["filesystem/filesystem.go:180-215"]}
{"id": "C107", "title": "The debug log of the program", "statement": "If ufs is started with -debug, clients see the same as without: for every execution there is the same one without the log, and every execution without the log is one with it. The lines of each connection in the log, which are mixed with those of the others, are a transcript of its requests and the answers to them, in order, each request line before the request is worked on and each answer line before the answer is sent. If the program crashes, the last line of the connection that made it crash is the request that did it.", "quantifier": "all numbers of connections, all request sequences, all interleavings of the connections and of the lines in the log, all hosts", "why_tests_cant": "the lines of the connections interleave in unboundedly many ways, and a crash ends the test", "anchors": ["filesystem/filesystem.go:440-468", "pkg/debugfs/debug.go:1-152", "cmd/ufs/ufs.go:15-37"]}
{"id": "C108", "title": "Packets that are not messages", "statement": "Whatever bytes a client sends: a packet of a known type either has a count that leads beyond the packet and the memory behind it, which ends the program, or it acts, for every file server in every state, exactly as one well-formed request under the tag of the packet; this request has the fields that are there in full, a string that is cut off is empty, a number or data that is cut off begins with the bytes that are there, and everything behind that is zero. Packets of other types, and before a Tversion, are refused and the file server is not asked. So the whole program does, for any byte stream, what it does for a sequence of well-formed requests.", "quantifier": "all packets (all byte sequences), all request types, all file servers and states, all byte streams, all interleavings of connections, all hosts", "why_tests_cant": "there are infinitely many malformed packets; fuzzing samples them and shows only that nothing crashed, not that nothing else than a proper request has been done", "anchors": ["protocol/genout.go:27-1560", "protocol/server.go:199-295"]}
{"id": "C109", "title": "Arguments too long for the wire", "statement": "A call of the client with arguments that do not fit their length fields (a string or stat record of 65536 bytes or more, more than 65535 names) is never carried out with other arguments than those of the call: it is carried out with exactly these or it fails.", "quantifier": "all calls with all arguments whose packet is shorter than 2^32 bytes, all file servers and states, all interleavings of concurrent callers", "why_tests_cant": "which other request comes out depends on every byte of the argument; tests use short names", "anchors": ["protocol/genout.go:116-119", "protocol/genout.go:27-1560"]}
{"id": "C110", "title": "A call that succeeds has got its reply", "statement": "A call of the client succeeds with a result only if the server sent the reply message that belongs to the request, with exactly these values; it fails with a text of the server only if the server sent an Rerror with exactly this text.", "quantifier": "all 12 calls, all packets (all byte sequences) a server may send in answer, all contents of the memory behind the packet", "why_tests_cant": "quantifies over all packets of a faulty or hostile server", "anchors": ["protocol/genout.go:173-192", "protocol/genout.go:354-373", "protocol/genout.go:1717-1736"]}
{"id": "C111", "title": "Messages too long for the wire are refused by the receiver", "statement": "If a string, a stat record or a list in a message is too long for its length field, decoding the encoding of the message reports an error; a call that is answered by such a reply fails.", "quantifier": "all 25 message types, all contents with a part that is too long and a packet shorter than 2^32 bytes, all tags, all contents of the memory around the packet", "why_tests_cant": "unbounded lengths; which bytes are taken for what depends on all of them", "anchors": ["protocol/genout.go:116-119", "protocol/genout.go:128-171", "protocol/genout.go:27-1935"]}
{"id": "C112", "title": "Tracing a connection", "statement": "A tracer changes nothing about what a connection does. The trace tells what it did: a line when it starts; for every request that is read a line with its name and length, before it is executed; a line for a request that comes before Tversion; for every reply its bytes before and after it is written; and a last line that tells why the connection ended.", "quantifier": "all tracers (or none), all file servers, all byte streams and their segmentations, all ends of the stream, all patterns of write failures", "why_tests_cant": "quantifies over unbounded input, over all tracers and over all points where a connection may end", "anchors": ["protocol/server.go:186-199", "protocol/server.go:201-244", "protocol/server.go:251-264"]}
{"id": "C113", "title": "Modes and permissions are honoured or refused", "statement": "An open or create either does what every bit of its mode and permissions asks for (ORCLOSE removes the file at the clunk, DMAPPEND appends, DMEXCL is exclusive, \u2026) or is refused.", "quantifier": "all 2^8 modes and 2^32 permissions, all fids, names and host states", "why_tests_cant": "quantifies over all bits and what they would have to do in later requests", "anchors": ["filesystem/ninep.go:20-45", "filesystem/filesystem.go:164-215", "protocol/protocol.go:65-86"]}
{"id": "C114", "title": "What a request says is honoured or refused", "statement": "No field of a request is ignored: a message longer than the agreed size is refused, what is granted depends on the user named in the attach, and a wstat succeeds only if every change its record asks for has been made.", "quantifier": "all histories of a connection, all requests, hosts and segmentations", "why_tests_cant": "that a field has no effect, now or later, is a statement about all pairs of histories", "anchors": ["filesystem/filesystem.go:63-69", "filesystem/filesystem.go:82-102", "filesystem/filesystem.go:238-334"]}
{"id": "C115", "title": "What wstat sets, stat reports", "statement": "After a wstat that succeeded, the stat of the same fid reports the record it reported before with exactly the changes that were asked for: permissions, length, name, modification time, access time; the kind of file, its QID path and its owner are as before.", "quantifier": "all hosts that keep attributes, all files, all stat records and combinations of fields", "why_tests_cant": "combinations of fields, paths and host states", "anchors": ["filesystem/filesystem.go:208-236", "filesystem/filesystem.go:238-334", "filesystem/ninep.go:60-81"]}
{"id": "C116", "title": "The trace of a client is a transcript", "statement": "The lines that a client gives to its tracer are a transcript of the connection: each request written is preceded by its tag and its bytes, in the order of the writes; each packet that arrives is told in the order of arrival; each reply is told with its tag and the call it belongs to, and a finished call has its request and its reply in the trace. The tracer changes nothing.", "quantifier": "all peers, all schedules of the goroutines, any number of calls", "why_tests_cant": "interleavings of three goroutines, users and the peer", "anchors": ["protocol/client.go:77-121", "protocol/client.go:123-170"]}
{"id": "C117", "title": "Requests fit the agreed size", "statement": "Once a Tversion has been answered with a size, the client sends no request that is longer, and the server executes none.", "quantifier": "all sizes, all programs, all schedules, all hosts", "why_tests_cant": "needs all lengths of all requests and all orders of calls; a test shows single requests", "anchors": ["protocol/client.go:33", "protocol/client.go:123-146", "filesystem/filesystem.go:63-69", "protocol/genout.go:173-192"]}
{"id": "C118", "title": "A client can be shared by goroutines without data races", "statement": "When any number of goroutines use a client, no two accesses to its shared memory (the table of calls, the calls, requests and replies, the counter of fids, the mark that it is dead), one of them a write, are unordered in the sense of the Go memory model.", "quantifier": "all programs, all numbers of goroutines, all schedules, all peers", "why_tests_cant": "the race detector only sees the schedules that a test happens to run", "anchors": ["protocol/client.go:60-175", "protocol/genout.go:173-192"]}
{"id": "C119", "title": "A server has no data races", "statement": "When any number of goroutines call Serve, Accept and Shutdown of a listener, while the goroutines of its connections serve them, no two accesses to the options, to the set of listeners or to the objects of a connection, one of them a write, are unordered in the sense of the Go memory model.", "quantifier": "all programs, all numbers of goroutines, listeners and connections, all schedules", "why_tests_cant": "the race detector only sees the schedules that a test happens to run", "anchors": ["protocol/server.go:67-179", "protocol/server.go:201-244", "filesystem/filesystem.go:449-468"]}
{"id": "C120", "title": "Offsets, counts and lengths are not wrapped around", "statement": "The count that a write returns is the number of bytes written, a read or write at an offset that no file can have is refused, and so is a wstat to a length that no file can have.", "quantifier": "all states, hosts that treat files as pread, pwrite and truncate do, all 64 bit offsets and lengths, all data", "why_tests_cant": "tests do not write two gigabytes, and the numbers at the limits are too many to try", "anchors": ["filesystem/filesystem.go:301-306", "filesystem/filesystem.go:419-447", "protocol/protocol.go:117"]}
{"id": "C121", "title": "What lies outside of the root is neither seen nor changed", "statement": "If no symbolic link below the export root leads out of it, then requests whose names do not lead up neither depend on nor change anything in the file system outside of the root.", "quantifier": "all histories of any number of connections with overlapping requests, all file systems", "why_tests_cant": "that the answers do not depend on something is a statement about all pairs of file systems", "anchors": ["filesystem/filesystem.go:82-98", "filesystem/filesystem.go:121-151", "filesystem/filesystem.go:164-179", "filesystem/filesystem.go:273-299"]}
{"id": "C122", "title": "One file server can be used by several goroutines", "statement": "Several goroutines may call the methods of one FileServer at once: no two accesses to its memory race, no goroutine waits for ever for the mutex, no fid that is in use is given away, and goroutines that use different fids get the results they would get with a FileServer of their own.", "quantifier": "all numbers of goroutines, all interleavings of their accesses to memory and of their calls of the operating system, all requests", "why_tests_cant": "interleavings of single memory accesses; the race detector sees the executions it is run on only", "anchors": ["filesystem/filesystem.go:33-42", "filesystem/filesystem.go:63-98", "filesystem/filesystem.go:104-162", "filesystem/filesystem.go:336-362"]}
{"id": "C123", "title": "Calls on a shared file server end", "statement": "Every call that goroutines make on one shared FileServer ends: a call takes boundedly many steps, a goroutine waits for nothing but the mutex, whoever holds the mutex can always go on and gives it back before the call returns or panics, and so in whatever order goroutines go on, all calls have ended after boundedly many steps.", "quantifier": "all numbers of goroutines, all schedulers, all states that executions reach, all requests, all answers of the operating system", "why_tests_cant": "deadlocks depend on the order of single steps of goroutines; a test sees the orders that happen", "anchors": ["filesystem/filesystem.go:71-80", "filesystem/filesystem.go:104-162", "filesystem/filesystem.go:336-362"]}
{"id": "C124", "title": "Which calls on a shared file server must not overlap", "statement": "Two accesses to the memory of a shared FileServer are ordered by the mutex or by the program, unless both are made in an attach, one is made in an attach and both are to the table of fids, both are made in a version call and are to the flag it sets, or they are to a field of the structure of a fid, made in two calls that both name the fid and of which one changes that field: an open, a create, a wstat, or a read of a directory. So goroutines that do not attach and do not negotiate a version may walk from, stat and write to the same fids at once without a data race.", "quantifier": "all executions, all pairs of accesses in them, all requests", "why_tests_cant": "a statement about all interleavings of single memory accesses and the happens-before order between them", "anchors": ["filesystem/filesystem.go:33-42", "filesystem/filesystem.go:82-98", "filesystem/filesystem.go:104-215", "filesystem/filesystem.go:336-447"]}
{"id": "C125", "title": "Calls on a shared file server can overlap if none changes a fid that another one names", "statement": "If calls on one shared FileServer overlap only when neither changes a fid that the other names (a walk changes the fid it walks to and not the one it walks from; stat, write and the read of a file that is not a directory change none; the other calls change the fid they name), then the object works as if it were used by one goroutine: the finished calls, in the order in which they finish, make the calls of the operating system and have the results that they have one after the other on an object of their own, given the same answers of the operating system; a call that panics panics then too; and the fids that no call is changing are as that object has them. Goroutines may hand fids to each other, and may walk from the same fid at the same time.", "quantifier": "all numbers of goroutines, all interleavings of single memory accesses, all requests, all answers of the operating system", "why_tests_cant": "a statement about all interleavings; a test sees the orders that happen, and a lost update or a stale pointer shows only in some", "anchors": ["filesystem/filesystem.go:33-42", "filesystem/filesystem.go:63-215", "filesystem/filesystem.go:217-447"]}
{"id": "C126", "title": "Calls on a shared file server that are kept apart do not race", "statement": "Suppose that calls on one shared FileServer overlap only if neither changes a fid that the other one names, that an attach overlaps with no call that names a fid and a version with no version, and that the callers order such calls by synchronization of their own (a mutex, a channel): the end of the one happens before the beginning of the other. Then there is no data race: any two accesses of different goroutines to the same memory, of which one is a write, are ordered by happens-before.", "quantifier": "all numbers of goroutines, all interleavings of single memory accesses, all requests, all answers of the operating system", "why_tests_cant": "the race detector sees races in the executions that happen; absence of races is a statement about all executions, and about a happens-before relation that a test cannot observe", "anchors": ["filesystem/filesystem.go:33-42", "filesystem/filesystem.go:63-215", "filesystem/filesystem.go:217-447"]}
{"id": "C127", "title": "A fid of a shared file server is given out and released once", "statement": "However clunks and removes of one fid on a shared FileServer overlap, with each other and with all other calls, those that succeed, and the fid itself if it is in use, are not more than the attaches and walks that have set the fid or are still under way. In particular, from a moment on when no call sets or releases the fid, and as long as no call to set it begins, at most one of all clunks and removes of it succeeds, and none if the fid is not in use. And if the fid is set by walks from other fids only: the walks to it that succeed are not more than the calls to release it, without the clunks that failed, and one more if the fid is in use; so that of walks to it that overlap at most one succeeds, until it is released.", "quantifier": "all numbers of goroutines, all interleavings of single memory accesses, all requests, all answers of the operating system", "why_tests_cant": "a double release shows only if two calls meet between the lookup and the deletion of the entry; a test cannot try all interleavings", "anchors": ["filesystem/filesystem.go:82-98", "filesystem/filesystem.go:104-162", "filesystem/filesystem.go:336-362"]}
{"id": "C128", "title": "A shared file server stays below its root, however calls overlap", "statement": "If no name in the requests leads up (no dot-dot in walks and creates, new names in wstats absolute and without dot-dot), then however the calls of goroutines that share a FileServer overlap, also on the same fids, every path given to the operating system is at or below the export root, and every open file that is used was opened with such a path. If the root is / this needs no condition on the names.", "quantifier": "all numbers of goroutines, all interleavings of single memory accesses, all requests with such names, all answers of the operating system", "why_tests_cant": "the name of a fid is read and set without a lock by open, create, wstat and remove, so what a call sees depends on where the others are; a test cannot try all interleavings and all names", "anchors": ["filesystem/filesystem.go:71-98", "filesystem/filesystem.go:104-215", "filesystem/filesystem.go:238-362"]}
{"id": "C129", "title": "Goroutines that share a file server get the answers to their own calls", "statement": "However the calls of goroutines that share a FileServer overlap, every call of the operating system is made by a goroutine whose request stands for it and has the data, offset, count, mode, size and times of that request. A reply that is not an error tells what the last such call for the same request returned: data that was read, the number of bytes written, the stat of the file, the QID of a created file, that opening or removing succeeded; a walk looks up its names one after the other from one path on and returns the QIDs of the files it has found itself. Requests that only look change nothing.", "quantifier": "all numbers of goroutines, all interleavings of single memory accesses, all requests, all answers of the operating system", "why_tests_cant": "replies that are mixed up between goroutines depend on the interleaving; a test sees some interleavings", "anchors": ["filesystem/filesystem.go:63-215", "filesystem/filesystem.go:216-447"]}
{"id": "C130", "title": "An error of a shared file server has its reason in the same call", "statement": "However the calls of goroutines that share a FileServer overlap, an error that a call returns is the error of the last call of the operating system that was made for the same request, or a text of the server that goes with this request and with the answer to that last call: its 'file does not exist' only after looking at a file has failed, its 'FID not open' only before the operating system was called, its 'Permission denied' only for a wstat that names an owner or a group. A goroutine whose calls of the operating system have all succeeded is never told an error of the operating system.", "quantifier": "all numbers of goroutines, all interleavings of single memory accesses, all requests, all answers of the operating system", "why_tests_cant": "an error that belongs to the call of another goroutine shows up only in some interleavings and only if the operating system fails at that moment", "anchors": ["filesystem/filesystem.go:63-215", "filesystem/filesystem.go:216-447"]}
{"id": "C131", "title": "What a shared file server says of a fid was so during the call", "statement": "However the calls of goroutines that share a FileServer overlap: a request that succeeds was about a fid that was in use at a moment between the beginning and the end of the call. A request that fails is told that the fid does not exist and the fid was free at such a moment, or the fid was in use at such a moment. A walk that is told that its new fid is in use: it was, at such a moment. A walk to the last name with a fid other than its own, and a clone, that succeed: the new fid was free at such a moment.", "quantifier": "all numbers of goroutines, all interleavings of single memory accesses, all requests, all answers of the operating system", "why_tests_cant": "the table of fids changes while a call runs; whether an answer fits to a moment of the call depends on the interleaving", "anchors": ["filesystem/filesystem.go:71-80", "filesystem/filesystem.go:104-163", "filesystem/filesystem.go:336-354"]}
{"id": "C132", "title": "A call on a shared file server has set or released its fid before it returns", "statement": "However the calls of goroutines that share a FileServer overlap: a clunk or a remove returns, with an error or without, only after its fid was free at a moment between the beginning and the end of the call. An attach that succeeds returns only after its fid was in use at such a moment, and a walk to the last name or a clone that succeeds only after the new fid was in use at such a moment.", "quantifier": "all numbers of goroutines, all interleavings of single memory accesses, all requests, all answers of the operating system", "why_tests_cant": "other goroutines may change the table before the call returns, so a test that looks at the table afterwards cannot tell whether the call took effect", "anchors": ["filesystem/filesystem.go:82-98", "filesystem/filesystem.go:104-163", "filesystem/filesystem.go:216-219", "filesystem/filesystem.go:336-362"]}
{"id": "C133", "title": "A shared file server acts on the file that the fid stood for during the call", "statement": "However the calls of goroutines that share a FileServer overlap: the path or the open file in a call of the operating system for a request with a fid is one that the structure of the fid had at a moment between the beginning of the request and that call, or for create, rename and walk the path that the request makes of such a path. No request is carried out on a file that its fid did not stand for.", "quantifier": "all numbers of goroutines, all interleavings of single memory accesses, all requests, all answers of the operating system", "why_tests_cant": "the path and the open file of a fid may change while a call runs; which one a call uses depends on the interleaving", "anchors": ["filesystem/filesystem.go:71-80", "filesystem/filesystem.go:104-215", "filesystem/filesystem.go:216-447"]}
