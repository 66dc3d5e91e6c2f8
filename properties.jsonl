{"id": "C01", "title": "Variable-length integers round-trip", "statement": "Encoding any integer below 2^62 and decoding the result, followed by any other bytes, returns the same integer and leaves exactly the other bytes unread.", "quantifier": "every integer below 2^62, every byte string following it", "why_tests_cant": "The domain has 2^62 values and four length classes with shifted tags; a wrong mask or shift fails only on some values of one class, and tests sample a few boundaries.", "anchors": ["rs/moq/src/coding/varint.rs: VarInt::encode, VarInt::decode, VarInt::encode_size", "rs/moq/src/coding/varint.rs: Encode/Decode for u64, usize"]}
{"id": "C02", "title": "Variable-length integers use the shortest encoding", "statement": "The encoding of an integer takes 1, 2, 4 or 8 bytes, takes exactly the number of bytes announced by encode_size, and no byte string that decodes to the same integer is shorter.", "quantifier": "every integer below 2^62, every byte string that decodes to it", "why_tests_cant": "Minimality is a statement about all competing byte strings, which no finite test can enumerate.", "anchors": ["rs/moq/src/coding/varint.rs: VarInt::encode_size, VarInt::encode, VarInt::decode"]}
{"id": "C03", "title": "Variable-length integer decoding is total and bounded", "statement": "Decoding any byte string either returns an integer below 2^62 and consumes 1, 2, 4 or 8 bytes as announced by its first two bits, or reports a short buffer exactly when fewer bytes than announced are present; it never returns another error. Encoding an integer of 2^62 or more panics and emits nothing.", "quantifier": "every byte string, every 64-bit integer", "why_tests_cant": "It is a claim about arbitrary, possibly hostile input; tests only try a handful of byte strings.", "anchors": ["rs/moq/src/coding/varint.rs: VarInt::decode, TryFrom<u64>, Encode for u64"]}
{"id": "C04", "title": "32-bit integers are range-checked", "statement": "A 32-bit integer round-trips; decoding a wire integer that does not fit in 32 bits fails with BoundsExceeded and never silently truncates. The same holds for the u8, u16 and u32 conversions out of a varint.", "quantifier": "every wire integer", "why_tests_cant": "Truncation bugs only show for values above the bound; the claim is an equivalence over the whole domain.", "anchors": ["rs/moq/src/coding/varint.rs: Decode for u32, TryFrom<VarInt> for u32/u16/u8"]}
{"id": "C05", "title": "Primitive values round-trip", "statement": "Bytes, signed priorities, strings, byte strings, lists and durations round-trip through encode and decode with any following bytes left unread; a duration comes back truncated to whole microseconds.", "quantifier": "every value that encode accepts, every following byte string", "why_tests_cant": "Strings and lists are unbounded and nested; the offset encoding of i8 and the length prefixes have boundary classes.", "anchors": ["rs/moq/src/coding/encode.rs: Encode impls", "rs/moq/src/coding/decode.rs: Decode impls"]}
{"id": "C06", "title": "Every protocol message round-trips", "statement": "Each protocol message that can be encoded decodes to an equal message, leaving exactly the bytes that follow it. (A session-info message whose bitrate is Some(0) is the exception: it decodes to None.)", "quantifier": "every message of every kind, every following byte string", "why_tests_cant": "Field order and length prefixes must agree between two hand-written functions for all field values.", "anchors": ["rs/moq/src/message/*.rs: Encode and Decode impls"]}
{"id": "C07", "title": "The announced size equals the bytes written", "statement": "For every value of every wire type, encode_size returns exactly the number of bytes encode writes.", "quantifier": "every value that encode accepts", "why_tests_cant": "Some types override encode_size by hand, others count through a counting buffer; agreement must hold for all values.", "anchors": ["rs/moq/src/coding/size.rs: Sizer", "rs/moq/src/coding/encode.rs: encode_size overrides", "rs/moq/src/coding/varint.rs: VarInt::encode_size"]}
{"id": "C08", "title": "Decoding is stable under more input and truncation is always reported as short", "statement": "If decoding a message from a buffer succeeds, or fails with anything but Short, then appending bytes to the buffer does not change the outcome; and decoding any strict prefix of an encoded message reports Short. Decoders consume a prefix of the buffer and nothing else.", "quantifier": "every message kind, every buffer, every extension, every cut point", "why_tests_cant": "The streaming reader's correctness depends on it at every possible packet boundary.", "anchors": ["rs/moq/src/coding/decode.rs", "rs/moq/src/message/*.rs: Decode impls", "rs/moq/src/session/reader.rs: Reader::decode"]}
{"id": "C09", "title": "Message streams are uniquely decodable", "statement": "Two different sequences of messages of one kind never have the same encoding, and decoding the concatenated encodings of a sequence returns that sequence in order.", "quantifier": "every two sequences of messages", "why_tests_cant": "It quantifies over pairs of unbounded sequences.", "anchors": ["rs/moq/src/message/*.rs: Encode and Decode impls"]}
{"id": "C10", "title": "Setup extensions: order-independent, duplicates rejected", "statement": "Whatever order an extension map is serialised in, decoding yields the same map; any parameter list in which a kind occurs twice is rejected with the duplicate-parameter error, provided the list is complete up to that point; otherwise decoding succeeds with exactly the listed parameters.", "quantifier": "every extension map, every serialisation order, every parameter list", "why_tests_cant": "Hash-map iteration order is random, so a test sees only some orders.", "anchors": ["rs/moq/src/message/extensions.rs: Extensions"]}
{"id": "C11", "title": "Decoding does not depend on how the stream is cut into packets", "statement": "The sequence of messages a reader returns from a stream, and the error it ends with, depend only on the bytes of the stream and how it ended, not on how the bytes are split across reads.", "quantifier": "every byte stream, every split of it into non-empty reads, every end of stream", "why_tests_cant": "The number of splits is exponential in the stream length; tests use one or two.", "anchors": ["rs/moq/src/session/reader.rs: Reader::decode, Reader::decode_maybe"]}
{"id": "C12", "title": "Optional trailing messages: clean end only at a message boundary", "statement": "Reading optional messages until the end returns exactly the messages sent and then None when the stream is finished at a message boundary; if it is finished inside a message the reader returns the complete messages and then a Short error, never None; if the stream is reset, the reader returns the reset error instead of None once the received messages are consumed.", "quantifier": "every message sequence, every cut point, every split into reads", "why_tests_cant": "Requires every cut point of every message sequence.", "anchors": ["rs/moq/src/session/reader.rs: Reader::decode_maybe, Reader::finished"]}
{"id": "C13", "title": "The reader neither loses, duplicates nor reorders bytes", "statement": "For any interleaving of message decodes and raw reads, the bytes handed out so far followed by the bytes still buffered and still to arrive are exactly the bytes of the stream; a raw read returns between 1 and max bytes, or None only at the end of the stream.", "quantifier": "every stream, every split, every interleaving of operations", "why_tests_cant": "Mixed header/payload parsing has unboundedly many interleavings.", "anchors": ["rs/moq/src/session/reader.rs: Reader::read, Reader::decode, Reader::finished"]}
{"id": "C14", "title": "Handshake agrees on a common version", "statement": "A session is established only if both sides support the version that the server selected: the server accepts exactly the clients offering its version and answers with it, and the client rejects an answer it did not offer.", "quantifier": "every client version list and extensions, every server answer", "why_tests_cant": "The interesting peers are ones that this code base never produces in its own tests.", "anchors": ["rs/moq/src/session/mod.rs: Session::connect_setup, Session::accept_setup, Session::accept"]}
{"id": "C15", "title": "Stream types are dispatched correctly", "statement": "The first bidirectional stream accepted by a server must be a session stream, otherwise the handshake fails with UnexpectedStream; later bidirectional streams reach the announce or subscribe handler according to their type, a second session stream is refused with UnexpectedStream, and unknown types are refused; a unidirectional stream is handled only if it is a group stream.", "quantifier": "every first bytes of a stream, however split", "why_tests_cant": "All wire integers and splits are possible inputs.", "anchors": ["rs/moq/src/session/mod.rs: accept, run_control, run_data", "rs/moq/src/message/stream.rs: ControlType, DataType"]}
{"id": "C16", "title": "Error codes identify the error kind", "statement": "Two different error kinds never map to the same wire code, and application codes never collide with protocol codes.", "quantifier": "every pair of errors", "why_tests_cant": "Application codes range over 32 bits, with an addition that can overflow.", "anchors": ["rs/moq/src/error.rs: Error::to_code"]}
{"id": "C17", "title": "Stream priority orders streams by track priority and then by group", "statement": "The priority number given to the transport is strictly ordered first by track priority and then by group sequence (newer groups get smaller numbers).", "quantifier": "every pair of track priorities and group sequences", "why_tests_cant": "Bit packing of 72 bits into 32 is wrong only in rarely reached ranges.", "anchors": ["rs/moq/src/session/publisher.rs: Publisher::stream_priority"]}
{"id": "C18", "title": "A frame's readers get exactly the bytes written, in order", "statement": "Whatever chunks are written to a frame, and whenever readers are created, cloned and read, each reader returns the written chunks in order, each exactly once, starting from the position it was created at (0, or the position of the reader it was cloned from), and reports the end only after the frame is finished and every chunk was returned.", "quantifier": "every interleaving of writes, reads, reader creation and cloning", "why_tests_cant": "Schedules of several readers and a writer are unbounded.", "anchors": ["rs/moq/src/model/frame.rs: FrameProducer, FrameConsumer"]}
{"id": "C19", "title": "A cleanly finished frame has exactly its declared size", "statement": "A frame that is reported complete to a reader contains exactly the number of bytes declared at creation, and no reader ever gets more than that. (The per-handle counter makes this false when a producer is cloned and both handles write.)", "quantifier": "every interleaving of operations on all handles of a frame", "why_tests_cant": "The counter lives in the handle and not in the shared state; only interleavings with clones exhibit a difference.", "anchors": ["rs/moq/src/model/frame.rs: FrameProducer::write, finish, Clone"]}
{"id": "C20", "title": "An unfinished frame is never delivered as complete", "statement": "If a frame is aborted, or all its producers are dropped before finish, then reading the whole frame fails with the abort error (or Cancel), and chunk-wise reading returns the remaining written chunks and then that error; neither ever reports a clean end.", "quantifier": "every interleaving and every point at which the producer disappears", "why_tests_cant": "Every crash point of the writer matters.", "anchors": ["rs/moq/src/model/frame.rs: FrameConsumer::read, read_all, FrameProducer::abort"]}
{"id": "C21", "title": "Reading whole frames is cancel-safe", "statement": "Cancelling a pending whole-frame read any number of times, at any point, loses no data: the sequence of frames later returned by the group reader is the sequence of frames of the group, each exactly once and whole, however reads of whole frames, of frame handles and cancellations are mixed.", "quantifier": "every interleaving of polls, cancellations and producer operations", "why_tests_cant": "Cancellation can happen at every await point in every schedule.", "anchors": ["rs/moq/src/model/group.rs: GroupConsumer::read_frame, next_frame", "rs/moq/src/model/frame.rs: FrameConsumer::read_all"]}
{"id": "C22", "title": "A group's readers get every frame in order", "statement": "Each reader of a group, whenever created or cloned, gets the frames appended to the group in order, each exactly once, from its starting position, and sees the end (or the abort error, or Cancel when all producers are gone) only after every appended frame was returned.", "quantifier": "every interleaving of appends, reads, clones, finish, abort and drops", "why_tests_cant": "Schedules are unbounded.", "anchors": ["rs/moq/src/model/group.rs: GroupProducer, GroupConsumer"]}
{"id": "C23", "title": "A track reader sees strictly increasing groups", "statement": "The groups returned to one track reader have strictly increasing sequence numbers, each was accepted by the track, and no group is returned twice; a cloned reader never goes back either.", "quantifier": "every interleaving of producers and readers", "why_tests_cant": "Monotonicity must hold for every schedule.", "anchors": ["rs/moq/src/model/track.rs: TrackProducer::insert_group, TrackConsumer::next_group"]}
{"id": "C24", "title": "A track accepts exactly the newer groups", "statement": "Offering a group to an open track is accepted if and only if its sequence number is larger than that of every group accepted before; a refused group changes nothing that readers can observe.", "quantifier": "every history of offered sequence numbers", "why_tests_cant": "The accept decision is a function of the whole history.", "anchors": ["rs/moq/src/model/track.rs: TrackProducer::insert_group, create_group"]}
{"id": "C25", "title": "Appending groups numbers them consecutively", "statement": "Appending a group gives it sequence 0 on an empty track and otherwise one more than the largest sequence so far, and it is always accepted on an open track. (The two locks taken by append_group make this false for two producers appending concurrently: the slower one panics.)", "quantifier": "every history, every interleaving of several producers", "why_tests_cant": "The race window lies between two lock acquisitions.", "anchors": ["rs/moq/src/model/track.rs: TrackProducer::append_group"]}
{"id": "C26", "title": "A track reader is never served a stale group", "statement": "When a track reader obtains a group it is the newest group accepted so far, and whenever a group newer than the reader's last one exists on an open track, the reader does not block.", "quantifier": "every interleaving", "why_tests_cant": "Both halves quantify over schedules.", "anchors": ["rs/moq/src/model/track.rs: TrackConsumer::next_group"]}
{"id": "C27", "title": "The end of a track does not hide its last group", "statement": "When a track is finished cleanly, every reader obtains the last group before it sees the end of the track. (False: the closed flag is examined first, so a reader that was not scheduled between the last group and the finish never sees that group.)", "quantifier": "every interleaving of insert, finish and read", "why_tests_cant": "It depends on the scheduling of the reader relative to finish.", "anchors": ["rs/moq/src/model/track.rs: TrackConsumer::next_group, TrackProducer::finish"]}
{"id": "C28", "title": "The end of a track reaches every reader", "statement": "Once a track is finished or aborted, or all its producers are dropped, every reader's next read returns promptly: None after a finish, the error after an abort, Cancel when the producers are gone and nothing newer is available; and the closed notification resolves with the same result.", "quantifier": "every interleaving", "why_tests_cant": "Needs all schedules and all points at which the producers go away.", "anchors": ["rs/moq/src/model/track.rs: next_group, closed, finish, abort"]}
{"id": "C29", "title": "Subscriptions to one track are shared", "statement": "While a track with a given name is available in a broadcast, every subscription to that name returns the same track, and only the first one makes a request to the producer: at most one request is outstanding or being served per name.", "quantifier": "every interleaving of subscriptions, requests, inserts, closes and cleanups", "why_tests_cant": "Deduplication must survive all interleavings with asynchronous cleanup.", "anchors": ["rs/moq/src/model/broadcast.rs: BroadcastConsumer::subscribe, BroadcastProducer::request, cleanup"]}
{"id": "C30", "title": "Closing a track never unpublishes its successor", "statement": "When a track closes, the delayed cleanup removes that track from the broadcast and nothing else: a different track inserted under the same name in the meantime stays available.", "quantifier": "every interleaving of inserts, closes and delayed cleanups", "why_tests_cant": "The bug class is a race between cleanup and replacement.", "anchors": ["rs/moq/src/model/broadcast.rs: BroadcastProducer::insert, cleanup"]}
{"id": "C31", "title": "Every requested track is answered or cancelled", "statement": "Every track created by a subscription is handed to exactly one request call, or is still queued while a producer is alive, or has been closed with Cancel; in particular once the last producer is dropped no subscriber waits on a track that nobody holds.", "quantifier": "every interleaving of subscribe, request, clone and drop, including a drop that is interleaved with subscriptions", "why_tests_cant": "The dangerous schedules are those in which subscriptions interleave with the steps of the drop.", "anchors": ["rs/moq/src/model/broadcast.rs: BroadcastConsumer::subscribe, BroadcastProducer::request, Drop, Clone"]}
{"id": "C32", "title": "Broadcast cleanup runs exactly when the last producer goes away", "statement": "For any sequence of clones and drops of producer handles, the clean-up (closing the request queue, cancelling queued tracks, clearing published tracks) runs exactly once, at the drop of the last live handle.", "quantifier": "every sequence of clones and drops", "why_tests_cant": "A counter that starts at zero is off by one in half the imaginable implementations; needs every sequence.", "anchors": ["rs/moq/src/model/broadcast.rs: Clone, Drop for BroadcastProducer"]}
{"id": "C33", "title": "Broadcast closure is observed exactly", "statement": "A broadcast consumer's closed notification is ready if and only if finish was called or every producer handle is gone; the producer's unused notification is ready if and only if no consumer handle is alive.", "quantifier": "every sequence of handle operations", "why_tests_cant": "Equivalence over all histories.", "anchors": ["rs/moq/src/model/broadcast.rs: closed, finish, unused"]}
{"id": "C34", "title": "Origin announcements: complete, exactly once, in order", "statement": "A consumer of an origin receives every broadcast that was available when it started and every broadcast published later whose path matches its prefix, each exactly once, with later ones in publication order.", "quantifier": "every interleaving of publishes, closes, new consumers, dropped consumers and reads", "why_tests_cant": "Other consumers being dropped reshuffles the internal list during publication; all interleavings matter.", "anchors": ["rs/moq/src/model/origin.rs: ProducerState::publish, consume, subscribe, OriginConsumer::next"]}
{"id": "C35", "title": "Origin announcements respect the prefix", "statement": "Every path delivered to a consumer is the published path with exactly the consumer's prefix removed, and nothing outside the prefix is ever delivered.", "quantifier": "every history, prefix and path", "why_tests_cant": "All strings.", "anchors": ["rs/moq/src/model/origin.rs: ConsumerState::insert, ProducerState::consume"]}
{"id": "C36", "title": "Looking up a path returns the latest live broadcast", "statement": "Looking up a path in an origin returns the broadcast most recently published there as long as it has not closed, and nothing after it has closed and its closure was processed. (False: the closure of an older broadcast at the same path removes the newer one.)", "quantifier": "every interleaving of publishes, closes and delayed clean-ups", "why_tests_cant": "Race between asynchronous removal and re-publication.", "anchors": ["rs/moq/src/model/origin.rs: OriginProducer::publish, consume"]}
{"id": "C37", "title": "Publishing reports whether the path was free", "statement": "publish returns true if and only if no broadcast was available under the path at that moment, as seen by looking it up.", "quantifier": "every history", "why_tests_cant": "Equivalence over all histories.", "anchors": ["rs/moq/src/model/origin.rs: OriginProducer::publish"]}
{"id": "C38", "title": "No lost wake-ups for origin consumers", "statement": "A consumer waiting for announcements with a broadcast queued for it always has a wake-up pending, although wake-ups are coalesced in a one-slot channel; and a waiting consumer is told the end only when all producers are gone and its queue is empty.", "quantifier": "every interleaving of publishes and polls", "why_tests_cant": "Lost wake-ups are schedule-dependent and hang rather than fail.", "anchors": ["rs/moq/src/model/origin.rs: ProducerState::publish, OriginConsumer::next"]}
{"id": "C39", "title": "Cloned origin consumers miss nothing", "statement": "A clone of an origin consumer receives everything still queued for the original and everything published after the clone was made. (False when a publish falls between the two lock acquisitions of clone.)", "quantifier": "every interleaving of clone and publish", "why_tests_cant": "The race window is two lock acquisitions wide.", "anchors": ["rs/moq/src/model/origin.rs: Clone for OriginConsumer"]}
{"id": "C40", "title": "Dropping consumers never affects other consumers", "statement": "While publishing, dead consumers are removed from the origin's list and every live consumer is visited exactly once; live consumers are never removed; waiting for the origin to become unused ends only when no live consumer remains.", "quantifier": "every list of live and dead consumers", "why_tests_cant": "swap_remove while iterating is wrong only for particular patterns of dead entries.", "anchors": ["rs/moq/src/model/origin.rs: ProducerState::publish, unused_inner"]}
{"id": "C41", "title": "Re-publishing under a prefix restores full paths", "statement": "Consuming an origin with a prefix and publishing the result into another origin under some prefix makes exactly the matching broadcasts available there, with the first prefix replaced by the second; with equal prefixes the paths are unchanged.", "quantifier": "every path and prefix, every history", "why_tests_cant": "All strings and all histories.", "anchors": ["rs/moq/src/model/origin.rs: consume_prefix, publish_prefix"]}
{"id": "C42", "title": "The announce stream is a well-formed history", "statement": "On an announce stream every Ended message is preceded by an unmatched Active message with the same suffix, no suffix is announced Active twice without Ended in between, and a cleanly finished stream leaves nothing announced. Before the announcements end, a suffix is unannounced only when a broadcast announced under it was closed, and then it can be unannounced at once. (False when a path is published again before its predecessor was unannounced.)", "quantifier": "every interleaving of publishes, closes and stream reads", "why_tests_cant": "Depends on the schedule between closing and re-publishing.", "anchors": ["rs/moq/src/session/publisher.rs: Publisher::run_announce"]}
{"id": "C43", "title": "The announce receiver mirrors the sender", "statement": "For a well-formed announce stream, the receiver's set of live broadcasts after any prefix of messages is exactly the set of suffixes announced and not ended, and no error is raised; a malformed stream is rejected with Duplicate or NotFound at the first bad message, and the receiver reports success exactly when the stream ended cleanly. (The asynchronous removal makes re-announcing a just-ended suffix fail spuriously.)", "quantifier": "every message sequence, every schedule of clean-up tasks", "why_tests_cant": "All sequences and schedules.", "anchors": ["rs/moq/src/session/subscriber.rs: Subscriber::run_broadcasts"]}
{"id": "C44", "title": "Consuming a prefix of a remote delivers the remote's matching broadcasts", "statement": "A consumer of a session's broadcasts under a prefix receives exactly the remote broadcasts whose path has that prefix, with the prefix stripped, and subscribing to a track of one of them asks the remote for the full path. (False for non-empty prefixes: the already stripped suffix is filtered by the prefix again, and the subscription carries only the suffix.)", "quantifier": "every prefix and every set of announced paths", "why_tests_cant": "Tests use the empty prefix.", "anchors": ["rs/moq/src/session/subscriber.rs: consume_prefix, run_broadcasts, run_broadcast, run_subscribe", "rs/moq/src/session/publisher.rs: run_announce, run_subscribe"]}
{"id": "C45", "title": "Groups cross the network unchanged", "statement": "A group written by a publisher, in whatever chunks, served over a stream, split into whatever reads, is received as a group with the same subscription id and sequence number, the same frames with the same bytes in the same order, and is finished. A finished group is always served to its end, and a stream that has ended is always read to its end.", "quantifier": "every group content, every chunking on both sides", "why_tests_cant": "Unbounded data and splits.", "anchors": ["rs/moq/src/session/publisher.rs: serve_group", "rs/moq/src/session/subscriber.rs: recv_group, run_group, run_frame"]}
{"id": "C46", "title": "A broken group transfer is never mistaken for a complete one", "statement": "If the stream carrying a group is reset at any byte, or the publisher's group or one of its frames is aborted, the receiver gets a prefix of the frames, each complete frame with exactly its bytes, and then an error: never a clean end, and never a frame with missing or extra bytes presented as complete.", "quantifier": "every cut point, every split, every abort point", "why_tests_cant": "Every byte offset of every stream.", "anchors": ["rs/moq/src/session/publisher.rs: serve_group, run_track", "rs/moq/src/session/writer.rs: Drop", "rs/moq/src/session/subscriber.rs: run_group, run_frame"]}
{"id": "C47", "title": "Frame payloads respect the declared size on receipt", "statement": "When receiving, the payload written to a frame never exceeds its declared size whatever the peer sends, bytes after the payload are interpreted as the next frame header, and a stream finished inside a payload yields WrongSize; a failed stream aborts the group with Cancel, a malformed header with the error of the decoder.", "quantifier": "every byte stream from a possibly hostile peer", "why_tests_cant": "Arbitrary hostile input.", "anchors": ["rs/moq/src/session/subscriber.rs: run_frame, run_group"]}
{"id": "C48", "title": "Groups are routed to the right subscription", "statement": "Subscription ids are never reused within a session; an incoming group is delivered to the track subscribed under its id and to no other; a group with an unknown id is refused with Cancel and one that is not newer than the latest is refused with Old, changing nothing.", "quantifier": "every interleaving of subscriptions, unsubscriptions and incoming groups", "why_tests_cant": "All interleavings of several subscriptions.", "anchors": ["rs/moq/src/session/subscriber.rs: run_broadcast, run_subscribe, recv_group"]}
{"id": "C49", "title": "Receiving groups never crashes the session", "statement": "No interleaving of incoming group streams with the end of a subscription makes the receiving task panic. (False: between closing the track and removing its id a group for that id trips an assertion.)", "quantifier": "every interleaving", "why_tests_cant": "A race between two tasks.", "anchors": ["rs/moq/src/session/subscriber.rs: run_broadcast, run_subscribe, recv_group", "rs/moq/src/model/track.rs: insert_group"]}
{"id": "C50", "title": "At most two groups are in flight per subscription", "statement": "A publisher serves at most two groups of a subscription at the same time, and the newest one it has started is in flight until it completes; as long as the subscription lasts, a group is cancelled only when a group two newer has started or a newer one completed; the serve loop ends cleanly only when the track has finished and every group in flight is done, and with exactly the error of the track otherwise.", "quantifier": "every interleaving of new groups and completions", "why_tests_cant": "All schedules of arrivals and completions.", "anchors": ["rs/moq/src/session/publisher.rs: Publisher::run_track"]}
{"id": "C51", "title": "Subscribing to something unknown fails and has no effect", "statement": "A subscribe request for a path that is not published is answered by resetting the stream without an acknowledgement and leaves all broadcasts unchanged; for a published path the acknowledgement carries the priority of the track it was matched to.", "quantifier": "every state and request", "why_tests_cant": "All states.", "anchors": ["rs/moq/src/session/publisher.rs: recv_subscribe, run_subscribe"]}
{"id": "C52", "title": "Relay authorisation decision is exact", "statement": "A connection is authorised exactly when either no key applies to the URL's directory and no token is given, or a key applies and the URL carries a token that this key verifies; the granted path is then the URL path, or the directory followed by the token's path.", "quantifier": "every URL path, key configuration and token", "why_tests_cant": "Security decision over all URLs and configurations.", "anchors": ["rs/moq-relay/src/auth.rs: Auth::validate", "rs/moq-relay/src/auth.rs: Auth::new"]}
{"id": "C53", "title": "Relay authorisation never crashes", "statement": "No URL makes the authorisation check panic. (False: a .jwt URL on a relay without an applicable key panics.)", "quantifier": "every URL path and configuration", "why_tests_cant": "The panicking inputs are unusual combinations.", "anchors": ["rs/moq-relay/src/auth.rs: Auth::validate"]}
{"id": "C54", "title": "A protected directory cannot be entered without a token", "statement": "If a key is configured for a directory, no connection without a token verified by that key can publish or subscribe to broadcasts inside the directory. (False: keys are looked up by the exact directory of the URL, so parents and children of the directory bypass it.)", "quantifier": "every URL path and configuration", "why_tests_cant": "Needs every URL that could reach the same paths.", "anchors": ["rs/moq-relay/src/auth.rs: Auth::validate", "rs/moq-relay/src/connection.rs: Connection::run"]}
{"id": "C55", "title": "Relay sessions are confined to their grant", "statement": "Everything a session publishes becomes visible under its granted path followed by its publish prefix and nowhere else; everything it is shown or can subscribe to lies under its granted path followed by its subscribe prefix; without a publish (subscribe) grant it can publish (see) nothing.", "quantifier": "every token, every announced path, every history", "why_tests_cant": "All strings and histories.", "anchors": ["rs/moq-relay/src/connection.rs: Connection::run, subscribe, publish"]}
{"id": "C56", "title": "Cluster lookups prefer local broadcasts", "statement": "Looking up a broadcast in a relay returns the local one if there is one, otherwise the one learnt from the cluster, otherwise none; a relay never connects to itself, connects to every other relay announced to it, announces itself where the others look, and presents its token in a way that others accept.", "quantifier": "every state", "why_tests_cant": "All states.", "anchors": ["rs/moq-relay/src/cluster.rs: Cluster::get, run"]}
{"id": "C57", "title": "Token keys only do what they are allowed to", "statement": "Verification and signing succeed only with a key whose operations include them; a token is accepted only if its header names the key's algorithm, its signature is that of the key, and it did not expire more than a minute ago (the leeway of the JWT library); a signed token verifies with the same key and yields the same claims, with times rounded to whole seconds; generated secrets have the size of the hash.", "quantifier": "every key, every payload, every time", "why_tests_cant": "All payloads.", "anchors": ["rs/moq-token/src/key.rs: Key::sign, Key::verify", "rs/moq-token/src/payload.rs"]}
{"id": "C58", "title": "Media frames round-trip through a track", "statement": "A media frame written to a track is read back with the same microsecond timestamp and payload; its keyframe flag is true exactly for the first frame of a group.", "quantifier": "every sequence of media frames", "why_tests_cant": "Unbounded sequences and payloads.", "anchors": ["rs/hang/src/model/track.rs: TrackProducer::write, TrackConsumer::read", "rs/hang/src/model/group.rs: GroupConsumer::read_frame", "rs/hang/src/model/frame.rs"]}
{"id": "C59", "title": "Media groups start at keyframes", "statement": "Writing a sequence of media frames produces groups such that every keyframe starts a new group, every other frame is appended to the current group, earlier groups are finished, and group sequence numbers increase by one.", "quantifier": "every sequence of media frames", "why_tests_cant": "All sequences.", "anchors": ["rs/hang/src/model/track.rs: TrackProducer::write"]}
{"id": "C60", "title": "Media reading preserves order", "statement": "The frames returned by a media track reader come from groups in non-decreasing sequence order and in their order within each group, without duplicates, and a reader skips only groups older than one it has moved on to.", "quantifier": "every interleaving of frame arrivals and reads", "why_tests_cant": "Select order and latency-based skipping create unboundedly many schedules.", "anchors": ["rs/hang/src/model/track.rs: TrackConsumer::read", "rs/hang/src/model/group.rs: buffer_frames_until"]}
{"id": "C61", "title": "Waiting for buffered media makes progress", "statement": "Buffering a group's frames until a cutoff timestamp stops after reading each available frame once. (False: it re-reads the frames it buffered itself and spins.)", "quantifier": "every group content and cutoff", "why_tests_cant": "Non-termination is not testable.", "anchors": ["rs/hang/src/model/group.rs: GroupConsumer::buffer_frames_until"]}
{"id": "C62", "title": "VP9 codec strings round-trip", "statement": "Formatting a VP9 configuration and parsing the result returns the same configuration, and every accepted string is either the short or the long form.", "quantifier": "every configuration", "why_tests_cant": "All field combinations, including default elision.", "anchors": ["rs/hang/src/catalog/video/vp9.rs"]}
{"id": "C63", "title": "AV1 codec strings round-trip", "statement": "Formatting an AV1 configuration within the standard's ranges and parsing the result returns the same configuration. (Out-of-range field values that the type admits do not round-trip.)", "quantifier": "every configuration", "why_tests_cant": "All field combinations, including default elision.", "anchors": ["rs/hang/src/catalog/video/av1.rs"]}
{"id": "C64", "title": "H.264 codec strings round-trip", "statement": "Formatting an H.264 configuration and parsing the result returns the same configuration, and parsing never panics. (The latter is false for multi-byte input of the right length.)", "quantifier": "every configuration, every string", "why_tests_cant": "Arbitrary strings.", "anchors": ["rs/hang/src/catalog/video/h264.rs"]}
{"id": "C65", "title": "H.265 codec strings round-trip", "statement": "Formatting an H.265 configuration and parsing the result returns the same configuration. (False for several configurations because hex bytes are not padded and empty fields are dropped.)", "quantifier": "every configuration", "why_tests_cant": "All 2^32 compatibility flag values.", "anchors": ["rs/hang/src/catalog/video/h265.rs"]}
{"id": "C66", "title": "AAC codec strings and codec dispatch round-trip", "statement": "Formatting any audio or video codec and parsing the result returns the same codec, in particular every profile of AAC; unknown codec strings are preserved verbatim.", "quantifier": "every codec value", "why_tests_cant": "All strings.", "anchors": ["rs/hang/src/catalog/audio/*.rs", "rs/hang/src/catalog/video/mod.rs"]}
{"id": "C67", "title": "Media import does not depend on how its input is cut", "statement": "Feeding a fragmented MP4 stream to the importer in pieces produces the same result as feeding it at once, whatever the pieces.", "quantifier": "every input, every split", "why_tests_cant": "Exponential number of splits.", "anchors": ["rs/hang/src/cmaf/import.rs: Import::parse"]}
{"id": "C68", "title": "Imported samples partition the media data", "statement": "The frames extracted from a media fragment are consecutive, non-overlapping slices of its data with the sizes, the timestamps and the keyframe marks that the fragment lists (for audio: a keyframe after every keyframe of video and at least every ten seconds), and a fragment whose sizes exceed its data is rejected instead of read out of bounds.", "quantifier": "every fragment", "why_tests_cant": "Arbitrary hostile input.", "anchors": ["rs/hang/src/cmaf/import.rs: Import::extract"]}
{"id": "C69", "title": "The catalog lists exactly the live tracks", "statement": "At every moment the published catalog lists exactly the tracks that were added and have not been closed (or removed), in order of addition; every change publishes a new catalog group containing the full catalog.", "quantifier": "every interleaving of adds and closes", "why_tests_cant": "All interleavings.", "anchors": ["rs/hang/src/model/broadcast.rs", "rs/hang/src/catalog/root.rs"]}
{"id": "C70", "title": "A failed media group does not block the groups after it", "statement": "When a group of a media track fails, the media reader reports the failure and then goes on with the following groups. (False: the failed group stays the current one and every later read fails.)", "quantifier": "every execution in which the group being read fails", "why_tests_cant": "Needs all continuations of an execution: the reader never recovers.", "anchors": ["rs/hang/src/model/track.rs: TrackConsumer::read"]}
{"id": "C71", "title": "The decoders accept exactly the wire format", "statement": "For every kind of protocol message there is one wire format (field order, integer and string encodings, discriminants, no extension kind twice). A decoder returns a message exactly if the input starts with that message in the format, and leaves what follows; everything the encoders write is in the format.", "quantifier": "every kind of message, every byte string", "why_tests_cant": "All byte strings; hostile input that is almost valid.", "anchors": ["rs/moq/src/message/*.rs", "rs/moq/src/coding/decode.rs", "rs/moq/src/coding/varint.rs"]}
{"id": "C72", "title": "Extensions can be set and read back", "statement": "Setting an extension in a setup message and reading it returns the value that was set, leaves the other extensions unchanged and never makes a kind occur twice; an extension that was not set is reported as absent.", "quantifier": "every extension map, kind and value", "why_tests_cant": "All maps and values.", "anchors": ["rs/moq/src/message/extensions.rs: Extensions::get, Extensions::set"]}
{"id": "C73", "title": "Unused notifications are exact", "statement": "The unused() future of a frame, group or track producer is ready exactly when no consumer handle of it exists, counting clones and consumers made at any time.", "quantifier": "every history of operations on any number of handles", "why_tests_cant": "All interleavings of creating, cloning and dropping handles.", "anchors": ["rs/moq/src/model/frame.rs: FrameProducer::unused", "rs/moq/src/model/group.rs: GroupProducer::unused", "rs/moq/src/model/track.rs: TrackProducer::unused"]}
{"id": "C74", "title": "insert replaces a track and says whether the name was free", "statement": "BroadcastProducer::insert returns true exactly if a subscription to the name at that moment would have made a new track (nothing was published or requested under it); afterwards a subscription to the name returns the inserted track, whatever was there before.", "quantifier": "every history of a broadcast", "why_tests_cant": "All states a broadcast can be in, including pending requests under the same name.", "anchors": ["rs/moq/src/model/broadcast.rs: BroadcastProducer::insert"]}
{"id": "C75", "title": "HTTP response bodies carry the frames whole and in order", "statement": "The body of a /fetch response consists of the frames of the group, each whole, in order and without gaps, for every interleaving of the writer of the group with the polls of the body; it ends without an error only after all frames of a finished group, and with the error of the group or frame otherwise.", "quantifier": "every history of a group and every schedule of polls", "why_tests_cant": "All interleavings of writers and polls; the body keeps a half-read frame between polls.", "anchors": ["rs/moq-relay/src/web.rs: ServeGroup::poll_frame"]}
{"id": "C76", "title": "A waiting HTTP response is woken", "statement": "If the body of a /fetch response had to wait, it is woken when the group gets further, so a client gets everything that is written to the group. (False: the future that would be woken is dropped at every poll.)", "quantifier": "every history in which a poll of the body had to wait", "why_tests_cant": "Liveness: a test sees a hang only as a timeout, and it depends on the schedule.", "anchors": ["rs/moq-relay/src/web.rs: ServeGroup::poll_frame"]}
{"id": "C77", "title": "The HTTP listing is complete and sound", "statement": "The response to /announced lists every broadcast below the prefix that was available when the request came, and nothing that was not available then or published since; nothing twice if nothing is published meanwhile; it never waits. The lines of the response are exactly these paths. (The last part is false for paths with a line break, and for a broadcast exactly at the prefix.)", "quantifier": "every history of the origins, concurrent with the request", "why_tests_cant": "Concurrency of the listing with publishers; all paths.", "anchors": ["rs/moq-relay/src/web.rs: serve_announced"]}
{"id": "C78", "title": "HTTP fetches find the right track", "statement": "A /fetch path is refused as malformed exactly if it has a single piece; otherwise the last piece is the track and everything before it the broadcast, and the response is the first group of that track of the broadcast available locally, else remotely, under the path, and not found if there is none.", "quantifier": "every path and all states of both origins", "why_tests_cant": "All paths, with any number of separators, empty pieces included.", "anchors": ["rs/moq-relay/src/web.rs: serve_fetch", "rs/moq-relay/src/cluster.rs: Cluster::get"]}
{"id": "C79", "title": "Protected broadcasts are only handed out with a token", "statement": "If the configuration requires a token for a path, broadcasts below it are only shown to those who present a token valid for it, on every way of access. (False: the HTTP requests of the relay check nothing.)", "quantifier": "every configuration, request and state", "why_tests_cant": "A statement about all ways of access; tests check one at a time.", "anchors": ["rs/moq-relay/src/auth.rs: Auth::validate", "rs/moq-relay/src/web.rs: serve_announced, serve_fetch"]}
{"id": "C80", "title": "Clients connect only to servers they have checked", "statement": "Client::connect returns a session or an error for every http, https and moql URL and an error for every other; it returns a session only after the server presented a certificate that passed the configured check, or for an http URL one whose SHA-256 is the fingerprint fetched from it; client and server agree on the protocol. (False for moql: every successful connection to a moql URL ends in a panic.)", "quantifier": "every URL, configuration, and behaviour of network and server", "why_tests_cant": "All URLs and server behaviours; the moql path needs a live QUIC server, and no test runs it.", "anchors": ["rs/moq-native/src/client.rs: Client::connect, FingerprintVerifier", "rs/moq-native/src/server.rs: Server::accept_session"]}
{"id": "C81", "title": "Servers present the right certificate", "statement": "For a requested host name the server presents the first of its certificates valid for that name, and its first one if there is no name or no certificate is valid for it; never anything else, and nothing only if it has none. The choice never panics. (False for a configured certificate that cannot be parsed: it is loaded, and a connection panics.)", "quantifier": "every list of certificates and every requested name", "why_tests_cant": "All lists and names, including certificates that are not well-formed.", "anchors": ["rs/moq-native/src/server.rs: ServeCerts::resolve, best_certificate, load"]}
{"id": "C82", "title": "A relay is recognised by its fingerprint", "statement": "A client with an http URL recognises the relay it leads to: the fingerprint that the relay serves is that of the certificate it presents, and it is read back from its text. (False for a relay with several certificates: only the fingerprint of the first is served, and clients asking for another name refuse the relay.)", "quantifier": "every list of certificates, requested name and hash function", "why_tests_cant": "Needs several certificates and several host names; all fingerprints.", "anchors": ["rs/moq-native/src/client.rs: Client::connect", "rs/moq-native/src/server.rs: ServeCerts::fingerprints, resolve", "rs/moq-relay/src/web.rs: Web::new"]}
{"id": "C83", "title": "Arguments with two parts are split at the first separator", "statement": "An argument of --tls-cert is accepted exactly if it has a colon, and is split at the first into chain and key; an argument of --auth-path is accepted exactly if it is empty or has an equals sign, and is split at the first into path and key file, giving a table with that entry.", "quantifier": "every text", "why_tests_cant": "All texts, with any number of separators.", "anchors": ["rs/moq-native/src/server.rs: ServerTlsCert::parse", "rs/moq-relay/src/auth.rs: parse_key_val"]}
{"id": "C84", "title": "Readers have the current catalog", "statement": "A reader of a catalog track returns the catalogs published in order, each at most once and as published; an invalid one is an error once and does not keep later ones from being returned; whenever the reader waits it has returned the newest catalog that is there; and when it says that the track has ended, it has returned the last one. (The last part is false: at the end of the track the last catalog may be skipped.)", "quantifier": "every history of publisher and reader, every order in which the ready branches of the select are taken", "why_tests_cant": "Depends on the random order of select and on the interleaving with the publisher.", "anchors": ["rs/hang/src/catalog/root.rs: CatalogConsumer::next"]}
{"id": "C85", "title": "Locations arrive as sent, and the newest one is read", "statement": "A position is read from a frame exactly if the frame has 12 bytes, and then as it was written; a reader returns positions in order, those of the groups of the track; whenever it waits, it has returned the newest position that is there; the position a producer calls its latest is the one published last. (False: a group without a frame keeps all newer ones from being read; a dropped future loses a position; overlapping updates of clones.)", "quantifier": "every position, every frame, every history of producers and reader", "why_tests_cant": "All bit patterns of floats; interleavings of clones; a stalled group.", "anchors": ["rs/hang/src/model/location.rs: LocationProducer::update, latest, LocationConsumer::next", "rs/hang/src/model/location.rs: Position"]}
{"id": "C86", "title": "A room shows everyone else", "statement": "Watching a room returns every broadcast announced in it except the own ones: a name published through the room is hidden as long as its broadcast lives, other names never are, and the name is free again once the end of the broadcast was noticed. (False: publishing a name again makes the own broadcast appear when the old one ends; an echo after the end appears; a broadcast of another under the same name is hidden.)", "quantifier": "every sequence of publications, ends and announcements, in every order of the tasks", "why_tests_cant": "Depends on the order of the tasks and of the echoes from the network.", "anchors": ["rs/hang/src/model/room.rs: Room::publish, Room::watch"]}
{"id": "C87", "title": "A session ends for a cause, and the peer is told", "statement": "An established session goes on whatever the peer sends on the session stream and whatever streams it opens; it ends only if it is closed, its session stream ends or is reset, or the connection is lost, and then the task does end; the peer is told the code and text of that cause, once; every stream the peer opens is handled once, in order, on its own. Updates on the session stream are read as sent, and a failed handshake is reported with its code. (The last sentence is false: updates are decoded as another type, and every failed handshake is reported as cancelled.)", "quantifier": "every sequence of bytes, streams, ends and polls, in every order of the branches of the select", "why_tests_cant": "All interleavings of the three loops with the peer and with local closing; arbitrary streams.", "anchors": ["rs/moq/src/session/mod.rs: Session::new, run_session, run_bi, run_uni, close", "rs/moq/src/session/writer.rs: Drop for Writer"]}
{"id": "C88", "title": "The relay gives every connection its due", "statement": "Handshakes begin in the order of arrival and do not wait for each other; each connection is dropped if its handshake fails, otherwise admitted with the token of its own URL or closed as unauthorised, exactly as the check of its URL says, and once; admitted connections are numbered from 0; and the relay runs until it is stopped, whatever connections arrive. (The last part is false: a URL that makes the check panic ends the relay for all.)", "quantifier": "every sequence of connections, handshake results and polls; every configuration of keys", "why_tests_cant": "All interleavings of handshakes; arbitrary URLs of other clients.", "anchors": ["rs/moq-relay/src/main.rs: main", "rs/moq-native/src/server.rs: Server::accept"]}
{"id": "C89", "title": "A track crosses any number of relays", "statement": "Every copy of a track, over any number of relays, has groups of the origin only, in the order of the origin and each at most once, and so has everyone who reads it; a group that arrives has the number of the original, its frames in order with the declared sizes and prefixes of the bytes, a finished frame has exactly the bytes, and a finished group is complete; and a reader is not cut off from the newest group: when everything on the way is at rest, the reader has it or is given it next, also when the track has ended. (The last clause is false: the end of a subscription can overtake its last group.)", "quantifier": "every tree of subscriptions, every interleaving of publishers, relays, readers and arriving streams, in every order", "why_tests_cant": "Unboundedly many relays and reordered streams; the failure at the end depends on the order of two streams.", "anchors": ["rs/moq/src/session/publisher.rs: run_subscribe, run_track, serve_group", "rs/moq/src/session/subscriber.rs: run_subscribe, recv_group, run_group", "rs/moq/src/model/track.rs", "rs/moq/src/model/broadcast.rs: BroadcastConsumer::subscribe"]}
{"id": "C90", "title": "Browsers and native peers understand each other", "statement": "Every message, frame and stream opening the browser writes is read by a Rust peer as the message that means the same, and vice versa, whatever follows it and however it is cut; the browser's encoders throw exactly if a number or a length exceeds 2^53 - 1; the handshake between a browser and a Rust server succeeds, and the browser refuses every other version. (False: a priority of 64 or more is written differently on both sides, which starves the browser or makes the Rust peer reject the stream; a leading U+FEFF of a path is lost; numbers from 2^53 on are not read; the browser accepts announcements with an unknown status and text that is not UTF-8.) Group headers, session updates and setup messages the browser accepts are exactly ones a Rust peer accepts, with the same meaning.", "quantifier": "every message of every kind, every suffix, every way of cutting the stream", "why_tests_cant": "All texts, numbers and boundaries between integer sizes, across two languages; tests run one implementation against itself.", "anchors": ["js/moq/src/wire: announce.ts, group.ts, session.ts, stream.ts, subscribe.ts", "js/moq/src/connection.ts: connect", "rs/moq/src/message", "rs/moq/src/session/mod.rs: accept"]}
{"id": "C91", "title": "The browser's reader does not depend on the pieces", "statement": "What a read of a message or frame in the browser returns, throws or waits for depends only on the bytes of the stream and its end; reading until the end returns exactly the items sent, in order, then the end if the stream was finished there, an exception if it was finished inside an item or failed, and otherwise waits. The end is reported only at the end.", "quantifier": "every sequence of items, every cut into non-empty pieces, every end", "why_tests_cant": "Unboundedly many ways to cut a stream.", "anchors": ["js/moq/src/wire/stream.ts: Reader", "js/moq/src/wire/announce.ts: decode_maybe", "js/moq/src/subscriber.ts: runGroup"]}
{"id": "C92", "title": "The browser handles every stream of its peer", "statement": "Every stream the peer opens is handed to its handler with its own first message and the rest of its own bytes, in the order of opening and once; and a stream whose first message is invalid or does not arrive does not keep other streams from being handled. (The last part is false: the accept loops read the first message before they accept another stream, so one bad stream, or a native subscription with priority 64 or more, blocks all later ones for ever.)", "quantifier": "every list of streams, cut in every way, with every end", "why_tests_cant": "Arbitrary streams of a peer, with bad ones at any place between good ones.", "anchors": ["js/moq/src/connection.ts: #runBidis, #runUnis", "js/moq/src/wire/stream.ts: Stream.accept, Reader.accept"]}
{"id": "C93", "title": "Groups in the browser", "statement": "Every reader of a group is given its frames in order from the first one, each once and none left out; a frame that is there is returned at once, also after the group has ended; the end, or the exception of an aborted group, is reported only after all frames, except to a reader that was itself closed; a call that waits has been given everything and nothing has ended, and once it can continue it returns. Frames are taken exactly until the group is closed or aborted.", "quantifier": "every sequence of writes, ends, readers and reads, every order in which the continuations run", "why_tests_cant": "All interleavings of promises; closing a reader may overtake a frame.", "anchors": ["js/moq/src/group.ts: GroupProducer, GroupConsumer", "js/moq/src/util/watch.ts: WatchProducer, WatchConsumer.when"]}
{"id": "C94", "title": "Tracks in the browser", "statement": "A track takes groups with increasing numbers; every reader is given groups of the track, in order and each at most once; nextFrame returns frames group by group, with the right numbers and bytes and without gaps at the beginning of a group, and at the end of the track it has returned all frames of the last group it came to; a reader that waits has the newest group, and all of its frames if it reads frames; and the end is reported only after the track was closed and the reader has the last group. (The last two are false: of two groups appended at once a waiting reader skips the newer one, and the last group is lost if the track is closed before the reader has asked for the group before it.)", "quantifier": "every sequence of groups, frames, ends, readers and reads, every order in which the continuations run", "why_tests_cant": "The failures depend on how many groups arrive before a continuation runs.", "anchors": ["js/moq/src/track.ts: TrackProducer, TrackConsumer", "js/moq/src/util/watch.ts: WatchConsumer.next"]}
{"id": "C95", "title": "Announcements in the browser", "statement": "Every reader of announcements in the browser is told exactly the announcements whose path begins with its prefix, with the prefix removed, in the order of writing, from the first one on, each once and none left out; one that is there is told at once, also after the queue has ended; the end, or the exception of an aborted queue, is reported only after all of them, except to a reader that was itself closed; a call that waits has been told everything, and an announcement below its prefix wakes it. Announcements are taken exactly until the queue is closed or aborted.", "quantifier": "every sequence of announcements, ends, readers with any prefixes and reads, every order in which the continuations run", "why_tests_cant": "All interleavings of promises; a waiting call can be woken by announcements outside of its prefix any number of times.", "anchors": ["js/moq/src/announced.ts: AnnouncedProducer, AnnouncedConsumer", "js/moq/src/util/watch.ts: WatchConsumer.when", "js/moq/src/subscriber.ts: announced"]}
{"id": "C96", "title": "What the browser publishes is what it announces", "statement": "Every announce stream carries the announcements below its prefix, in order and none left out; the end of a publication is announced exactly when its broadcast is over, and once; a path is served exactly while its last announcement is active; messages about one path alternate between active and ended; and a broadcast is served from its publication until its own end. (The last two are false: publishing a path again announces it as active twice, and the end of the first broadcast takes the second one back.)", "quantifier": "every sequence of publications, ends, interests, lookups and continuations", "why_tests_cant": "Depends on the order of publications and of the continuations of ended ones.", "anchors": ["js/moq/src/publisher.ts: publish, #runPublish, consume, runAnnounce, runSubscribe"]}
{"id": "C97", "title": "The browser knows when nobody listens", "statement": "unused() of a producer in the browser returns exactly if, since the call, there was a moment without an open consumer or the producer was ended; it throws only for an aborted producer, and its result does not change. (False if a consumer is closed twice, which the code itself does: the count then misses an open consumer.)", "quantifier": "every sequence of consumers made and closed, ends and calls of unused", "why_tests_cant": "Consumers are counted by increments and decrements spread over the program.", "anchors": ["js/moq/src/util/watch.ts: WatchProducer.consume, unsubscribe, unused, close, abort; WatchConsumer.close"]}
{"id": "C98", "title": "Subscriptions of the browser", "statement": "The browser sends SUBSCRIBE messages with the ids 0, 1, 2 and so on; consumers of one track of one path share one subscription, and a new one is made exactly if there is none that is still cached; a group goes to the track of its id exactly while the subscription runs; readers are told of the end, and of a failure exactly if the peer ended it with one; and the browser unsubscribes once all consumers of a track are closed, and not before. (The last part is false: the cached consumer counts, so the browser never unsubscribes and never forgets a broadcast; closing consumers several times ends a subscription others read. Readers of a subscription whose stream cannot be opened are never told.)", "quantifier": "every sequence of consumers made, cloned and closed, answers, ends and failures", "why_tests_cant": "The claim is about what never happens, in executions of any length.", "anchors": ["js/moq/src/subscriber.ts: consume, #runSubscribe, runGroup", "js/moq/src/broadcast.ts: BroadcastProducer, BroadcastConsumer"]}
{"id": "C99", "title": "Media frames between browsers and native peers", "statement": "A media frame that the browser encodes is decoded with the same timestamp and payload, by the browser and by the native library, which writes the same bytes for it; whatever native peers write is decoded by the browser; both agree on which bytes are a frame; and a timestamp that cannot be represented is refused. (False for timestamps from 2^53 microseconds on, which the browser rounds to the nearest number, and for negative ones, which are not refused: they are written as one byte and corrupt the frame.)", "quantifier": "every payload and timestamp, and every sequence of bytes", "why_tests_cant": "Depends on the sizes of integers, of which there are 2^62, and on rounding.", "anchors": ["js/hang/src/container/vint.ts: getVint53, setVint53", "js/hang/src/container/frame.ts: encodeFrame, decodeFrame"]}
{"id": "C100", "title": "Media tracks in the browser", "statement": "FrameProducer divides its frames into groups that begin with a keyframe and have no other; it accepts every frame after a keyframe until it is closed and none afterwards; and a FrameConsumer is given, of every group in order, the first frames, each once, with payload, timestamp and the mark of a keyframe as they were encoded. (False for negative timestamps, and after a keyframe was refused for its timestamp: the next frame is then taken for a keyframe.)", "quantifier": "every sequence of frames encoded, consumers made and closed, and calls of decode in between", "why_tests_cant": "Readers and the writer interleave in any order.", "anchors": ["js/hang/src/container/frame.ts: FrameProducer, FrameConsumer", "js/moq/src/track.ts: TrackConsumer.nextFrame"]}
{"id": "C101", "title": "Reconnecting in the browser", "statement": "A hang Connection with a URL that is not closed has an attempt for that URL, a connection, or a timer that makes the next attempt; the delay doubles with every failure up to the maximum, and is reset by a success; at most one connection is open, the established one, for the URL that was set last, and the status says so; and after close there is no attempt and no connection. (Partly false: a connection that ends without an exception is never replaced; if the outcome of an older attempt arrives late, the established connection is forgotten and never closed, also after close; and a timer of an old URL ends the connection of the new one.)", "quantifier": "every sequence of URLs, outcomes of attempts, ends of connections and timers", "why_tests_cant": "Depends on the order in which attempts, their outcomes and timers interleave.", "anchors": ["js/hang/src/connection.ts: Connection", "js/signals/src/index.ts: effect, cleanup, Signals.close"]}
{"id": "C102", "title": "Frames of a video player", "statement": "Of the video frames that the decoder outputs, all but the last two are closed, each exactly once and in order; the renderer gets one of those two, never a closed one, and never an older one than before; it gets nothing exactly if nothing was output since the player was closed; a frame is skipped exactly if it lags by more than the time to the next one, where the lag is that behind the earliest frame so far. (Partly false: a reference of 0 is taken for none; frames that are output after close are kept.)", "quantifier": "every sequence of frames, times and calls of close", "why_tests_cant": "Frames, calls of the renderer and times combine in unboundedly many ways.", "anchors": ["js/hang/src/watch/video.ts: Video.#init, Video.frame, Video.close"]}
{"id": "C103", "title": "When audio samples are played", "statement": "Decoded samples are played at the distance of their timestamps, not in the past and within the maximal latency: late ones are dropped, early ones move the reference and the waiting samples with it; a node plays the sample it was started for, as its buffer is not reused meanwhile; and disabling the player stops all nodes. (Partly false: an offset of 0 is taken for none; if samples are late for good, all are dropped; nodes are missed, and samples that wait are scheduled again, when the player is disabled.)", "quantifier": "every sequence of samples, times and ends of nodes", "why_tests_cant": "Depends on delays, the clock and the order in which nodes end.", "anchors": ["js/hang/src/watch/audio.ts: Audio.#emit, Audio.#createBuffer, Audio.#scheduleBuffer"]}
{"id": "C104", "title": "Serving a subscription in the browser", "statement": "For every group the consumer of the subscription is given, in order, the browser opens one stream. At any time it carries the id of the subscription, the number of the group and a beginning of the sequence of the group's frames, unchanged, and a peer reads exactly that, however the bytes are cut. A stream is finished only after all frames of a closed group and reset only after all frames of an aborted one (or at a frame too large to write); one that was not given up gets there on its own; one that waits carries all frames so far. Serving ends, and the consumer is closed, exactly if the peer unsubscribes, the stream of the subscription fails or the track ends. While serving waits, the newest group has a stream. (Partly false: groups appended at once and the last group before the end are lost; if SUBSCRIBE_OK cannot be written, the consumer is never closed; streams go on after unsubscribing.)", "quantifier": "every sequence of events of the track, the subscription and the streams, in every order", "why_tests_cant": "Groups, frames, streams and the subscription end independently of each other; tests fix one order.", "anchors": ["js/moq/src/publisher.ts: Publisher.runSubscribe, Publisher.#runTrack, Publisher.#runGroup", "js/moq/src/connection.ts: Connection.#runBidis"]}
{"id": "C105", "title": "Receiving a subscription in the browser", "statement": "While a subscription runs, the browser takes exactly the streams whose group is newer than all taken before. At any time a group has the first frames of what arrived on its stream, unchanged; a stream that waits has delivered every complete frame; what arrives is delivered by the stream's own steps. A group is closed only if its stream was finished after a whole number of frames and it has all of them, or a newer group was taken, or the subscription has ended; aborted only if its stream failed, ended inside a frame, announces a frame longer than 2^53-1, or the subscription failed. Readers get only frames that arrived. (Partly false: when the peer finishes the subscription, groups still on the way are closed as if complete, and streams that arrive later are refused.)", "quantifier": "every sequence of streams, pieces of streams, ends and failures, steps of the receiver and of the readers, in every order", "why_tests_cant": "Streams are cut into arbitrary pieces and overtake each other and the end of the subscription; a test sees one order on a fast local network.", "anchors": ["js/moq/src/subscriber.ts: Subscriber.runGroup, Subscriber.#runSubscribe", "js/moq/src/connection.ts: Connection.#runUnis", "js/moq/src/wire/stream.ts: Reader.done"]}
{"id": "C106", "title": "Groups from browser to browser", "statement": "A browser that receives a subscription served by a browser has, under the number of each group, the first of the frames that were published under that number, in order and unchanged; every frame a reader is given is the published one. A group that is seen closed, while it is the newest one and the subscription goes on, was closed by the publisher and is complete. When everything of a finished stream has arrived, the group gets complete and closed. (Partly false: a publisher that closes its track can make the subscriber take an incomplete group for complete.)", "quantifier": "every history of the publisher and of the subscriber whose streams carry to the subscriber a beginning of what the publisher wrote", "why_tests_cant": "It needs two browsers, a network between them, and every way the streams can be cut and delayed.", "anchors": ["js/moq/src/publisher.ts: Publisher.#runTrack, Publisher.#runGroup", "js/moq/src/subscriber.ts: Subscriber.runGroup, Subscriber.#runSubscribe", "js/moq/src/wire/group.ts: Group.encode, Group.decode"]}
{"id": "C107", "title": "Publishing video from the browser", "statement": "Each time video is enabled or gets other media, a new track is published. What the encoder puts out is written to it in order: every group begins with a key frame, has no other, and is closed when the next begins; readers get whole frames in order from the key frame on. The chunks are those of the captured pictures, none of another run. If the clock of the camera does not run backwards, no group is longer than 2 s, and a key frame is requested exactly when 2 s are over. A run that was stopped writes nothing more and its track and groups are ended. Every picture is closed exactly once, and frame() returns one that is open. Video is active exactly while there are pictures. (Partly false: see the note.)", "quantifier": "every sequence of starts, stops, close(), pictures with any timestamps, configurations, chunks, failures of the encoder, ends of the media, and reads of the tracks, in every order, also while an earlier run still waits", "why_tests_cant": "The effects, the reader, the search for a configuration and the encoder run concurrently and share fields; a test sees one order with one camera.", "anchors": ["js/hang/src/publish/video.ts: Video.#runTrack, Video.#runEncoder, Video.#runFrames, Video.frame, Video.close"]}
{"id": "C108", "title": "Publishing audio from the browser", "statement": "When audio is enabled and there is media, a track is published and announced in the catalog. Every chunk that the encoder puts out is written to the track of its run as one frame, in order, with its time; a group spans less than half a second, and the next begins half a second or more after it and closes it. A chunk that is not a key frame is refused and changes nothing. A run that was stopped writes nothing more, and its track and all its groups are ended; after a failure they are aborted. (Partly false: see the note.)", "quantifier": "every sequence of setting and unsetting the signals, starts and stops of runs, close(), chunks with any timestamps and data, failures of the encoder, and reads of the tracks, in every order", "why_tests_cant": "Fields are shared between runs, the timestamps wrap after 35 minutes, and the half-second rule compares timestamps of different contexts; a test sees one run of a few seconds.", "anchors": ["js/hang/src/publish/audio.ts: Audio.#runWorklet, Audio.#runEncoder, Audio.close"]}
{"id": "C109", "title": "Asking for the camera, the microphone and the screen", "statement": "The browser asks for the microphone, the camera or the screen exactly when the application starts to want it or wants it with other constraints, and has at most one request for each. What is granted is published and captured until it is not wanted any more. Whatever is captured is in the signals and comes from the request that is wanted now; when nothing is wanted, and after close(), nothing is captured. (Partly false: see the note.)", "quantifier": "every sequence of changes of device, enabled and constraints, close(), and grants and denials of pending requests, in every order and at any time", "why_tests_cant": "A user may answer a prompt minutes later, after the application has changed its mind any number of times; a test answers at once.", "anchors": ["js/hang/src/publish/broadcast.ts: Broadcast.#runCameraAudio, Broadcast.#runCameraVideo, Broadcast.#runScreen, Broadcast.close"]}
{"id": "C110", "title": "The catalog track in the browser", "statement": "While broadcasting is on, the catalog track of a browser's broadcast has the current catalog in its newest group: one closed group with one frame for each catalog that had to be published, which is when broadcasting is switched on and when a part changes. A reader is given published catalogs only, in order and none twice; when it waits, the last one that it was given is the current one. After close() the track ends. (Partly false: see the note.)", "quantifier": "every sequence of changes of enabled and of the parts of the catalog, close(), and reads by any number of consumers in between, and every encoding of catalogs", "why_tests_cant": "Whether a reader gets the newest catalog depends on where its fetch is when signals change; a test changes one signal and reads at leisure.", "anchors": ["js/hang/src/publish/broadcast.ts: Broadcast.#runCatalog, Broadcast.close", "js/moq/src/track.ts: TrackProducer, TrackConsumer"]}
{"id": "C111", "title": "Watching a broadcast in the browser", "statement": "While watching is enabled and connected, the browser has open just the announcements of the wanted path on the current connection, the broadcast if it is announced there, and one subscription to its catalog; everything else that it opened is closed, and after close() everything is. A broadcast counts as active exactly while the announcements of the wanted path say so. The catalog is the newest one received on the open subscription and the status is then live; it is loading until there is one, and offline without a broadcast. A broadcast that is announced is loaded. (Partly false: see the note.)", "quantifier": "every sequence of changes of enabled, connection and path, close(), announcements, catalogs and ends of tracks, where promises settle and loops continue at any time and in any order, with and without reloading", "why_tests_cant": "Reconnects and changes of the path interleave with announcements and catalogs that are under way; tests of the page see one order.", "anchors": ["js/hang/src/watch/broadcast.ts: Broadcast.#runActive, Broadcast.#runBroadcast, Broadcast.#runCatalog, Broadcast.close"]}
{"id": "C112", "title": "Catalogs between Rust and the browser", "statement": "A catalog that Rust or the browser writes is read by Rust and by the browser, and the reader sees the same tracks, priorities, codecs, descriptions, sizes, rates and positions that the writer had; unknown keys are ignored. (Partly false: see the note.)", "quantifier": "every catalog of Rust's types and of the browser's types, with any texts, numbers (also fractions, infinities and not a number), lists and missing parts; both writers with both readers", "why_tests_cant": "The two schemas are written separately in Rust and TypeScript; tests of one side use catalogs of that side, with typical numbers.", "anchors": ["rs/hang/src/catalog/root.rs: Catalog, Catalog::to_string, Catalog::from_str", "rs/hang/src/catalog/video/mod.rs: Video, VideoConfig", "rs/hang/src/catalog/audio/mod.rs: Audio, AudioConfig", "rs/hang/src/catalog/location.rs: Location", "rs/hang/src/model/location.rs: Position", "js/hang/src/catalog/root.ts: RootSchema, encode, decode", "js/hang/src/catalog/video.ts: VideoSchema", "js/hang/src/catalog/audio.ts: AudioSchema", "js/hang/src/catalog/location.ts: LocationSchema, PositionSchema"]}
{"id": "C113", "title": "Volume, mute and pause in the browser's player", "statement": "The volume of a player is the one that was set last, by the constructor or the volume signal; muting makes it zero, unmuting gives back the volume from before; what is heard has that volume; audio is downloaded unless it is paused. The effects come to rest after every change. (Partly false: see the note.)", "quantifier": "all sequences of changes of volume, mute, pause, the root of the audio graph and the source's enabled flag, also while effects are still to run, and both orders of notifying observers; volumes are rationals", "why_tests_cant": "Two effects set each other's signals; which one wins depends on the order in which they run, and tests do not try volumes set while muted or muting while paused.", "anchors": ["js/hang/src/watch/audio.ts: AudioEmitter"]}
{"id": "C114", "title": "Chat in the browser", "statement": "Every message published in a chat is a group of its own with the message as its only frame, and nothing throws; with a time to live, the message is replaced by an empty group when its time is over and not before, at most one timer exists, and a reader that comes after the removal is never given the message; a reader that comes before is given it at once; readers get the messages as published, in order and none twice, and one that waits has the newest. (Partly false: see the note.)", "quantifier": "all sequences of publishing, clearing, closing, changing the time to live and time passing, all delays of timers, and all readers at any time in any interleaving", "why_tests_cant": "Needs all interleavings of timers, publishing and readers; a test with one message and one reader does not see a reader that comes late, or messages published at once.", "anchors": ["js/hang/src/publish/chat.ts: Chat", "js/hang/src/container/chat.ts: ChatConsumer"]}
{"id": "C115", "title": "Downloading media in the browser's player", "statement": "While a player is enabled, a track is selected and there is a broadcast, and it is not closed, exactly one subscription and one decoder are open, for that track of that broadcast; otherwise none is. A decoder is given the frames of its own subscription, in order and without gaps, and only while they are asked for; for video the first frame of a group is passed as a key frame and no other. After close() nothing is downloaded. No change of the signals throws and no error is left unhandled. (Partly false: see the note.)", "quantifier": "all sequences of changes of the three signals, of frames, garbage, ends and errors of any subscription, of failures of any decoder and of close(), in any interleaving with the loops", "why_tests_cant": "Needs all interleavings of loops, signals and failures; a test that selects one track and plays it does not see downloads that go on after a change.", "anchors": ["js/hang/src/watch/audio.ts: Audio.#init", "js/hang/src/watch/video.ts: Video.#init", "js/signals/src/index.ts: Signals.effect"]}
{"id": "C116", "title": "Drawing video on a canvas", "statement": "While a canvas with a 2d context is set, the renderer is not paused and not closed, exactly one animation frame is scheduled, and when the browser calls back the canvas in use is drawn on and the next frame scheduled; otherwise none is scheduled. The error 'scheduled without a canvas' never happens. Exactly one observer is connected while a canvas is in use, to that canvas. The player downloads when the browser reports the canvas in use as visible and stops when it is reported as not visible, when another canvas is set, on pause and on close, and it downloads only while a canvas is in use that can be drawn on. (Partly false: see the note.)", "quantifier": "all sequences of setting canvas and pause in any combination, of animation frames, of reports of visibility and their deliveries, and of close(); all canvases with or without a context; both ways in which browsers treat reports queued before disconnect()", "why_tests_cant": "Needs all interleavings of callbacks with changes; a test with one canvas sees neither a callback of an earlier canvas nor a report that comes after closing.", "anchors": ["js/hang/src/watch/video.ts: VideoRenderer"]}
{"id": "C117", "title": "Showing positions in the browser", "statement": "A Location, and a LocationPeer for a handle, has an open subscription exactly to the track of positions that the catalog names, in the current broadcast, while enabled and not closed; there is never more than one. Every position shown was delivered by a track or, for the broadcaster, is the initial position of a catalog; the last position that the reader has taken is shown, and the initial position when a catalog's section is first seen. As long as the section is unchanged only what is read changes the broadcaster's position. A peer's location is removed when the handle, the track, the broadcast or the catalog changes, and on close. (Partly false: see the note.)", "quantifier": "all sequences of setting enabled, catalog, broadcast and handle to any values, of tracks delivering any positions, ending or failing, of readers continuing at any later time, and of close()", "why_tests_cant": "Needs all interleavings of readers of old subscriptions with changes of the catalog and the broadcast; a test with one broadcast never has a late reader.", "anchors": ["js/hang/src/watch/location.ts: Location", "js/hang/src/watch/location.ts: LocationPeer", "js/hang/src/watch/location.ts: runConsumer"]}
{"id": "C118", "title": "Publishing positions in the browser", "statement": "The broadcaster's location track is in the broadcast exactly while enabled and not closed, and its newest group is the last position set. While enabled, the catalog lists exactly the handles of the peers whose tracks are in the broadcast, and its initial position is the current one whenever it is made. Every peer track in the broadcast belongs to an open peer with that handle and carries the last position written by it; a peer that takes a handle, or is created with it, has its track in the broadcast, and keeps it there until it is closed or takes another handle. A closed peer has no open tracks; positions of an open peer with a handle are written without an error. (Partly false: see the note.)", "quantifier": "all sequences of setting enabled, current and peering, of creating peers with any handles, changing their handles, writing positions and closing peers, and of close()", "why_tests_cant": "Needs sequences over several peers and handles; a test with one peer never has two that share a handle at different times.", "anchors": ["js/hang/src/publish/location.ts: Location", "js/hang/src/publish/location.ts: LocationPeer"]}
{"id": "C119", "title": "Drawing decoded video (hang-wasm)", "statement": "The renderer of hang-wasm shows frames in the order in which they were pushed. Its queue holds the frames pushed last without gaps; pushing one drops exactly those that are more than the latency older, up to the last such frame. A frame is passed over only if the one after it is due, and the one after the frame shown is not due. Nothing is drawn while paused; at most one frame while hidden. At most one animation frame is requested at a time, and one is whenever there is something to draw. No call panics. The state is live only with a timeout pending within a second, and becomes live exactly when a draw shortens the queue. The canvas has the size of the frame drawn.", "quantifier": "all sequences of pushing any frames, animation frames, timeouts, passing time, and setting canvas, pause, latency and visibility", "why_tests_cant": "Animation frames and timeouts come from the browser; the panic needs a pause and a resume between two animation frames, which a test with a fake browser would have to choose.", "anchors": ["rs/hang-wasm/src/watch/video.rs: Render"]}
{"id": "C120", "title": "Subscriptions of the player (hang-wasm)", "statement": "The player of hang-wasm holds a subscription only for the track listed first in the last catalog of the broadcast connected last, of that broadcast and with the configuration of that catalog; for video only with a canvas and while visible, for audio only with a worklet and while not muted. Whatever is wanted in this sense and can be decoded is subscribed, unless the track was over or failed and neither catalog nor setting changed since. A track that is still wanted is kept without subscribing again, and subscriptions are made only for what is wanted. The page is told the status of connection and broadcast. Broadcasts have the path of the URL without the slash. No URL makes the player panic.", "quantifier": "all sequences of connecting to any URLs, results of connecting, catalogs, ends and errors of broadcasts and tracks, and setting canvas, visibility, worklet and muting", "why_tests_cant": "The wrong subscriptions need two broadcasts or catalogs that share a track name, in the right order; the panic needs a URL scheme without authority.", "anchors": ["rs/hang-wasm/src/watch/mod.rs: Watch", "rs/hang-wasm/src/watch/video.rs: Video", "rs/hang-wasm/src/watch/audio.rs: Audio"]}
{"id": "C121", "title": "Publishing from the browser (hang-wasm)", "statement": "While connected, the publisher of hang-wasm lists in the catalog of its broadcast exactly the tracks of the open encoders whose configuration is known; a closed track is removed from it, and no other track is. The broadcast has the path of the URL, so that a player with the same URL finds it. It lasts until leaving or connecting elsewhere, which also ends the sending of frames. Frames are encoded only when connected. Frames go to the track of the encoder that made them. No two tracks of a publisher have the same name. No URL makes the publisher panic.", "quantifier": "all sequences of connecting, results of connecting, opening and closing encoders, frames before and after encoding, configurations becoming known, and tasks noticing closed tracks", "why_tests_cant": "What is missing depends on the order of opening encoders and connecting; which frames are sent after leaving is not visible to the page that left.", "anchors": ["rs/hang-wasm/src/publish/mod.rs: Publish", "rs/hang-wasm/src/publish/video.rs: PublishVideo", "rs/hang-wasm/src/publish/audio.rs: PublishAudio", "rs/hang/src/model/broadcast.rs: add_video, add_audio", "rs/hang/src/model/room.rs: Room::publish"]}
{"id": "C122", "title": "Sessions shared by the elements of a page (hang-wasm)", "statement": "All elements of a page that connect to the same URL share one session: there is at most one connection attempt or open session per URL at a time. Waiting for the session gives how connecting ended, never panics, and gives every sharer the same result. For an http URL the fingerprint of the certificate is fetched first, and the connection is made to the same URL by https, accepting only that fingerprint. A later element connects anew when the session was closed, and also when connecting had failed. A session that no element uses any more is closed.", "quantifier": "all URLs, and all sequences of connecting, copying, dropping and waiting by any number of elements, answers to requests, results of connecting and of the handshake, and sessions closing", "why_tests_cant": "That an error stays for the lifetime of the page, or a session open, shows only when elements come and go; tests connect once.", "anchors": ["rs/hang-wasm/src/connect.rs: Connect::new, create, run, fingerprint, established"]}
{"id": "C123", "title": "The clock (moq-clock)", "statement": "The clock publishes one group per minute, with consecutive numbers from the minute of the start, and never panics. Every line that a subscriber prints of it is the time, to the second, at which the publisher wrote it. If sleeping lasts into the next second each time, a group has one line for each second from its first to 59, and ends then; if sleeping may last longer, no second is printed twice.", "quantifier": "all times of the start, all times at which sleeps end and all orders in which they do", "why_tests_cant": "Oversleeping needs a machine that was suspended or a clock that was set; a test would run for minutes.", "anchors": ["rs/moq-clock/src/clock.rs: Publisher::run, send_segment, Subscriber::run", "rs/moq/src/model/track.rs: create_group"]}
{"id": "C124", "title": "Importing the header of a fragmented MP4", "statement": "Importing a `moov` box makes a track for each `trak` box with one supported codec, and an entry of the catalog that states the codec's parameters, the size of the picture or the format of the sound; any other box is refused, with an error that says why. Media is written to the last track made for its id, and that is the one that subscribers to its name get. The catalog that was published last lists exactly the tracks that media is written to, once the tasks of the tracks that were replaced ran, and every reader gets what was published.", "quantifier": "all headers, repeated or refused, all orders in which the tasks of the tracks run, all configurations", "why_tests_cant": "The tests import no header; repeated headers, refused boxes and unusual configurations do not occur in the samples.", "anchors": ["rs/hang/src/cmaf/import.rs: init, init_video, init_h265, init_audio", "rs/hang/src/model/broadcast.rs: BroadcastProducer::create_video, create_audio"]}
{"id": "C125", "title": "The source element for GStreamer (hang-gst)", "statement": "When the element is started with a catalog it adds a pad for each track, whose caps say how to decode it: codec, format, and the description if there is one. The task of each pad pushes the data of every frame that is read, in order, with the time since the first frame, and marks exactly the frames of video that are not keyframes. The element can be stopped and started again, a track that cannot be played does not keep the others from playing, and it does not panic.", "quantifier": "all catalogs, all frames, all orders of starting, stopping and frames", "why_tests_cant": "There are no tests of the plugin, which needs GStreamer and a relay.", "anchors": ["rs/hang-gst/src/source/imp.rs: change_state, setup, cleanup, set_property"]}
{"id": "C126", "title": "The sink element for GStreamer (hang-gst)", "statement": "Every start of the element connects and announces a broadcast of its own. What is published in it is what the importer makes of all buffers since the start taken as one stream, wherever the buffers are cut. Stopping the element ends the broadcast. A relay that cannot be reached, a missing URL and a buffer that is not valid are reported as errors; the element does not panic and can be started again.", "quantifier": "all importers, all buffers, all orders of starting, stopping and rendering, with any result of connecting", "why_tests_cant": "There are no tests of the plugin, which needs GStreamer and a relay.", "anchors": ["rs/hang-gst/src/sink/imp.rs: start, stop, render, setup, set_property", "rs/hang/src/cmaf/import.rs: parse"]}
{"id": "C127", "title": "Publishing from the command line (hang publish)", "statement": "hang publish reads a stream from its input: ftyp, moov, then media. From the moment it is connected the relay sees what the importer has made of all that was read, wherever the input is cut. The program reports success exactly if the stream was complete (or after ctrl-c), and all of it was published before; it closes the session before it ends.", "quantifier": "all importers, all inputs, all orders of input, connecting, ctrl-c and the end of the session", "why_tests_cant": "There are no tests of the program. The order of the end of the input and connecting depends on the network.", "anchors": ["rs/hang-cli/src/client.rs: client, connect, publish", "rs/hang/src/cmaf/import.rs: init_from, read_from"]}
{"id": "C128", "title": "Serving from the command line (hang serve)", "statement": "hang serve publishes the stream that it reads from its input to every connection. Each connection that was accepted sees what the importer has made of all that was read so far, whenever it came and whatever becomes of the others; a connection that fails does not end the server. Connections are served until they leave.", "quantifier": "all importers, all inputs, all numbers of connections, all orders of their events and the input", "why_tests_cant": "There are no tests of the program. The orders of connections and input depend on the network.", "anchors": ["rs/hang-cli/src/server.rs: server, accept, publish"]}
{"id": "C129", "title": "When a broadcast of the browser is published", "statement": "While a Broadcast of js/hang is enabled and there is a connection, it is published there under its path: a subscription to the path finds it, and published says so. Whenever it is disabled or closed, or the path or the connection changes, it is published at the new place, if there is one, and taken back from the old one.", "quantifier": "all orders of enabling, disabling, changes of path and connection, closing, and the continuations of the publisher", "why_tests_cant": "Whether the broadcast is found depends on whether the continuation of an earlier publication runs before or after the next publication.", "anchors": ["js/hang/src/publish/broadcast.ts: Broadcast (the effect that publishes)", "js/moq/src/publisher.ts: publish, #runPublish"]}
{"id": "C130", "title": "Watching a chat in the browser", "statement": "A Chat of js/hang/watch has an open subscription exactly to the track that the section of the catalog names, in the current broadcast, while it is enabled and not closed, and never more than one; track gives it, and ttl what the section says. A new catalog that names the same track leaves the subscription as it is. After close nothing is subscribed to any more.", "quantifier": "all orders of enabling, disabling, changes of catalog and broadcast, and closing, from every state at construction", "why_tests_cant": "The number of subscriptions depends on which signals are set before the chat is created and in which order they change afterwards.", "anchors": ["js/hang/src/watch/chat.ts: Chat", "js/signals/src/index.ts: memo"]}
{"id": "C131", "title": "The catalog of a chat in the browser", "statement": "While a Chat of js/hang/publish is enabled, the catalog has its section with the current time to live, and a subscription in the broadcast finds its track. While it is disabled, and after close, the catalog has no section, the track is not found, and nobody is sent its messages. The track is unused exactly if the chat is not enabled and nobody reads it.", "quantifier": "all orders of enabling, disabling, changes of the time to live, subscriptions, readers that leave, messages and closing", "why_tests_cant": "Whether a consumer is left over depends on how often and in which order the effects have run.", "anchors": ["js/hang/src/publish/chat.ts: Chat (catalog, publish, close)", "js/moq/src/broadcast.ts: insertTrack, removeTrack, subscribe", "js/signals/src/index.ts: memo"]}
{"id": "C132", "title": "The program moq-token", "statement": "A token that moq-token signs with the key of a file is verified by moq-token with the same file, until it expires, and the payload is that of the arguments. Signing fails exactly if the file has no key that may sign or a time is not a number of seconds that is not negative. Only generate changes a file.", "quantifier": "all histories of the files, all keys, all arguments and all times", "why_tests_cant": "There are no tests of the program; whether output and input fit together is seen only when both commands are used.", "anchors": ["rs/moq-token-cli/src/bin.rs: main, parse_unix_timestamp", "rs/moq-token/src/key.rs: from_file, to_file, sign, verify, generate"]}
