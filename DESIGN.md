# Design

Verification of kixelated/moq-rs (Rust workspace under `/repo/rs`) by a Lean 4
model.  `properties.jsonl` lists the properties in English; this file says how
each one is modelled and proved, what is trusted, and where the code violates a
property.  `MANIFEST.json` maps property ids to theorem names.

1. Trusted base
2. Conventions
3. Plan per property
4. Modelled and not modelled
5. Simplifications
6. Where the code violates a property
7. Axioms of every theorem in the manifest

## 1. Trusted base

* The Lean 4.33.0 kernel and the axioms `propext`, `Classical.choice` and
  `Quot.sound`.  No other axiom is used: there is no `sorry`, `admit`,
  `native_decide`, `bv_decide`, `implemented_by`, `unsafe` or own axiom.
  Section 7 lists the axioms of every theorem named in the manifest.
* The reading of the Rust source (and, from C90 on, of the TypeScript source).  The code is never executed here.  Every
  definition cites the file and lines it models, and every simplification is
  stated at the definition and collected in section 5.
* Libraries outside the repository are modelled by their documented contract:
  * tokio `watch`: one current value under a lock; `changed` and `wait_for`
    answer when the value has changed or the predicate holds, and fail once all
    senders are gone; a sender's `closed` answers once all receivers are gone;
    a dropped future is no longer woken;
  * tokio `mpsc(1)` used as a notification slot, `oneshot`, `select!` (any ready
    branch may be taken; the losing futures are dropped);
  * `async_channel`: first in, first out queue, fails once all receivers or all
    senders are gone;
  * `web_async::Lock`: mutual exclusion; `web_async::spawn`: the task runs at any
    later time;
  * `std::collections::HashMap`: a finite map, with any iteration order;
  * `bytes`: byte strings; `String`: valid UTF-8;
  * `web_transport` streams: reliable, ordered bytes cut into chunks in any way,
    ended by FIN or by a reset with a code;
  * `jsonwebtoken`, `serde`, HMAC: a parameter with stated assumptions (C57);
  * `mp4_atom`: a parameter with stated assumptions (C67, C68);
  * `regex`: the classes used, with the members outside ASCII as a parameter;
  * the browser's `TextEncoder`, `TextDecoder` (with its treatment of invalid
    UTF-8 as a parameter), `ReadableStream` (non-empty pieces, then an end) and
    numbers (exact up to 2^53 - 1), for C90 and later properties of js/.
* `Nat` stands for `usize`/`u64` counters in memory (numbers of handles, frames,
  groups); where the code can reach the limit of the type within a message or a
  formula, the check, the wrap or the panic is modelled.

## 2. Conventions

* Bytes are `List UInt8`; machine integers are `Nat` or `Int` with explicit
  range checks where the code checks or wraps.
* `&mut self` becomes a returned state; a panic (`assert!`, `expect`, overflow)
  is an explicit value (`Panic`), never a default.
* Concurrency: one shared state, one atomic step per critical section (one lock
  acquisition, one atomic instruction, one `watch` modification).  A schedule is
  an arbitrary list of operations; theorems quantify over all of them
  (`Machine.Reach`).  An `await` is a `poll` that answers `pending` or a value.
  Spawned tasks become operations that the schedule may run at any later time.
* Specifications used in theorem statements are separate from the model (`Spec`
  files) and talk about the trace of operations and their outputs.
* `X.lean` holds the model with citations, `XSpec.lean` the vocabulary of the
  statements, `XLemmas.lean` (also `BroadcastServe`, `OriginWake`,
  `TransferRecv`) the invariants, and `Props/X.lean` the property theorems, each
  with a concrete `example` that meets its hypotheses.
* A theorem that covers only part of its property ends in `_partial`; the
  missing part is refuted by the witness theorems next to it.
* Mutation tests of the model are recorded in `seeded/LOG.jsonl`.  `theorems_failed` lists the theorems
  that no longer build: that includes theorems whose proof uses an invariant that broke, though their own
  statement may still be true.  `claim` names the claim that the edit was chosen to break.

## 3. Plan per property

| id | model | proof |
|----|-------|-------|
| C01–C04 | `VarInt` encode and decode with the shifts and masks of the code | bit arithmetic, case split on the four classes |
| C05, C06 | encoders (may panic) and decoders for every primitive and message | compositional round-trip lemma per combinator |
| C07 | `encode_size` overrides and the counting buffer | structural |
| C08, C09 | same decoders | compositional "stable" predicate (monotone in the buffer); unique decodability follows |
| C10, C72 | extension map as a finite map, any serialisation order | induction over the parameter list |
| C11–C13 | `Reader` over a stream of chunks with FIN or reset | refinement to decoding the concatenated bytes |
| C14, C15 | handshake and dispatch functions over `Reader` | decision logic; C14 client half is violated, negation by witness |
| C16, C17 | `to_code` with u32 overflow, `stream_priority` with 32-bit arithmetic | arithmetic; violated ranges by witness |
| C18–C20, C73 | frame state machine with any number of producer and consumer handles | trace invariants; C19 with clones negated by witness |
| C21, C22, C73 | group state machine including `active` | trace invariants |
| C23–C28, C73 | track state machine | trace invariants; C25 race and C27 negated by witness |
| C29–C33, C74 | broadcast state machine including request queue, cleanup tasks, step-wise drop | inductive invariants, counts of pending tasks |
| C34–C41 | origin state machine with consumers, notify slots, close tasks | trace invariants; C36 and C39 negated by witness |
| C42–C44 | announce publisher and receiver machines over the origin machine | trace invariants; known violations negated by witness |
| C45–C47 | `serve_group` and `recv_group` over the reader model | refinement, induction over frames and chunks |
| C48, C49 | subscription table machine | invariants; C49 negated by witness |
| C50 | serve loop machine with two slots | invariant |
| C51 | `run_subscribe` over origin and broadcast | decision logic and invariants |
| C52–C54 | `Auth::validate` over strings, token verification as a parameter | decision logic; C53, C54 negated by witness |
| C55, C56 | relay connection wiring over the origin model, cluster task | string lemmas and origin invariants |
| C57 | `Key::sign` and `Key::verify`, MAC as a parameter | decision logic |
| C58–C61, C70 | hang track, group and frame | round-trip, invariants; C61 negated (no fuel suffices), C70 negated |
| C62–C66 | codec string formatters and parsers over character lists | round-trip by digit lemmas; violated ranges by witness |
| C67, C68 | importer buffering and sample slicing, atom parser as a parameter | split-independence by monotone parser contract; slicing by induction |
| C69 | catalog machine | invariant |
| C71 | independent grammar of the wire format | compositional equivalence of decoder and grammar |
| C75, C76 | HTTP response body over the group machine, with the registration of the waker | trace invariants; C76 negated for all executions |
| C77–C79 | HTTP listing loop over the origin machine, path splitting, lookup | trace invariants, list lemmas; text of C77 and C79 negated by witness |
| C80–C83 | client and server functions over parameters for network and crypto | case analysis, list lemmas; C80 negated for all `moql` URLs, C82 for all relays that present another certificate |
| C84, C85 | reader of a track of single-frame groups, for both kinds; codec of positions; producer with clones | invariants over the track machine; witnesses for the violated parts |
| C86 | room with its tasks, announcements given by the environment | trace invariant; witnesses |
| C87 | the task of an established session as a machine, one iteration of a loop per step, transport by its contract | trace invariant; draining by induction on the bytes; witnesses |
| C88 | main loop of the relay with `Server::accept`, over the model of `validate` | trace invariant; negation for all panicking URLs |
| C89 | a tree of tracks connected by the serving loop and the subscriber's table; chains of group transfers | trace invariant over all nodes and links; induction over the tree; `c46_prefix` composed along a chain; witnesses for the end |
| C90 | `Js.Wire` | the grammar of C71; browser decoders characterised by parsers of the whole stream, encoders by the format they produce |
| C91 | `Js.Wire` | parsers decide on prefixes; induction over the items |
| C92 | `Js.Accept` over the decoders of `Js.Wire` | induction over the streams; negation for all bad streams |
| C93 | `Js.Group` | trace invariant |
| C94 | `Js.Track` | trace invariant; a second one for prompt readers; negation for every waiting reader |
| C95 | `Js.Announced` | trace invariant |
| C96 | `Js.Publisher` over `Js.Announced` | projection to the queue, trace invariant, a second one for polite histories; negation for every path published twice |
| C97 | `Js.Unused` | trace invariant for tidy histories; negation for every state with a consumer closed twice |
| C98 | `Js.Subscriber` over `Js.Unused` | trace invariant; a second one for tidy histories; negation for all of them |
| C99 | functions of `vint.ts` and `frame.ts` on bytes; rounding of `Number` | the array written is the header followed by the payload; the header is that of the native library; reading is the native reading followed by rounding |
| C100 | machine on top of the browser track; one producer, any consumers | invariant: the groups of the track are the grouping of the encoded frames; delivered frames decode to the encoded ones (C94, C99) |
| C101 | `Js.Reconnect` | trace invariants by kinds of steps; a further one for calm histories; forgotten connections are never closed, by induction over continuations |
| C102 | `Js.Playback` | trace invariant: frames held are the last ones, the reference is the maximum |
| C103 | `Js.Schedule` | trace invariants by kinds of steps for nodes, buffers and active nodes; starvation by induction over continuations |
| C104 | `Verif.Js.Serve` on top of `Verif.Js.Track` and `Verif.Js.Wire` | invariants by induction over histories (groups of streams, contents of each stream, the subscription); delivery by induction over the remaining frames; reading by C90 and C91 |
| C105 | `Verif.Js.Receive` on top of `Verif.Js.Track` and `Verif.Js.Wire` | invariant by induction over histories (bytes of each stream against frames of its group); unique reading of frames; delivery by induction over the remaining frames |
| C106 | `Verif.Js.Serve` and `Verif.Js.Receive`, linked by streams | from C104 and C105, with unique reading of headers and frames |
| C107 | `Verif.Js.Capture` on top of `Verif.Js.Track` and `Verif.Js.Container` | effects of each step on a view without tracks (`CaptureView`), invariants by induction over histories; tracks from C94; witnesses |
| C108 | `Verif.Js.AudioCapture` on top of `Verif.Js.Track` and `Verif.Js.Container` | pieces of the sequence of all chunks as groups of tracks; invariants by induction over histories; tracks from C94; witnesses |
| C109 | `Verif.Js.Media` | invariant of requests, signals and tracks by induction over histories; specification by a demand function; witnesses for late grants |
| C110 | `Verif.Js.CatalogTrack` | invariant of the track and of the catalogs due by induction over histories; readers by composition with C94; general counterexample for two changes at once |
| C111 | `Verif.Js.Watching` | invariants of what is open and of the loops by induction over histories; general counterexamples for a stale `active`; witnesses for the rest |
| C112 | `Verif.Json`, `Verif.Hang.CatalogJson`, `Verif.Js.Catalog` | both writers and both readers as functions between catalogs and documents; reading what was written as an equivalence with a relation given field by field; the violations follow |
| C113 | `Verif.Js.Emitter` | a machine with a queue of effects; an invariant says what fits unless an effect is queued; a measure bounds the effects; from rest, the final state after each change |
| C114 | `Verif.Js.Chat` | a machine around `Verif.Js.Track`; an invariant relates groups and timer to the history; an invariant of the track bounds what a late consumer can get from below |
| C115 | `Verif.Js.Download` | a machine for both players; an invariant relates the open download to the signals, another one what each decoder was given to what its subscription delivered; violations for all histories or by induction on the number of changes |
| C116 | `Verif.Js.Renderer` | a machine with the browser's callbacks and observers as operations; one invariant for the scheduled frame, the observers and `enabled` |
| C117 | `Verif.Js.Location` | a machine for both classes, with the settling of promises and the continuation of readers as operations; invariants for subscriptions, for origins of positions, and for a peer in calm histories |
| C118 | `Verif.Js.Locating` | a machine of one location and any number of peers; the two runs of `memo` are modelled; one invariant relates peers, tracks, the broadcast and the catalog |
| C119 | `Verif.Wasm.Render` | a machine with the requests of animation frames and the timeouts as part of the state; the invariant places the queue in the list of frames pushed |
| C120 | `Verif.Wasm.Watch` | a machine of connection, broadcast and the two tracks; the specification is the entry wanted, a function of the history; one lemma says what each step does to each track |
| C121 | `Verif.Wasm.Publish` | a machine with both encoders, all broadcasts and the tasks that wait for tracks to close; the specification follows one kind of track through the history, catalogs are read off the events |
| C122 | `Verif.Wasm.Pool` | a machine with the map, all tasks with their channels and sessions, and all `Connect`s; the specification reads the life of each task and the task of each `Connect` off the history |
| C123 | `Verif.Clock` | a machine with the loop over minutes and the task of every group; the specification computes the lines from the start and the times that were read |
| C124 | `Verif.Hang.Init` | a machine that treats the `trak` boxes one by one while the tasks of the tracks run; the specification takes the tracks made from the history |
| C125 | `Verif.Gst.Source` | a machine with the changes of state and the tasks of the pads; the specification takes the pads from what the application sees |
| C126 | `Verif.Gst.Sink` | a machine with `start`, `stop` and `render` around the importer of C67; the specification takes the buffers since the start from the history |
| C127, C128 | `Verif.Hang.Cli` | a machine for each program, with the importer of C67; the specification says from the history what was read and who is connected |
| C129 | `Verif.Js.Publishing` over `Verif.Js.Publisher` | the effect with one publisher for each connection; the specification says from the history where the broadcast is to be published and which publications have not been taken back; negation for every state in which it is published |
| C130 | `Verif.Js.WatchChat` | a machine with the memos and the first run of their functions; the specification takes the open subscriptions from the calls that the broadcasts see; negations for every state with a subscription |
| C131 | `Verif.Js.ChatCatalog` | a machine with the memo, the entry of the broadcast and the number of consumers of the track; negations for all states |
| C132 | `Verif.Relay.TokenCli` over `Verif.Relay.Token` | a machine whose state are the files; the specification takes the keys from the history and says which texts are times; negation for all executions |

## 4. Modelled and not modelled

Modelled, function by function (the citations with lines are in the Lean files):

| source | modelled | Lean |
|--------|----------|------|
| moq `coding/varint.rs`, `encode.rs`, `decode.rs`, `size.rs` | all encoders, decoders, conversions, `Sizer` | `Coding/Model` |
| moq `message/*.rs` | all messages, `Extensions` | `Message/Model` |
| moq `error.rs` | `Error`, `to_code` | `Session/Error` |
| moq `session/reader.rs` | `decode`, `decode_maybe`, `read`, `finished` | `Session/Reader` |
| moq `session/writer.rs`, `stream.rs` | `open`, `encode`, `write`, `finish`, `abort`, drop | `Session/Handshake`, `Session/Transfer` |
| moq `session/mod.rs` | `connect_setup`, `accept_setup`, `accept`, `run_control`, `run_data` dispatch | `Session/Handshake` |
| moq `session/publisher.rs` | `run_announce`, `recv_subscribe`, `run_subscribe`, `run_track`, `serve_group`, `stream_priority` | `Session/Announce`, `Requests`, `ServeLoop`, `Transfer`, `Handshake` |
| moq `session/subscriber.rs` | `consume_prefix`, `run_broadcasts`, `run_broadcast`, `run_subscribe`, `recv_group`, `run_group`, `run_frame` | `Session/Announce`, `Remote`, `Subs`, `Transfer` |
| moq `model/frame.rs`, `group.rs`, `track.rs`, `broadcast.rs`, `origin.rs` | all | `Model/*` |
| moq-relay `auth.rs` | `Auth::new` (after loading), `validate`, `parse_key_val` | `Relay/Auth` |
| moq-relay `connection.rs` | `run`, `subscribe`, `publish` | `Relay/Connection` |
| moq-relay `cluster.rs` | `get`, `run`, `run_remote` | `Relay/Cluster` |
| moq-token `key.rs`, `payload.rs`, `algorithm.rs`, `generate.rs` | `sign`, `verify`, `Algorithm` names, `generate` | `Relay/Token` |
| hang `model/frame.rs`, `group.rs`, `track.rs` | all | `Hang/Media` |
| hang `model/broadcast.rs`, `catalog/root.rs` | producer side | `Hang/Catalog` |
| hang `catalog/video/*`, `catalog/audio/*` | codec strings | `Hang/Codec`, `Hang/Text` |
| hang `cmaf/import.rs` | `parse`, `extract`, `read_from` loop | `Hang/Import` |
| moq-relay `web.rs` | `serve_announced`, `serve_fetch`, `ServeGroup` | `Relay/Web`, `Relay/WebBody` |
| moq-native `client.rs` | `Client::connect`, the certificate verifiers | `Native/Tls` |
| moq-native `server.rs` | `ServeCerts::{resolve, best_certificate, fingerprints}`, ALPN dispatch of `accept_session`, `ServerTlsCert::parse` | `Native/Tls` |
| moq-relay `auth.rs` | `parse_key_val` | `Relay/Auth` |
| hang `catalog/root.rs`, `model/location.rs` | `CatalogConsumer::next`, `LocationConsumer::next`, `LocationProducer::{update, latest}`, the encoding of positions | `Hang/Latest` |
| hang `model/room.rs` | `Room::{publish, watch}` | `Hang/Room` |
| moq `session/mod.rs`, `session/writer.rs` | `Session::new` (the task), `run_session`, `run_bi`, `run_uni`, `close`, `Drop for Writer` after a failed handshake | `Session/Lifecycle` |
| moq-relay `main.rs`, moq-native `server.rs` | the loop of `main`, `Server::accept` | `Relay/Main` |
| moq `session/publisher.rs`, `session/subscriber.rs` | subscriptions over any number of sessions, composed of `Session/ServeLoop`, `Session/Subs`, `Model/Track` and `Session/Transfer` | `Session/Tree` |
| js/moq `wire/*.ts`, `connection.ts` (handshake) | `Reader`, `Writer`, all messages, `Stream.open/accept`, `Reader.accept`, `Writer.open` | `Js.Text`, `Js.Wire` |
| js/moq `connection.ts` | the accept loops `#runBidis`, `#runUnis` | `Js.Accept` |
| js/moq `group.ts`, `util/watch.ts` | `GroupProducer`, `GroupConsumer`, `WatchProducer` without `unused`, `WatchConsumer.when` | `Js.Group` |
| js/moq `track.ts`, `util/watch.ts` | `TrackProducer`, `TrackConsumer` without `unused`, `WatchConsumer.next` | `Js.Track` |
| js/moq `announced.ts`, `util/watch.ts`, `subscriber.ts` (`announced`) | `AnnouncedProducer`, `AnnouncedConsumer` | `Js.Announced` |
| js/moq `publisher.ts` | `publish`, `#runPublish`, `consume`, `runAnnounce`, the lookup of `runSubscribe` | `Js.Publisher` |
| js/moq `util/watch.ts` | the count of consumers and `unused` | `Js.Unused` |
| js/moq `subscriber.ts`, `broadcast.ts` | `consume`, `#runSubscribe`, the lookup of `runGroup`, `insertTrack`, `removeTrack`, `close`, `subscribe` | `Js.Subscriber` |
| js/hang/src/container/vint.ts, frame.ts | `getVint53`, `setVint53`, `encodeFrame`, `decodeFrame`, `FrameProducer`, `FrameConsumer` | `Verif/Js/Container.lean`, `Verif/Js/Frames.lean` |
| js/hang `connection.ts` | `Connection`: `#connect`, its cleanup functions, retries, `close` | `Js.Reconnect` |
| js/hang `watch/video.ts` | `Video`: the output of the decoder, `frame`, `close` | `Js.Playback` |
| js/hang `watch/audio.ts` | `Audio`: `#emit`, `#createBuffer`, `#scheduleBuffer`, disabling | `Js.Schedule` |
| js/moq/src/publisher.ts:104-131, 142-164, 173-193; js/moq/src/connection.ts:184-192 | `runSubscribe`, `#runTrack`, `#runGroup` for one subscription | `Verif.Js.Serve` |
| js/moq/src/subscriber.ts:137-147, 157-183; js/moq/src/connection.ts:221-227 | `runGroup` and the end of `#runSubscribe` for one subscription | `Verif.Js.Receive` |
| js/hang/src/publish/video.ts:42-178, 344-385 | class `Video`: `#runTrack`, `#runEncoder`, `#runFrames`, `frame`, `close`, which configurations `#runCatalog` combines | `Verif.Js.Capture` |
| js/hang/src/publish/audio.ts:40-182, 198, 208-210 | class `Audio`: the effects `#runWorklet` and `#runEncoder`, the callbacks of the encoder, `close`, the timestamp of `AudioData` | `Verif.Js.AudioCapture` |
| js/hang/src/publish/broadcast.ts:82-191, 218-219 | class `Broadcast`: the effects `#runCameraAudio`, `#runCameraVideo`, `#runScreen`, their cleanups and `close` | `Verif.Js.Media` |
| js/hang/src/publish/broadcast.ts:41-42, 60, 88, 193-219 | class `Broadcast`: the track `catalog.json`, the effect `#runCatalog` and `close` | `Verif.Js.CatalogTrack` |
| js/hang/src/watch/broadcast.ts:54-151, 153-154 | class `Broadcast`: the effects `#runActive`, `#runBroadcast`, `#runCatalog`, their cleanups and loops, and `close` | `Verif.Js.Watching` |
| rs/hang/src/catalog/{root,video/mod,audio/mod,location}.rs, rs/hang/src/model/location.rs:9-19 | what the derived `Serialize` and `Deserialize` write and read | `Verif.Hang.CatalogJson` |
| js/hang/src/catalog/*.ts; descriptions in publish/video.ts:354-356, watch/video.ts:218, watch/audio.ts:196 | the schemas, `encode`, `decode` | `Verif.Js.Catalog` |
| js/hang/src/watch/audio.ts:15-91 | `AudioEmitter` | `Verif.Js.Emitter` |
| js/hang/src/publish/chat.ts (except the catalog: 34-42), js/hang/src/container/chat.ts:29-48 | `Chat`, `ChatConsumer` | `Verif.Js.Chat` |
| js/hang/src/watch/audio.ts:174-215, 320-322, js/hang/src/watch/video.ts:178-249, 279-285 | `#init`, `close` | `Verif.Js.Download` |
| js/hang/src/watch/video.ts:13-88, 127-134 | `VideoRenderer` | `Verif.Js.Renderer` |
| js/hang/src/watch/location.ts | `Location`, `LocationPeer`, `runConsumer` | `Verif.Js.Location` |
| js/hang/src/publish/location.ts, js/hang/src/container/position.ts:13-28 | `Location`, `LocationPeer` | `Verif.Js.Locating` |
| rs/hang-wasm/src/watch/video.rs:191-427 | `Render` | `Verif.Wasm.Render` |
| rs/hang-wasm/src/watch/mod.rs, watch/video.rs:12-121 and 143-168, watch/audio.rs:9-90 and 231-249 | `Watch`, `reinit` and `set_catalog` of `Video` and `Audio` | `Verif.Wasm.Watch` |
| rs/hang-wasm/src/publish/mod.rs, publish/video.rs:20-38 and 101-149, publish/audio.rs:20-61 and 78-96, rs/hang/src/model/broadcast.rs:20-61, rs/hang/src/model/room.rs:26-30 | `Publish`, `PublishVideo`, `PublishAudio`, `add_video`, `add_audio` | `Verif.Wasm.Publish` |
| rs/hang-wasm/src/connect.rs | `Connect` and the map of sessions | `Verif.Wasm.Pool` |
| rs/moq-clock/src/clock.rs | `Publisher`, and what `Subscriber` prints of a group | `Verif.Clock` |
| hang `cmaf/import.rs`, `model/broadcast.rs` | `init`, `init_video`, `init_h265`, `init_audio`; `create_video`, `create_audio`, and the tasks that remove tracks | `Hang/Init` |
| rs/hang-gst/src/source/imp.rs | `change_state`, `setup`, `cleanup`, `set_property` (the URL), the tasks | `Verif.Gst.Source` |
| rs/hang-gst/src/sink/imp.rs | `start`, `stop`, `render`, `setup`, `set_property` (the URL) | `Verif.Gst.Sink` |
| rs/hang-cli/src/client.rs, rs/hang-cli/src/server.rs | `client`, `connect`, `publish`; `server`, `accept`, `publish` | `Verif.Hang.Cli` |
| js/hang `publish/broadcast.ts` | the effect that publishes the broadcast | `Js.Publishing` |
| js/hang/src/watch/chat.ts | `Chat` | `Verif.Js.WatchChat` |
| js/hang/src/publish/chat.ts:28-43, js/moq/src/broadcast.ts (for one track) | the catalog of a `Chat`, who gets its messages | `Verif.Js.ChatCatalog` |
| rs/moq-token-cli/src/bin.rs | `main`, `parse_unix_timestamp` | `Relay/TokenCli` |

Not modelled:

* moq: QUIC itself; probing of the bitrate; time; tracing.
* moq-relay: command line and file loading (`config.rs`, `Auth::new` file
  access), `main.rs` except where a note says so.
* moq-native: sockets, TLS and configuration, except where listed above.
* hang: the text of JSON documents (their structure is modelled), feedback,
  `cmaf/export.rs` (unfinished in the source).
* hang-cli, hang-gst, hang-wasm except where listed above, js/hang-demo.
* js/hang, except where listed above: choosing an encoder's configuration
  (`publish/video.ts`: 180-342),
  what is drawn on a canvas, the
  custom elements, `support`; the browser's APIs and solid-js themselves.
* HTTP: `axum`'s routing and percent-decoding, `hyper`'s sending of the body.
* moq-native: the QUIC and TLS handshakes, DNS, loading and generating of
  certificates, `reqwest`, `webpki`; they are parameters (`Env`, `Net`) of
  `Native/Tls`.

## 5. Simplifications

* Memory is unbounded; allocation hints (`with_capacity`) are left out, so an
  allocation failure for a hostile size is not represented.
* Atomic counters are sequentially consistent.  Wake-ups are modelled only where
  a property is about them (origin notifications); elsewhere a poll may happen at
  any time, which over-approximates the schedules.
* Frame: none beyond the conventions.  Group: frames appended through the
  producer have their own frame machine, read by consumers kept in the group; the
  frame's `unused` is not offered inside a group (C73 treats it on the frame).
* Track: group contents are not repeated inside the track machine (groups are
  identified by sequence number and identity).
* Broadcast: track priorities are left out; names never change.
* Origin: the channel of `unused` is not modelled; the iteration order of the
  hash map is a parameter.
* Announce and Remote: the stream between both sides is a reliable queue of
  messages (justified by C06, C08 and C11); the handshake has been completed.
* Subs: each track handed to the subscriber has one producer.  The id counter
  wraps after 2^64 subscriptions.
* ServeLoop: a future that serves a group is in flight until it is done or
  dropped; its content is the subject of Transfer.
* Requests: the origin's consumer of a broadcast is consumer 0; the priority of
  a subscription does not change.
* Connection: a spawned task may run as soon as its consumer exists; the closing
  of the session is not modelled; other connections may do anything to the
  shared origins except use this connection's consumers.
* Cluster: the outcome of connecting to a node is chosen by the environment.
* Token: `jsonwebtoken` 9.3.1 (60 s leeway, rounding of times to seconds), serde
  and HMAC are a parameter.
* Auth: the configuration is already loaded; `url.path()` is any text.
* Codec: regex classes beyond ASCII are a parameter.
* Media: the producer is not cloned; a group's content is a list of complete
  frames and a closing; a buffering future may be polled again at each poll;
  `partition_point` is used on sorted lists only.
* Catalog: JSON is the subject of `CatalogJson`; `set_location` and `update` are unused; the
  derived `PartialEq` of descriptions is a parameter `eq` because `f32` is not
  reflexive.
* Import: the box decoder is a parameter; arithmetic is checked; `usize` has 64
  bits; the warning about latency is left out.
* Extensions: the order of the association list is the hash map's order.
* WebBody: wake-ups are modelled as registrations with the three channels of the
  group and frame; a dropped future unregisters.  The executor may also poll
  without a wake-up.
* Web: the two origins of a listing are independent, so the loop is modelled for
  one; the first group of a track is a parameter (`Next`).
* Native: a certificate is the DER encoding of its leaf; `Env.hash` is any
  function; a URL is scheme, host and port; whether a CONNECT request succeeds
  is a parameter.
* Latest: the parser of catalogs is a parameter; floats are their 32 bits; a call of
  `LocationProducer::update` is two steps, the publishing and the remembering.
* Lifecycle: the text sent with a code is represented by the error; the transport session is closed at
  most once and streams opened before its end are still accepted (contract of the transport).
* Tree: the streams of a link are handled in any order and may never arrive; a node is one copy of the
  track in one session; the groups of a tree are identified by number and identity, and their contents
  are treated separately, by chains of transfers (`Hop`, `Carried`).
* Browser: JavaScript numbers and `bigint`s are `Nat` (the code only uses non-negative integers here); strings are lists of UTF-16 code units; `TextEncoder` replaces unpaired surrogates, `TextDecoder` drops a leading U+FEFF and decodes valid UTF-8; what it does with invalid UTF-8 is a parameter (`Lossy`).  A `ReadableStream` is its bytes in pieces and an end.  Writers hand their bytes to the stream; back-pressure and errors of the transport while writing are not modelled.
* Browser groups and tracks: a promise that is settled fixes what the call waiting for it continues with, and the continuation is a separate step at any later time, so all orders of microtasks are included (and more).  A reader has at most one call at a time and, for tracks, is not closed during one.  In `Js.Track` reading a group is reduced to its result (C93), and the preference of `Promise.race` for the frame is not modelled: any order is allowed.  `unused`, the finalizers and logging are left out.
* Browser announcements and publishing: as for groups and tracks.  A broadcast is a number, and the settling of its `closed()` an event.  Writing to an announce stream is the return of a round of its loop; errors of the transport and the end of a stream by the peer are not modelled.
* Browser consumer counts: an `unused()` call is the promise that is current when it is called.
* Browser subscriptions: sending SUBSCRIBE is the call of `subscribe` (the stream may fail to open later); the answer and the ends of the stream are events.  The cached consumer of a producer has the number 1.  Priorities are not modelled.
* Js.Container: timestamps are integers; `Number(bigint)` is modelled by rounding to 53 significant bits, ties to even (trusted base); typed arrays are lists of bytes.
* Js.Frames: the track has one producer, the `FrameProducer`; readers call `decode` one at a time.
* Reconnecting: effects of signals run again, after their cleanup functions, within `set` of a changed signal (solid-js, trusted base); the outcome of `connect` and of `closed` arrives at any time; the constructor with a URL is the constructor followed by setting it; WebTransport is supported.
* Video player: times are integers in a common unit and arithmetic is exact (doubles in the code); the decoder is a source of frames.
* Audio player: times are integers in a common unit and arithmetic is exact; one `AudioContext` that runs; the contents of a sample are its number; a node ends when stopped or some time after it was to start.
* `Js.Serve`: one subscription to one track; other subscriptions are other consumers of the track. A group is read by its frames and status (C93). Bytes are what is handed to the transport; a failed stream or connection is an event. SUBSCRIBE_UPDATE messages are ignored by the code and left out.
* `Js.Receive`: one subscription; the header of a stream has been read (C91, `Js.Accept`). A read that waits is done again from the beginning, which gives the same (C91). Consumers of groups are not counted: `producer.unused()` may return once the track has a newer group or has ended. `subscribe.unused()` returns only when the track has ended (the broadcast holds a consumer, C98).
* `Props.JsEndToEnd`: the network is a relation between the bytes a stream of the publisher was handed and those that arrived: a beginning, and the end only after everything.
* `Js.Capture`: `#bestEncoderConfig` is a call that returns or throws at any later time; settings and codecs are not modelled. The encoder puts out one chunk per picture, in order, with its timestamp; the first chunk and every chunk for which it was requested are key frames; after `close()` or an error it puts out nothing. A waiting `read()` of a cancelled reader returns in the same step. `insertTrack` and `removeTrack` are left out. Timestamps are integers of at most 2^53-1 microseconds.
* `Js.Track`: `close` and `abort` of a group that has ended do nothing in the code; the model gives the output `threw` and changes nothing.
* `Js.AudioCapture`: two machines. `Worklet` has the signals and effects up to the creation of a track; the other is `#runEncoder` for any context, with an encoder that may put out any chunk with any timestamp of at most 2^53-1 until it is closed or fails. Cleanups run in reverse order, and those after one that throws do not run. `insertTrack`, `removeTrack` and the joining of channels are left out. The time of the context is a whole number of microseconds in `stamp`.
* `Js.Media`: a request is granted or denied once, at any time, with at most one track for sound and one for pictures; for the camera with just one. A track captures until `stop()`; that a user ends it in the browser is left out. Constraints are numbers. An effect runs again if a signal that it read has another value, after its cleanup, in the order of creation; signals may be set together. The application does not set `audio.media` and `video.media`. Values given to the constructor are as if set right after it.
* `Js.CatalogTrack`: values of signals are numbers, equal if the signals have the same value; `Catalog.encode` is a parameter, a function of the parts that does not throw. An effect runs again if a signal that it read has another value; signals may be set together. Readers do not run within the effect.
* `Js.Watching`: connections, paths and catalogs are numbers. `announced.next()` and `Catalog.fetch` settle with anything at any time, also after the consumer was closed; a rejection is as the end. Effects run in the order of creation; in another order one may run once more, but without calls. Values given to the constructor are as if set right after it. The parts for audio, video, location and chat are not included.
* `CatalogJson`, `Js.Catalog`: the semantics of the derives of serde, of `serde_with` (with the order of its attributes), `serde_json`, `JSON` and zod are trusted as described at the definitions. A document is a tree; its text, and how floats become digits and back (`Floats`), are not modelled. Objects are lists of entries without repeated keys; maps are lists in some order. Strings are sequences of Unicode characters.
* `Js.Emitter`: volumes are rationals (no not-a-number); a node of the audio graph is its gain. `source.enabled` and `source.root` are set by the environment at any time; `source.root` is never unset (the cleanup in `Audio` is returned, not registered). Effects are queued in the order of their creation and then of notification, not twice; the order of the observers of the volume is open.
* `Js.Chat`: time and `ttl` are natural numbers of milliseconds; a timer runs at any time from when it is due; timers have numbers that are not 0 and not used twice. Lone surrogates in messages are replaced when encoding, as in `Verif.Js.Text`.
* `Js.Download`: what a subscription delivers and when decoders fail is arbitrary; selected tracks and broadcasts are numbers; what a decoder puts out (the two frames kept by the video player, the ring buffer of the audio player) is in other models or not modelled; a delta frame before any key frame does not make `decode()` throw; whether an effect whose cleanup threw runs again is left open.
* `Js.Renderer`: what is drawn (89-123) is left out; the constructor's properties are as if set at once; nobody else sets `source.enabled`; effects have run when `set` returns.
* `Js.Location`: one signal is set at a time and effects have run when `set` returns; positions, tracks and handles are numbers; decoding of positions (`container/position.ts`) is part of what `next()` settles with.
* `Js.Locating`: the broadcast is open and nobody else uses these names; of a track only the newest group is kept; consumers of tracks are not counted; properties of the constructor of `Location` are as if set at once.
* `Wasm.Render`: times are natural numbers without overflow; a canvas is its size; `draw_image` and `get_context` do not fail; `Instant` differences saturate, as documented for `web_time`.
* `Wasm.Watch`: track names and decoder configurations are numbers; connecting, catalogs and the ends of tracks are events; which decoder configurations are accepted is a parameter; dropping a track ends its subscription. Decoding and resampling are left out.
* `Wasm.Publish`: tracks are numbers; configurations are known or not; a URL is its path and whether the scheme is http or https; encoders do not fail after `init`; the choice of the codec is left out. Whether a broadcast has a producer is computed from who holds one.
* `Wasm.Pool`: of a URL, the scheme, port and path are modelled and the rest is a number; `set_scheme` and `set_path` as documented by the `url` crate; a failure to configure the client counts as a failure to connect; `watch` channels as documented by tokio.
* `Clock`: times are natural numbers of nanoseconds; the text of a minute is its number; no leap seconds; the sequence has no bound. How groups get from the publisher to the subscriber is the subject of other properties.
* `Hang/Init`: boxes are given as decoded, with the fields that are used; that re-encoding the AVC or HEVC configuration may fail is a field (`body`). Whether a track is still written to is modelled, not how many producers hold it.
* `Gst.Source`: GStreamer is represented by what the comment of the file states (panics in `change_state` are caught; names of pads are unique; pads are activated with the element). Numbers in caps are natural numbers, whatever type the code gives them. Adding all pads is one step.
* `Gst.Sink`: GStreamer is represented by what the comment of the file states (order of calls; panics are caught and later calls fail). A panic of the importer is one of its errors. The mutex of the state, which a panic of `render` poisons, is not represented: nothing uses it after a panic. Of the session only the broadcast is represented.
* `Hang.Cli`: the branches of `tokio::select!` are events in any order; the boxes `ftyp` and `moov` are one event each, with the result of reading and importing them; of the web server it is only modelled that it ends. Connecting, `Session::connect` and `publish` are one step.
* `Js.Publishing`: the effect runs again at once when a signal that it reads is set to another value; signals are set one at a time. Of `close` only the end of the effects is represented. Each new connection is a new publisher.
* `Js.WatchChat`: the broadcasts are open, so that `subscribe` does not throw; names, priorities, times to live and broadcasts are numbers; effects run at once, as in `Js.Locating`. What is done with the messages is in `Js.Chat`.
* `Js.ChatCatalog`: the broadcast is open and has no other track `chat.md`; a reader is closed at most once; effects run at once, as in `Js.Locating`.
* `Relay/TokenCli`: a file is the key that is read from it; `serde_json` reads back the key that it has written. `clap` has taken the arguments apart. `c132_pipe` assumes that signatures in base 64 have no line ends. The input of `verify` is text in UTF-8.

## 6. Where the code violates a property

Each is a theorem with a concrete witness; the theorem ending in `_partial`
states what does hold.

| id | violation | witness |
|----|-----------|---------|
| C06, C09 | session-info with bitrate `Some(0)` has the encoding of `None` | `c06_sessionInfo_zero_lost`, `c09_sessionInfo_ambiguous` |
| C14 | the client accepts a version that it did not offer | `c14_client_accepts_unoffered` |
| C16 | application codes above 2^32-301 overflow: panic, or without checks a collision | `c16_app_overflow`, `c16_collision_without_checks` |
| C17 | priorities of different sign, and sequences from 2^24 on, are ordered wrongly | `c17_priority_order_violated`, `c17_sequence_violated` |
| C19 | clones of a frame producer have their own counters and together write too much or too little | `c19_clone_oversize`, `c19_clone_undersize` |
| C20 | a clone can finish a frame that another clone aborted | `c20_finish_overrides_abort` |
| C25 | two clones appending at the same time: one panics | `c25_append_race` |
| C27 | `finish` hides the last group from a reader that was not scheduled in between | `c27_last_group_hidden` |
| C29 | inserting a track under a requested name leads to two outstanding requests | `c29_two_requests` |
| C33 | a pending `unused()` delays `closed()` and the other way round | `c33_closed_delayed`, `c33_unused_delayed` |
| C36 | closing an older broadcast removes the newer one at the same path | `c36_stale_close` |
| C39 | a publish between the two locks of `clone` is missed by the clone | `c39_missed` |
| C42 | a path published again before its predecessor was unannounced is announced twice and may stay announced | `c42_active_twice`, `c42_left_announced` |
| C43 | a suffix announced again before the asynchronous clean-up is rejected as a duplicate | `c43_spurious` |
| C44 | with a non-empty prefix the suffix is filtered by the prefix again, and subscriptions carry only the suffix | `c44_filtered_again`, `c44_wrong_path` |
| C49 | a group arriving between the closing of its track and the removal of its id panics | `c49_panic` |
| C53 | a `.jwt` URL panics when no key applies in its directory; `main.rs` runs the check in its accept loop | `c53_panics` |
| C54 | parents and children of a protected directory need no token, and a token reaches siblings with the same name prefix | `c54_bypass`, `c54_escape` |
| C57 | tokens are accepted up to 60 s after expiry, and times are rounded to seconds | `c57_leeway_and_rounding` |
| C58 | timestamps from 2^62 µs panic, from 2^64 µs they can be truncated silently | `c58_late`, `c58_truncated` |
| C61 | `buffer_frames_until` spins forever once the group has ended early; a reader with a latency hangs | `c61_spins`, `c61_reader_hangs` |
| C63 | AV1 profile 2 is written but cannot be read; numbers out of range | `c63_professional` |
| C64 | parsing panics on some multi-byte text; signs are accepted in hex fields | `c64_panics` |
| C65 | hex bytes are not padded; empty fields; different configurations have the same string | `c65_flags_changed`, `c65_no_constraints`, `c65_ambiguous` |
| C66 | an unknown codec named like a known one is read as the known one | `c66_audio_renamed` |
| C67 | boxes that reach to the end of the input depend on the cuts, and so does continuing after an error | `c67_open_box`, `c67_after_error` |
| C68 | without data offsets the slices of two tracks overlap; several malformed fragments panic; frames are written before the rejection | `c68_overlap`, `c68_written_before`, `c68_header_panics`, `c68_timescale_panics`, `c68_negative_panics`, `c68_backwards_panics` |
| C69 | closing a replaced track removes an equal replacement; a frame rate that is not a number is never removed | `c69_replaced`, `c69_not_a_number` |
| C70 | a failed group blocks the reader forever | `c70_blocked`, `c70_witness` |
| C76 | a `/fetch` response that had to wait is never woken | `c76_never_woken`, `c76_hangs` |
| C77 | the text of `/announced` is ambiguous for paths with line breaks and for a broadcast at the prefix | `c77_ambiguous` |
| C79 | `/announced` and `/fetch` need no token | `c79_open` |
| C80 | `connect` compares the scheme with the ALPN `moql-00`, so every successful connection to a `moql` URL panics | `c80_panics`, `c80_no_raw` |
| C81 | a certificate that cannot be parsed is loaded, and the choice of a certificate panics | `c81_panic_partial` |
| C82 | only the fingerprint of the first certificate is served | `c82_refused`, `c82_rejected` |
| C84 | at the end of the track `CatalogConsumer::next` may return `None` before the last catalog | `c84_lost` |
| C85 | `LocationConsumer::next` waits for the frame of one group and ignores newer groups; a dropped future loses its group; clones race | `c85_stalls`, `c85_cancelled`, `c85_latest_race` |
| C86 | a name published again in a room is removed from the set when the old broadcast ends; late echoes and namesakes | `c86_replaced`, `c86_late`, `c86_namesake` |
| C87 | `run_session` decodes `SubscribeOk` instead of `SessionInfo`; a failed handshake drops the stream, so the peer sees code 0 only | `c87_info`, `c87_refusal` |
| C88 | a URL ending in `.jwt` where no key applies panics in the main task and ends the relay | `c88_crash` |
| C89 | the end of a subscription is on another stream than its groups, so the last group may come after it and is lost, or arrives between `finish` and `remove` and panics | `c89_end_lost`, `c89_end_panics` |
| C90 | js/moq/src/wire/subscribe.ts writes and reads the priority as a variable-length integer, rs/moq/src/message/subscribe.rs as one byte.  From 64 on a browser waits for the rest of a native subscription for ever (native players subscribe to the catalog with priority 100), and a native peer rejects the browser's subscription or confirmation for the bytes left over. | `c90_priority_starves`, `c90_priority_cancels` |
| C90 | `TextDecoder` is used without `ignoreBOM`: a path or track name that starts with U+FEFF loses it. | `c90_mark_lost` |
| C90 | Group numbers and bit rates from 2^53 on are read by native peers but throw in the browser; `Writer.u62` writes 2^62 as 0. | `c90_large_throws`, `c90_u62_wraps` |
| C90 | The browser takes any status of an announcement but 1 for an end, and decodes text that is not UTF-8; native peers reject both. | `c90_lenient` |
| C92 | `#runBidis` and `#runUnis` wait for the first message of a stream before they accept the next one, and end with the first exception.  One incomplete or invalid stream blocks all later ones; a native subscription with priority 64 or more (C90) is such a stream. | `c92_poisoned`, `c92_priority_poisons` |
| C94 | js/moq/src/util/watch.ts:166-174: `next` returns the value of the first update after it began to wait, but marks the newest one as read.  Of two groups that arrive before it continues, the newer one is skipped until yet another arrives. | `c94_burst` |
| C94 | js/moq/src/track.ts:67-76: `close` replaces the newest group by null; a reader that has not fetched it never gets it. | `c94_end_lost` |
| C96 | js/moq/src/publisher.ts:46-75: `publish` replaces an entry without ending its task.  A path published twice is announced as active twice, and the end of the first broadcast deletes the entry of the second one and announces its end. | `c96_twice`, `c96_lost`, `c96_witness` |
| C97 | js/moq/src/util/watch.ts:207-213: `close` decrements the count each time it is called.  After a second `close` of one consumer, `unused` returns though another one is open. `#runPublish` (publisher.ts:67) closes a consumer its caller may have closed. | `c97_double`, `c97_negative`, `c97_witness` |
| C98 | js/moq/src/subscriber.ts:98-100, 113: the consumer kept in the cache was made by `consume()` or `clone()` and counts, so neither `track.unused()` nor `producer.unused()` ever returns.  The browser never unsubscribes; the peer sends the track until the connection ends. | `c98_never`, `c98_flood`, `c98_witness` |
| C98 | js/moq/src/subscriber.ts:132: `Stream.open` is outside of the `try`; if it throws, the track is neither closed nor aborted, and its readers wait for ever. | `c98_lost` |
| C98 | Closing one consumer several times ends the subscription although another consumer is open (C97). | `c98_early` |
| C99 | `setVint53` does not refuse negative numbers: `v <= MAX_U6` holds, and the low byte is written. For -1 the reader takes seven bytes of the payload for the timestamp. `publish/audio.ts:198` computes timestamps with `| 0`, which become negative after 35 minutes. | `c99_negative`, `c99_swallowed` |
| C99 | Timestamps from 2^53 us on, which native peers write, are rounded by the browser. | `c99_rounded` |
| C100 | `FrameProducer.encode` opens the group before it encodes: a keyframe that is refused leaves an empty group, and the next frame, which is no keyframe, is its first. | `c100_refused` |
| C100 | A frame with a negative timestamp is read as another frame. | `c100_negative` |
| C101 | `#connect` reconnects in the `catch` block only. If `closed()` resolves, as it does when the relay closes the session, nothing happens: the dead connection stays established and the status stays "connected". | `c101_clean`, `c101_stuck` |
| C101 | Attempts are not cancelled. If the URL changes (or `close` is called) during one, its connection replaces the established one without closing it; if it fails, `established` is cleared. Nothing closes these connections any more. | `c101_leak`, `c101_revived` |
| C101 | The timer of a failed attempt is not cleared when the URL changes; when it fires, the good connection of the new URL is closed and made again. | `c101_torn` |
| C102 | `frame` tests `!this.#ref`, which also holds for 0: if the earliest frame was exactly on time, the next lag is reported as 0. | `c102_forgets`, `c102_forgets_witness` |
| C102 | `close` does not close the decoder (`#init` returns a function for that, which `effect` ignores), so frames are kept that are output afterwards, and never closed. | `c102_leak` |
| C103 | `#emit` tests `!this.#ref`, which also holds for 0. | `c103_zero` |
| C103 | The reference only moves when samples are early. If they are late by more than the latency for good (the network became slower, timestamps began anew), all are dropped, and there is no sound any more. | `c103_starved` |
| C103 | Disabling stops the nodes, but `onended` schedules a sample again if its time has not come. | `c103_undead` |
| C103 | `onended` removes the first active node, not the one that ended; samples that are scheduled again play before those that were started earlier, so the wrong one is removed. | `c103_orphan` |
| C104 | Two groups appended at once: the newer one is never sent. The last group is lost if the track ends before the one before it was asked for; the subscription is finished as if complete. If SUBSCRIBE_OK cannot be written, the consumer of the track is never closed. After unsubscribing, the streams of groups go on. A group number from 2^53 on leaves a stream with part of a header that is never ended. | `c104_burst`, `c104_end_lost`, `c104_leak`, `c104_after`, `c104_stuck` |
| C105 | When the peer finishes the stream of the subscription, `track.close()` decides the race of every group that waits: the group is closed as if it were complete, its stream is cancelled; streams that arrive later are refused as unknown. QUIC does not order streams, so this loses the end of a track. | `c105_cut`, `c105_cut_witness` |
| C106 | A publisher writes a complete group and closes its track; the subscriber closes the group with one of two frames and its reader is told the end of the track. | `c106_cut` |
| C107 | A run that waits for `#bestEncoderConfig` when it is replaced continues later: its `finally` closes `#group`, which is now the group of the new run, so the chunks of the new run up to the next key frame are lost ("no keyframe"), and sets `active` to false; its picture replaces a newer one in `frame()`, and its `#encoderConfig` is put into the catalog for the new track. | `c107_late_loses`, `c107_late_inactive`, `c107_late_shows` |
| C107 | After an error of the encoder, `encoder.close()` in the `finally` throws, so `active` is never set to false. | `c107_error_active` |
| C107 | The encoder is closed without `flush()`: the pictures in it are never put out. | `c107_end_loses` |
| C107 | A picture for which `#bestEncoderConfig` throws is never closed. After `close()`, `frame()` returns a closed picture; a run that waits for its configuration closes it once more and leaves its own open. | `c107_refused_leaks`, `c107_closed_shown`, `c107_closed_twice` |
| C107 | `output` sets `#groupTimestamp` back to that of the key frame put out, which may be older than the key frame just requested: another is requested at once. If timestamps begin anew in another run, none is requested in time. | `c107_slow_keys`, `c107_backwards` |
| C108 | `#runWorklet` returns if `root` is not set, and only `#runWorklet` sets it: no `AudioContext`, track or catalog is ever created. (Beside that, the module is added to the old context, the node is made in it, nothing is connected to the node, and its port is not started.) | `c108_never` |
| C108 | `#group` survives the cleanup: it is never closed when a run is stopped, and chunks of the next run are written to it, in a track that was closed and removed, until they are half a second after its first chunk; a new context begins at 0. | `c108_open`, `c108_stale` |
| C108 | `(context.currentTime * 1e6) \| 0` is negative from 2147.483648 s: `encodeFrame` writes one wrong byte for it, and no group is started any more. | `c108_wrap`, `c108_wrap_written` |
| C109 | The promise of `getUserMedia` or `getDisplayMedia` sets `media` even if the effect was cleaned up since: the camera is published though no device is wanted; with two requests a track is replaced without being stopped and is on for ever; a grant after `close()` is on for ever. | `c109_late_captured`, `c109_late_lost`, `c109_late_closed` |
| C109 | `#runScreen` reads `audio.enabled`: switching sound on or off while the screen is shared stops the picture and prompts the user again, for the same media; `getDisplayMedia` asks for picture and sound whichever is enabled. | `c109_screen_again`, `c109_screen_picture` |
| C110 | Two changes that are not in one `batch` publish two catalogs at once; a reader that waits for a group is given the older one and then waits, so it shows an outdated catalog until the next change. | `c110_burst` |
| C110 | `Broadcast.close` does not close the catalog track: its readers wait for ever. | `c110_endless` |
| C111 | `#active` is not unset when the connection or the path changes: the new broadcast is consumed before it is announced. If that fails after a reconnect, because the publisher is not back yet, the announcement that follows does not change `#active`, and the broadcast is never loaded. | `c111_stale`, `c111_deaf`, `c111_stuck`, `c111_late_heard` |
| C111 | The `finally` of an old catalog loop runs after the effect has subscribed anew: it sets the status from loading to offline, and if it is late, it deletes the new catalog. | `c111_offline`, `c111_late` |
| C112 | The schema of the browser demands whole numbers below 2^32 for frame rates and bitrates, where Rust has `f64` and `u64`, and the browser publishes the frame rate of the camera as it is: one fraction makes the whole catalog unreadable in browsers. | `c112_fraction`, `c112_own_fraction`, `c112_bitrate` |
| C112 | `skip_serializing_none` stands after the derive in location.rs, so that Rust writes `null` for a missing initial position or track, which `z.optional` rejects. | `c112_location` |
| C112 | The types differ: priorities are `u8` in Rust and `uint32` in the browser, names of peers are `u32` in Rust and strings in the browser; zoom, scale and z have no counterpart. | `c112_priority`, `c112_peer`, `c112_scale` |
| C113 | The first effect sets the volume to `#unmuteVolume`, 0.5, when it first runs, whatever the constructor was given. | `c113_new` |
| C113 | A volume set while muted unmutes, and the unmuting puts back the volume from before the muting. | `c113_override` |
| C113 | `paused` is meant to control the download apart from `muted`, but muting disables and unmuting enables the source too. | `c113_mute`, `c113_unmute` |
| C114 | `ttl` 0 is falsy, so the message is kept for ever. `close()` cancels the timer but leaves message and track as they are. | `c114_kept`, `c114_endless` |
| C114 | Of two messages published in one go, a waiting reader gets the first and misses the second until there is a third. | `c114_burst` |
| C114 | A byte order mark at the beginning of a message is lost in the receiver's `TextDecoder`. | `c114_bom` |
| C115 | The video player returns a function from its effect instead of registering cleanups, and it is ignored: old downloads and decoders go on after every change and after `close()`, and their frames go to the same player. | `c115_goes_on`, `c115_many` |
| C115 | One error of a decoder closes the video player for good. | `c115_video_error` |
| C115 | When an audio decoder failed, the cleanup `decoder.close()` throws, so `sub.close()` is never called. A frame that arrives just before a change is an unhandled rejection. | `c115_leak`, `c115_throws`, `c115_late` |
| C116 | A report of visibility that was queued before `disconnect()` and is delivered afterwards sets `source.enabled`, although the renderer is closed or paused. | `c116_late` |
| C116 | Video is downloaded for a canvas without a 2d context, though it is never drawn. | `c116_blind` |
| C117 | The reader of a subscription that was replaced still sets the location: it removes it when its track ends, or shows a position of the previous broadcast. | `c117_wiped`, `c117_stale`, `c117_closed` |
| C117 | When a catalog has another track, the end of the old reader removes the new initial position. | `c117_lost` |
| C117 | Any change of the location section of the catalog shows its initial position again, over a newer one. | `c117_back` |
| C118 | A peer created with a handle, which has another one now, removes the track and catalog entry of whoever has its first handle when it is closed (the cleanups of the first run of `memo` belong to the root). | `c118_gone` |
| C118 | Two peers with the same handle: closing either removes the track and the entry of both. | `c118_shared` |
| C118 | `memo` runs its function twice, so that a peer has two open tracks. | `c118_double` |
| C118 | Setting `current` to undefined leaves the last position in the track. | `c118_unset` |
| C119 | Pausing and resuming between two animation frames leaves a request outstanding with an empty queue: `expect("rendered with no frames")` panics. | `c119_toggle` |
| C119 | A new renderer is idle although the documented default is not paused: without setting the pause or the latency nothing is drawn. | `c119_default` |
| C119 | Setting the latency resumes a paused renderer, and does not request an animation frame. | `c119_unpaused`, `c119_stuck` |
| C119 | The canvas is given the size of the first frame in the queue, also if a later one is drawn. | `c119_size` |
| C120 | Connecting to another broadcast keeps the subscription to the old one if its track has the same name. | `c120_stale` |
| C120 | A catalog that changes the configuration of a track does not change the decoder. | `c120_config` |
| C120 | `strip_prefix("/").unwrap()` panics for URLs such as `moq:a`, before the result of connecting is looked at. | `c120_scheme` |
| C120 | `Connect(None)` reports `Disconnected` but leaves broadcast and tracks running; the next catalog reports `Live` again. | `c120_leave`, `c120_left` |
| C121 | `Publish.broadcast` is never set: encoders opened after connecting are never published, and changing the camera ends the broadcast. | `c121_late`, `c121_switch` |
| C121 | Connecting before opening an encoder publishes a broadcast that is over at once. | `c121_empty` |
| C121 | The room path is prepended to itself: the broadcast for `/a` is named `aa`, while the player for the same URL looks for `a`. | `c121_name`, `c121_apart` |
| C121 | `Connect(None)`, or connecting elsewhere, does not stop publishing to the broadcast before. | `c121_left`, `c121_both` |
| C121 | Frames are encoded before connecting, contrary to the comment on privacy. | `c121_private` |
| C122 | A failed connection stays in the map: later attempts for the same URL give the old error. | `c122_failed` |
| C122 | The map holds a receiver, so that the branch closing a session without users is never taken. | `c122_idle`, `c122_leak` |
| C122 | A session that closed is handed out until its task has run. | `c122_stale` |
| C122 | The status of the answer is not looked at, and an empty text is a valid fingerprint. | `c122_blank` |
| C123 | `run` assumes that it slept exactly until the next minute: after a late round, all later groups have the wrong time and one line only. | `c123_drift`, `c123_late` |
| C123 | After a sleep of a whole number of hours the old hour is printed. | `c123_hour` |
| C124 | When the same header comes twice, the tasks of the replaced tracks remove the entries of the new ones: the catalog becomes empty while media is still published. | `c124_again` |
| C124 | The tracks before the box that makes a header fail stay in the catalog, without media. | `c124_half` |
| C124 | The AV1 bit depth is derived from the tier, and the tier is always listed as main: 8 bits in the high tier are listed as 10, 12 bits in the main tier as 10. | `c124_tier`, `c124_depth_partial` |
| C124 | The catalog of an AV1 stream of profile 2 cannot be read in Rust. | `c124_profile` |
| C125 | The first buffer has the absolute time of its frame, all others have the time since it. | `c125_jump` |
| C125 | A frame whose time is before that of the first frame makes the task of its pad panic. | `c125_early` |
| C125 | Pads and tasks survive the stop of the element; starting it again panics. | `c125_again`, `c125_stop` |
| C125 | One track with another codec than H.264, AAC and Opus makes the element panic. | `c125_unsupported` |
| C126 | Stopping the element does not end its broadcast. | `c126_still_there` |
| C126 | If the relay cannot be reached the element panics while its settings are locked: it cannot be started again, setting a property panics, and a former broadcast stays. | `c126_unreachable` |
| C126 | A buffer that is not valid makes the element panic instead of reporting an error. | `c126_bad_buffer` |
| C127 | `hang publish` ends as soon as its input ends, with success even if it never was connected, and without closing the session. | `c127_lost`, `c127_abrupt` |
| C128 | `hang serve` ends with its input, though connections are still watching. | `c128_cut_off` |
| C129 | A broadcast that is disabled and enabled again before the publisher has noticed is not found any more, though `published` is true. | `c129_lost` |
| C130 | The function of a memo runs twice at construction, and the cleanups of the first run wait for `close`: a chat that is created when all is there has two subscriptions. | `c130_twice` |
| C130 | A catalog with another time to live, and the same track, makes the chat subscribe again. | `c130_again` |
| C130 | After `close`, `track` still gives the closed consumer. | `c130_stale` |
| C131 | After `close`, the catalog of the chat still names the track. | `c131_stale` |
| C131 | A chat that is disabled or closed still sends its messages to those who have subscribed before. | `c131_still` |
| C132 | `moq-token sign` prints a line end after the token, and `moq-token verify` does not remove it, so that the output of the first is refused by the second. | `c132_pipe` |

Notes on properties that hold with a stated limit: C45 and C46 hold for frames
whose producer is not cloned (C19); C48 holds for at most 2^64 subscriptions;
C59 for at most 2^64 groups.

## 7. Axioms of every theorem in the manifest

Axioms: none.

* `Verif.Props.GstSink`: `c126_kept`
* `Verif.Props.Import`: `c67_open_box`, `c67_after_error`
* `Verif.Props.Token`: `c57_names`

Axioms: `propext`.

* `Verif.Props.Auth`: `c53_panics`
* `Verif.Props.Catalog`: `c69_replaced`, `c69_not_a_number`
* `Verif.Props.Cli`: `Client.c127_lost`, `Client.c127_abrupt`, `Server.c128_isolated`, `Server.c128_cut_off`
* `Verif.Props.Clock`: `c123_hour`, `c123_late`, `c123_repeat`
* `Verif.Props.Codec`: `c65_ambiguous`, `c66_audio_unknown`
* `Verif.Props.Coding`: `c05_u8`
* `Verif.Props.Frame`: `c19_clone_oversize`, `c19_clone_undersize`
* `Verif.Props.GstSink`: `c126_still_there`, `c126_unreachable`, `c126_bad_buffer`
* `Verif.Props.GstSource`: `c125_jump`, `c125_early`, `c125_again`, `c125_stop`, `c125_unsupported`
* `Verif.Props.Handshake`: `c16_collision_without_checks`, `c17_priority_order_violated`, `c17_sequence_violated`
* `Verif.Props.Import`: `c67_read_feed`, `c68_overlap`, `c68_written_before`, `c68_header_panics`, `c68_timescale_panics`, `c68_negative_panics`, `c68_backwards_panics`
* `Verif.Props.ImportInit`: `c124_depth_partial`, `c124_tier`
* `Verif.Props.JsAccept`: `c92_all_handled_partial`, `c92_handled`, `c92_poisoned`
* `Verif.Props.JsCapture`: `c107_late_shows`, `c107_closed_twice`, `c107_slow_keys`, `c107_backwards`
* `Verif.Props.JsFrames`: `c99_rounded`, `c100_refused`, `c100_negative`
* `Verif.Props.JsLocating`: `c118_unset`
* `Verif.Props.JsLocation`: `c117_lost`, `c117_back`
* `Verif.Props.JsPlayback`: `c102_forgets_witness`, `c102_leak`
* `Verif.Props.JsReceive`: `c105_cut_witness`
* `Verif.Props.JsServe`: `c104_end_lost`, `c104_after`
* `Verif.Props.JsSubscriber`: `c98_early`
* `Verif.Props.JsTrack`: `c94_end_lost`
* `Verif.Props.JsUnused`: `c97_witness`
* `Verif.Props.JsWatchChat`: `c130_twice`
* `Verif.Props.JsWatching`: `c111_loading`
* `Verif.Props.JsWire`: `c91_empty_piece`
* `Verif.Props.Latest`: `c84_lost`, `c85_stalls`, `c85_cancelled`, `c85_latest_race`
* `Verif.Props.Message`: `c09_sessionInfo_ambiguous`
* `Verif.Props.Native`: `c80_verified`, `c80_protocol`, `c80_panics`, `c80_no_raw`
* `Verif.Props.ServeLoop`: `c50_end_only`
* `Verif.Props.Token`: `c57_secret`
* `Verif.Props.Track`: `c25_append_race`
* `Verif.Props.Tree`: `c89_end_lost`, `c89_end_panics`
* `Verif.Props.WasmRender`: `c119_default`, `c119_unpaused`, `c119_stuck`, `c119_size`
* `Verif.Props.WasmWatch`: `c120_stale`, `c120_config`, `c120_leave`, `c120_left`, `c120_scheme`
* `Verif.Props.Web`: `c77_text_partial`

Axioms: `Quot.sound`, `propext`.

* `Verif.Props.Announce`: `c42_active_twice`, `c42_left_announced`, `c43_result`, `c43_spurious`, `c44_filtered_again`
* `Verif.Props.Auth`: `c52_loaded`, `c54_escape`
* `Verif.Props.Broadcast`: `c29_two_requests`, `c32_drop_ends`, `c33_closed_delayed`, `c33_unused_delayed`
* `Verif.Props.Cli`: `Client.c127_shown`, `Client.c127_input`, `Client.c127_connection`, `Client.c127_over`, `Client.c127_graceful`
* `Verif.Props.Clock`: `c123_printed`, `c123_nothing`, `c123_panic`, `c123_true_partial`, `c123_rising`
* `Verif.Props.Codec`: `c62_roundtrip`, `c62_injective`, `c64_roundtrip`, `c65_flags_changed`, `c65_no_constraints`, `c66_aac`
* `Verif.Props.Coding`: `c04_u32_range_checked`, `c05_i8`, `c07_sizer`
* `Verif.Props.Frame`: `c20_finish_overrides_abort`
* `Verif.Props.Grammar`: `c72_get`
* `Verif.Props.GstSink`: `c126_start`, `c126_stop`, `c126_url`, `c126_not_rendered`, `c126_fresh`, `c126_dead`
* `Verif.Props.Handshake`: `c14_client_accepts_unoffered`, `c16_app_overflow`
* `Verif.Props.Import`: `c68_times`, `c68_audio_keyframes`
* `Verif.Props.ImportInit`: `c124_again`, `c124_half`
* `Verif.Props.JsAnnounced`: `c95_told`
* `Verif.Props.JsAudioCapture`: `c108_stamp_partial`, `c108_never`, `c108_wrap`
* `Verif.Props.JsCapture`: `c107_error_active`, `c107_refused_leaks`, `c107_closed_shown`
* `Verif.Props.JsEndToEnd`: `c106_cut`
* `Verif.Props.JsFrames`: `c99_refused`
* `Verif.Props.JsLocating`: `c118_initial`, `c118_created`, `c118_gone`, `c118_double`
* `Verif.Props.JsMedia`: `c109_late_captured`, `c109_screen_picture`
* `Verif.Props.JsPlayback`: `c102_owned`, `c102_shown`, `c102_order`, `c102_nothing`, `c102_skip`, `c102_lag_partial`, `c102_forgets`
* `Verif.Props.JsPublisher`: `c96_ended`, `c96_counts`, `c96_found`, `c96_consistent`, `c96_served_partial`, `c96_twice`, `c96_lost`, `c96_witness`
* `Verif.Props.JsPublishing`: `c129_flag`, `c129_publish`, `c129_only`, `c129_found_partial`, `c129_served_partial`, `c129_taken_back`, `c129_lost`
* `Verif.Props.JsReconnect`: `c101_torn`
* `Verif.Props.JsRenderer`: `c116_last`
* `Verif.Props.JsSchedule`: `c103_orphan`
* `Verif.Props.JsServe`: `c104_stuck`
* `Verif.Props.JsSubscriber`: `c98_witness`
* `Verif.Props.JsTrack`: `c94_accepted`, `c94_groups`, `c94_frames`, `c94_end`, `c94_frames_end`, `c94_waiting`, `c94_newest_partial`, `c94_frames_newest_partial`, `c94_burst`
* `Verif.Props.JsWatchChat`: `c130_open`, `c130_open_partial`, `c130_track`, `c130_ttl`, `c130_stays_partial`, `c130_again`, `c130_closed`, `c130_stale`, `c130_valid`
* `Verif.Props.JsWatching`: `c111_deaf`, `c111_stuck`, `c111_offline`, `c111_late`, `c111_late_heard`
* `Verif.Props.JsWire`: `c90_u62_wraps`
* `Verif.Props.Latest`: `c85_roundtrip`, `c85_exact`, `c85_latest_partial`
* `Verif.Props.Lifecycle`: `c87_survives`, `c87_code`, `c87_exact`, `c87_final`, `c87_ends`, `c87_streams`, `c87_next`, `c87_info`, `c87_refusal`
* `Verif.Props.Media`: `c58_truncated`, `c61_reader_hangs`, `c70_witness`
* `Verif.Props.Message`: `c06_sessionInfo_zero_lost`, `c10_decoded_distinct`
* `Verif.Props.Native`: `c80_total_partial`, `c81_own`, `c81_panic_partial`, `c83_cert`, `c83_path`
* `Verif.Props.Origin`: `c36_stale_close`, `c38_notified`, `c39_missed`
* `Verif.Props.Reader`: `c13_read_size`
* `Verif.Props.Room`: `c86_others`, `c86_end`, `c86_own_partial`, `c86_freed`, `c86_path`, `c86_replaced`, `c86_late`, `c86_namesake`
* `Verif.Props.Subs`: `c48_one`, `c48_refused`, `c49_panic`, `c48_window`
* `Verif.Props.Token`: `c57_sign`, `c57_same`
* `Verif.Props.TokenCli`: `c132_kept`, `c132_verify`
* `Verif.Props.Track`: `c27_last_group_hidden`
* `Verif.Props.WasmPublish`: `c121_switch`, `c121_empty`, `c121_apart`, `c121_private`, `c121_left`, `c121_both`
* `Verif.Props.WasmRender`: `c119_idle`
* `Verif.Props.WasmWatch`: `c120_track`, `c120_off`, `c120_origin`, `c120_source_partial`, `c120_config_partial`, `c120_plays`, `c120_keep`, `c120_subscribes`, `c120_status`, `c120_names`, `c120_panic`, `c120_sound_partial`, `c120_usable`, `c120_new`, `c120_single`, `c120_finish`, `c120_listens`, `c120_waits`
* `Verif.Props.Web`: `c77_ambiguous`, `c78_path`, `c79_open`

Axioms: `Classical.choice`, `Quot.sound`, `propext`.

* `Verif.Props.Announce`: `c42_ended_matched`, `c42_wellformed_partial`, `c42_settled_partial`, `c42_truth`, `c42_noticed`, `c43_mirror`, `c43_accepted`, `c43_reject`, `c43_accept_partial`, `c43_cleanup`, `c44_prefix`, `c44_all_partial`, `c44_subscribe_partial`, `c44_wrong_path`
* `Verif.Props.Auth`: `c52_authorised`, `c52_token`, `c53_panic_iff`, `c53_no_panic_partial`, `c54_directory_partial`, `c54_all_keys_partial`, `c54_bypass`
* `Verif.Props.Broadcast`: `c29_shared`, `c29_one_request_partial`, `c30_successor_kept`, `c30_removed`, `c30_cleanup`, `c30_no_more`, `c31_handed_once`, `c31_oldest_first`, `c31_answered_or_cancelled`, `c31_served`, `c32_last_drop`, `c32_once`, `c32_exactly`, `c32_effect`, `c33_closed_partial`, `c33_unused_partial`, `c74_unique`, `c74_visible`, `c74_possible`
* `Verif.Props.Catalog`: `c69_exact_partial`, `c69_complete_partial`, `c69_removed_closed`, `c69_progress`
* `Verif.Props.CatalogJson`: `c112_browsers`, `c112_to_browser_partial`, `c112_to_rust_partial`, `c112_rust_partial`, `c112_rust_same_partial`, `c112_description`, `c112_codecs`, `c112_fraction`, `c112_bitrate`, `c112_location`, `c112_own_fraction`, `c112_priority`, `c112_peer`, `c112_scale`
* `Verif.Props.Cli`: `Client.c127_cuts_partial`, `Server.c128_shown`, `Server.c128_input`, `Server.c128_connections`, `Server.c128_ends`, `Server.c128_over`
* `Verif.Props.Clock`: `c123_valid`, `c123_sleeps`, `c123_every`, `c123_drift`
* `Verif.Props.Codec`: `c62_accepted`, `c63_roundtrip_partial`, `c63_parsed_in_range`, `c63_professional`, `c64_no_panic_partial`, `c64_panics`, `c65_roundtrip_partial`, `c66_audio_partial`, `c66_audio_renamed`, `c66_video_partial`, `c66_video_unknown`
* `Verif.Props.Coding`: `c01_varint_roundtrip`, `c02_varint_shortest`, `c03_varint_decode_total`, `c03_varint_encode_panics`, `c04_u32_roundtrip`, `c04_conversions`, `c05_string`, `c05_bytes`, `c05_list`, `c05_string_encodable`, `c05_duration`, `c05_duration_encodable`, `c07_overrides`
* `Verif.Props.Frame`: `c18_received`, `c18_read`, `c18_readAll`, `c18_end_is_last`, `c18_closed_is_final`, `c19_exact_size_partial`, `c19_write`, `c19_finish`, `c20_unfinished_partial`, `c73_frame`
* `Verif.Props.Grammar`: `c71_decoders_accept`, `c71_encoders_conform`, `c72_set_get`
* `Verif.Props.Group`: `c21_read_frame`, `c21_cancel_changes_nothing`, `c21_whole_frames`, `c22_received`, `c22_next_frame`, `c22_end_is_last`, `c22_frame_reader`, `c22_invalid`, `c22_closed_is_final`, `c22_append`, `c73_group`
* `Verif.Props.GstSink`: `c126_render_partial`, `c126_published_partial`, `c126_cuts_partial`
* `Verif.Props.GstSource`: `c125_start`, `c125_start_partial`, `c125_other`, `c125_dead`, `c125_url`, `c125_frame`, `c125_end`, `c125_no_pad`, `c125_first`, `c125_times_partial`, `c125_some_time`
* `Verif.Props.Handshake`: `c14_server_half`, `c14_server_only`, `c14_handshake_partial`, `c15_first_stream`, `c15_control_streams`, `c15_data_streams`, `c15_no_type`, `c16_codes_distinct_partial`, `c17_priority_order_partial`
* `Verif.Props.Import`: `c67_split_partial`, `c67_cuts_partial`, `c67_read_partial`, `c68_slices_partial`, `c68_track`, `c68_bounds`, `c68_rejected`, `c68_no_panic_partial`
* `Verif.Props.ImportInit`: `c124_next`, `c124_header`, `c124_failed`, `c124_found`, `c124_sound`, `c124_write`, `c124_known`, `c124_names`, `c124_distinct`, `c124_listed_partial`, `c124_fresh`, `c124_tasks`, `c124_read_partial`, `c124_browser`, `c124_profile`
* `Verif.Props.JsAccept`: `c92_priority_poisons`
* `Verif.Props.JsAnnounced`: `c95_prefix`, `c95_end`, `c95_rejected`, `c95_available`, `c95_woken`, `c95_waiting`, `c95_closed`, `c95_write`, `c95_subscriber`
* `Verif.Props.JsAudioCapture`: `c108_track`, `c108_groups`, `c108_own`, `c108_written`, `c108_where`, `c108_readers`, `c108_silent`, `c108_how`, `c108_ended`, `c108_failed`, `c108_open`, `c108_wrap_written`, `c108_stale`
* `Verif.Props.JsCapture`: `c107_track`, `c107_groups`, `c107_whole`, `c107_written`, `c107_readers`, `c107_order`, `c107_one`, `c107_bound`, `c107_keys`, `c107_again`, `c107_silent`, `c107_final`, `c107_ended`, `c107_how`, `c107_catalog`, `c107_pictures`, `c107_open`, `c107_closed`, `c107_active`, `c107_inactive`, `c107_late_loses`, `c107_late_inactive`, `c107_end_loses`
* `Verif.Props.JsCatalogTrack`: `c110_groups`, `c110_current`, `c110_written`, `c110_read`, `c110_newest_partial`, `c110_endless`, `c110_burst`
* `Verif.Props.JsChat`: `c114_groups`, `c114_closed`, `c114_written`, `c114_early`, `c114_expires`, `c114_timers`, `c114_kept`, `c114_text`, `c114_bom`, `c114_read`, `c114_late`, `c114_gone`, `c114_joins`, `c114_newest_partial`, `c114_burst`, `c114_endless`
* `Verif.Props.JsChatCatalog`: `c131_catalog_partial`, `c131_stale`, `c131_frozen`, `c131_found`, `c131_consumers`, `c131_sent`, `c131_still`, `c131_valid`
* `Verif.Props.JsDownload`: `c115_started`, `c115_one_partial`, `c115_audio_fed`, `c115_order`, `c115_all`, `c115_video_sub`, `c115_audio_sub`, `c115_over`, `c115_shut`, `c115_video_error`, `c115_leak`, `c115_throws`, `c115_late`, `c115_goes_on`, `c115_many`
* `Verif.Props.JsEmitter`: `c113_fit`, `c113_settles`, `c113_set`, `c113_mute`, `c113_unmute`, `c113_back`, `c113_pause`, `c113_root`, `c113_close`, `c113_override`, `c113_zero`, `c113_new`
* `Verif.Props.JsEndToEnd`: `c106_frames`, `c106_whole`, `c106_delivers`, `c106_readers`
* `Verif.Props.JsFrames`: `c99_roundtrip_partial`, `c99_to_native`, `c99_from_native`, `c99_agree`, `c99_negative`, `c99_swallowed`, `c100_read_partial`, `c100_track`, `c100_first`, `c100_accepts`, `c100_closed`
* `Verif.Props.JsGroup`: `c93_prefix`, `c93_end`, `c93_rejected`, `c93_available`, `c93_closed`, `c93_waiting`, `c93_resumed`, `c93_write`
* `Verif.Props.JsLocating`: `c118_own`, `c118_catalog`, `c118_served`, `c118_sole_partial`, `c118_takes`, `c118_others`, `c118_update`, `c118_released`, `c118_left`, `c118_frozen`, `c118_shared`
* `Verif.Props.JsLocation`: `c117_one`, `c117_follow`, `c117_initial`, `c117_reset`, `c117_kept`, `c117_steady`, `c117_ends`, `c117_source`, `c117_peer_partial`, `c117_wiped`, `c117_stale`, `c117_closed`
* `Verif.Props.JsMedia`: `c109_open`, `c109_requests`, `c109_close`, `c109_captured_partial`, `c109_off_partial`, `c109_shown_partial`, `c109_lost`, `c109_closed_on`, `c109_late_lost`, `c109_late_closed`, `c109_screen_again`
* `Verif.Props.JsPublisher`: `c96_stream`, `c96_due`, `c96_endless`, `c96_alternates_partial`
* `Verif.Props.JsReceive`: `c105_track`, `c105_taken`, `c105_order`, `c105_frames`, `c105_closed`, `c105_aborted`, `c105_waiting`, `c105_sent`, `c105_whole`, `c105_delivers`, `c105_readers`, `c105_failed`, `c105_cut`
* `Verif.Props.JsReconnect`: `c101_attempts`, `c101_alive_partial`, `c101_retry`, `c101_once`, `c101_backoff`, `c101_closed`, `c101_single_partial`, `c101_status_partial`, `c101_clean`, `c101_stuck`, `c101_leak`, `c101_revived`
* `Verif.Props.JsRenderer`: `c116_scheduled`, `c116_draws`, `c116_no_throw`, `c116_observed`, `c116_enabled_partial`, `c116_visible`, `c116_reported`, `c116_off`, `c116_kept`, `c116_late`, `c116_blind`
* `Verif.Props.JsSchedule`: `c103_sync_partial`, `c103_window`, `c103_plays`, `c103_again`, `c103_stopped_partial`, `c103_moved_partial`, `c103_zero`, `c103_undead`, `c103_starved`
* `Verif.Props.JsServe`: `c104_streams`, `c104_bytes`, `c104_finished`, `c104_reset`, `c104_given_up`, `c104_waiting`, `c104_delivers`, `c104_gives_up`, `c104_monotone`, `c104_read`, `c104_read_rust`, `c104_track`, `c104_over`, `c104_unsubscribe`, `c104_newest_partial`, `c104_burst`, `c104_leak`
* `Verif.Props.JsSubscriber`: `c98_ids`, `c98_group`, `c98_told`, `c98_same_partial`, `c98_dedup_partial`, `c98_kept`, `c98_counted`, `c98_never`, `c98_flood`, `c98_lost`
* `Verif.Props.JsTrack`: `c94_concat`, `c94_closed`
* `Verif.Props.JsUnused`: `c97_sound_partial`, `c97_complete_partial`, `c97_stable`, `c97_rejected`, `c97_double`, `c97_negative`
* `Verif.Props.JsWatching`: `c111_announced`, `c111_consumed`, `c111_subscribed`, `c111_same`, `c111_always`, `c111_active_partial`, `c111_shown_partial`, `c111_off`, `c111_live`, `c111_stale`
* `Verif.Props.JsWire`: `c90_js_to_rust_partial`, `c90_rust_to_js_partial`, `c90_encoder_throws`, `c90_frame_to_rust`, `c90_frame_to_js`, `c90_open_control_partial`, `c90_accept_control_partial`, `c90_open_group`, `c90_accept_group`, `c90_handshake`, `c90_handshake_version`, `c90_priority_starves`, `c90_priority_cancels`, `c90_mark_lost`, `c90_large_throws`, `c90_accepts_partial`, `c90_lenient`, `c91_pieces`, `c91_items`, `c91_end_only_at_end`
* `Verif.Props.Latest`: `c84_first`, `c84_order`, `c84_current`, `c84_end`, `c85_returned`, `c85_current_partial`
* `Verif.Props.Main`: `c88_fates`, `c88_ids`, `c88_order`, `c88_progress`, `c88_runs_partial`, `c88_runs_keyed`, `c88_crash`
* `Verif.Props.Media`: `c58_roundtrip_partial`, `c58_read_partial`, `c59_groups`, `c58_late`, `grouping_unique`, `c60_prefix`, `c60_order`, `c60_received`, `c60_never_ignored`, `c60_ended`, `c60_available`, `c60_skip`, `c60_finished`, `c61_stops_partial`, `c61_poll`, `c61_spins`, `c70_moves_on_partial`, `c70_blocked`
* `Verif.Props.Message`: `c06_messages_roundtrip`, `c06_encodable`, `c08_stable`, `c08_truncation`, `c09_uniquely_decodable_partial`, `c10_order_independent`, `c10_duplicate_rejected`, `c10_complete_list`
* `Verif.Props.Native`: `c81_by_name`, `c81_default`, `c82_text`, `c82_recognised_partial`, `c82_refused`, `c82_rejected`
* `Verif.Props.Origin`: `c34_start`, `c34_prefix`, `c34_next`, `c34_complete`, `c35_prefix`, `c36_latest_partial`, `c36_closed`, `c36_progress`, `c36_no_more`, `c37_unique`, `c37_lookup`, `c38_woken`, `c38_end`, `c38_end_comes`, `c38_end_late`, `c38_wakeups`, `c38_usable`, `c39_clone_partial`, `c40_live_kept`, `c40_publish`, `c40_unused`, `c41_forward`, `c41_paths`, `c41_complete`
* `Verif.Props.Reader`: `c11_split_independent`, `c11_decode_whole`, `c12_optional_messages`, `c12_none_only_at_end`, `c13_bytes_conserved`
* `Verif.Props.Relay`: `c55_publish`, `c55_no_publish`, `c55_announced`, `c55_subscribe`, `c55_no_subscribe`, `c55_shown`, `c55_tasks`, `c56_get`, `c56_not_itself`, `c56_known`, `c56_connects`, `c56_peers`, `c56_admitted`
* `Verif.Props.Requests`: `c51_not_found`, `c51_ack`, `c51_existing`
* `Verif.Props.ServeLoop`: `c50_two`, `c50_newest`, `c50_order`, `c50_completes`, `c50_dropped_start`, `c50_dropped_done`, `c50_end`, `c50_fails`
* `Verif.Props.Subs`: `c48_unique`, `c48_route`, `c48_from`, `c48_next`, `c49_window_partial`
* `Verif.Props.Token`: `c57_verify`, `c57_roundtrip`, `c57_round_error`, `c57_algorithm`, `c57_expired`, `c57_generated`, `c57_leeway_and_rounding`
* `Verif.Props.TokenCli`: `c132_sign`, `c132_back_partial`, `c132_generated_partial`, `c132_pipe`, `c132_expired`
* `Verif.Props.Track`: `c23_increasing`, `c24_accepts_newer`, `c24_closed_panics`, `c25_append_partial`, `c25_append_start`, `c26_never_stale`, `c26_does_not_block`, `c27_last_group_partial`, `c28_end_reaches_all`, `c73_track`
* `Verif.Props.Transfer`: `c45_opens`, `c45_transfer`, `c45_progress`, `c45_served`, `c46_fin_complete`, `c46_prefix`, `c46_error`, `c47_reads`, `c47_wrong_size`, `c47_error`, `c47_no_panic`
* `Verif.Props.Tree`: `c89_hop`, `c89_copies`, `c89_groups`, `c89_newest`, `c89_fresh`, `c89_catch_up`, `c89_in_flight`, `c89_end`, `c89_content`
* `Verif.Props.WasmPool`: `c122_spawn`, `c122_one`, `c122_share`, `c122_keeps`, `c122_result`, `c122_gone`, `c122_clone`, `c122_idle`, `c122_run`, `c122_fetched`, `c122_order`, `c122_failed`, `c122_leak`, `c122_stale`, `c122_blank`
* `Verif.Props.WasmPublish`: `c121_listed`, `c121_lists_partial`, `c121_late`, `c121_stays`, `c121_closed`, `c121_over`, `c121_name`, `c121_encodes`, `c121_writes`, `c121_leave`, `c121_panic`, `c121_sound`, `c121_dead`, `c121_invalid`, `c121_err`, `c121_known`, `c121_once`, `c121_ended`
* `Verif.Props.WasmRender`: `c119_order`, `c119_suffix`, `c119_buffer`, `c119_due`, `c119_anchor`, `c119_kept`, `c119_reset`, `c119_seen`, `c119_paused`, `c119_hidden`, `c119_once`, `c119_asked_partial`, `c119_panic`, `c119_sound_partial`, `c119_toggle`, `c119_dead`, `c119_live`, `c119_timeout`, `c119_alive`, `c119_size_partial`
* `Verif.Props.WasmWatch`: `c120_dead`
* `Verif.Props.Web`: `c77_complete`, `c77_sound`, `c77_once`, `c77_progress`, `c78_response`
* `Verif.Props.WebBody`: `c75_sent`, `c75_poll`, `c75_ended`, `c76_complete_partial`, `c76_never_woken`, `c76_hangs`
