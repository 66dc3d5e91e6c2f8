{
 "claims": [
  {
   "property": "C01",
   "status": "proved",
   "theorems": [
    "Verif.Props.Coding.c01_varint_roundtrip"
   ],
   "note": ""
  },
  {
   "property": "C02",
   "status": "proved",
   "theorems": [
    "Verif.Props.Coding.c02_varint_shortest"
   ],
   "note": ""
  },
  {
   "property": "C03",
   "status": "proved",
   "theorems": [
    "Verif.Props.Coding.c03_varint_decode_total",
    "Verif.Props.Coding.c03_varint_encode_panics"
   ],
   "note": ""
  },
  {
   "property": "C04",
   "status": "proved",
   "theorems": [
    "Verif.Props.Coding.c04_u32_roundtrip",
    "Verif.Props.Coding.c04_u32_range_checked",
    "Verif.Props.Coding.c04_conversions"
   ],
   "note": ""
  },
  {
   "property": "C05",
   "status": "proved",
   "theorems": [
    "Verif.Props.Coding.c05_u8",
    "Verif.Props.Coding.c05_i8",
    "Verif.Props.Coding.c05_string",
    "Verif.Props.Coding.c05_bytes",
    "Verif.Props.Coding.c05_list",
    "Verif.Props.Coding.c05_string_encodable",
    "Verif.Props.Coding.c05_duration",
    "Verif.Props.Coding.c05_duration_encodable"
   ],
   "note": ""
  },
  {
   "property": "C06",
   "status": "proved",
   "theorems": [
    "Verif.Props.Message.c06_messages_roundtrip",
    "Verif.Props.Message.c06_encodable",
    "Verif.Props.Message.c06_sessionInfo_zero_lost"
   ],
   "note": "The stated exception (bitrate Some(0)) is proved as well."
  },
  {
   "property": "C07",
   "status": "proved",
   "theorems": [
    "Verif.Props.Coding.c07_sizer",
    "Verif.Props.Coding.c07_overrides"
   ],
   "note": ""
  },
  {
   "property": "C08",
   "status": "proved",
   "theorems": [
    "Verif.Props.Message.c08_stable",
    "Verif.Props.Message.c08_truncation"
   ],
   "note": ""
  },
  {
   "property": "C09",
   "status": "partial",
   "theorems": [
    "Verif.Props.Message.c09_uniquely_decodable_partial",
    "Verif.Props.Message.c09_sessionInfo_ambiguous"
   ],
   "note": "Holds for every kind except the session-info values Some(0)/None, which share an encoding; that violation is proved as a witness."
  },
  {
   "property": "C10",
   "status": "proved",
   "theorems": [
    "Verif.Props.Message.c10_order_independent",
    "Verif.Props.Message.c10_duplicate_rejected",
    "Verif.Props.Message.c10_complete_list",
    "Verif.Props.Message.c10_decoded_distinct"
   ],
   "note": ""
  },
  {
   "property": "C11",
   "status": "proved",
   "theorems": [
    "Verif.Props.Reader.c11_split_independent",
    "Verif.Props.Reader.c11_decode_whole"
   ],
   "note": ""
  },
  {
   "property": "C12",
   "status": "proved",
   "theorems": [
    "Verif.Props.Reader.c12_optional_messages",
    "Verif.Props.Reader.c12_none_only_at_end"
   ],
   "note": ""
  },
  {
   "property": "C13",
   "status": "proved",
   "theorems": [
    "Verif.Props.Reader.c13_bytes_conserved",
    "Verif.Props.Reader.c13_read_size"
   ],
   "note": ""
  },
  {
   "property": "C14",
   "status": "partial",
   "theorems": [
    "Verif.Props.Handshake.c14_server_half",
    "Verif.Props.Handshake.c14_server_only",
    "Verif.Props.Handshake.c14_handshake_partial",
    "Verif.Props.Handshake.c14_client_accepts_unoffered"
   ],
   "note": "The client accepts a version it did not offer (witness); the rest holds."
  },
  {
   "property": "C15",
   "status": "proved",
   "theorems": [
    "Verif.Props.Handshake.c15_first_stream",
    "Verif.Props.Handshake.c15_control_streams",
    "Verif.Props.Handshake.c15_data_streams",
    "Verif.Props.Handshake.c15_no_type"
   ],
   "note": ""
  },
  {
   "property": "C16",
   "status": "partial",
   "theorems": [
    "Verif.Props.Handshake.c16_codes_distinct_partial",
    "Verif.Props.Handshake.c16_app_overflow",
    "Verif.Props.Handshake.c16_collision_without_checks"
   ],
   "note": "Application codes above 2^32-301 overflow (panic or, without overflow checks, collide)."
  },
  {
   "property": "C17",
   "status": "partial",
   "theorems": [
    "Verif.Props.Handshake.c17_priority_order_partial",
    "Verif.Props.Handshake.c17_priority_order_violated",
    "Verif.Props.Handshake.c17_sequence_violated"
   ],
   "note": "Holds while the group sequence is below 2^24 and for priorities of one sign; violated outside (witnesses)."
  },
  {
   "property": "C18",
   "status": "proved",
   "theorems": [
    "Verif.Props.Frame.c18_received",
    "Verif.Props.Frame.c18_read",
    "Verif.Props.Frame.c18_readAll",
    "Verif.Props.Frame.c18_end_is_last",
    "Verif.Props.Frame.c18_closed_is_final"
   ],
   "note": ""
  },
  {
   "property": "C19",
   "status": "partial",
   "theorems": [
    "Verif.Props.Frame.c19_exact_size_partial",
    "Verif.Props.Frame.c19_write",
    "Verif.Props.Frame.c19_finish",
    "Verif.Props.Frame.c19_clone_oversize",
    "Verif.Props.Frame.c19_clone_undersize"
   ],
   "note": "Holds for a producer that is not cloned; clones have their own byte counters, so together they can write too much or too little (witnesses)."
  },
  {
   "property": "C20",
   "status": "partial",
   "theorems": [
    "Verif.Props.Frame.c20_unfinished_partial",
    "Verif.Props.Frame.c20_finish_overrides_abort"
   ],
   "note": "A clone can finish a frame after another clone aborted it (witness)."
  },
  {
   "property": "C21",
   "status": "proved",
   "theorems": [
    "Verif.Props.Group.c21_read_frame",
    "Verif.Props.Group.c21_cancel_changes_nothing",
    "Verif.Props.Group.c21_whole_frames"
   ],
   "note": ""
  },
  {
   "property": "C22",
   "status": "proved",
   "theorems": [
    "Verif.Props.Group.c22_received",
    "Verif.Props.Group.c22_next_frame",
    "Verif.Props.Group.c22_end_is_last",
    "Verif.Props.Group.c22_frame_reader",
    "Verif.Props.Group.c22_invalid",
    "Verif.Props.Group.c22_closed_is_final",
    "Verif.Props.Group.c22_append"
   ],
   "note": ""
  },
  {
   "property": "C23",
   "status": "proved",
   "theorems": [
    "Verif.Props.Track.c23_increasing"
   ],
   "note": ""
  },
  {
   "property": "C24",
   "status": "proved",
   "theorems": [
    "Verif.Props.Track.c24_accepts_newer",
    "Verif.Props.Track.c24_closed_panics"
   ],
   "note": ""
  },
  {
   "property": "C25",
   "status": "partial",
   "theorems": [
    "Verif.Props.Track.c25_append_partial",
    "Verif.Props.Track.c25_append_start",
    "Verif.Props.Track.c25_append_race"
   ],
   "note": "append_group reads the latest number and inserts in two steps; concurrent appends by clones panic (witness)."
  },
  {
   "property": "C26",
   "status": "proved",
   "theorems": [
    "Verif.Props.Track.c26_never_stale",
    "Verif.Props.Track.c26_does_not_block"
   ],
   "note": ""
  },
  {
   "property": "C27",
   "status": "partial",
   "theorems": [
    "Verif.Props.Track.c27_last_group_partial",
    "Verif.Props.Track.c27_last_group_hidden"
   ],
   "note": "Violated: a consumer not scheduled between the last group and the finish never sees that group (witness)."
  },
  {
   "property": "C28",
   "status": "proved",
   "theorems": [
    "Verif.Props.Track.c28_end_reaches_all"
   ],
   "note": ""
  },
  {
   "property": "C29",
   "status": "partial",
   "theorems": [
    "Verif.Props.Broadcast.c29_shared",
    "Verif.Props.Broadcast.c29_one_request_partial",
    "Verif.Props.Broadcast.c29_two_requests"
   ],
   "note": "Sharing holds always; \"one outstanding request per name\" fails if the producer inserts a track under a requested name (witness)."
  },
  {
   "property": "C30",
   "status": "proved",
   "theorems": [
    "Verif.Props.Broadcast.c30_successor_kept",
    "Verif.Props.Broadcast.c30_removed",
    "Verif.Props.Broadcast.c30_cleanup",
    "Verif.Props.Broadcast.c30_no_more"
   ],
   "note": ""
  },
  {
   "property": "C31",
   "status": "proved",
   "theorems": [
    "Verif.Props.Broadcast.c31_handed_once",
    "Verif.Props.Broadcast.c31_oldest_first",
    "Verif.Props.Broadcast.c31_answered_or_cancelled",
    "Verif.Props.Broadcast.c31_served"
   ],
   "note": ""
  },
  {
   "property": "C32",
   "status": "proved",
   "theorems": [
    "Verif.Props.Broadcast.c32_last_drop",
    "Verif.Props.Broadcast.c32_once",
    "Verif.Props.Broadcast.c32_exactly",
    "Verif.Props.Broadcast.c32_effect",
    "Verif.Props.Broadcast.c32_drop_ends"
   ],
   "note": ""
  },
  {
   "property": "C33",
   "status": "partial",
   "theorems": [
    "Verif.Props.Broadcast.c33_closed_partial",
    "Verif.Props.Broadcast.c33_unused_partial",
    "Verif.Props.Broadcast.c33_closed_delayed",
    "Verif.Props.Broadcast.c33_unused_delayed"
   ],
   "note": "Pending unused() futures hold a sender and pending closed() futures hold a receiver, which delays the other notification (witnesses)."
  },
  {
   "property": "C34",
   "status": "proved",
   "theorems": [
    "Verif.Props.Origin.c34_start",
    "Verif.Props.Origin.c34_prefix",
    "Verif.Props.Origin.c34_next",
    "Verif.Props.Origin.c34_complete"
   ],
   "note": "For clones the theorems assume that no publish overlapped with the cloning (see C39)."
  },
  {
   "property": "C35",
   "status": "proved",
   "theorems": [
    "Verif.Props.Origin.c35_prefix",
    "Verif.Props.Origin.c34_complete"
   ],
   "note": ""
  },
  {
   "property": "C36",
   "status": "partial",
   "theorems": [
    "Verif.Props.Origin.c36_latest_partial",
    "Verif.Props.Origin.c36_closed",
    "Verif.Props.Origin.c36_progress",
    "Verif.Props.Origin.c36_no_more",
    "Verif.Props.Origin.c36_stale_close"
   ],
   "note": "Violated: the closure of an older broadcast at the same path removes the newer one (witness)."
  },
  {
   "property": "C37",
   "status": "proved",
   "theorems": [
    "Verif.Props.Origin.c37_unique",
    "Verif.Props.Origin.c37_lookup"
   ],
   "note": ""
  },
  {
   "property": "C38",
   "status": "proved",
   "theorems": [
    "Verif.Props.Origin.c38_woken",
    "Verif.Props.Origin.c38_notified",
    "Verif.Props.Origin.c38_end",
    "Verif.Props.Origin.c38_end_comes",
    "Verif.Props.Origin.c38_end_late",
    "Verif.Props.Origin.c38_wakeups",
    "Verif.Props.Origin.c38_usable"
   ],
   "note": ""
  },
  {
   "property": "C39",
   "status": "partial",
   "theorems": [
    "Verif.Props.Origin.c39_clone_partial",
    "Verif.Props.Origin.c39_missed"
   ],
   "note": "Violated when a publish falls between the two lock acquisitions of clone (witness)."
  },
  {
   "property": "C40",
   "status": "proved",
   "theorems": [
    "Verif.Props.Origin.c40_live_kept",
    "Verif.Props.Origin.c40_publish",
    "Verif.Props.Origin.c40_unused"
   ],
   "note": ""
  },
  {
   "property": "C41",
   "status": "proved",
   "theorems": [
    "Verif.Props.Origin.c41_forward",
    "Verif.Props.Origin.c41_paths",
    "Verif.Props.Origin.c41_complete"
   ],
   "note": ""
  },
  {
   "property": "C42",
   "status": "partial",
   "theorems": [
    "Verif.Props.Announce.c42_ended_matched",
    "Verif.Props.Announce.c42_wellformed_partial",
    "Verif.Props.Announce.c42_settled_partial",
    "Verif.Props.Announce.c42_truth",
    "Verif.Props.Announce.c42_noticed",
    "Verif.Props.Announce.c42_active_twice",
    "Verif.Props.Announce.c42_left_announced"
   ],
   "note": "Every Ended has its own Active always; the rest fails when a path is published again before its predecessor was unannounced (witnesses)."
  },
  {
   "property": "C43",
   "status": "partial",
   "theorems": [
    "Verif.Props.Announce.c43_mirror",
    "Verif.Props.Announce.c43_accepted",
    "Verif.Props.Announce.c43_reject",
    "Verif.Props.Announce.c43_result",
    "Verif.Props.Announce.c43_accept_partial",
    "Verif.Props.Announce.c43_cleanup",
    "Verif.Props.Announce.c43_spurious"
   ],
   "note": "The mirror and the rejections hold always; acceptance of a re-announced suffix needs the asynchronous clean-up to have run (witness)."
  },
  {
   "property": "C44",
   "status": "partial",
   "theorems": [
    "Verif.Props.Announce.c44_prefix",
    "Verif.Props.Announce.c44_all_partial",
    "Verif.Props.Announce.c44_subscribe_partial",
    "Verif.Props.Announce.c44_filtered_again",
    "Verif.Props.Announce.c44_wrong_path"
   ],
   "note": "Holds for the empty prefix; for other prefixes the suffix is filtered by the prefix again and the subscription carries only the suffix (witnesses)."
  },
  {
   "property": "C45",
   "status": "proved",
   "theorems": [
    "Verif.Props.Transfer.c45_opens",
    "Verif.Props.Transfer.c45_transfer",
    "Verif.Props.Transfer.c45_progress",
    "Verif.Props.Transfer.c45_served"
   ],
   "note": "For frames whose producer is not cloned (compare C19)."
  },
  {
   "property": "C46",
   "status": "proved",
   "theorems": [
    "Verif.Props.Transfer.c46_fin_complete",
    "Verif.Props.Transfer.c46_prefix",
    "Verif.Props.Transfer.c46_error"
   ],
   "note": "For frames whose producer is not cloned (compare C19)."
  },
  {
   "property": "C47",
   "status": "proved",
   "theorems": [
    "Verif.Props.Transfer.c47_reads",
    "Verif.Props.Transfer.c47_wrong_size",
    "Verif.Props.Transfer.c47_error",
    "Verif.Props.Transfer.c47_no_panic"
   ],
   "note": ""
  },
  {
   "property": "C48",
   "status": "proved",
   "theorems": [
    "Verif.Props.Subs.c48_unique",
    "Verif.Props.Subs.c48_one",
    "Verif.Props.Subs.c48_route",
    "Verif.Props.Subs.c48_refused",
    "Verif.Props.Subs.c48_from",
    "Verif.Props.Subs.c48_next"
   ],
   "note": "For at most 2^64 subscriptions in a session, after which the counter wraps."
  },
  {
   "property": "C49",
   "status": "partial",
   "theorems": [
    "Verif.Props.Subs.c49_window_partial",
    "Verif.Props.Subs.c49_panic",
    "Verif.Props.Subs.c48_window"
   ],
   "note": "Violated: the panic happens exactly between the closing of a track and the removal of its id (witness)."
  },
  {
   "property": "C50",
   "status": "proved",
   "theorems": [
    "Verif.Props.ServeLoop.c50_two",
    "Verif.Props.ServeLoop.c50_newest",
    "Verif.Props.ServeLoop.c50_order",
    "Verif.Props.ServeLoop.c50_completes",
    "Verif.Props.ServeLoop.c50_dropped_start",
    "Verif.Props.ServeLoop.c50_dropped_done",
    "Verif.Props.ServeLoop.c50_end",
    "Verif.Props.ServeLoop.c50_end_only",
    "Verif.Props.ServeLoop.c50_fails"
   ],
   "note": ""
  },
  {
   "property": "C51",
   "status": "proved",
   "theorems": [
    "Verif.Props.Requests.c51_not_found",
    "Verif.Props.Requests.c51_ack",
    "Verif.Props.Requests.c51_existing"
   ],
   "note": ""
  },
  {
   "property": "C52",
   "status": "proved",
   "theorems": [
    "Verif.Props.Auth.c52_authorised",
    "Verif.Props.Auth.c52_token",
    "Verif.Props.Auth.c52_loaded"
   ],
   "note": "For every verification function; c52_token instantiates it with moq-token."
  },
  {
   "property": "C53",
   "status": "partial",
   "theorems": [
    "Verif.Props.Auth.c53_panic_iff",
    "Verif.Props.Auth.c53_no_panic_partial",
    "Verif.Props.Auth.c53_panics"
   ],
   "note": "Violated: a .jwt URL panics exactly when no key applies in its directory (witness); main.rs runs the check in its accept loop."
  },
  {
   "property": "C54",
   "status": "partial",
   "theorems": [
    "Verif.Props.Auth.c54_directory_partial",
    "Verif.Props.Auth.c54_all_keys_partial",
    "Verif.Props.Auth.c54_bypass",
    "Verif.Props.Auth.c54_escape"
   ],
   "note": "Violated: only URLs in exactly the directory need its key; parents and children bypass it, and a token of the directory reaches siblings with the same name prefix (witnesses)."
  },
  {
   "property": "C55",
   "status": "proved",
   "theorems": [
    "Verif.Props.Relay.c55_publish",
    "Verif.Props.Relay.c55_no_publish",
    "Verif.Props.Relay.c55_announced",
    "Verif.Props.Relay.c55_subscribe",
    "Verif.Props.Relay.c55_no_subscribe",
    "Verif.Props.Relay.c55_shown",
    "Verif.Props.Relay.c55_tasks"
   ],
   "note": "Including the forced broadcast, which is published at exactly the granted path followed by its name. Prefixes are prefixes of the text, without regard to slashes."
  },
  {
   "property": "C56",
   "status": "proved",
   "theorems": [
    "Verif.Props.Relay.c56_get",
    "Verif.Props.Relay.c56_not_itself",
    "Verif.Props.Relay.c56_known",
    "Verif.Props.Relay.c56_connects",
    "Verif.Props.Relay.c56_peers",
    "Verif.Props.Relay.c56_admitted"
   ],
   "note": ""
  },
  {
   "property": "C57",
   "status": "proved",
   "theorems": [
    "Verif.Props.Token.c57_verify",
    "Verif.Props.Token.c57_sign",
    "Verif.Props.Token.c57_roundtrip",
    "Verif.Props.Token.c57_same",
    "Verif.Props.Token.c57_round_error",
    "Verif.Props.Token.c57_algorithm",
    "Verif.Props.Token.c57_expired",
    "Verif.Props.Token.c57_generated",
    "Verif.Props.Token.c57_secret",
    "Verif.Props.Token.c57_names",
    "Verif.Props.Token.c57_leeway_and_rounding"
   ],
   "note": "jsonwebtoken, serde and the keyed hash are a parameter with stated assumptions."
  },
  {
   "property": "C62",
   "status": "proved",
   "theorems": [
    "Verif.Props.Codec.c62_roundtrip",
    "Verif.Props.Codec.c62_accepted",
    "Verif.Props.Codec.c62_injective"
   ],
   "note": ""
  },
  {
   "property": "C63",
   "status": "partial",
   "theorems": [
    "Verif.Props.Codec.c63_roundtrip_partial",
    "Verif.Props.Codec.c63_parsed_in_range",
    "Verif.Props.Codec.c63_professional"
   ],
   "note": "The round trip holds exactly for the configurations that the pattern can read; AV1 profile 2, which the standard has, is not among them (witness). The non-ASCII members of the regex classes are a parameter."
  },
  {
   "property": "C64",
   "status": "partial",
   "theorems": [
    "Verif.Props.Codec.c64_roundtrip",
    "Verif.Props.Codec.c64_no_panic_partial",
    "Verif.Props.Codec.c64_panics"
   ],
   "note": "The round trip holds always; parsing panics on some multi-byte input (witness), never on ASCII."
  },
  {
   "property": "C65",
   "status": "partial",
   "theorems": [
    "Verif.Props.Codec.c65_roundtrip_partial",
    "Verif.Props.Codec.c65_flags_changed",
    "Verif.Props.Codec.c65_no_constraints",
    "Verif.Props.Codec.c65_ambiguous"
   ],
   "note": "The round trip holds exactly for the characterised configurations; hex bytes are not padded and two configurations can have the same string (witnesses)."
  },
  {
   "property": "C66",
   "status": "partial",
   "theorems": [
    "Verif.Props.Codec.c66_aac",
    "Verif.Props.Codec.c66_audio_partial",
    "Verif.Props.Codec.c66_audio_unknown",
    "Verif.Props.Codec.c66_audio_renamed",
    "Verif.Props.Codec.c66_video_partial",
    "Verif.Props.Codec.c66_video_unknown"
   ],
   "note": "AAC round-trips always; an unknown codec whose text is that of a known codec is renamed (witness)."
  },
  {
   "property": "C58",
   "status": "partial",
   "theorems": [
    "Verif.Props.Media.c58_roundtrip_partial",
    "Verif.Props.Media.c58_read_partial",
    "Verif.Props.Media.c59_groups",
    "Verif.Props.Media.c58_late",
    "Verif.Props.Media.c58_truncated"
   ],
   "note": "Holds for timestamps below 2^62 microseconds; later ones panic, from 2^64 on they can be truncated silently (witness)."
  },
  {
   "property": "C59",
   "status": "proved",
   "theorems": [
    "Verif.Props.Media.c59_groups",
    "Verif.Props.Media.grouping_unique"
   ],
   "note": "For a producer that is not cloned and at most 2^64 groups."
  },
  {
   "property": "C60",
   "status": "proved",
   "theorems": [
    "Verif.Props.Media.c60_prefix",
    "Verif.Props.Media.c60_order",
    "Verif.Props.Media.c60_received",
    "Verif.Props.Media.c60_never_ignored",
    "Verif.Props.Media.c60_ended",
    "Verif.Props.Media.c60_available",
    "Verif.Props.Media.c60_skip",
    "Verif.Props.Media.c60_finished"
   ],
   "note": ""
  },
  {
   "property": "C61",
   "status": "partial",
   "theorems": [
    "Verif.Props.Media.c61_stops_partial",
    "Verif.Props.Media.c61_poll",
    "Verif.Props.Media.c61_spins",
    "Verif.Props.Media.c61_reader_hangs"
   ],
   "note": "Violated: the loop stops exactly in the characterised cases and otherwise never; a reader with a latency hangs (witnesses)."
  },
  {
   "property": "C70",
   "status": "partial",
   "theorems": [
    "Verif.Props.Media.c70_moves_on_partial",
    "Verif.Props.Media.c70_blocked",
    "Verif.Props.Media.c70_witness"
   ],
   "note": "Violated: after the current group failed no frame is ever returned again."
  },
  {
   "property": "C69",
   "status": "partial",
   "theorems": [
    "Verif.Props.Catalog.c69_exact_partial",
    "Verif.Props.Catalog.c69_complete_partial",
    "Verif.Props.Catalog.c69_removed_closed",
    "Verif.Props.Catalog.c69_progress",
    "Verif.Props.Catalog.c69_replaced",
    "Verif.Props.Catalog.c69_not_a_number"
   ],
   "note": "Holds when descriptions of different tracks differ and each equals itself. Violated otherwise: closing a replaced track also removes its replacement, and a description with a frame rate that is not a number is never removed (witnesses)."
  },
  {
   "property": "C67",
   "status": "partial",
   "theorems": [
    "Verif.Props.Import.c67_split_partial",
    "Verif.Props.Import.c67_cuts_partial",
    "Verif.Props.Import.c67_read_partial",
    "Verif.Props.Import.c67_read_feed",
    "Verif.Props.Import.c67_open_box",
    "Verif.Props.Import.c67_after_error"
   ],
   "note": "Proved for every decoder of boxes that does not change its answer when more bytes follow; the decoder (mp4-atom) is not modelled. Boxes that reach to the end of the input break this, and so does going on after an error (witnesses)."
  },
  {
   "property": "C68",
   "status": "partial",
   "theorems": [
    "Verif.Props.Import.c68_slices_partial",
    "Verif.Props.Import.c68_times",
    "Verif.Props.Import.c68_audio_keyframes",
    "Verif.Props.Import.c68_track",
    "Verif.Props.Import.c68_bounds",
    "Verif.Props.Import.c68_rejected",
    "Verif.Props.Import.c68_no_panic_partial",
    "Verif.Props.Import.c68_overlap",
    "Verif.Props.Import.c68_written_before",
    "Verif.Props.Import.c68_header_panics",
    "Verif.Props.Import.c68_timescale_panics",
    "Verif.Props.Import.c68_negative_panics",
    "Verif.Props.Import.c68_backwards_panics"
   ],
   "note": "Per track the frames are consecutive slices and nothing is read out of bounds. Violated across tracks: without offsets the slices overlap; some invalid fragments panic instead of being rejected, and frames before the rejection are already written (witnesses)."
  },
  {
   "property": "C71",
   "status": "proved",
   "theorems": [
    "Verif.Props.Grammar.c71_decoders_accept",
    "Verif.Props.Grammar.c71_encoders_conform"
   ],
   "note": ""
  },
  {
   "property": "C72",
   "status": "proved",
   "theorems": [
    "Verif.Props.Grammar.c72_set_get",
    "Verif.Props.Grammar.c72_get"
   ],
   "note": "For extensions whose encoder and decoder round-trip."
  },
  {
   "property": "C73",
   "status": "proved",
   "theorems": [
    "Verif.Props.Frame.c73_frame",
    "Verif.Props.Group.c73_group",
    "Verif.Props.Track.c73_track"
   ],
   "note": "The consumers counted are those of the object itself; the frame consumers kept inside a group are not part of the frame model."
  },
  {
   "property": "C74",
   "status": "proved",
   "theorems": [
    "Verif.Props.Broadcast.c74_unique",
    "Verif.Props.Broadcast.c74_visible",
    "Verif.Props.Broadcast.c74_possible"
   ],
   "note": ""
  },
  {
   "property": "C75",
   "status": "proved",
   "theorems": [
    "Verif.Props.WebBody.c75_sent",
    "Verif.Props.WebBody.c75_poll",
    "Verif.Props.WebBody.c75_ended"
   ],
   "note": ""
  },
  {
   "property": "C76",
   "status": "partial",
   "theorems": [
    "Verif.Props.WebBody.c76_complete_partial",
    "Verif.Props.WebBody.c76_never_woken",
    "Verif.Props.WebBody.c76_hangs"
   ],
   "note": "Violated: the response never waits while everything is there, but once it waits it is never woken (for all executions; and a concrete hang)."
  },
  {
   "property": "C77",
   "status": "partial",
   "theorems": [
    "Verif.Props.Web.c77_complete",
    "Verif.Props.Web.c77_sound",
    "Verif.Props.Web.c77_once",
    "Verif.Props.Web.c77_progress",
    "Verif.Props.Web.c77_text_partial",
    "Verif.Props.Web.c77_ambiguous"
   ],
   "note": "The list is proved; the text of the response is ambiguous for paths with a line break and for a single empty suffix (witness)."
  },
  {
   "property": "C78",
   "status": "proved",
   "theorems": [
    "Verif.Props.Web.c78_path",
    "Verif.Props.Web.c78_response"
   ],
   "note": "How the first group of a track is obtained is a parameter here; see C23 to C33. The README promises the latest group; a new consumer starts with the latest one (C26)."
  },
  {
   "property": "C79",
   "status": "partial",
   "theorems": [
    "Verif.Props.Web.c79_open",
    "Verif.Props.Auth.c54_directory_partial"
   ],
   "note": "Violated: sessions are checked, the HTTP requests are not (witness)."
  },
  {
   "property": "C80",
   "status": "partial",
   "theorems": [
    "Verif.Props.Native.c80_verified",
    "Verif.Props.Native.c80_total_partial",
    "Verif.Props.Native.c80_protocol",
    "Verif.Props.Native.c80_panics",
    "Verif.Props.Native.c80_no_raw"
   ],
   "note": "Violated for moql: the scheme is compared with the ALPN, so every connection that succeeds panics (proved for all)."
  },
  {
   "property": "C81",
   "status": "partial",
   "theorems": [
    "Verif.Props.Native.c81_by_name",
    "Verif.Props.Native.c81_default",
    "Verif.Props.Native.c81_own",
    "Verif.Props.Native.c81_panic_partial"
   ],
   "note": "Violated for a certificate that cannot be parsed: it is loaded without a check and the choice panics (exact characterisation)."
  },
  {
   "property": "C82",
   "status": "partial",
   "theorems": [
    "Verif.Props.Native.c82_text",
    "Verif.Props.Native.c82_recognised_partial",
    "Verif.Props.Native.c82_refused",
    "Verif.Props.Native.c82_rejected"
   ],
   "note": "Holds if the certificate presented has the fingerprint of the first; violated otherwise (proved for all such relays, with a witness)."
  },
  {
   "property": "C83",
   "status": "proved",
   "theorems": [
    "Verif.Props.Native.c83_cert",
    "Verif.Props.Native.c83_path"
   ],
   "note": ""
  },
  {
   "property": "C84",
   "status": "partial",
   "theorems": [
    "Verif.Props.Latest.c84_first",
    "Verif.Props.Latest.c84_order",
    "Verif.Props.Latest.c84_current",
    "Verif.Props.Latest.c84_end",
    "Verif.Props.Latest.c84_lost"
   ],
   "note": "Violated at the end of a track: the last catalog can be lost (witness). The parser is a parameter."
  },
  {
   "property": "C85",
   "status": "partial",
   "theorems": [
    "Verif.Props.Latest.c85_roundtrip",
    "Verif.Props.Latest.c85_exact",
    "Verif.Props.Latest.c85_returned",
    "Verif.Props.Latest.c85_current_partial",
    "Verif.Props.Latest.c85_stalls",
    "Verif.Props.Latest.c85_cancelled",
    "Verif.Props.Latest.c85_latest_partial",
    "Verif.Props.Latest.c85_latest_race"
   ],
   "note": "The encoding, the order and the contents hold. Violated: a group without a frame keeps newer positions from being read, a dropped future loses a position, and overlapping updates of clones leave an older position as the latest (witnesses)."
  },
  {
   "property": "C86",
   "status": "partial",
   "theorems": [
    "Verif.Props.Room.c86_others",
    "Verif.Props.Room.c86_end",
    "Verif.Props.Room.c86_own_partial",
    "Verif.Props.Room.c86_freed",
    "Verif.Props.Room.c86_path",
    "Verif.Props.Room.c86_replaced",
    "Verif.Props.Room.c86_late",
    "Verif.Props.Room.c86_namesake"
   ],
   "note": "Only names published here are hidden. Violated: publishing a name again while the old broadcast lives, late echoes, and namesakes (witnesses)."
  },
  {
   "property": "C87",
   "status": "partial",
   "theorems": [
    "Verif.Props.Lifecycle.c87_survives",
    "Verif.Props.Lifecycle.c87_code",
    "Verif.Props.Lifecycle.c87_exact",
    "Verif.Props.Lifecycle.c87_final",
    "Verif.Props.Lifecycle.c87_ends",
    "Verif.Props.Lifecycle.c87_streams",
    "Verif.Props.Lifecycle.c87_next",
    "Verif.Props.Lifecycle.c87_info",
    "Verif.Props.Lifecycle.c87_refusal"
   ],
   "note": "All of the life of an established session is proved. Violated: session updates are decoded as SubscribeOk (witness), and a failed handshake only resets the stream with code 0 (proved for all failures of accept)."
  },
  {
   "property": "C88",
   "status": "partial",
   "theorems": [
    "Verif.Props.Main.c88_fates",
    "Verif.Props.Main.c88_ids",
    "Verif.Props.Main.c88_order",
    "Verif.Props.Main.c88_progress",
    "Verif.Props.Main.c88_runs_partial",
    "Verif.Props.Main.c88_runs_keyed",
    "Verif.Props.Main.c88_crash"
   ],
   "note": "Violated by URLs that make the check panic (exactly those of C53): the relay ends and nobody is answered any more (proved for every state and continuation). It does run if no such URL occurs, in particular with a root key and no open directories."
  },
  {
   "property": "C89",
   "status": "partial",
   "theorems": [
    "Verif.Props.Tree.c89_hop",
    "Verif.Props.Tree.c89_copies",
    "Verif.Props.Tree.c89_groups",
    "Verif.Props.Tree.c89_newest",
    "Verif.Props.Tree.c89_fresh",
    "Verif.Props.Tree.c89_catch_up",
    "Verif.Props.Tree.c89_in_flight",
    "Verif.Props.Tree.c89_end",
    "Verif.Props.Tree.c89_content",
    "Verif.Props.Tree.c89_end_lost",
    "Verif.Props.Tree.c89_end_panics"
   ],
   "note": "Order and contents are proved for every tree, freshness while nobody has ended the track on the way. Violated at the end of a track: the end of the subscription overtakes the last group, which is then lost or makes the subscriber panic (witnesses)."
  },
  {
   "property": "C90",
   "status": "partial",
   "theorems": [
    "Verif.Props.JsWire.c90_js_to_rust_partial",
    "Verif.Props.JsWire.c90_rust_to_js_partial",
    "Verif.Props.JsWire.c90_encoder_throws",
    "Verif.Props.JsWire.c90_frame_to_rust",
    "Verif.Props.JsWire.c90_frame_to_js",
    "Verif.Props.JsWire.c90_open_control_partial",
    "Verif.Props.JsWire.c90_accept_control_partial",
    "Verif.Props.JsWire.c90_open_group",
    "Verif.Props.JsWire.c90_accept_group",
    "Verif.Props.JsWire.c90_handshake",
    "Verif.Props.JsWire.c90_handshake_version",
    "Verif.Props.JsWire.c90_priority_starves",
    "Verif.Props.JsWire.c90_priority_cancels",
    "Verif.Props.JsWire.c90_mark_lost",
    "Verif.Props.JsWire.c90_large_throws",
    "Verif.Props.JsWire.c90_u62_wraps",
    "Verif.Props.JsWire.c90_accepts_partial",
    "Verif.Props.JsWire.c90_lenient"
   ],
   "note": "Proved for all messages with priorities below 64, text without a leading U+FEFF and numbers below 2^53. Violated otherwise: the priority is one byte in Rust and a variable-length integer in the browser (proved for every priority from 64 on, in both directions), TextDecoder drops the mark, larger numbers throw."
  },
  {
   "property": "C91",
   "status": "proved",
   "theorems": [
    "Verif.Props.JsWire.c91_pieces",
    "Verif.Props.JsWire.c91_items",
    "Verif.Props.JsWire.c91_end_only_at_end",
    "Verif.Props.JsWire.c91_empty_piece"
   ],
   "note": "The pieces of a stream are not empty, as the transport guarantees; c91_empty_piece shows the condition is needed."
  },
  {
   "property": "C92",
   "status": "partial",
   "theorems": [
    "Verif.Props.JsAccept.c92_all_handled_partial",
    "Verif.Props.JsAccept.c92_handled",
    "Verif.Props.JsAccept.c92_poisoned",
    "Verif.Props.JsAccept.c92_priority_poisons"
   ],
   "note": "Holds if all streams begin with a complete and valid message. Violated otherwise: nothing after a bad stream is handled (proved for all bad streams, and for every native subscription with priority 64 or more)."
  },
  {
   "property": "C93",
   "status": "proved",
   "theorems": [
    "Verif.Props.JsGroup.c93_prefix",
    "Verif.Props.JsGroup.c93_end",
    "Verif.Props.JsGroup.c93_rejected",
    "Verif.Props.JsGroup.c93_available",
    "Verif.Props.JsGroup.c93_closed",
    "Verif.Props.JsGroup.c93_waiting",
    "Verif.Props.JsGroup.c93_resumed",
    "Verif.Props.JsGroup.c93_write"
   ],
   "note": "For readers with at most one call at a time."
  },
  {
   "property": "C94",
   "status": "partial",
   "theorems": [
    "Verif.Props.JsTrack.c94_accepted",
    "Verif.Props.JsTrack.c94_groups",
    "Verif.Props.JsTrack.c94_frames",
    "Verif.Props.JsTrack.c94_concat",
    "Verif.Props.JsTrack.c94_end",
    "Verif.Props.JsTrack.c94_closed",
    "Verif.Props.JsTrack.c94_frames_end",
    "Verif.Props.JsTrack.c94_waiting",
    "Verif.Props.JsTrack.c94_newest_partial",
    "Verif.Props.JsTrack.c94_frames_newest_partial",
    "Verif.Props.JsTrack.c94_burst",
    "Verif.Props.JsTrack.c94_end_lost"
   ],
   "note": "Order and contents are proved. The newest group is proved for readers whose fetch continues between any two groups; violated otherwise (for every waiting reader), and at the end of a track (witness). Readers have one call at a time and are not closed during one."
  },
  {
   "property": "C95",
   "status": "proved",
   "theorems": [
    "Verif.Props.JsAnnounced.c95_prefix",
    "Verif.Props.JsAnnounced.c95_told",
    "Verif.Props.JsAnnounced.c95_end",
    "Verif.Props.JsAnnounced.c95_rejected",
    "Verif.Props.JsAnnounced.c95_available",
    "Verif.Props.JsAnnounced.c95_woken",
    "Verif.Props.JsAnnounced.c95_waiting",
    "Verif.Props.JsAnnounced.c95_closed",
    "Verif.Props.JsAnnounced.c95_write",
    "Verif.Props.JsAnnounced.c95_subscriber"
   ],
   "note": "For readers with at most one call at a time."
  },
  {
   "property": "C96",
   "status": "partial",
   "theorems": [
    "Verif.Props.JsPublisher.c96_stream",
    "Verif.Props.JsPublisher.c96_due",
    "Verif.Props.JsPublisher.c96_endless",
    "Verif.Props.JsPublisher.c96_ended",
    "Verif.Props.JsPublisher.c96_counts",
    "Verif.Props.JsPublisher.c96_found",
    "Verif.Props.JsPublisher.c96_consistent",
    "Verif.Props.JsPublisher.c96_served_partial",
    "Verif.Props.JsPublisher.c96_alternates_partial",
    "Verif.Props.JsPublisher.c96_twice",
    "Verif.Props.JsPublisher.c96_lost",
    "Verif.Props.JsPublisher.c96_witness"
   ],
   "note": "Streams and the agreement between announcing and serving are proved. Alternation and serving until the own end are proved if every path is published once at a time; violated otherwise (for every path published again while served)."
  },
  {
   "property": "C97",
   "status": "partial",
   "theorems": [
    "Verif.Props.JsUnused.c97_sound_partial",
    "Verif.Props.JsUnused.c97_complete_partial",
    "Verif.Props.JsUnused.c97_stable",
    "Verif.Props.JsUnused.c97_rejected",
    "Verif.Props.JsUnused.c97_double",
    "Verif.Props.JsUnused.c97_negative",
    "Verif.Props.JsUnused.c97_witness"
   ],
   "note": "Proved if no consumer is closed twice. Violated otherwise, proved for every such state: with one consumer left, and with none left."
  },
  {
   "property": "C98",
   "status": "partial",
   "theorems": [
    "Verif.Props.JsSubscriber.c98_ids",
    "Verif.Props.JsSubscriber.c98_group",
    "Verif.Props.JsSubscriber.c98_told",
    "Verif.Props.JsSubscriber.c98_same_partial",
    "Verif.Props.JsSubscriber.c98_dedup_partial",
    "Verif.Props.JsSubscriber.c98_kept",
    "Verif.Props.JsSubscriber.c98_counted",
    "Verif.Props.JsSubscriber.c98_never",
    "Verif.Props.JsSubscriber.c98_flood",
    "Verif.Props.JsSubscriber.c98_lost",
    "Verif.Props.JsSubscriber.c98_witness",
    "Verif.Props.JsSubscriber.c98_early"
   ],
   "note": "Ids, the delivery of groups and what readers are told are proved; sharing if no consumer is closed twice. Violated: the browser never unsubscribes (proved for all histories in which no consumer is closed twice), failed streams are never reported to readers (proved for all of them), and several closes end the subscription of another reader (witness)."
  },
  {
   "property": "C99",
   "status": "partial",
   "theorems": [
    "Verif.Props.JsFrames.c99_roundtrip_partial",
    "Verif.Props.JsFrames.c99_to_native",
    "Verif.Props.JsFrames.c99_from_native",
    "Verif.Props.JsFrames.c99_agree",
    "Verif.Props.JsFrames.c99_refused",
    "Verif.Props.JsFrames.c99_negative",
    "Verif.Props.JsFrames.c99_swallowed",
    "Verif.Props.JsFrames.c99_rounded"
   ],
   "note": "Proved for all timestamps from 0 to 2^53-1 us, and for all bytes that native peers write up to rounding. Violated for negative timestamps (proved for all of them) and for exactness from 2^53 on (witness)."
  },
  {
   "property": "C100",
   "status": "partial",
   "theorems": [
    "Verif.Props.JsFrames.c100_read_partial",
    "Verif.Props.JsFrames.c100_track",
    "Verif.Props.JsFrames.c100_first",
    "Verif.Props.JsFrames.c100_accepts",
    "Verif.Props.JsFrames.c100_closed",
    "Verif.Props.JsFrames.c100_refused",
    "Verif.Props.JsFrames.c100_negative"
   ],
   "note": "Proved if no timestamp is negative and no keyframe was refused; violated otherwise (witnesses)."
  },
  {
   "property": "C101",
   "status": "partial",
   "theorems": [
    "Verif.Props.JsReconnect.c101_attempts",
    "Verif.Props.JsReconnect.c101_alive_partial",
    "Verif.Props.JsReconnect.c101_retry",
    "Verif.Props.JsReconnect.c101_once",
    "Verif.Props.JsReconnect.c101_backoff",
    "Verif.Props.JsReconnect.c101_closed",
    "Verif.Props.JsReconnect.c101_single_partial",
    "Verif.Props.JsReconnect.c101_status_partial",
    "Verif.Props.JsReconnect.c101_clean",
    "Verif.Props.JsReconnect.c101_stuck",
    "Verif.Props.JsReconnect.c101_leak",
    "Verif.Props.JsReconnect.c101_revived",
    "Verif.Props.JsReconnect.c101_torn"
   ],
   "note": "Attempts, retries and delays are proved for all histories; one connection and the status for histories in which outcomes arrive only for the latest attempt. Violated, for all states in question: connections that end without an exception are not replaced, and late outcomes make the object forget a connection, also after close. Witness: a timer of an old URL ends a good connection."
  },
  {
   "property": "C102",
   "status": "partial",
   "theorems": [
    "Verif.Props.JsPlayback.c102_owned",
    "Verif.Props.JsPlayback.c102_shown",
    "Verif.Props.JsPlayback.c102_order",
    "Verif.Props.JsPlayback.c102_nothing",
    "Verif.Props.JsPlayback.c102_skip",
    "Verif.Props.JsPlayback.c102_lag_partial",
    "Verif.Props.JsPlayback.c102_forgets",
    "Verif.Props.JsPlayback.c102_forgets_witness",
    "Verif.Props.JsPlayback.c102_leak"
   ],
   "note": "Ownership, order and skipping are proved for all histories; the lag if no frame was exactly on time. Violated: a reference of 0 is forgotten, and frames output after close are kept."
  },
  {
   "property": "C103",
   "status": "partial",
   "theorems": [
    "Verif.Props.JsSchedule.c103_sync_partial",
    "Verif.Props.JsSchedule.c103_window",
    "Verif.Props.JsSchedule.c103_plays",
    "Verif.Props.JsSchedule.c103_again",
    "Verif.Props.JsSchedule.c103_stopped_partial",
    "Verif.Props.JsSchedule.c103_moved_partial",
    "Verif.Props.JsSchedule.c103_zero",
    "Verif.Props.JsSchedule.c103_undead",
    "Verif.Props.JsSchedule.c103_starved",
    "Verif.Props.JsSchedule.c103_orphan"
   ],
   "note": "Times are proved for all histories in which the offset is not 0, the window and the buffers for all, stopping for nodes that end in order. Violated in general: an offset of 0 is forgotten, samples that are late for good are all dropped, and disabling does not silence samples that wait. Witness: a node that plays is not in the list of active ones."
  },
  {
   "property": "C104",
   "status": "partial",
   "theorems": [
    "Verif.Props.JsServe.c104_streams",
    "Verif.Props.JsServe.c104_bytes",
    "Verif.Props.JsServe.c104_finished",
    "Verif.Props.JsServe.c104_reset",
    "Verif.Props.JsServe.c104_given_up",
    "Verif.Props.JsServe.c104_waiting",
    "Verif.Props.JsServe.c104_delivers",
    "Verif.Props.JsServe.c104_gives_up",
    "Verif.Props.JsServe.c104_monotone",
    "Verif.Props.JsServe.c104_read",
    "Verif.Props.JsServe.c104_read_rust",
    "Verif.Props.JsServe.c104_track",
    "Verif.Props.JsServe.c104_over",
    "Verif.Props.JsServe.c104_unsubscribe",
    "Verif.Props.JsServe.c104_newest_partial",
    "Verif.Props.JsServe.c104_burst",
    "Verif.Props.JsServe.c104_end_lost",
    "Verif.Props.JsServe.c104_leak",
    "Verif.Props.JsServe.c104_after",
    "Verif.Props.JsServe.c104_stuck"
   ],
   "note": "Contents, ends and delivery of every stream and the end of the subscription are proved for all histories; the newest group if the fetch continues between any two groups. Violated: two groups at once (for every state that waits), the last group (witness), the consumer after a failed SUBSCRIBE_OK (for every continuation), streams after unsubscribing (witness), and a group number from 2^53 on leaves a stream that is never ended (witness)."
  },
  {
   "property": "C105",
   "status": "partial",
   "theorems": [
    "Verif.Props.JsReceive.c105_track",
    "Verif.Props.JsReceive.c105_taken",
    "Verif.Props.JsReceive.c105_order",
    "Verif.Props.JsReceive.c105_frames",
    "Verif.Props.JsReceive.c105_closed",
    "Verif.Props.JsReceive.c105_aborted",
    "Verif.Props.JsReceive.c105_waiting",
    "Verif.Props.JsReceive.c105_sent",
    "Verif.Props.JsReceive.c105_whole",
    "Verif.Props.JsReceive.c105_delivers",
    "Verif.Props.JsReceive.c105_readers",
    "Verif.Props.JsReceive.c105_failed",
    "Verif.Props.JsReceive.c105_cut",
    "Verif.Props.JsReceive.c105_cut_witness"
   ],
   "note": "All parts are proved for all histories. Violated: the end of the subscription closes groups whose streams have not ended, as if they were complete (for every state in which such a stream waits, and a witness with a reader). Consumers of a group are not counted, so a group may be closed as soon as a newer one was taken; the code waits until nobody reads it."
  },
  {
   "property": "C106",
   "status": "partial",
   "theorems": [
    "Verif.Props.JsEndToEnd.c106_frames",
    "Verif.Props.JsEndToEnd.c106_whole",
    "Verif.Props.JsEndToEnd.c106_delivers",
    "Verif.Props.JsEndToEnd.c106_readers",
    "Verif.Props.JsEndToEnd.c106_cut"
   ],
   "note": "Frames, complete groups, delivery and readers are proved for all pairs of histories that streams link. Violated: the end of a track overtakes the last frames (witness with both sides)."
  },
  {
   "property": "C107",
   "status": "partial",
   "theorems": [
    "Verif.Props.JsCapture.c107_track",
    "Verif.Props.JsCapture.c107_groups",
    "Verif.Props.JsCapture.c107_whole",
    "Verif.Props.JsCapture.c107_written",
    "Verif.Props.JsCapture.c107_readers",
    "Verif.Props.JsCapture.c107_order",
    "Verif.Props.JsCapture.c107_one",
    "Verif.Props.JsCapture.c107_bound",
    "Verif.Props.JsCapture.c107_keys",
    "Verif.Props.JsCapture.c107_again",
    "Verif.Props.JsCapture.c107_silent",
    "Verif.Props.JsCapture.c107_final",
    "Verif.Props.JsCapture.c107_ended",
    "Verif.Props.JsCapture.c107_how",
    "Verif.Props.JsCapture.c107_catalog",
    "Verif.Props.JsCapture.c107_pictures",
    "Verif.Props.JsCapture.c107_open",
    "Verif.Props.JsCapture.c107_closed",
    "Verif.Props.JsCapture.c107_active",
    "Verif.Props.JsCapture.c107_inactive",
    "Verif.Props.JsCapture.c107_late_loses",
    "Verif.Props.JsCapture.c107_late_inactive",
    "Verif.Props.JsCapture.c107_late_shows",
    "Verif.Props.JsCapture.c107_error_active",
    "Verif.Props.JsCapture.c107_end_loses",
    "Verif.Props.JsCapture.c107_refused_leaks",
    "Verif.Props.JsCapture.c107_closed_shown",
    "Verif.Props.JsCapture.c107_closed_twice",
    "Verif.Props.JsCapture.c107_slow_keys",
    "Verif.Props.JsCapture.c107_backwards"
   ],
   "note": "Groups, order, readers, the end of a run and the closing of pictures are proved for all histories; that no chunk is lost, that key frames are requested in time and that active is right while there are pictures, for histories in which no run gets its configuration after a newer one was started; the bound of 2 s for clocks that do not run backwards. Violated, each with a witness: a run whose configuration comes late closes the group of the new one, makes video inactive, shows its old picture and mixes up the catalog; after an error video stays active for ever; pictures in the encoder are dropped when the media ends; a picture for which no configuration is found is never closed; close() leaves a closed picture in frame(), and can close one twice; a slow encoder makes key frames be requested again and again; a clock that runs backwards makes groups longer than 2 s."
  },
  {
   "property": "C108",
   "status": "partial",
   "theorems": [
    "Verif.Props.JsAudioCapture.c108_track",
    "Verif.Props.JsAudioCapture.c108_groups",
    "Verif.Props.JsAudioCapture.c108_own",
    "Verif.Props.JsAudioCapture.c108_written",
    "Verif.Props.JsAudioCapture.c108_where",
    "Verif.Props.JsAudioCapture.c108_readers",
    "Verif.Props.JsAudioCapture.c108_silent",
    "Verif.Props.JsAudioCapture.c108_how",
    "Verif.Props.JsAudioCapture.c108_ended",
    "Verif.Props.JsAudioCapture.c108_failed",
    "Verif.Props.JsAudioCapture.c108_stamp_partial",
    "Verif.Props.JsAudioCapture.c108_never",
    "Verif.Props.JsAudioCapture.c108_open",
    "Verif.Props.JsAudioCapture.c108_wrap",
    "Verif.Props.JsAudioCapture.c108_wrap_written",
    "Verif.Props.JsAudioCapture.c108_stale"
   ],
   "note": "For every context that #runEncoder may be given: all chunks are written once and in order, groups and their distance, what readers get, and how tracks and groups end are proved for all histories. Violated: #runWorklet needs a context before it creates one, so that in every history there is no context, no track and no catalog (c108_never); chunks of a new run go to the group of the old track while they are less than half a second after its first chunk, by timestamps of different contexts (c108_stale, c108_where; c108_own is the case of one run); the last group is never closed (c108_open); timestamps are negative from 2^31 microseconds, which are written as one wrong byte and start no group (c108_wrap, c108_wrap_written)."
  },
  {
   "property": "C109",
   "status": "partial",
   "theorems": [
    "Verif.Props.JsMedia.c109_open",
    "Verif.Props.JsMedia.c109_requests",
    "Verif.Props.JsMedia.c109_close",
    "Verif.Props.JsMedia.c109_captured_partial",
    "Verif.Props.JsMedia.c109_off_partial",
    "Verif.Props.JsMedia.c109_shown_partial",
    "Verif.Props.JsMedia.c109_lost",
    "Verif.Props.JsMedia.c109_closed_on",
    "Verif.Props.JsMedia.c109_late_captured",
    "Verif.Props.JsMedia.c109_late_lost",
    "Verif.Props.JsMedia.c109_late_closed",
    "Verif.Props.JsMedia.c109_screen_again",
    "Verif.Props.JsMedia.c109_screen_picture"
   ],
   "note": "Which requests are made and given up is proved for all histories; what is captured and published for all histories in which no request is granted after it was given up. Violated otherwise: a late grant is published though nothing is wanted (c109_late_captured), two grants in the other order leave a camera on for ever (c109_late_lost), and so does a grant after close() (c109_late_closed). Switching sound on while the screen is shared stops it and asks again (c109_screen_again), and the picture is captured though only sound is enabled (c109_screen_picture)."
  },
  {
   "property": "C110",
   "status": "partial",
   "theorems": [
    "Verif.Props.JsCatalogTrack.c110_groups",
    "Verif.Props.JsCatalogTrack.c110_current",
    "Verif.Props.JsCatalogTrack.c110_written",
    "Verif.Props.JsCatalogTrack.c110_read",
    "Verif.Props.JsCatalogTrack.c110_newest_partial",
    "Verif.Props.JsCatalogTrack.c110_endless",
    "Verif.Props.JsCatalogTrack.c110_burst"
   ],
   "note": "What is written and that readers are given published catalogs in order is proved for all histories; that a waiting reader has the current catalog if its fetch got to continue between any two catalogs. Violated otherwise: two changes at once make a waiting reader miss the newer catalog until there is another one (c110_burst). close() does not end the track (c110_endless)."
  },
  {
   "property": "C111",
   "status": "partial",
   "theorems": [
    "Verif.Props.JsWatching.c111_announced",
    "Verif.Props.JsWatching.c111_consumed",
    "Verif.Props.JsWatching.c111_subscribed",
    "Verif.Props.JsWatching.c111_same",
    "Verif.Props.JsWatching.c111_always",
    "Verif.Props.JsWatching.c111_active_partial",
    "Verif.Props.JsWatching.c111_shown_partial",
    "Verif.Props.JsWatching.c111_off",
    "Verif.Props.JsWatching.c111_live",
    "Verif.Props.JsWatching.c111_loading",
    "Verif.Props.JsWatching.c111_stale",
    "Verif.Props.JsWatching.c111_deaf",
    "Verif.Props.JsWatching.c111_stuck",
    "Verif.Props.JsWatching.c111_offline",
    "Verif.Props.JsWatching.c111_late",
    "Verif.Props.JsWatching.c111_late_heard"
   ],
   "note": "What is open is proved for all histories, and that the end of all subscriptions leaves no catalog and the status offline. The catalog is proved for histories in which old loops end before anything arrives on a new subscription, and active from the first announcement on. Violated: active is not unset when the path or connection changes, so that the new one is consumed before it is announced (c111_stale, c111_late_heard); if it is not there yet after a reconnect, it is never loaded, because its announcement changes nothing (c111_deaf, c111_stuck). The end of an old loop sets the status offline while the new subscription is loading (c111_offline) and may delete its catalog (c111_late)."
  },
  {
   "property": "C112",
   "status": "partial",
   "theorems": [
    "Verif.Props.CatalogJson.c112_browsers",
    "Verif.Props.CatalogJson.c112_to_browser_partial",
    "Verif.Props.CatalogJson.c112_to_rust_partial",
    "Verif.Props.CatalogJson.c112_rust_partial",
    "Verif.Props.CatalogJson.c112_rust_same_partial",
    "Verif.Props.CatalogJson.c112_description",
    "Verif.Props.CatalogJson.c112_codecs",
    "Verif.Props.CatalogJson.c112_fraction",
    "Verif.Props.CatalogJson.c112_bitrate",
    "Verif.Props.CatalogJson.c112_location",
    "Verif.Props.CatalogJson.c112_own_fraction",
    "Verif.Props.CatalogJson.c112_priority",
    "Verif.Props.CatalogJson.c112_peer",
    "Verif.Props.CatalogJson.c112_scale"
   ],
   "note": "For each writer and each reader, an equivalence says when a catalog is read and what is seen (from the browser to Rust for bitrates below 2^53). Violated: the browser rejects the whole catalog if a frame rate is not a whole number, although Rust has doubles there and the browser itself publishes what the camera says (c112_fraction, c112_own_fraction), if a bitrate is 2^32 or more (c112_bitrate), or if the location of a Rust catalog has no initial position or no track, because Rust writes null there (c112_location). Rust rejects priorities above 255 and peers whose names are not numbers (c112_priority, c112_peer). Scale and depth of a position are not seen by Rust, nor zoom by the browser (c112_scale)."
  },
  {
   "property": "C113",
   "status": "partial",
   "theorems": [
    "Verif.Props.JsEmitter.c113_fit",
    "Verif.Props.JsEmitter.c113_settles",
    "Verif.Props.JsEmitter.c113_set",
    "Verif.Props.JsEmitter.c113_mute",
    "Verif.Props.JsEmitter.c113_unmute",
    "Verif.Props.JsEmitter.c113_back",
    "Verif.Props.JsEmitter.c113_pause",
    "Verif.Props.JsEmitter.c113_root",
    "Verif.Props.JsEmitter.c113_close",
    "Verif.Props.JsEmitter.c113_override",
    "Verif.Props.JsEmitter.c113_zero",
    "Verif.Props.JsEmitter.c113_new"
   ],
   "note": "Whenever all effects have run, muted means volume zero and the node has the volume (c113_fit), and twelve effects are always enough (c113_settles); what each change leads to from rest is given as a whole state. Violated: the volume given to the constructor is replaced by one half (c113_new), a volume set while muted by the one from before (c113_override); after setting volume zero, unmuting gives one half (c113_zero); muting stops the download though not paused (c113_mute), and unmuting starts it though paused (c113_unmute)."
  },
  {
   "property": "C114",
   "status": "partial",
   "theorems": [
    "Verif.Props.JsChat.c114_groups",
    "Verif.Props.JsChat.c114_closed",
    "Verif.Props.JsChat.c114_written",
    "Verif.Props.JsChat.c114_early",
    "Verif.Props.JsChat.c114_expires",
    "Verif.Props.JsChat.c114_timers",
    "Verif.Props.JsChat.c114_kept",
    "Verif.Props.JsChat.c114_text",
    "Verif.Props.JsChat.c114_bom",
    "Verif.Props.JsChat.c114_read",
    "Verif.Props.JsChat.c114_late",
    "Verif.Props.JsChat.c114_gone",
    "Verif.Props.JsChat.c114_joins",
    "Verif.Props.JsChat.c114_newest_partial",
    "Verif.Props.JsChat.c114_burst",
    "Verif.Props.JsChat.c114_endless"
   ],
   "note": "Groups, expiry, order, late readers and joining readers hold. Violated: with a time to live of zero the message is kept, and after close() too (c114_kept), and readers are never told that the chat has ended (c114_endless); of two messages published at once a waiting reader gets only the first (c114_burst; c114_newest_partial needs a continuation in between); a byte order mark at the beginning of a message is lost (c114_bom)."
  },
  {
   "property": "C115",
   "status": "partial",
   "theorems": [
    "Verif.Props.JsDownload.c115_started",
    "Verif.Props.JsDownload.c115_one_partial",
    "Verif.Props.JsDownload.c115_audio_fed",
    "Verif.Props.JsDownload.c115_order",
    "Verif.Props.JsDownload.c115_all",
    "Verif.Props.JsDownload.c115_video_sub",
    "Verif.Props.JsDownload.c115_audio_sub",
    "Verif.Props.JsDownload.c115_over",
    "Verif.Props.JsDownload.c115_shut",
    "Verif.Props.JsDownload.c115_video_error",
    "Verif.Props.JsDownload.c115_leak",
    "Verif.Props.JsDownload.c115_throws",
    "Verif.Props.JsDownload.c115_late",
    "Verif.Props.JsDownload.c115_goes_on",
    "Verif.Props.JsDownload.c115_many"
   ],
   "note": "The newest download is the one asked for, and decoders are given their frames in order; for audio, if no decoder fails, exactly what is asked for is open (c115_one_partial). Violated for video: the function that #init returns is ignored, so that nothing stops an old download, not even close() (c115_goes_on), and any number of them can be open while nothing is asked for (c115_many); one error of a decoder ends the player for good (c115_video_error). Violated for audio: if a decoder fails, its subscription is never closed (c115_leak) and the next change or close() throws (c115_throws); a frame that arrives just before a change ends in an unhandled rejection (c115_late)."
  },
  {
   "property": "C116",
   "status": "partial",
   "theorems": [
    "Verif.Props.JsRenderer.c116_scheduled",
    "Verif.Props.JsRenderer.c116_draws",
    "Verif.Props.JsRenderer.c116_no_throw",
    "Verif.Props.JsRenderer.c116_observed",
    "Verif.Props.JsRenderer.c116_enabled_partial",
    "Verif.Props.JsRenderer.c116_visible",
    "Verif.Props.JsRenderer.c116_reported",
    "Verif.Props.JsRenderer.c116_last",
    "Verif.Props.JsRenderer.c116_off",
    "Verif.Props.JsRenderer.c116_kept",
    "Verif.Props.JsRenderer.c116_late",
    "Verif.Props.JsRenderer.c116_blind"
   ],
   "note": "Scheduling, drawing and observing hold for all browsers. That the player downloads only while a canvas is in use holds if reports queued before disconnect() are dropped (c116_enabled_partial); if they are delivered, as the specification of IntersectionObserver has it, a closed or paused renderer may enable its player again (c116_late). For a canvas without a 2d context video is downloaded but never drawn (c116_blind)."
  },
  {
   "property": "C117",
   "status": "partial",
   "theorems": [
    "Verif.Props.JsLocation.c117_one",
    "Verif.Props.JsLocation.c117_follow",
    "Verif.Props.JsLocation.c117_initial",
    "Verif.Props.JsLocation.c117_reset",
    "Verif.Props.JsLocation.c117_kept",
    "Verif.Props.JsLocation.c117_steady",
    "Verif.Props.JsLocation.c117_ends",
    "Verif.Props.JsLocation.c117_source",
    "Verif.Props.JsLocation.c117_peer_partial",
    "Verif.Props.JsLocation.c117_wiped",
    "Verif.Props.JsLocation.c117_stale",
    "Verif.Props.JsLocation.c117_lost",
    "Verif.Props.JsLocation.c117_back",
    "Verif.Props.JsLocation.c117_closed"
   ],
   "note": "Subscriptions hold without restriction. That a peer location is what the newest subscription delivered, and none without one, holds if no reader continues after its subscription was closed (c117_peer_partial); such a reader may remove or replace the position of the new broadcast (c117_wiped, c117_stale), lose the new initial position (c117_lost) or show a position after close (c117_closed). Any change of the section shows the initial position again over a newer one (c117_back)."
  },
  {
   "property": "C118",
   "status": "partial",
   "theorems": [
    "Verif.Props.JsLocating.c118_own",
    "Verif.Props.JsLocating.c118_catalog",
    "Verif.Props.JsLocating.c118_initial",
    "Verif.Props.JsLocating.c118_served",
    "Verif.Props.JsLocating.c118_sole_partial",
    "Verif.Props.JsLocating.c118_takes",
    "Verif.Props.JsLocating.c118_created",
    "Verif.Props.JsLocating.c118_others",
    "Verif.Props.JsLocating.c118_update",
    "Verif.Props.JsLocating.c118_released",
    "Verif.Props.JsLocating.c118_left",
    "Verif.Props.JsLocating.c118_frozen",
    "Verif.Props.JsLocating.c118_gone",
    "Verif.Props.JsLocating.c118_shared",
    "Verif.Props.JsLocating.c118_double",
    "Verif.Props.JsLocating.c118_unset"
   ],
   "note": "That an open peer keeps its track in the broadcast holds if no other peer ever had its handle (c118_sole_partial). Otherwise a peer that is closed takes along the track of the peer that has its first handle now (c118_gone), and of two peers with one handle either takes away the other one (c118_shared). A peer created with a handle has an additional open track that is never served (c118_double); unsetting the position leaves the last one in the track (c118_unset)."
  },
  {
   "property": "C119",
   "status": "partial",
   "theorems": [
    "Verif.Props.WasmRender.c119_order",
    "Verif.Props.WasmRender.c119_suffix",
    "Verif.Props.WasmRender.c119_buffer",
    "Verif.Props.WasmRender.c119_due",
    "Verif.Props.WasmRender.c119_anchor",
    "Verif.Props.WasmRender.c119_kept",
    "Verif.Props.WasmRender.c119_reset",
    "Verif.Props.WasmRender.c119_seen",
    "Verif.Props.WasmRender.c119_paused",
    "Verif.Props.WasmRender.c119_idle",
    "Verif.Props.WasmRender.c119_default",
    "Verif.Props.WasmRender.c119_unpaused",
    "Verif.Props.WasmRender.c119_hidden",
    "Verif.Props.WasmRender.c119_once",
    "Verif.Props.WasmRender.c119_asked_partial",
    "Verif.Props.WasmRender.c119_stuck",
    "Verif.Props.WasmRender.c119_panic",
    "Verif.Props.WasmRender.c119_sound_partial",
    "Verif.Props.WasmRender.c119_toggle",
    "Verif.Props.WasmRender.c119_dead",
    "Verif.Props.WasmRender.c119_live",
    "Verif.Props.WasmRender.c119_timeout",
    "Verif.Props.WasmRender.c119_alive",
    "Verif.Props.WasmRender.c119_size_partial",
    "Verif.Props.WasmRender.c119_size"
   ],
   "note": "Three parts of the statement are false. Pausing and resuming between two animation frames panics (c119_toggle, c119_dead); c119_panic says that this is the only way and c119_sound_partial that there is no panic without pausing. After setting the latency nothing is requested before the next push (c119_stuck; otherwise c119_asked_partial). The canvas gets the size of the front of the queue, not of the frame drawn (c119_size; c119_size_partial if all sizes are equal). Also a new renderer is idle, not playing, and setting the latency resumes (c119_default, c119_unpaused)."
  },
  {
   "property": "C120",
   "status": "partial",
   "theorems": [
    "Verif.Props.WasmWatch.c120_track",
    "Verif.Props.WasmWatch.c120_off",
    "Verif.Props.WasmWatch.c120_origin",
    "Verif.Props.WasmWatch.c120_source_partial",
    "Verif.Props.WasmWatch.c120_config_partial",
    "Verif.Props.WasmWatch.c120_stale",
    "Verif.Props.WasmWatch.c120_config",
    "Verif.Props.WasmWatch.c120_plays",
    "Verif.Props.WasmWatch.c120_keep",
    "Verif.Props.WasmWatch.c120_subscribes",
    "Verif.Props.WasmWatch.c120_leave",
    "Verif.Props.WasmWatch.c120_left",
    "Verif.Props.WasmWatch.c120_status",
    "Verif.Props.WasmWatch.c120_names",
    "Verif.Props.WasmWatch.c120_panic",
    "Verif.Props.WasmWatch.c120_sound_partial",
    "Verif.Props.WasmWatch.c120_scheme",
    "Verif.Props.WasmWatch.c120_usable",
    "Verif.Props.WasmWatch.c120_new",
    "Verif.Props.WasmWatch.c120_single",
    "Verif.Props.WasmWatch.c120_finish",
    "Verif.Props.WasmWatch.c120_dead",
    "Verif.Props.WasmWatch.c120_listens",
    "Verif.Props.WasmWatch.c120_waits"
   ],
   "note": "Three parts of the statement are false. Subscriptions are compared by track name only, so after connecting to another broadcast the track of the old one is kept if the names agree (c120_stale; c120_source_partial otherwise), and so is the decoder if a catalog changes the configuration (c120_config; c120_config_partial otherwise). A URL whose path does not start with a slash panics, even if connecting fails (c120_scheme; c120_panic says that this is the only way, c120_sound_partial that there is none without). Also leaving does not stop what is played (c120_leave, c120_left)."
  },
  {
   "property": "C121",
   "status": "partial",
   "theorems": [
    "Verif.Props.WasmPublish.c121_listed",
    "Verif.Props.WasmPublish.c121_lists_partial",
    "Verif.Props.WasmPublish.c121_late",
    "Verif.Props.WasmPublish.c121_switch",
    "Verif.Props.WasmPublish.c121_stays",
    "Verif.Props.WasmPublish.c121_closed",
    "Verif.Props.WasmPublish.c121_over",
    "Verif.Props.WasmPublish.c121_empty",
    "Verif.Props.WasmPublish.c121_name",
    "Verif.Props.WasmPublish.c121_apart",
    "Verif.Props.WasmPublish.c121_encodes",
    "Verif.Props.WasmPublish.c121_private",
    "Verif.Props.WasmPublish.c121_writes",
    "Verif.Props.WasmPublish.c121_leave",
    "Verif.Props.WasmPublish.c121_left",
    "Verif.Props.WasmPublish.c121_both",
    "Verif.Props.WasmPublish.c121_panic",
    "Verif.Props.WasmPublish.c121_sound",
    "Verif.Props.WasmPublish.c121_dead",
    "Verif.Props.WasmPublish.c121_invalid",
    "Verif.Props.WasmPublish.c121_err",
    "Verif.Props.WasmPublish.c121_known",
    "Verif.Props.WasmPublish.c121_once",
    "Verif.Props.WasmPublish.c121_ended"
   ],
   "note": "Several parts of the statement are false, because the broadcast is never stored in the publisher. A track opened after connecting is never listed (c121_late, c121_switch; c121_lists_partial for those opened before), a broadcast without tracks is over at once (c121_empty; c121_over says exactly when it is), and leaving or connecting elsewhere stops nothing (c121_leave, c121_left, c121_both). The name of the broadcast is the path twice, and so not what a player with the same URL looks for (c121_name, c121_apart). Frames are encoded without a connection (c121_encodes, c121_private). There is no panic, given that paths of http URLs start with a slash (c121_sound). That names are unique is part of the specification of the number of a track."
  },
  {
   "property": "C122",
   "status": "partial",
   "theorems": [
    "Verif.Props.WasmPool.c122_spawn",
    "Verif.Props.WasmPool.c122_one",
    "Verif.Props.WasmPool.c122_share",
    "Verif.Props.WasmPool.c122_keeps",
    "Verif.Props.WasmPool.c122_result",
    "Verif.Props.WasmPool.c122_gone",
    "Verif.Props.WasmPool.c122_clone",
    "Verif.Props.WasmPool.c122_idle",
    "Verif.Props.WasmPool.c122_run",
    "Verif.Props.WasmPool.c122_fetched",
    "Verif.Props.WasmPool.c122_order",
    "Verif.Props.WasmPool.c122_failed",
    "Verif.Props.WasmPool.c122_leak",
    "Verif.Props.WasmPool.c122_stale",
    "Verif.Props.WasmPool.c122_blank"
   ],
   "note": "Two parts of the statement are false. A URL for which connecting failed once keeps that error: no later element connects anew (c122_failed). A session is never closed for lack of users, because the map holds a receiver itself (c122_idle, c122_leak). Also, an element made between the session closing and the task noticing gets the closed session (c122_stale), and an empty answer passes for a fingerprint (c122_blank). The rest is proved: when a task is started (c122_spawn), at most one at a time (c122_one), sharing (c122_share, c122_keeps, c122_clone), what waiting gives (c122_result), and what is asked of the network (c122_run, c122_fetched, c122_order)."
  },
  {
   "property": "C123",
   "status": "partial",
   "theorems": [
    "Verif.Props.Clock.c123_printed",
    "Verif.Props.Clock.c123_nothing",
    "Verif.Props.Clock.c123_valid",
    "Verif.Props.Clock.c123_sleeps",
    "Verif.Props.Clock.c123_panic",
    "Verif.Props.Clock.c123_true_partial",
    "Verif.Props.Clock.c123_rising",
    "Verif.Props.Clock.c123_every",
    "Verif.Props.Clock.c123_drift",
    "Verif.Props.Clock.c123_hour",
    "Verif.Props.Clock.c123_late",
    "Verif.Props.Clock.c123_repeat"
   ],
   "note": "That every line is the time it was written at is false. The first line of each group is the full minute after that of the group before, whatever time it is, so that a publisher that was late stays late (c123_drift, c123_late). The other lines are right within an hour (c123_true_partial), but not after sleeping for an hour, because only the minute of the hour is compared (c123_hour). A sleep that ends early prints a second twice (c123_repeat; c123_rising if it does not)."
  },
  {
   "property": "C124",
   "status": "partial",
   "theorems": [
    "Verif.Props.ImportInit.c124_next",
    "Verif.Props.ImportInit.c124_header",
    "Verif.Props.ImportInit.c124_failed",
    "Verif.Props.ImportInit.c124_found",
    "Verif.Props.ImportInit.c124_sound",
    "Verif.Props.ImportInit.c124_write",
    "Verif.Props.ImportInit.c124_known",
    "Verif.Props.ImportInit.c124_names",
    "Verif.Props.ImportInit.c124_distinct",
    "Verif.Props.ImportInit.c124_listed_partial",
    "Verif.Props.ImportInit.c124_fresh",
    "Verif.Props.ImportInit.c124_tasks",
    "Verif.Props.ImportInit.c124_depth_partial",
    "Verif.Props.ImportInit.c124_read_partial",
    "Verif.Props.ImportInit.c124_browser",
    "Verif.Props.ImportInit.c124_again",
    "Verif.Props.ImportInit.c124_half",
    "Verif.Props.ImportInit.c124_tier",
    "Verif.Props.ImportInit.c124_profile"
   ],
   "note": "The catalog lists the tracks as claimed if all entries differ (c124_listed_partial), in particular if no id was used twice (c124_fresh). A repeated header has equal entries, and the tasks of the old tracks then remove the new entries (c124_again). Tracks of a header that is refused later are listed but get no media (c124_half). The bit depth of AV1 is taken from the tier (c124_depth_partial, c124_tier). Readers in Rust get what was published exactly if the configurations of H.265 and AV1 survive as text (c124_read_partial, c124_profile); browsers can always read it (c124_browser)."
  },
  {
   "property": "C125",
   "status": "partial",
   "theorems": [
    "Verif.Props.GstSource.c125_start",
    "Verif.Props.GstSource.c125_start_partial",
    "Verif.Props.GstSource.c125_other",
    "Verif.Props.GstSource.c125_dead",
    "Verif.Props.GstSource.c125_url",
    "Verif.Props.GstSource.c125_frame",
    "Verif.Props.GstSource.c125_end",
    "Verif.Props.GstSource.c125_no_pad",
    "Verif.Props.GstSource.c125_first",
    "Verif.Props.GstSource.c125_times_partial",
    "Verif.Props.GstSource.c125_some_time",
    "Verif.Props.GstSource.c125_jump",
    "Verif.Props.GstSource.c125_early",
    "Verif.Props.GstSource.c125_again",
    "Verif.Props.GstSource.c125_stop",
    "Verif.Props.GstSource.c125_unsupported"
   ],
   "note": "Pads, caps, data and flags are as claimed. The time of the first buffer is absolute, so that the second one lies before it (c125_times_partial, c125_jump). A frame that is earlier than the first one ends the task (c125_early). The element panics if a codec is not supported or a name is taken (c125_start says when), which is the case when it is started again (c125_again), and never starts afterwards (c125_dead). Stopping does not end the tasks (c125_stop)."
  },
  {
   "property": "C126",
   "status": "partial",
   "theorems": [
    "Verif.Props.GstSink.c126_start",
    "Verif.Props.GstSink.c126_stop",
    "Verif.Props.GstSink.c126_url",
    "Verif.Props.GstSink.c126_render_partial",
    "Verif.Props.GstSink.c126_not_rendered",
    "Verif.Props.GstSink.c126_published_partial",
    "Verif.Props.GstSink.c126_cuts_partial",
    "Verif.Props.GstSink.c126_fresh",
    "Verif.Props.GstSink.c126_kept",
    "Verif.Props.GstSink.c126_dead",
    "Verif.Props.GstSink.c126_still_there",
    "Verif.Props.GstSink.c126_unreachable",
    "Verif.Props.GstSink.c126_bad_buffer"
   ],
   "note": "That the cuts do not matter is proved for decoders that do not change their mind when more bytes follow, as for C67. Stopping does not end the broadcast (c126_still_there; c126_kept says that only a start and a buffer change what is published). A missing URL, a failure to connect and a buffer that is not valid make the element panic, and it never starts again (c126_start, c126_dead, c126_unreachable, c126_bad_buffer)."
  },
  {
   "property": "C127",
   "status": "partial",
   "theorems": [
    "Verif.Props.Cli.Client.c127_shown",
    "Verif.Props.Cli.Client.c127_input",
    "Verif.Props.Cli.Client.c127_connection",
    "Verif.Props.Cli.Client.c127_cuts_partial",
    "Verif.Props.Cli.Client.c127_over",
    "Verif.Props.Cli.Client.c127_graceful",
    "Verif.Props.Cli.Client.c127_lost",
    "Verif.Props.Cli.Client.c127_abrupt"
   ],
   "note": "That the cuts do not matter is proved for decoders that do not change their mind when more bytes follow, as for C67. The program ends as soon as the input ends: with success though it never was connected (c127_lost), and without closing the session (c127_abrupt; c127_graceful says that only ctrl-c does)."
  },
  {
   "property": "C128",
   "status": "partial",
   "theorems": [
    "Verif.Props.Cli.Server.c128_shown",
    "Verif.Props.Cli.Server.c128_input",
    "Verif.Props.Cli.Server.c128_connections",
    "Verif.Props.Cli.Server.c128_ends",
    "Verif.Props.Cli.Server.c128_isolated",
    "Verif.Props.Cli.Server.c128_over",
    "Verif.Props.Cli.Server.c128_cut_off"
   ],
   "note": "The server ends with its input, though connections are still watching (c128_cut_off)."
  },
  {
   "property": "C129",
   "status": "partial",
   "theorems": [
    "Verif.Props.JsPublishing.c129_flag",
    "Verif.Props.JsPublishing.c129_publish",
    "Verif.Props.JsPublishing.c129_only",
    "Verif.Props.JsPublishing.c129_found_partial",
    "Verif.Props.JsPublishing.c129_served_partial",
    "Verif.Props.JsPublishing.c129_taken_back",
    "Verif.Props.JsPublishing.c129_lost"
   ],
   "note": "A broadcast that is published again under the same path, on the same connection, before its last publication was taken back is lost: published says true, but it is not found (c129_lost, for every state in which it is published). That it is found is proved for histories in which this does not happen."
  },
  {
   "property": "C130",
   "status": "partial",
   "theorems": [
    "Verif.Props.JsWatchChat.c130_open",
    "Verif.Props.JsWatchChat.c130_open_partial",
    "Verif.Props.JsWatchChat.c130_twice",
    "Verif.Props.JsWatchChat.c130_track",
    "Verif.Props.JsWatchChat.c130_ttl",
    "Verif.Props.JsWatchChat.c130_stays_partial",
    "Verif.Props.JsWatchChat.c130_again",
    "Verif.Props.JsWatchChat.c130_closed",
    "Verif.Props.JsWatchChat.c130_stale",
    "Verif.Props.JsWatchChat.c130_valid"
   ],
   "note": "A chat that is created enabled, with catalog and broadcast there, subscribes twice and keeps the first subscription until it is closed (c130_open says exactly which are open; c130_twice); with nothing to subscribe to at that time there is never more than the wanted one (c130_open_partial). A change of the time to live alone makes the chat subscribe to the same track again (c130_again, for every state with a subscription); a catalog with an equal section leaves it alone (c130_stays_partial). After close, track still gives the closed consumer (c130_stale)."
  },
  {
   "property": "C131",
   "status": "partial",
   "theorems": [
    "Verif.Props.JsChatCatalog.c131_catalog_partial",
    "Verif.Props.JsChatCatalog.c131_stale",
    "Verif.Props.JsChatCatalog.c131_frozen",
    "Verif.Props.JsChatCatalog.c131_found",
    "Verif.Props.JsChatCatalog.c131_consumers",
    "Verif.Props.JsChatCatalog.c131_sent",
    "Verif.Props.JsChatCatalog.c131_still",
    "Verif.Props.JsChatCatalog.c131_valid"
   ],
   "note": "After close, the catalog of the chat still has the section it had, though its track is not found any more (c131_stale); before, it is as claimed (c131_catalog_partial). Messages of a chat that is disabled or closed still reach all readers that have subscribed before (c131_still, for all states)."
  },
  {
   "property": "C132",
   "status": "partial",
   "theorems": [
    "Verif.Props.TokenCli.c132_sign",
    "Verif.Props.TokenCli.c132_kept",
    "Verif.Props.TokenCli.c132_back_partial",
    "Verif.Props.TokenCli.c132_generated_partial",
    "Verif.Props.TokenCli.c132_pipe",
    "Verif.Props.TokenCli.c132_verify",
    "Verif.Props.TokenCli.c132_expired"
   ],
   "note": "What sign prints ends with a line end, which verify takes as part of the signature: the output of sign is never accepted by verify as it is (c132_pipe, for all keys and times). Without the line end it is accepted, and the payload is that of the arguments (c132_back_partial, c132_generated_partial; up to a minute after the time of expiry, see C57)."
  }
 ]
}