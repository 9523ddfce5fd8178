{
 "claims": [
  {
   "property": "C01",
   "status": "proved",
   "theorems": [
    "Ninep.C01_request_round_trip"
   ],
   "note": ""
  },
  {
   "property": "C02",
   "status": "proved",
   "theorems": [
    "Ninep.C02_reply_round_trip"
   ],
   "note": ""
  },
  {
   "property": "C03",
   "status": "proved",
   "theorems": [
    "Ninep.C03_dir_round_trip",
    "Ninep.C03_dir_list"
   ],
   "note": ""
  },
  {
   "property": "C04",
   "status": "proved",
   "theorems": [
    "Ninep.C04_wire_layout"
   ],
   "note": ""
  },
  {
   "property": "C05",
   "status": "proved",
   "theorems": [
    "Ninep.C05_size_field"
   ],
   "note": ""
  },
  {
   "property": "C06",
   "status": "proved",
   "theorems": [
    "Ninep.C06_old_contents"
   ],
   "note": ""
  },
  {
   "property": "C07",
   "status": "proved",
   "theorems": [
    "Ninep.C07_unambiguous",
    "Ninep.C07_replies"
   ],
   "note": "packets shorter than 2^32 bytes for the splitting part; C07_replies: the same for replies, and no request has the bytes of a reply"
  },
  {
   "property": "C08",
   "status": "proved",
   "theorems": [
    "Ninep.C08_accepted_canonical"
   ],
   "note": ""
  },
  {
   "property": "C09",
   "status": "partial",
   "theorems": [
    "Ninep.C09_truncation_partial",
    "Ninep.C09_exact_partial",
    "Ninep.C09_counterexample"
   ],
   "note": "The full statement is false: short reads are accepted. Proved: an unnoticed truncation lies inside the last integer, count or payload, and the exact condition (if and only if) for every message, cut and memory behind the packet; counterexample for every Tclunk."
  },
  {
   "property": "C10",
   "status": "proved",
   "theorems": [
    "Ninep.C10_trailing_rejected"
   ],
   "note": ""
  },
  {
   "property": "C11",
   "status": "proved",
   "theorems": [
    "Ninep.C11_panic_iff",
    "Ninep.C11_dir_no_panic",
    "Ninep.C11_overread"
   ],
   "note": ""
  },
  {
   "property": "C12",
   "status": "proved",
   "theorems": [
    "Ninep.C12_long_error"
   ],
   "note": ""
  },
  {
   "property": "C13",
   "status": "proved",
   "theorems": [
    "Ninep.C13_tag_patching"
   ],
   "note": ""
  },
  {
   "property": "C14",
   "status": "proved",
   "theorems": [
    "Ninep.C14_one_reply"
   ],
   "note": ""
  },
  {
   "property": "C15",
   "status": "proved",
   "theorems": [
    "Ninep.C15_version_first"
   ],
   "note": ""
  },
  {
   "property": "C16",
   "status": "proved",
   "theorems": [
    "Ninep.C16_unsupported",
    "Ninep.C16_names",
    "Ninep.C16_texts"
   ],
   "note": ""
  },
  {
   "property": "C17",
   "status": "proved",
   "theorems": [
    "Ninep.C17_faithful"
   ],
   "note": ""
  },
  {
   "property": "C18",
   "status": "partial",
   "theorems": [
    "Ninep.C18_malformed_partial",
    "Ninep.C18_exact_partial",
    "Ninep.C18_counterexample",
    "Ninep.C18_counterexample_remove"
   ],
   "note": "The full statement is false: decode errors are ignored, so on a versioned connection every malformed request whose decoder returns reaches the file server. Proved: no effect before Tversion; after it the request is carried out with what was decoded, exactly (C18_exact_partial). What such a request does otherwise is exactly given by C108."
  },
  {
   "property": "C19",
   "status": "proved",
   "theorems": [
    "Ninep.C19_pipelined"
   ],
   "note": "segmentations that leave the 7 byte headers whole (see C20)"
  },
  {
   "property": "C20",
   "status": "partial",
   "theorems": [
    "Ninep.C20_segmentation_partial",
    "Ninep.C20_exact_partial",
    "Ninep.C20_first_cut",
    "Ninep.C20_counterexample"
   ],
   "note": "The full statement is false: a header split over two segments kills the connection. Proved: independence of all cuts outside packet headers, and for every other segmentation exactly what happens: the packets before the first cut header are served and the rest is lost."
  },
  {
   "property": "C21",
   "status": "partial",
   "theorems": [
    "Ninep.C21_cut_off_partial",
    "Ninep.C21_exact_partial",
    "Ninep.C21_counterexample"
   ],
   "note": "The full statement is false: a request cut off by EOF inside its body is executed. Proved for connections ending with an error or inside a header; and in general at most the one cut off packet is executed beyond the complete ones."
  },
  {
   "property": "C22",
   "status": "proved",
   "theorems": [
    "Ninep.C22_dead_connection"
   ],
   "note": ""
  },
  {
   "property": "C24",
   "status": "proved",
   "theorems": [
    "Ninep.C24_payload_intact"
   ],
   "note": ""
  },
  {
   "property": "C25",
   "status": "proved",
   "theorems": [
    "Ninep.Client.C25_tags_legal"
   ],
   "note": ""
  },
  {
   "property": "C26",
   "status": "proved",
   "theorems": [
    "Ninep.Client.C26_tags_distinct"
   ],
   "note": ""
  },
  {
   "property": "C27",
   "status": "proved",
   "theorems": [
    "Ninep.Client.C27_tags_conserved"
   ],
   "note": ""
  },
  {
   "property": "C28",
   "status": "proved",
   "theorems": [
    "Ninep.Client.C28_right_reply"
   ],
   "note": ""
  },
  {
   "property": "C29",
   "status": "proved",
   "theorems": [
    "Ninep.Client.C29_all_answered"
   ],
   "note": "provided GetTag has not been used to take away all 65534 tags"
  },
  {
   "property": "C30",
   "status": "proved",
   "theorems": [
    "Ninep.Client.C30_no_panic"
   ],
   "note": ""
  },
  {
   "property": "C31",
   "status": "partial",
   "theorems": [
    "Ninep.Client.C31_panic_partial",
    "Ninep.Client.C31_exact_partial",
    "Ninep.Client.C31_counterexample",
    "Ninep.Client.C31_counterexample_duplicate"
   ],
   "note": "The full statement is false: a packet with a tag never used makes the client panic, a second reply to an answered request blocks it for ever. Proved: the exact reasons for which it can panic."
  },
  {
   "property": "C32",
   "status": "partial",
   "theorems": [
    "Ninep.Client.C32_delivered_partial",
    "Ninep.Client.C32_counterexample"
   ],
   "note": "The full statement is false: after the server has closed the connection the client always panics (nil reply). Proved: replies sent before are delivered first."
  },
  {
   "property": "C33",
   "status": "partial",
   "theorems": [
    "Ninep.Client.C33_same_until_reply_partial",
    "Ninep.Client.C33_counterexample"
   ],
   "note": "The full statement is false: without a tracer the client panics on the first reply. Proved: no difference before a reply is looked up."
  },
  {
   "property": "C34",
   "status": "proved",
   "theorems": [
    "Ninep.Client.C34_fids_fresh"
   ],
   "note": ""
  },
  {
   "property": "C35",
   "status": "proved",
   "theorems": [
    "Ninep.Client.C35_call_results"
   ],
   "note": ""
  },
  {
   "property": "C36",
   "status": "proved",
   "theorems": [
    "Ninep.Client.C36_remote_is_local",
    "Ninep.Client.C36_real_time",
    "Ninep.Client.C36_calls_return"
   ],
   "note": "versioned connection; requests and results that fit the wire format"
  },
  {
   "property": "C64",
   "status": "proved",
   "theorems": [
    "Ninep.Client.C64_client_framing",
    "Ninep.Client.C64_counterexample_cut"
   ],
   "note": "segmentations that leave the 7 byte headers whole; a cut header is shown to end the connection"
  },
  {
   "property": "C37",
   "status": "proved",
   "theorems": [
    "Ninep.Ufs.C37_version"
   ],
   "note": ""
  },
  {
   "property": "C38",
   "status": "proved",
   "theorems": [
    "Ninep.Ufs.C38_attach_below",
    "Ninep.Ufs.C38_attach_place"
   ],
   "note": ""
  },
  {
   "property": "C39",
   "status": "partial",
   "theorems": [
    "Ninep.Ufs.C39_below_partial",
    "Ninep.Ufs.C39_confined_partial",
    "Ninep.Ufs.C39_calls_partial",
    "Ninep.Ufs.C39_depth_partial",
    "Ninep.Ufs.C39_depth_confined_partial",
    "Ninep.Ufs.C39_depth_calls_partial",
    "Ninep.Ufs.C39_walk_exact",
    "Ninep.Ufs.C39_create_exact",
    "Ninep.Ufs.C39_default_root",
    "Ninep.Ufs.C39_walk_place",
    "Ninep.Ufs.C39_walk_place_rel",
    "Ninep.Ufs.C39_counterexample",
    "Ninep.Ufs.C39_counterexample_create"
   ],
   "note": "The full statement is false: names containing dot-dot lead out of the root. Proved: histories in which no name leads above the root (dot-dot allowed, as often as one is levels below it) stay below the root and depend on nothing outside it, also if requests overlap; for names as the protocol has them exactly which walks and creates lead out; for the root / no condition is needed; where a walk leads for arbitrary names."
  },
  {
   "property": "C40",
   "status": "partial",
   "theorems": [
    "Ninep.Ufs.C40_rename_partial",
    "Ninep.Ufs.C40_root_exact",
    "Ninep.Ufs.C39_depth_confined_partial",
    "Ninep.Ufs.C40_counterexample",
    "Ninep.Ufs.C40_counterexample_root"
   ],
   "note": "The full statement is false: absolute new names with dot-dot and relative renames of the root fid leave the root. Proved: all other renames stay inside (C39_depth_confined_partial with absolute names in which dot-dot does not lead above the root), and a new name for the root itself always leads out."
  },
  {
   "property": "C41",
   "status": "proved",
   "theorems": [
    "Ninep.Ufs.C41_unknown_fid"
   ],
   "note": ""
  },
  {
   "property": "C42",
   "status": "proved",
   "theorems": [
    "Ninep.Ufs.C42_frame"
   ],
   "note": ""
  },
  {
   "property": "C43",
   "status": "proved",
   "theorems": [
    "Ninep.Ufs.C43_clunk_remove"
   ],
   "note": ""
  },
  {
   "property": "C44",
   "status": "proved",
   "theorems": [
    "Ninep.Ufs.C44_walk",
    "Ninep.Ufs.C44_clone"
   ],
   "note": ""
  },
  {
   "property": "C45",
   "status": "proved",
   "theorems": [
    "Ninep.Ufs.C45_no_steal",
    "Ninep.Ufs.C45_clone_in_use"
   ],
   "note": ""
  },
  {
   "property": "C46",
   "status": "proved",
   "theorems": [
    "Ninep.Ufs.C46_life_cycle"
   ],
   "note": ""
  },
  {
   "property": "C48",
   "status": "proved",
   "theorems": [
    "Ninep.Ufs.C48_open",
    "Ninep.Ufs.C48_create"
   ],
   "note": ""
  },
  {
   "property": "C49",
   "status": "proved",
   "theorems": [
    "Ninep.Ufs.C49_needs_open",
    "Ninep.Ufs.C49_reaches_file"
   ],
   "note": ""
  },
  {
   "property": "C52",
   "status": "partial",
   "theorems": [
    "Ninep.Ufs.C52_panic_partial",
    "Ninep.Ufs.C52_counterexample"
   ],
   "note": "The full statement is false: a read of an open plain file with a negative count panics. Proved: this is the only way."
  },
  {
   "property": "C55",
   "status": "proved",
   "theorems": [
    "Ninep.Ufs.C55_stat"
   ],
   "note": ""
  },
  {
   "property": "C47",
   "status": "partial",
   "theorems": [
    "Ninep.Ufs.C47_independent_partial",
    "Ninep.Ufs.C47_stale_cause",
    "Ninep.Ufs.C47_stale",
    "Ninep.Ufs.C47_counterexample",
    "Ninep.Ufs.traced_same"
   ],
   "note": "The full statement is false: a clone of an open fid shares its host file, so clunking one closes the file of the other. Proved: histories that clone no open fid; and for all histories that nothing else closes a file under a fid, and that this always does."
  },
  {
   "property": "C50",
   "status": "proved",
   "theorems": [
    "Ninep.Ufs.C50_read"
   ],
   "note": "hosts that keep the contents of plain files as FileView says"
  },
  {
   "property": "C51",
   "status": "proved",
   "theorems": [
    "Ninep.Ufs.C51_write_read"
   ],
   "note": "hosts that keep the contents of plain files as FileView says; nothing else writes the file in between"
  },
  {
   "property": "C53",
   "status": "partial",
   "theorems": [
    "Ninep.Ufs.C53_listing_partial",
    "Ninep.Ufs.C53_exact_partial",
    "Ninep.Ufs.C53_terminates_partial",
    "Ninep.Ufs.C53_next",
    "Ninep.Ufs.C53_decodes",
    "Ninep.Ufs.C53_no_overflow",
    "Ninep.Ufs.C53_counterexample",
    "Ninep.Ufs.C53_counterexample_lost"
   ],
   "note": "The full statement is false: an entry whose record is longer than the count is dropped and ends the listing. Proved: for any count a listing yields the entries in order up to the first that does not fit; it is complete if and only if the count is at least the size of every record."
  },
  {
   "property": "C54",
   "status": "proved",
   "theorems": [
    "Ninep.Ufs.C54_restart"
   ],
   "note": ""
  },
  {
   "property": "C56",
   "status": "proved",
   "theorems": [
    "Ninep.Ufs.C56_nothing",
    "Ninep.Ufs.C56_nothing_record"
   ],
   "note": ""
  },
  {
   "property": "C57",
   "status": "partial",
   "theorems": [
    "Ninep.Ufs.C57_all_or_nothing_partial",
    "Ninep.Ufs.C57_prefix_partial",
    "Ninep.Ufs.C57_counterexample"
   ],
   "note": "The full statement is false: the mode is changed before a change of owner is refused. Proved: a wstat that asks for one thing is all or nothing, and what exactly a failed one has changed."
  },
  {
   "property": "C58",
   "status": "partial",
   "theorems": [
    "Ninep.Ufs.C58_atime_only_partial",
    "Ninep.Ufs.C58_mtime_kept_partial",
    "Ninep.Ufs.C58_mtime_kept_record_partial",
    "Ninep.Ufs.C58_atime_overwritten",
    "Ninep.Ufs.C58_atime_overwritten_record",
    "Ninep.Ufs.C58_counterexample"
   ],
   "note": "The full statement is false: setting only the modification time always sets the access time to 2^32-1. Proved: setting only the access time keeps the modification time."
  },
  {
   "property": "C59",
   "status": "partial",
   "theorems": [
    "Ninep.Ufs.C59_file_partial",
    "Ninep.Ufs.C59_directory_partial",
    "Ninep.Ufs.C59_counterexample"
   ],
   "note": "The full statement is false: the error of mkdir is dropped. Proved: refused plain files, and directories that are not there afterwards, are reported."
  },
  {
   "property": "C60",
   "status": "partial",
   "theorems": [
    "Ninep.Ufs.C60_closed_partial",
    "Ninep.Ufs.C60_all_closed_partial",
    "Ninep.Ufs.C60_clunk_closes",
    "Ninep.Ufs.C60_closes",
    "Ninep.Ufs.C60_leak_cause",
    "Ninep.Ufs.C60_leaks",
    "Ninep.Ufs.C60_leaked_stays",
    "Ninep.Ufs.C60_counterexample_twice",
    "Ninep.Ufs.C60_counterexample_leak"
   ],
   "note": "The full statement is false: clones close a file twice, a second open or a walk of an open fid onto itself leaks one. Proved: histories without these; and for all histories which requests close a file, which ones lose one, that these always do, and that a lost file is never closed."
  },
  {
   "property": "C61",
   "status": "proved",
   "theorems": [
    "Ninep.Debugfs.C61_transparent",
    "Ninep.Debugfs.C61_same_connection"
   ],
   "note": ""
  },
  {
   "property": "C62",
   "status": "proved",
   "theorems": [
    "Ninep.Listen.C62_shutdown",
    "Ninep.Listen.C62_shutdown_closes",
    "Ninep.Listen.C62_all_closed",
    "Ninep.Listen.C62_at_most_once",
    "Ninep.Listen.C62_too_early"
   ],
   "note": "listeners in the accept loop; C62_too_early shows that a Serve call that has not yet registered its listener escapes a Shutdown"
  },
  {
   "property": "C63",
   "status": "proved",
   "theorems": [
    "Ninep.Listen.C63_backoff",
    "Ninep.Listen.C63_goes_on",
    "Ninep.Listen.C63_closed_and_forgotten"
   ],
   "note": ""
  },
  {
   "property": "C23",
   "status": "proved",
   "theorems": [
    "Ninep.Ufs.C23_frame",
    "Ninep.Ufs.C23_history",
    "Ninep.Ufs.C23_version",
    "Ninep.Ufs.C23_alone"
   ],
   "note": ""
  },
  {
   "property": "C65",
   "status": "proved",
   "theorems": [
    "Ninep.Gen.C65_encoder",
    "Ninep.Gen.C65_decoder",
    "Ninep.Gen.C65_trailing",
    "Ninep.Gen.C65_accepted",
    "Ninep.Gen.C65_round_trip",
    "Ninep.Gen.C65_unsupported_dropped",
    "Ninep.Gen.C65_dir",
    "Ninep.Gen.C65_dir_number_last"
   ],
   "note": "fields of a type the generator does not know are dropped silently (C65_unsupported_dropped)"
  },
  {
   "property": "C66",
   "status": "proved",
   "theorems": [
    "Ninep.Gen.C66_request_encoders",
    "Ninep.Gen.C66_reply_encoders",
    "Ninep.Gen.C66_stat_encoder",
    "Ninep.Gen.C66_request_decoders",
    "Ninep.Gen.C66_reply_decoders",
    "Ninep.Gen.C66_stat_decoder"
   ],
   "note": ""
  },
  {
   "property": "C67",
   "status": "proved",
   "theorems": [
    "Ninep.Ufs.C67_stack",
    "Ninep.Ufs.C67_returns"
   ],
   "note": "requests: version texts and walk names of at most 65000 bytes, no negative read counts (these crash the server, C52); host names and error texts shorter than 2^16 bytes less what the server adds; fewer than 65534 calls at once for progress"
  },
  {
   "property": "C68",
   "status": "proved",
   "theorems": [
    "Ninep.Ufs.C68_read_bound"
   ],
   "note": ""
  },
  {
   "property": "C69",
   "status": "proved",
   "theorems": [
    "Ninep.Ufs.C69_known"
   ],
   "note": ""
  },
  {
   "property": "C70",
   "status": "proved",
   "theorems": [
    "Ninep.Debugfs.C70_transcript",
    "Ninep.Debugfs.C70_unambiguous"
   ],
   "note": ""
  },
  {
   "property": "C71",
   "status": "partial",
   "theorems": [
    "Ninep.Ufs.C71_attach_partial",
    "Ninep.Ufs.C71_exact_partial",
    "Ninep.Ufs.Mem.C71_counterexample"
   ],
   "note": "false: attach takes a fid in use away from its file (C71_counterexample); proved: the rest of the statement, and exactly when an attach succeeds, whatever the fid table"
  },
  {
   "property": "C72",
   "status": "partial",
   "theorems": [
    "Ninep.Ufs.C72_open_partial",
    "Ninep.Ufs.Mem.C72_counterexample"
   ],
   "note": "false for open: an open fid is opened again (C72_counterexample); proved: what open does then, and that create is refused"
  },
  {
   "property": "C73",
   "status": "proved",
   "theorems": [
    "Ninep.C73_flush",
    "Ninep.Ufs.C73_ufs"
   ],
   "note": ""
  },
  {
   "property": "C74",
   "status": "partial",
   "theorems": [
    "Ninep.Ufs.C74_version_partial",
    "Ninep.Ufs.Mem.C74_counterexample"
   ],
   "note": "false: Tversion changes nothing (C74_version_partial), fids stay in use (C74_counterexample)"
  },
  {
   "property": "C75",
   "status": "partial",
   "theorems": [
    "Ninep.Ufs.C75_read_fits_partial",
    "Ninep.Ufs.C75_reply_bound_partial",
    "Ninep.Ufs.Mem.C75_counterexample"
   ],
   "note": "false: the file server does not keep the agreed size (C75_counterexample); proved: bounds of the replies that the client can compute from the request"
  },
  {
   "property": "C76",
   "status": "partial",
   "theorems": [
    "Ninep.Ufs.C76_ended_partial",
    "Ninep.Ufs.C76_counterexample"
   ],
   "note": "false for the open files (C76_counterexample); proved: nothing is executed or written, and the FileServer object stays as it is"
  },
  {
   "property": "C77",
   "status": "proved",
   "theorems": [
    "Ninep.Ufs.C77_qids",
    "Ninep.Ufs.C77_qids_from_start",
    "Ninep.Ufs.C77_distinct"
   ],
   "note": ""
  },
  {
   "property": "C78",
   "status": "partial",
   "theorems": [
    "Ninep.Ufs.C78_version_partial",
    "Ninep.Ufs.C78_exact_partial",
    "Ninep.Ufs.C78_counterexample"
   ],
   "note": "false for changes within a millisecond and after 2^32 milliseconds (C78_counterexample); proved for changes between one millisecond and 49 days, and exactly: versions agree if and only if the times in milliseconds agree modulo 2^32"
  },
  {
   "property": "C79",
   "status": "proved",
   "theorems": [
    "Ninep.Ufs.C79_serial",
    "Ninep.Ufs.C79_midway",
    "Ninep.Ufs.C79_world",
    "Ninep.Ufs.C79_uninterrupted",
    "Ninep.Ufs.C79_history"
   ],
   "note": ""
  },
  {
   "property": "C80",
   "status": "proved",
   "theorems": [
    "Ninep.Ufs.C80_bounded",
    "Ninep.Ufs.C80_names",
    "Ninep.Ufs.C80_progress",
    "Ninep.Ufs.C80_amplified"
   ],
   "note": ""
  },
  {
   "property": "C81",
   "status": "partial",
   "theorems": [
    "Ninep.Ufs.C81_checked_partial",
    "Ninep.Ufs.C81_alone_partial",
    "Ninep.Ufs.C81_counterexample"
   ],
   "note": "false if another connection or process acts between the stat and the rename (C81_counterexample); proved: every rename is immediately preceded by a stat of its target that found no directory, and nothing is replaced if nobody acts in between"
  },
  {
   "property": "C82",
   "status": "partial",
   "theorems": [
    "Ninep.Client.C82_no_reply_partial",
    "Ninep.Client.C82_counterexample"
   ],
   "note": "false: the calls do not fail, they hang for ever or the process dies (C82_counterexample, C32_counterexample); proved: no call started on a dead client ever returns a reply"
  },
  {
   "property": "C83",
   "status": "proved",
   "theorems": [
    "Ninep.Ufs.C83_means",
    "Ninep.Ufs.C83_read_only"
   ],
   "note": ""
  },
  {
   "property": "C84",
   "status": "proved",
   "theorems": [
    "Ninep.Ufs.C84_read",
    "Ninep.Ufs.C84_copy",
    "Ninep.Ufs.C84_ends"
   ],
   "note": ""
  },
  {
   "property": "C85",
   "status": "proved",
   "theorems": [
    "Ninep.Ufs.C85_split",
    "Ninep.Ufs.C85_join",
    "Ninep.Ufs.C85_short",
    "Ninep.Ufs.C85_clone",
    "Ninep.Ufs.C85_up"
   ],
   "note": ""
  },
  {
   "property": "C86",
   "status": "partial",
   "theorems": [
    "Ninep.Ufs.C86_follows_partial",
    "Ninep.Ufs.C86_counterexample"
   ],
   "note": "false if another fid renames or removes the file or a directory above it: the path of the fid goes stale and may come to stand for another file (C86_counterexample); proved for all histories without that, including renames by the fid itself"
  },
  {
   "property": "C87",
   "status": "partial",
   "theorems": [
    "Ninep.Client.C87_slots_partial",
    "Ninep.Client.C87_counterexample"
   ],
   "note": "false for a peer that sends a packet with a tag before the request with this tag (C87_counterexample); proved for all peers that only answer requests, each at most once"
  },
  {
   "property": "C88",
   "status": "partial",
   "theorems": [
    "Ninep.Ufs.C88_crash_partial",
    "Ninep.Ufs.C88_quiet",
    "Ninep.Ufs.C88_well_formed",
    "Ninep.Ufs.C88_counterexample"
   ],
   "note": "The full statement is false: a panic on one connection ends the process (C88_counterexample, with two connections). Proved: exactly which packets do so, and that of the well-formed requests only a read with a negative count of an open file of the same connection does."
  },
  {
   "property": "C89",
   "status": "proved",
   "theorems": [
    "Ninep.Client.C89_one_order",
    "Ninep.Client.C89_calls_return",
    "Ninep.Ufs.C89_ufs",
    "Ninep.Ufs.C89_ufs_returns"
   ],
   "note": "Model: Client/Many.lean; a request is worked on in one step (requests that overlap are C93 and C94); connections have passed Tversion; fewer than 65534 tags taken by the caller for progress."
  },
  {
   "property": "C90",
   "status": "partial",
   "theorems": [
    "Ninep.Client.C90_exact_partial",
    "Ninep.Client.C90_orderly_partial",
    "Ninep.Client.C90_counterexample"
   ],
   "note": "The full statement is false: when one server closes its connection the whole program ends (C90_counterexample); so it does when a write fails. Proved: the exact condition, and that the program goes on while servers only answer, keep their connections open and tracers are set."
  },
  {
   "property": "C91",
   "status": "partial",
   "theorems": [
    "Ninep.Gen.C91_exact_partial",
    "Ninep.Gen.C91_counterexample",
    "Ninep.Gen.C91_packets",
    "Ninep.Gen.C91_version",
    "Ninep.Gen.C91_attach",
    "Ninep.Gen.C91_flush",
    "Ninep.Gen.C91_walk",
    "Ninep.Gen.C91_open",
    "Ninep.Gen.C91_create",
    "Ninep.Gen.C91_stat",
    "Ninep.Gen.C91_wstat",
    "Ninep.Gen.C91_clunk",
    "Ninep.Gen.C91_remove",
    "Ninep.Gen.C91_read",
    "Ninep.Gen.C91_write"
   ],
   "note": "The full statement is false: packets that follow the rule can have code that does not compile or is wrong (C91_counterexample). Proved: the exact rule (C91_exact_partial), that every packet of the protocol meets it (C91_packets), and that the stubs of genout.go are what the generator writes for them."
  },
  {
   "property": "C92",
   "status": "partial",
   "theorems": [
    "Ninep.Client.C92_bytes_partial",
    "Ninep.Client.C92_real_time_partial",
    "Ninep.Client.C92_returns_partial",
    "Ninep.Client.C92_cut_read",
    "Ninep.Client.C92_counterexample",
    "Ninep.Client.C92_counterexample_write",
    "Ninep.Client.C92_cut_reply",
    "Ninep.Client.C92_cut_partial",
    "Ninep.Client.C92_last_partial",
    "Ninep.Client.C92_any_partial",
    "Ninep.Client.C92_gives_up",
    "Ninep.Client.C92_reads_on",
    "Ninep.Ufs.C92_stack_cut_partial",
    "Ninep.Ufs.C92_stack_any_partial",
    "Ninep.Ufs.C92_stack_partial",
    "Ninep.Ufs.C92_stack_returns_partial"
   ],
   "note": "The full statement is false: when the connection ends with an end of file inside of a reply, the call returns wrong data without an error (C92_counterexample, C92_cut_read). and a write that is cut off is carried out with wrong data (C92_counterexample_write). The exact results are proved for every other way of losing the connection at any byte and for all pieces; with an end of file inside of a reply at most one call is affected, in the way given by C92_cut_partial; an incomplete request is the last one dealt with (C92_last_partial). C92_any_partial and C92_stack_any_partial hold for all executions: only the last request carried out may differ from the one sent, and only in fields that had not arrived. Progress needs headers that arrive whole (C20)."
  },
  {
   "property": "C93",
   "status": "proved",
   "theorems": [
    "Ninep.Client.C93_overlap",
    "Ninep.Client.C93_returns"
   ],
   "note": "Model: Client/Busy.lean; connections have passed Tversion; requests with a count that is not negative (C57) and error texts that fit a string; fewer than 65534 tags taken by the caller for progress."
  },
  {
   "property": "C94",
   "status": "partial",
   "theorems": [
    "Ninep.Client.C94_atomic_partial",
    "Ninep.Client.C94_brief_partial",
    "Ninep.Client.C94_apart_partial",
    "Ninep.Client.C94_sorted_partial",
    "Ninep.Client.C94_looks_partial",
    "Ninep.Client.C94_site_sorted_partial",
    "Ninep.Client.C94_site_looks_partial",
    "Ninep.Client.C94_programs_partial",
    "Ninep.Client.C94_programs_look_partial",
    "Ninep.Client.C94_counterexample"
   ],
   "note": "The full statement is false: a create that overlaps with the remove of the same file fails, although it succeeds in both orders (C94_counterexample). C94_apart_partial is the strongest: others may use the operating system in the middle of a request as long as the calls made for it so far can wait for what the others do. Missing are exactly the executions in which requests disturb each other in this sense. The order keeps the calls of each client in the order in which their requests were written, and contains no changes by other processes but those of the execution. C94_site_* say the same over byte streams (the model of C96), C94_programs_* for programs that use the clients (the model of C98)."
  },
  {
   "property": "C95",
   "status": "proved",
   "theorems": [
    "Ninep.Ufs.C95_threads",
    "Ninep.Ufs.C95_accepts",
    "Ninep.Ufs.C95_packets",
    "Ninep.Ufs.C95_requests",
    "Ninep.Ufs.C95_ends",
    "Ninep.Ufs.C95_deadly",
    "Ninep.Ufs.C95_listens",
    "Ninep.Ufs.C95_waits"
   ],
   "note": ""
  },
  {
   "property": "C96",
   "status": "proved",
   "theorems": [
    "Ninep.Client.C96_clients",
    "Ninep.Client.C96_alive",
    "Ninep.Client.C96_ended",
    "Ninep.Client.C96_returns"
   ],
   "note": ""
  },
  {
   "property": "C97",
   "status": "partial",
   "theorems": [
    "Ninep.Ufs.C97_wstat_partial",
    "Ninep.Ufs.C97_accepted",
    "Ninep.Ufs.C97_cut",
    "Ninep.Ufs.C97_counterexample"
   ],
   "note": "The full statement is false: the size in front of the record and bytes behind it are not looked at, and the last byte may be missing (C97_counterexample). What is accepted (C97_accepted, C97_cut) and what is answered otherwise (C97_wstat_partial) is exact, for all data."
  },
  {
   "property": "C98",
   "status": "proved",
   "theorems": [
    "Ninep.Client.C98_same",
    "Ninep.Client.C98_between",
    "Ninep.Client.C98_alone",
    "Ninep.Client.C98_stuck",
    "Ninep.Client.C98_ends",
    "Ninep.Client.C98_completes"
   ],
   "note": ""
  },
  {
   "property": "C99",
   "status": "proved",
   "theorems": [
    "Ninep.Client.C99_fetch",
    "Ninep.Client.C99_store",
    "Ninep.Client.C99_copy",
    "Ninep.Client.C99_fetched",
    "Ninep.Client.C99_stored"
   ],
   "note": ""
  },
  {
   "property": "C100",
   "status": "proved",
   "theorems": [
    "Ninep.Client.C100_list",
    "Ninep.Client.C100_listed"
   ],
   "note": ""
  },
  {
   "property": "C101",
   "status": "proved",
   "theorems": [
    "Ninep.Ufs.C101_own",
    "Ninep.Ufs.C101_apart",
    "Ninep.Ufs.C101_abandoned",
    "Ninep.Ufs.C101_fresh",
    "Ninep.Ufs.C101_program"
   ],
   "note": ""
  },
  {
   "property": "C102",
   "status": "proved",
   "theorems": [
    "Ninep.Client.C102_undisturbed",
    "Ninep.Client.C102_tasks",
    "Ninep.Client.C102_fetch",
    "Ninep.Client.C102_store"
   ],
   "note": ""
  },
  {
   "property": "C103",
   "status": "proved",
   "theorems": [
    "Ninep.Make.C103_returns",
    "Ninep.Make.C103_tags",
    "Ninep.Make.C103_made",
    "Ninep.Make.C103_fails",
    "Ninep.Make.C103_init",
    "Ninep.Make.C103_listener",
    "Ninep.Make.C103_ufs",
    "Ninep.Make.C103_start"
   ],
   "note": ""
  },
  {
   "property": "C104",
   "status": "proved",
   "theorems": [
    "Ninep.Client.C104_fetch",
    "Ninep.Client.C104_store",
    "Ninep.Client.C104_tasks",
    "Ninep.Client.C104_list"
   ],
   "note": ""
  },
  {
   "property": "C105",
   "status": "proved",
   "theorems": [
    "Ninep.Client.C105_make",
    "Ninep.Client.C105_made",
    "Ninep.Client.C105_found",
    "Ninep.Client.C105_remove",
    "Ninep.Client.C105_removed",
    "Ninep.Client.C105_gone",
    "Ninep.Client.C105_rename",
    "Ninep.Client.C105_renamed"
   ],
   "note": ""
  },
  {
   "property": "C106",
   "status": "partial",
   "theorems": [
    "Ninep.Ufs.C106_exact_partial",
    "Ninep.Ufs.C106_emptied_partial",
    "Ninep.Ufs.C106_directory_partial",
    "Ninep.Ufs.C106_counterexample",
    "Ninep.Ufs.C106_counterexample_directory"
   ],
   "note": "The full statement is false (C106_counterexample, C106_counterexample_directory): a create truncates a plain file that has the name; a create of a directory succeeds if anything has the name and leaves the fid not open"
  },
  {
   "property": "C107",
   "status": "proved",
   "theorems": [
    "Ninep.Ufs.C107_same",
    "Ninep.Ufs.C107_every",
    "Ninep.Ufs.C107_transcript",
    "Ninep.Ufs.C107_pending",
    "Ninep.Ufs.C107_crash"
   ],
   "note": ""
  },
  {
   "property": "C108",
   "status": "proved",
   "theorems": [
    "Ninep.C108_proper",
    "Ninep.C108_acts",
    "Ninep.C108_requests",
    "Ninep.Ufs.C108_program"
   ],
   "note": ""
  },
  {
   "property": "C109",
   "status": "partial",
   "theorems": [
    "Ninep.C109_onWire",
    "Ninep.C109_acts_partial",
    "Ninep.C109_counterexample",
    "Ninep.C109_counterexample_attach",
    "Ninep.Client.C109_remote_partial",
    "Ninep.Client.C109_calls_return_partial"
   ],
   "note": "The full statement is false: for every name, permissions and mode there is a longer name with which a create that asks for other permissions is carried out as a create with these. Proved: the request carried out is `onWire` of the request of the call, which is that request if and only if its arguments fit; so for the whole client and server."
  },
  {
   "property": "C110",
   "status": "partial",
   "theorems": [
    "Ninep.Client.C110_success_partial",
    "Ninep.Client.C110_remote_partial",
    "Ninep.Client.C110_counterexample"
   ],
   "note": "The full statement is false: a reply of any type other than Rerror is taken for the one expected if its fields can be read so, and cuts that C09 lists are not noticed. Proved: the packet carries a tag and the fields of the result, up to these cuts."
  },
  {
   "property": "C111",
   "status": "partial",
   "theorems": [
    "Ninep.Client.C111_replies",
    "Ninep.Client.C111_calls",
    "Ninep.Client.C111_requests_partial",
    "Ninep.Client.C111_counterexample"
   ],
   "note": "The full statement is false for Twalk: a walk with a name of 2^16 bytes and two empty names is received without an error as a walk with three other names. Proved for all replies and all requests but Twalk."
  },
  {
   "property": "C112",
   "status": "proved",
   "theorems": [
    "Ninep.Trace.C112_trace",
    "Ninep.Trace.C112_transparent",
    "Ninep.Trace.C112_read"
   ],
   "note": "A tracer that changes the buffer it is given is left out; how a line becomes text is left to the tracer."
  },
  {
   "property": "C113",
   "status": "partial",
   "theorems": [
    "Ninep.Ufs.C113_open_partial",
    "Ninep.Ufs.C113_create_partial",
    "Ninep.Ufs.C113_counterexample_rclose",
    "Ninep.Ufs.C113_counterexample_append",
    "Ninep.Ufs.C113_counterexample_excl"
   ],
   "note": "The full statement is false: bits that are not supported are accepted and ignored. Proved instead: exactly the access bits, OTRUNC, DMDIR and the nine permission bits have an effect."
  },
  {
   "property": "C114",
   "status": "partial",
   "theorems": [
    "Ninep.Ufs.C114_call_partial",
    "Ninep.Ufs.C114_connection_partial",
    "Ninep.Ufs.C114_exact_partial",
    "Ninep.Ufs.Mem.C114_counterexample"
   ],
   "note": "The full statement is false: message size, user name, the tag of a flush and several fields of a wstat are ignored. Proved instead: they have no effect on anything, in whole histories, and every other field has one that a client can see (C114_exact_partial, an equivalence over all fields)."
  },
  {
   "property": "C115",
   "status": "partial",
   "theorems": [
    "Ninep.Ufs.C115_wstat_stat_partial",
    "Ninep.Ufs.mem_keepsAttrs",
    "Ninep.Ufs.C115_counterexample_link",
    "Ninep.Ufs.C115_counterexample_atime"
   ],
   "note": "The full statement is false: wstat follows symbolic links and stat does not, and stat tells the modification time in place of the access time. Proved for all other files and fields, for every host that keeps attributes (KeepsAttrs; the example host is one), names without .. elements."
  },
  {
   "property": "C116",
   "status": "proved",
   "theorems": [
    "Ninep.Client.C116_transparent",
    "Ninep.Client.C116_sent",
    "Ninep.Client.C116_writes",
    "Ninep.Client.C116_received",
    "Ninep.Client.C116_replies",
    "Ninep.Client.C116_finished"
   ],
   "note": "For clients that have a tracer and a connection; without a tracer see C33. The text of a line is left to the tracer."
  },
  {
   "property": "C117",
   "status": "partial",
   "theorems": [
    "Ninep.Client.C117_length_partial",
    "Ninep.Ufs.C117_server_partial",
    "Ninep.Ufs.C117_unlimited",
    "Ninep.Ufs.C117_counterexample"
   ],
   "note": "The full statement is false: neither side looks at the agreed size. Proved: the exact length of every request on the wire, so that programs can keep to the size themselves; that the size has no influence but on the version replies; and that whatever was agreed every request is sent and answered."
  },
  {
   "property": "C118",
   "status": "partial",
   "theorems": [
    "Ninep.Client.C118_partial",
    "Ninep.Client.C118_order",
    "Ninep.Client.C118_alone",
    "Ninep.Client.C118_fid",
    "Ninep.Client.C118_dead",
    "Ninep.Client.C118_counterexample",
    "Ninep.Client.race_exec",
    "Ninep.Client.race_lift"
   ],
   "note": "The full statement is false: c.FID is added to atomically but read plainly by every call for the tracer (without which the client panics, C33); String reads c.Dead; and a packet that answers nothing makes the receiver read an entry that the sender writes. None of the edges of the memory model that the record leaves out orders these accesses. Proved, for peers that only answer: no races on the table, the calls, the requests and the replies, for all programs and schedules; no races at all for a program with one goroutine that does not print the client."
  },
  {
   "property": "C119",
   "status": "proved",
   "theorems": [
    "Ninep.Listen.C119_no_races",
    "Ninep.Listen.C119_same",
    "Ninep.Listen.C119_every"
   ],
   "note": "For programs that do not themselves write to the fields of the listener after making it. The objects of a connection (conn, Server, FileServer) are one location. C119_same and C119_every: the executions with the record of accesses reach the same states of the server as those without."
  },
  {
   "property": "C120",
   "status": "partial",
   "theorems": [
    "Ninep.Ufs.C120_exact_partial",
    "Ninep.Ufs.C120_offset_partial",
    "Ninep.Ufs.C120_length_partial",
    "Ninep.Ufs.Mem.C120_counterexample"
   ],
   "note": "The full statement is false: a write of 2^31 bytes or more succeeds and returns a negative count. Proved: the count is right exactly for less than 2^31 bytes (the four bytes of the reply always are), and offsets and lengths of 2^63 or more are refused. Read counts of 2^31 or more are C52."
  },
  {
   "property": "C121",
   "status": "partial",
   "theorems": [
    "Ninep.Ufs.C121_unseen_partial",
    "Ninep.Ufs.C121_unchanged_partial",
    "Ninep.Ufs.Mem.mem_apart",
    "Ninep.Ufs.Links.links_apart",
    "Ninep.Ufs.Links.C121_links_partial",
    "Ninep.Ufs.Links.C121_counterexample"
   ],
   "note": "The full statement is false: renaming a relative symbolic link can make it lead out of the root, and open follows links. Proved for all hosts whose calls with paths below the root keep the inside apart, such as file systems without symbolic links (mem_apart), of which there stay none since clients cannot make any, and file systems with symbolic links if those below the root are absolute and lead straight down from the root and none leads to the root, for every absolute root (links_apart): renaming does not change where they lead."
  },
  {
   "property": "C122",
   "status": "partial",
   "theorems": [
    "Ninep.Ufs.Shared.C122_no_deadlock",
    "Ninep.Ufs.Shared.C122_released",
    "Ninep.Ufs.Shared.C122_held_calls",
    "Ninep.Ufs.Shared.C122_table_partial",
    "Ninep.Ufs.Shared.C122_table_guarded",
    "Ninep.Ufs.Shared.C122_races",
    "Ninep.Ufs.Shared.C122_races_partial",
    "Ninep.Ufs.Shared.C122_independent_partial",
    "Ninep.Ufs.Shared.C122_panics_partial",
    "Ninep.Ufs.Shared.C122_attach_counterexample",
    "Ninep.Ufs.Shared.C122_version_counterexample",
    "Ninep.Ufs.Shared.C122_open_counterexample",
    "Ninep.Ufs.Shared.C122_table_counterexample"
   ],
   "note": "The full statement is false: Rattach uses the map without the mutex, Rversion sets Versioned without it, and two calls on the same fid race on the fields of its structure (counterexamples). Proved: there is no deadlock; every race, in every execution, is on the table with one of the two in an attach, on the root with both in an attach, on Versioned with both in a version, or on a field of a file between two calls that name the same fid; the entry of a fid that no attach asks for is set only if there is none (or by a walk from the fid to itself); and goroutines with fids of their own do what they do with a FileServer of their own."
  },
  {
   "property": "C123",
   "status": "proved",
   "theorems": [
    "Ninep.Ufs.Shared.C123_bounded",
    "Ninep.Ufs.Shared.C123_stuck",
    "Ninep.Ufs.Shared.C123_ends",
    "Ninep.Ufs.Shared.C122_no_deadlock",
    "Ninep.Ufs.Shared.C122_released",
    "Ninep.Ufs.Shared.C122_held_calls"
   ],
   "note": "For schedulers that let some goroutine go on while one can; a call that has panicked (a read with a negative count) has given the mutex back."
  },
  {
   "property": "C124",
   "status": "proved",
   "theorems": [
    "Ninep.Ufs.Shared.C122_races",
    "Ninep.Ufs.Shared.C122_table_guarded",
    "Ninep.Ufs.Shared.C124_free"
   ],
   "note": "The exceptions are real: see the counterexamples of C122."
  },
  {
   "property": "C125",
   "status": "proved",
   "theorems": [
    "Ninep.Ufs.Shared.C125_serial",
    "Ninep.Ufs.Shared.C125_panics",
    "Ninep.Ufs.Shared.C125_plain_read",
    "Ninep.Ufs.Shared.C125_overlap_counterexample"
   ],
   "note": "The counterexample shows that the condition on overlapping calls is needed: an attach and a walk to the same fid that overlap have results that they do not have one after the other in the order in which they finish, whatever the operating system answers. A read counts among the calls that change their fid if it stores into the structure; C125_plain_read: the read of a file that is not a directory does not. Memory is that of Ufs/Shared: single accesses are atomic and in program order, which Go promises only if a goroutine that hands a fid on synchronizes with the one that gets it. C126 says when that is so."
  },
  {
   "property": "C126",
   "status": "proved",
   "theorems": [
    "Ninep.Ufs.Shared.C126_race_free",
    "Ninep.Ufs.Shared.C126_callers_counterexample",
    "Ninep.Ufs.Shared.C126_attach_counterexample",
    "Ninep.Ufs.Shared.C126_open_counterexample"
   ],
   "note": "Go promises race-free programs that memory behaves as if accesses were atomic and in program order, which is what C125 assumes. The counterexamples show that each assumption is needed: a read of a file that another goroutine has opened races if the callers do not synchronize; so do two attaches to different fids that overlap, and two opens of one fid. Happens-before has program order, the mutex and the order of the callers; the other parts of Go that synchronize, inside the operating system calls, are left out, so that fewer accesses are ordered."
  },
  {
   "property": "C127",
   "status": "proved",
   "theorems": [
    "Ninep.Ufs.Shared.C127_released",
    "Ninep.Ufs.Shared.C127_once",
    "Ninep.Ufs.Shared.C127_walks",
    "Ninep.Ufs.Shared.C127_one_walk",
    "Ninep.Ufs.Shared.C127_attach_counterexample"
   ],
   "note": "No condition on the calls that overlap. A remove that fails may have released its fid, so it counts neither as a success nor as a refusal. The counterexample shows why the second half asks for walks: two attaches to one fid both succeed."
  },
  {
   "property": "C128",
   "status": "proved",
   "theorems": [
    "Ninep.Ufs.Shared.C128_below",
    "Ninep.Ufs.Shared.C128_under",
    "Ninep.Ufs.Shared.C128_slash",
    "Ninep.Ufs.Shared.C128_counterexample"
   ],
   "note": "No condition on the calls that overlap. Single accesses to fields are atomic, as in all of Ufs/Shared; Go does not promise this of strings in programs with data races, and C126 says which programs have none. C128_under: relative new names are fine as well if no fid stands for the root itself. The counterexample is a walk with dot-dot; C39 says exactly which names lead out."
  },
  {
   "property": "C129",
   "status": "proved",
   "theorems": [
    "Ninep.Ufs.Shared.C129_stands",
    "Ninep.Ufs.Shared.C129_answers",
    "Ninep.Ufs.Shared.C129_walk",
    "Ninep.Ufs.Shared.C129_read_only",
    "Ninep.Ufs.Shared.C129_attach_counterexample"
   ],
   "note": "No condition on the calls that overlap. The QIDs in the replies to attach and open are read from the structure of the fid and are those of another call if that has changed it in between, so the statement leaves them out (C129_attach_counterexample); reads of directories may return what is left from a read before."
  },
  {
   "property": "C130",
   "status": "proved",
   "theorems": [
    "Ninep.Ufs.Shared.C130_reason",
    "Ninep.Ufs.Shared.C130_own_texts"
   ],
   "note": "No condition on the calls that overlap. The answers of the operating system and the requests are arbitrary. Whether the fid was in the table when the server says that it does not exist or is in use is not part of the statement."
  },
  {
   "property": "C131",
   "status": "proved",
   "theorems": [
    "Ninep.Ufs.Shared.C131_used",
    "Ninep.Ufs.Shared.C131_unused",
    "Ninep.Ufs.Shared.C131_in_use",
    "Ninep.Ufs.Shared.C131_free"
   ],
   "note": "No condition on the calls that overlap. The moments for the fid of a walk and for its new fid may differ. Attach does not look at the table and is left out: it takes a fid whether it is in use or not."
  },
  {
   "property": "C132",
   "status": "proved",
   "theorems": [
    "Ninep.Ufs.Shared.C132_released",
    "Ninep.Ufs.Shared.C132_attached",
    "Ninep.Ufs.Shared.C132_walked"
   ],
   "note": "No condition on the calls that overlap. The fid need not be as the call has left it when the call returns: an example has an attach that returns after another goroutine has clunked the fid."
  },
  {
   "property": "C133",
   "status": "proved",
   "theorems": [
    "Ninep.Ufs.Shared.C133_on"
   ],
   "note": "No condition on the calls that overlap. The fid stood for the structure at one moment and the structure had the path or the open file at another one of the same call. Attach has no such fid: its path is the subject of C128 and C129."
  }
 ]
}