{
 "claims": [
  {
   "property": "C01",
   "status": "proved",
   "theorems": [
    "Verif.BufChain.copy_exact",
    "Verif.BufChain.copy_fails_iff",
    "Verif.BufChain.copyMany_cut",
    "Verif.BufChain.copy_fragmentation_independent"
   ],
   "note": ""
  },
  {
   "property": "C02",
   "status": "proved",
   "theorems": [
    "Verif.BufChain.skip_exact",
    "Verif.BufChain.seek_exact",
    "Verif.BufChain.seek_ub_iff",
    "Verif.BufChain.compare_zero_iff",
    "Verif.BufChain.getTail_exact",
    "Verif.BufChain.terminate_exact"
   ],
   "note": ""
  },
  {
   "property": "C03",
   "status": "proved",
   "theorems": [
    "Verif.BufStream.step_refines",
    "Verif.BufStream.run_refines",
    "Verif.BufStream.initHead_sim",
    "Verif.BufStream.reads_from_head"
   ],
   "note": ""
  },
  {
   "property": "C04",
   "status": "proved",
   "theorems": [
    "Verif.BufQueue.free_exact"
   ],
   "note": ""
  },
  {
   "property": "C05",
   "status": "proved",
   "theorems": [
    "Verif.BufQueue.memory_conserved",
    "Verif.BufQueue.held_partition",
    "Verif.BufQueue.step_safe",
    "Verif.BufQueue.get_result",
    "Verif.BufQueue.delete_restores"
   ],
   "note": ""
  },
  {
   "property": "C06",
   "status": "proved",
   "theorems": [
    "Verif.Lba.live_disjoint",
    "Verif.Lba.step_live"
   ],
   "note": "Any build, any buffer size and bin count."
  },
  {
   "property": "C07",
   "status": "partial",
   "theorems": [
    "Verif.Lba.new_block_only_when_full_partial",
    "Verif.Lba.alloc_never_fails_partial",
    "Verif.Lba.release_maps_too_much",
    "Verif.Lba.single_buffer_crash",
    "Verif.Lba.single_buffer_fails"
   ],
   "note": "Proved for builds with NGX_DEBUG and at least two buffers per block. False otherwise: the last three theorems are concrete counterexamples."
  },
  {
   "property": "C08",
   "status": "proved",
   "theorems": [
    "Verif.BlockPool.pool_safe",
    "Verif.BlockPool.step_exact",
    "Verif.BlockPool.alloc_fails_only",
    "Verif.BlockPool.memory_stays_in_slot"
   ],
   "note": ""
  },
  {
   "property": "C09",
   "status": "proved",
   "theorems": [
    "Verif.BlockPool.auto_alloc_best_fit",
    "Verif.BlockPool.auto_free_same_slot",
    "Verif.BlockPool.search_range"
   ],
   "note": ""
  },
  {
   "property": "C10",
   "status": "proved",
   "theorems": [
    "Verif.Rstream.step_exact",
    "Verif.Rstream.run_safe",
    "Verif.Rstream.run_all_streams_safe",
    "Verif.Rstream.str_round_trip"
   ],
   "note": ""
  },
  {
   "property": "C12",
   "status": "proved",
   "theorems": [
    "Verif.Persist.output_exact",
    "Verif.Persist.writes_concat",
    "Verif.Persist.chain_exact",
    "Verif.Persist.chain_empty_refused"
   ],
   "note": "Uncompressed output."
  },
  {
   "property": "C11",
   "status": "proved",
   "theorems": [
    "Verif.Persist.tree_round_trip",
    "Verif.Persist.compressed_round_trip",
    "Verif.Persist.deep_refused"
   ],
   "note": "Uncompressed and compressed files; zlib is any function pair that round-trips on the written bytes."
  },
  {
   "property": "C13",
   "status": "proved",
   "theorems": [
    "Verif.Persist.readBlocks_exact",
    "Verif.Persist.unknown_skipped",
    "Verif.Persist.Parse.unique",
    "Verif.Persist.parse_exists",
    "Verif.Persist.readBlocks_safe",
    "Verif.Persist.handlers_safe",
    "Verif.Persist.skipHeader_spec",
    "Verif.Persist.readFileHeader_exact"
   ],
   "note": ""
  },
  {
   "property": "C33",
   "status": "partial",
   "theorems": [
    "Verif.Persist.readFileHeader_safe",
    "Verif.Persist.inflate_safe",
    "Verif.Persist.readFile_safe_partial",
    "Verif.Persist.pool_inflate_ub"
   ],
   "note": "Proved when the decompressed data is heap memory (live module). False when it is pool memory (packager): pool_inflate_ub is the counterexample."
  },
  {
   "property": "C14",
   "status": "partial",
   "theorems": [
    "Verif.Json.int_exact_partial",
    "Verif.Json.int_sound",
    "Verif.Json.int_overflow"
   ],
   "note": "Exact for values alone, in objects and in arrays, unless the memory of an integer array element held INT64_MIN before it was written and a negative number is refused: then the code negates it (int_overflow)."
  },
  {
   "property": "C15",
   "status": "proved",
   "theorems": [
    "Verif.Json.parse_safe",
    "Verif.Json.parse_depth"
   ],
   "note": "The one undefined step that is left is the overflow of C14, which is not a read."
  },
  {
   "property": "C16",
   "status": "proved",
   "theorems": [
    "Verif.Json.decode_exact",
    "Verif.Json.decode_in_place",
    "Verif.Json.Denotes.unique",
    "Verif.Json.denotes_plain",
    "Verif.Json.getString_flag"
   ],
   "note": ""
  },
  {
   "property": "C34",
   "status": "proved",
   "theorems": [
    "Verif.Json.parse_exact",
    "Verif.Json.getString_flag"
   ],
   "note": ""
  },
  {
   "property": "C35",
   "status": "partial",
   "theorems": [
    "Verif.Json.decode_chars_partial",
    "Verif.Json.utf8_char",
    "Verif.Json.surrogate_pair_wrong"
   ],
   "note": "Proved for all spellings without surrogate pairs; false for surrogate pairs: each half is encoded on its own (surrogate_pair_wrong)."
  },
  {
   "property": "C17",
   "status": "proved",
   "theorems": [
    "Verif.KmpIn.run_outcome",
    "Verif.KmpIn.run_chunks",
    "Verif.KmpIn.outcome_unique"
   ],
   "note": ""
  },
  {
   "property": "C18",
   "status": "proved",
   "theorems": [
    "Verif.KmpIn.run_frames"
   ],
   "note": "Numbers wrap at 2^64, as in the code."
  },
  {
   "property": "C36",
   "status": "proved",
   "theorems": [
    "Verif.KmpIn.run_nodes",
    "Verif.KmpIn.run_points"
   ],
   "note": "Allocation of descriptors is assumed to succeed."
  },
  {
   "property": "C19",
   "status": "proved",
   "theorems": [
    "Verif.KmpInAck.acks_on_wire",
    "Verif.KmpInAck.write_drains",
    "Verif.KmpInAck.packet_fields"
   ],
   "note": "The application does not acknowledge before the connect packet is complete."
  },
  {
   "property": "C20",
   "status": "partial",
   "theorems": [
    "Verif.KmpOut.unacked_held_partial",
    "Verif.KmpOut.step_defined_partial",
    "Verif.KmpOut.tie_releases"
   ],
   "note": " Proved for two kinds of use: any number of upstreams with the last acked policy and no memory pressure, or one upstream at a time with any policy and with memory pressure, without an end of stream. In general it is false: two upstreams at the same frame id, one of which acks a media info by itself (tie_releases)."
  },
  {
   "property": "C21",
   "status": "partial",
   "theorems": [
    "Verif.KmpOut.resume_partial",
    "Verif.KmpOut.wire_partial",
    "Verif.KmpOut.head_announces",
    "Verif.KmpOut.skewed_wire"
   ],
   "note": " Proved for two kinds of use: any number of upstreams with the last acked policy and no memory pressure, or one upstream at a time with any policy and with memory pressure, without an end of stream. With memory pressure a connection must not start while more is acked than was handed out; there it is false (skewed_wire)."
  },
  {
   "property": "C22",
   "status": "partial",
   "theorems": [
    "Verif.KmpOut.ack_exact_partial",
    "Verif.KmpOut.ack_early_partial",
    "Verif.KmpOut.reject_removes",
    "Verif.KmpOut.skewed_ack"
   ],
   "note": " Proved for two kinds of use: any number of upstreams with the last acked policy and no memory pressure, or one upstream at a time with any policy and with memory pressure, without an end of stream. With memory pressure a connection must not start while more is acked than was handed out; there it is false (skewed_ack)."
  },
  {
   "property": "C23",
   "status": "partial",
   "theorems": [
    "Verif.KmpLink.frames_once_partial",
    "Verif.KmpLink.frames_complete_partial",
    "Verif.KmpLink.acked_kept_partial",
    "Verif.KmpLink.frames_prefix_written_partial",
    "Verif.KmpLink.video_lost_after_reconnect"
   ],
   "note": "Proved for every schedule of a calm sender whose link is not removed, as long as no more than max_skip_frames frames are to be skipped: order, no duplicates, no loss of frames that are due (with data, after a media info, video only after a key frame of the same connection), and nothing that the sender takes for acked is missing. The literal statement is false for video: non-key frames are dropped after a reconnect (video_lost_after_reconnect)."
  },
  {
   "property": "C24",
   "status": "proved",
   "theorems": [
    "Verif.InputBufs.locked_kept",
    "Verif.InputBufs.unused_gone",
    "Verif.InputBufs.all_released",
    "Verif.InputBufs.step_defined",
    "Verif.InputBufs.get_after_linked_free"
   ],
   "note": "For every sequence of calls with the data of segments in the order of their indexes. Linking is not limited to one track. After a linked track is freed the other can no longer receive (get_after_linked_free); this is not part of the statement."
  },
  {
   "property": "C25",
   "status": "proved",
   "theorems": [
    "Verif.SegmentList.lookup_exact",
    "Verif.SegmentList.lookup_missing",
    "Verif.SegmentList.lookup_next",
    "Verif.SegmentList.runs_exact",
    "Verif.SegmentList.counts_exact",
    "Verif.SegmentList.add_defined"
   ],
   "note": "For every history of add, update, free and restart, and every shape of the tree. Indexes below 2^32, durations below 2^32, times within 2^61."
  },
  {
   "property": "C26",
   "status": "partial",
   "theorems": [
    "Verif.SegmentList.contains_exact",
    "Verif.SegmentList.contains_none",
    "Verif.SegmentList.closest_partial",
    "Verif.SegmentList.closest_boundary",
    "Verif.SegmentList.closest_past_end",
    "Verif.SegmentList.closest_gap",
    "Verif.SegmentList.times_back"
   ],
   "note": "The lookup that asks for the segment with the time is exact, for times that do not go back. Closest mode is proved where the next segment follows without a gap; at the end of the list and of a period the statement is false (closest_past_end, closest_gap), there the nearer end of the segment is returned (closest_boundary)."
  },
  {
   "property": "C27",
   "status": "proved",
   "theorems": [
    "Verif.SegmentList.save_restore",
    "Verif.SegmentList.restored_same",
    "Verif.SegmentList.period_end_exact"
   ],
   "note": "Down to the bytes, for every history and every range that ends below 2^32 - 1; also proved for restoring several files one after the other (constructor restored of Reach)."
  },
  {
   "property": "C28",
   "status": "partial",
   "theorems": [
    "Verif.SegmentList.restore_partial",
    "Verif.SegmentList.restore_single",
    "Verif.SegmentList.indexes_back",
    "Verif.SegmentList.indexes_back'",
    "Verif.SegmentList.overflow",
    "Verif.SegmentList.count_wraps"
   ],
   "note": "Any bytes: an error, or for each block one part without gaps in the announced range, times not going back, runs not empty. False as stated: parts can overlap (indexes_back), signed overflow (overflow), and with a range that ends at 2^32 - 1 a count of zero (count_wraps)."
  },
  {
   "property": "C29",
   "status": "proved",
   "theorems": [
    "Verif.SegmentInfo.query_exact",
    "Verif.SegmentInfo.query_some"
   ],
   "note": "For every history of creations, freeing, copies and restarts and every shape of the tree; lower bound above 0 percent, bounds below 2^32. See lower_bound_zero, empty_range, gaps_off."
  },
  {
   "property": "C30",
   "status": "partial",
   "theorems": [
    "Verif.SegmentInfo.restored_values",
    "Verif.SegmentInfo.restore_succeeds",
    "Verif.SegmentInfo.restore_succeeds_first",
    "Verif.SegmentInfo.restored_goes_on_partial",
    "Verif.SegmentInfo.restored_bitrate_wraps"
   ],
   "note": "Values in the range: proved in full, down to the bytes, also over several files. Later segments: proved when the last bitrate times 100 is below 2^32; beyond that it is false (restored_bitrate_wraps)."
  },
  {
   "property": "C37",
   "status": "proved",
   "theorems": [
    "Verif.SegmentInfo.packager_bitrates",
    "Verif.SegmentInfo.packager_gap"
   ],
   "note": "Reported means: the value of the last entry in the history at or before the segment, up to the tolerance of the configuration."
  },
  {
   "property": "C38",
   "status": "proved",
   "theorems": [
    "Verif.SegmentInfo.gap_room",
    "Verif.SegmentInfo.gap_room_served"
   ],
   "note": ""
  },
  {
   "property": "C39",
   "status": "proved",
   "theorems": [
    "Verif.SegmentInfo.read_any",
    "Verif.SegmentInfo.query_after_any"
   ],
   "note": "The range ends below 2^32 - 1, which the caller checks (ngx_live_persist_index.c:430-431); otherwise false (indexes_start_again)."
  },
  {
   "property": "C31",
   "status": "partial",
   "theorems": [
    "Verif.SegmentIndex.acked_settled_partial",
    "Verif.SegmentIndex.direct_ack_settled",
    "Verif.SegmentIndex.acks_complete",
    "Verif.SegmentIndex.acked_early"
   ],
   "note": "For every history. Acks are for frames of a completed segment; every completed segment up to it was written, failed or dropped, or the write of the segment itself failed. In the last case the statement is false: an earlier segment may still be being written (acked_early). acks_complete: no track of the snapshot is forgotten. Files are assumed to be buckets of a fixed number of segments, as in ngx_live_persist_media.c."
  },
  {
   "property": "C32",
   "status": "proved",
   "theorems": [
    "Verif.SegmentIndex.retention"
   ],
   "note": "For every history."
  },
  {
   "property": "C40",
   "status": "partial",
   "theorems": [
    "Verif.SegmentIndex.saved_iff",
    "Verif.SegmentIndex.lost_truncated_partial",
    "Verif.SegmentIndex.truncate_lost",
    "Verif.SegmentIndex.first_segment_lost"
   ],
   "note": "Proved for all indexes but 0; a lost segment with index 0 is not cut off (first_segment_lost)."
  },
  {
   "property": "C41",
   "status": "partial",
   "theorems": [
    "Verif.SegmentIndex.step_defined",
    "Verif.SegmentIndex.snapshots_counted",
    "Verif.SegmentIndex.channel_free_partial",
    "Verif.SegmentIndex.channel_free_twice"
   ],
   "note": "Proved for every history up to the end of the channel, and for the end of the channel when no segment is being written. When writes are cancelled at the end of the channel a snapshot can be released twice (channel_free_twice)."
  },
  {
   "property": "C42",
   "status": "proved",
   "theorems": [
    "Verif.Timeline.numbers_stable"
   ],
   "note": "For every history of the channel. Histories do not include a restart, or a timeline made as a copy of another one."
  },
  {
   "property": "C43",
   "status": "proved",
   "theorems": [
    "Verif.Timeline.response_exact"
   ],
   "note": "For every history of the channel, without restart and copies."
  },
  {
   "property": "C44",
   "status": "proved",
   "theorems": [
    "Verif.Timeline.response_admitted",
    "Verif.Timeline.run_held"
   ],
   "note": "Admission is a ghost log computed from the configuration of the timeline at the time of the call, beside the model."
  },
  {
   "property": "C45",
   "status": "partial",
   "theorems": [
    "Verif.Timeline.add_window",
    "Verif.Timeline.add_limits_partial",
    "Verif.Timeline.three_targets_fails"
   ],
   "note": "add_window: both windows are exactly what an independent rule keeps. The rule of three target durations is proved with the target duration before the segment was added; with the new target it is false (three_targets_fails)."
  },
  {
   "property": "C46",
   "status": "proved",
   "theorems": [
    "Verif.Timeline.target_covers",
    "Verif.Timeline.target_fixed_fails"
   ],
   "note": "target_fixed_fails: false when the target is configured to be fixed."
  },
  {
   "property": "C47",
   "status": "proved",
   "theorems": [
    "Verif.Timeline.never_ub",
    "Verif.Timeline.retained",
    "Verif.Timeline.freed"
   ],
   "note": ""
  },
  {
   "property": "C48",
   "status": "proved",
   "theorems": [
    "Verif.Timeline.end_list_iff",
    "Verif.Timeline.end_list_final"
   ],
   "note": "For the setting on; the setting forced announces the end also when segments are pending. Segments can be added after the end (ended_grows)."
  },
  {
   "property": "C49",
   "status": "partial",
   "theorems": [
    "Verif.Timeline.segment_found",
    "Verif.Timeline.index_to_number",
    "Verif.Timeline.number_to_index_partial",
    "Verif.Timeline.number_to_index_fails"
   ],
   "note": "Proved for every history, but the way from a number to the index only when the timeline has no more segments than the numbers it counted, which is not always so (number_to_index_fails)."
  },
  {
   "property": "C50",
   "status": "proved",
   "theorems": [
    "Verif.Timeline.wait_now_iff",
    "Verif.Timeline.wait_served",
    "Verif.Timeline.wait_right"
   ],
   "note": "wait_served is for timelines whose end is not forced."
  },
  {
   "property": "C51",
   "status": "partial",
   "theorems": [
    "Verif.Timeline.delta_partial",
    "Verif.Timeline.last_skipped_fails"
   ],
   "note": "Proved except that the response names the last segment skipped, which is false (last_skipped_fails): it names the first one listed when both are in one period."
  },
  {
   "property": "C52",
   "status": "proved",
   "theorems": [
    "Verif.Cenc.Ctr.process_exact",
    "Verif.Cenc.writeEnc_spec"
   ],
   "note": "AES is any function that gives 16 bytes for 16 bytes"
  },
  {
   "property": "C53",
   "status": "partial",
   "theorems": [
    "Verif.Cenc.video_exact",
    "Verif.Cenc.slice_types",
    "Verif.Cenc.video_decrypts_partial",
    "Verif.Cenc.video_safe",
    "Verif.Cenc.large_unit_fails",
    "Verif.Cenc.many_units_fail",
    "Verif.Cenc.empty_last_fails"
   ],
   "note": "missing: units that are not slices of 64 KB or more, the list of sizes for frames of more than 40 units, fragments that end with an empty frame; the counterexamples show that these fail"
  },
  {
   "property": "C54",
   "status": "partial",
   "theorems": [
    "Verif.Cenc.audio_decrypts_partial",
    "Verif.Cenc.audio_empty_last_fails"
   ],
   "note": "missing: fragments that end with an empty frame, the counterexample shows that these are not sent in full"
  },
  {
   "property": "C55",
   "status": "partial",
   "theorems": [
    "Verif.Cenc.ivs_fresh_partial",
    "Verif.Cenc.fast_repeats",
    "Verif.Cenc.fast_audio_repeats",
    "Verif.Cenc.tracks_repeat"
   ],
   "note": "holds for a track with up to 60 frames per second between segment starts; fails for more, and for tracks that have the same key and IV, which is the default"
  },
  {
   "property": "C56",
   "status": "proved",
   "theorems": [
    "Verif.Segmenter.frames_conserved",
    "Verif.Segmenter.frame_accepted",
    "Verif.Segmenter.resume_next"
   ],
   "note": ""
  },
  {
   "property": "C57",
   "status": "proved",
   "theorems": [
    "Verif.Segmenter.no_undefined",
    "Verif.Segmenter.validators_pass",
    "Verif.Segmenter.video_starts_with_key"
   ],
   "note": "the validators without the pointers to the data of the frames"
  },
  {
   "property": "C58",
   "status": "partial",
   "theorems": [
    "Verif.Segmenter.segment_times",
    "Verif.Segmenter.segments_join",
    "Verif.Segmenter.last_average_partial",
    "Verif.Segmenter.last_duration_too_long"
   ],
   "note": "missing: the average of the last frame when decode times are shifted, which is false (last_duration_too_long)"
  },
  {
   "property": "C59",
   "status": "partial",
   "theorems": [
    "Verif.Segmenter.loop_ends_partial",
    "Verif.Segmenter.loop_ends_no_subtitles_partial",
    "Verif.Segmenter.loop_hangs",
    "Verif.Segmenter.loop_ends_false"
   ],
   "note": "holds without subtitle tracks, false with them (loop_ends_false)"
  },
  {
   "property": "C60",
   "status": "partial",
   "theorems": [
    "Verif.Segmenter.cues_kept_partial",
    "Verif.Segmenter.cues_copied",
    "Verif.Segmenter.cue_lost"
   ],
   "note": "holds when cues end in the order in which they start, false in general (cue_lost)"
  },
  {
   "property": "C61",
   "status": "proved",
   "theorems": [
    "Verif.Segmenter.segments_follow"
   ],
   "note": ""
  },
  {
   "property": "C62",
   "status": "proved",
   "theorems": [
    "Verif.Segmenter.no_jump_inside"
   ],
   "note": ""
  },
  {
   "property": "C63",
   "status": "partial",
   "theorems": [
    "Verif.Segmenter.break_new_period_partial",
    "Verif.Segmenter.disposed_new_period_partial",
    "Verif.Segmenter.jump_new_period_partial",
    "Verif.Segmenter.jump_missed"
   ],
   "note": "holds for disposed frames, and for jumps to a frame that was pending behind the segment, when the publisher does not connect again in between; false when the track had no pending frames (jump_missed)"
  },
  {
   "property": "C64",
   "status": "proved",
   "theorems": [
    "Verif.Rtmp.messages_of_bytes",
    "Verif.Rtmp.messages_prefix",
    "Verif.Rtmp.fails_of_bytes",
    "Verif.Rtmp.recv_safe",
    "Verif.Rtmp.recv_ends"
   ],
   "note": ""
  },
  {
   "property": "C65",
   "status": "partial",
   "theorems": [
    "Verif.Rtmp.sent_received_partial",
    "Verif.Rtmp.sent_prefix_partial",
    "Verif.Rtmp.sender_kept_partial",
    "Verif.Rtmp.sender_served_partial",
    "Verif.Rtmp.not_delivers_auto",
    "Verif.Rtmp.not_delivers_type3"
   ],
   "note": "The full claim is the definition Delivers. Proved for senders that do not start a message with type 3 after one with type 0, and, with type3_ext_ts auto, do not interleave chunks of type 3 that have extended timestamps; without these it is false. Also proved for senders that do not repeat the extended timestamp, with type3_ext_ts off."
  },
  {
   "property": "C66",
   "status": "partial",
   "theorems": [
    "Verif.Rtmp.pools_released_partial",
    "Verif.Rtmp.pools_two_partial",
    "Verif.Rtmp.not_released"
   ],
   "note": "The full claim is the definition Released. Proved for peers that change the chunk size once in a message at most and never to a smaller one; false without (not_released)."
  },
  {
   "property": "C67",
   "status": "partial",
   "theorems": [
    "Verif.Rtmp.held_bounded_partial",
    "Verif.Rtmp.not_bounded"
   ],
   "note": "The full claim is the definition Bounded. Proved for the senders of C65, false for others (not_bounded)."
  },
  {
   "property": "C68",
   "status": "proved",
   "theorems": [
    "Verif.Amf.reading_is_safe",
    "Verif.Amf.reading_does_not_depend_on_the_buffers",
    "Verif.Amf.commands_are_read_safely"
   ],
   "note": "destinations are those of the condition Fit"
  },
  {
   "property": "C69",
   "status": "proved",
   "theorems": [
    "Verif.Amf.values_are_read_as_they_were_sent",
    "Verif.Amf.commands_reach_their_handlers"
   ],
   "note": "names of fields are not empty; names in templates have no NUL"
  },
  {
   "property": "C70",
   "status": "partial",
   "theorems": [
    "Verif.Amf.reading_depth_is_below_the_length_partial",
    "Verif.Amf.command_depth_is_below_the_length_partial",
    "Verif.Amf.reading_depth_is_not_bounded",
    "Verif.Amf.not_depth_bounded"
   ],
   "note": "The full claim is the definition DepthBounded, which is false (not_depth_bounded). Proved: the depth is below the number of bytes of the message."
  },
  {
   "property": "C71",
   "status": "proved",
   "theorems": [
    "Verif.Amf.messages_are_the_values_of_their_elements",
    "Verif.Amf.what_is_written_is_read"
   ],
   "note": "elements as in the condition Given"
  },
  {
   "property": "C72",
   "status": "proved",
   "theorems": [
    "Verif.RtmpSend.messages_are_sent_in_chunks",
    "Verif.RtmpSend.amf_messages_are_sent_in_chunks",
    "Verif.RtmpSend.repeated_time_needs_a_repeated_difference"
   ],
   "note": "a header that repeats the time of the one before needs that one to have difference 0 (Knows); no caller passes a last header"
  },
  {
   "property": "C73",
   "status": "proved",
   "theorems": [
    "Verif.Ts.reading_does_not_depend_on_the_pieces"
   ],
   "note": ""
  },
  {
   "property": "C74",
   "status": "proved",
   "theorems": [
    "Verif.Ts.memory_is_bounded"
   ],
   "note": "until an error, after which the callers end the session"
  },
  {
   "property": "C75",
   "status": "partial",
   "theorems": [
    "Verif.Ts.pes_packets_are_received_partial",
    "Verif.Ts.Cases.not_pes_received",
    "Verif.Ts.Cases.packets_without_payload_lose_data",
    "Verif.Ts.Cases.the_last_is_not_received"
   ],
   "note": "The full claim, but for the last PES packet, is the definition Cases.PesReceived, which is false (not_pes_received). Proved for packets that all have a payload, and all PES packets but the last of each stream, which is not received as the end of a connection does not flush."
  },
  {
   "property": "C76",
   "status": "partial",
   "theorems": [
    "Verif.Ts.received_was_sent_partial",
    "Verif.Ts.Cases.not_received_was_sent",
    "Verif.Ts.Cases.a_truncated_packet_is_received"
   ],
   "note": "The full claim is the definition Cases.ReceivedWasSent, which is false (not_received_was_sent). Proved: whole data when the length is written in the PES packet, otherwise a first part of the data."
  },
  {
   "property": "C77",
   "status": "proved",
   "theorems": [
    "Verif.Ts.tables_are_read_as_sent"
   ],
   "note": "or memory ends, or a handler refuses"
  },
  {
   "property": "C78",
   "status": "partial",
   "theorems": [
    "Verif.TsKmp.video_depends_on_the_bytes_partial",
    "Verif.TsKmp.nal_units_become_frames_partial",
    "Verif.TsKmp.Cases.not_packets_become_frames",
    "Verif.TsKmp.Cases.seventeen_slices",
    "Verif.TsKmp.Cases.zeros_are_kept",
    "Verif.TsKmp.Cases.an_empty_buffer_is_read"
   ],
   "note": "The full claim is the definition Cases.PacketsBecomeFrames, which is false (not_packets_become_frames). Proved for up to 16 NAL units, without zeros after the last, without empty buffers, when the parameter sets are known."
  },
  {
   "property": "C79",
   "status": "partial",
   "theorems": [
    "Verif.TsKmp.parameter_sets_are_announced",
    "Verif.TsKmp.avc_parameter_sets_are_announced_partial",
    "Verif.TsKmp.Cases.not_sets_are_announced",
    "Verif.TsKmp.Cases.two_pps_written",
    "Verif.TsKmp.Cases.late_captions"
   ],
   "note": "The full claim for AVC is the definition Cases.SetsAreAnnounced, which is false for two picture parameter sets (not_sets_are_announced). Proved: the media info is made of the latest sets of all ids, and for one SPS and one PPS the decoder configuration holds them. Buffers are not empty (C78)."
  },
  {
   "property": "C80",
   "status": "partial",
   "theorems": [
    "Verif.TsKmp.audio_depends_on_the_bytes_partial",
    "Verif.TsKmp.aac_frames_are_received_partial",
    "Verif.TsKmp.Cases.not_frames_are_received",
    "Verif.TsKmp.Cases.a_divided_frame",
    "Verif.TsKmp.Cases.no_buffer",
    "Verif.TsKmp.Cases.two_blocks"
   ],
   "note": "The full claim is the definition Cases.FramesAreReceived, which is false (not_frames_are_received). Proved for PES packets of whole frames of one raw data block and one frequency, with a buffer."
  },
  {
   "property": "C81",
   "status": "partial",
   "theorems": [
    "Verif.TsKmp.video_times_are_kept_partial",
    "Verif.TsKmp.audio_times_are_kept_partial",
    "Verif.TsKmp.Cases.not_times_are_kept"
   ],
   "note": "The full claim is the definition Cases.TimesAreKept, which is false for times that go back (not_times_are_kept). Proved for times that do not."
  },
  {
   "property": "C82",
   "status": "proved",
   "theorems": [
    "Verif.Mts.video_pes"
   ],
   "note": "frames of NAL units that are not empty; with the default settings; zeros may follow the NAL units if length fields have four bytes"
  },
  {
   "property": "C83",
   "status": "proved",
   "theorems": [
    "Verif.Mts.audio_stream"
   ],
   "note": "default settings (frames aligned, not interleaved)"
  },
  {
   "property": "C84",
   "status": "proved",
   "theorems": [
    "Verif.Mts.segment_carries"
   ],
   "note": "default settings; the packets without data have an adaptation field of 183 bytes, see Findings"
  },
  {
   "property": "C85",
   "status": "partial",
   "theorems": [
    "Verif.Mts.counters_continue",
    "Verif.Mts.segments_continue_partial",
    "Verif.Mts.Cases.not_counters_go_on"
   ],
   "note": "The full claim is the definition Cases.CountersGoOn, which is false for ID3 (not_counters_go_on). Proved for video and audio."
  },
  {
   "property": "C86",
   "status": "partial",
   "theorems": [
    "Verif.Mts.announced_size_partial",
    "Verif.Mts.Cases.not_size_without_alignment",
    "Verif.Mts.Cases.not_size_of_short_lengths"
   ],
   "note": "The full claim is the definition Cases.SizeIsAnnounced for both settings and without the condition, which is false (not_size_without_alignment, not_size_of_short_lengths). Proved with alignment, which is the default, and length fields of four bytes."
  },
  {
   "property": "C87",
   "status": "proved",
   "theorems": [
    "Verif.Mts.tables_say",
    "Verif.Mts.tables_are_read"
   ],
   "note": "stream ids are in their ranges for up to 16 video and 32 audio streams"
  },
  {
   "property": "C88",
   "status": "partial",
   "theorems": [
    "Verif.Mts.pcr_pid_partial",
    "Verif.Mts.Cases.not_pcr_pid"
   ],
   "note": "The full claim is the definition Cases.PcrPid, which is false without video (not_pcr_pid). Proved when the first stream is video."
  },
  {
   "property": "C89",
   "status": "proved",
   "theorems": [
    "Verif.Ack.audio_ack_exact"
   ],
   "note": "first frame decoded, ids of frames go up, fewer than 2^30 samples wait for an ack, ids are not 0 and below 2^62, the acked frame is one that was made and starts within the input"
  },
  {
   "property": "C90",
   "status": "partial",
   "theorems": [
    "Verif.Ack.filtered_ack_exact_partial",
    "Verif.Ack.not_filtered_exact"
   ],
   "note": "The full claim is the definition FilteredExact, which is false for frames of 1024 samples in and 960 out (not_filtered_exact). Proved when all frames have the same number of samples."
  },
  {
   "property": "C91",
   "status": "partial",
   "theorems": [
    "Verif.Ack.skipped_exact_partial",
    "Verif.Ack.not_any_exact",
    "Verif.Ack.not_split_exact",
    "Verif.Ack.skip_crashes"
   ],
   "note": "The full claim is the definition AnyExact, which is false (not_any_exact: a division by zero; not_split_exact: a shift by one frame). Proved when the first packet is decoded and packets are one frame each."
  },
  {
   "property": "C92",
   "status": "partial",
   "theorems": [
    "Verif.Ack.video_ack_partial",
    "Verif.Ack.not_video_exact",
    "Verif.Ack.not_video_ack_of_any_frame",
    "Verif.Ack.offKey_drops"
   ],
   "note": "The full claims are the definitions VideoExact and VideoAckOfAnyFrame, which are false (not_video_exact, not_video_ack_of_any_frame). Proved for acks of output key frames: the id is right, and the offset if the input frame is a key frame."
  },
  {
   "property": "C93",
   "status": "partial",
   "theorems": [
    "Verif.Ack.resume_exact_partial",
    "Verif.Ack.not_resume_twice"
   ],
   "note": "The full claim is the definition ResumeTwice together with resume_exact_partial; ResumeTwice is false (not_resume_twice). Proved for the first break."
  },
  {
   "property": "C94",
   "status": "proved",
   "theorems": [
    "Verif.Fmp4.segment_frames"
   ],
   "note": "hypothesis Seg.Fits: the sum of sizes (with 36 bytes for each frame, 64 for each track) is below 2^31, delays below 2^31, durations below 2^32, times below 2^63, and the data of the frames is there"
  },
  {
   "property": "C95",
   "status": "proved",
   "theorems": [
    "Verif.Fmp4.segment_size",
    "Verif.Fmp4.header_ok"
   ],
   "note": "the same hypothesis; header_ok is for any boxes that are added to tracks, as long as they have the announced size"
  },
  {
   "property": "C96",
   "status": "partial",
   "theorems": [
    "Verif.Fmp4.segment_times_partial",
    "Verif.Fmp4.not_times_exact",
    "Verif.Fmp4.times_fail_negative",
    "Verif.Fmp4.times_fail_cues"
   ],
   "note": "The full claim is the definition TimesExact, which is false (not_times_exact, times_fail_negative). Proved for video and audio with times that are not negative, and for tracks with at most one cue."
  },
  {
   "property": "C97",
   "status": "partial",
   "theorems": [
    "Verif.Fmp4.segment_index_partial",
    "Verif.Fmp4.not_index_exact"
   ],
   "note": "The full claim is the definition IndexExact, which is false (not_index_exact). Proved: size, duration and timescale, and the time of the first frame."
  },
  {
   "property": "C98",
   "status": "proved",
   "theorems": [
    "Verif.Fmp4.segment_event"
   ],
   "note": "the start of the first track is not negative; the content of the tag is the spec of C88"
  },
  {
   "property": "C99",
   "status": "proved",
   "theorems": [
    "Verif.Sub.trim_cues",
    "Verif.Sub.trim_start"
   ],
   "note": "times do not overflow int64_t (they are integers in the model)"
  },
  {
   "property": "C100",
   "status": "proved",
   "theorems": [
    "Verif.Sub.vtt_read"
   ],
   "note": "samples as in ISO/IEC 14496-30 with at most one cue; the texts, settings and header are valid in WebVTT (CueOk; no arrow in the header); timescale not 0"
  },
  {
   "property": "C101",
   "status": "partial",
   "theorems": [
    "Verif.Sub.ttml_read_partial",
    "Verif.Sub.Cases.not_ttml_claim",
    "Verif.Sub.Cases.ttml_negative"
   ],
   "note": "The full claim is the definition TtmlClaim, which is false: references of WebVTT that XML does not have are copied (Cases.not_ttml_claim), times before 0 wrap (Cases.ttml_negative). Proved for texts with the entities of XML and closed tags, and times from 0 on that do not overflow."
  },
  {
   "property": "C102",
   "status": "proved",
   "theorems": [
    "Verif.Sub.buffers_fit",
    "Verif.Sub.vttBuild_ok",
    "Verif.Sub.ttmlBuild_ok"
   ],
   "note": "no hypothesis on the data"
  },
  {
   "property": "C103",
   "status": "partial",
   "theorems": [
    "Verif.CencFile.video_segment_partial",
    "Verif.CencFile.audio_segment_partial",
    "Verif.CencFile.videoSegment_fails",
    "Verif.CencFile.audioSegment_fails",
    "Verif.CencFile.empty_last_no_header",
    "Verif.CencFile.audio_empty_last_cut"
   ],
   "note": "The full claims are the definitions VideoSegmentClaim and AudioSegmentClaim, which are false. Proved when the last frame is not empty and, for video, the clear units have less than 64 KB and frames less than 2^16 units; segments below 2 GB. The cipher is any permutation of blocks."
  },
  {
   "property": "C104",
   "status": "partial",
   "theorems": [
    "Verif.CencFile.video_aux_partial",
    "Verif.CencFile.audio_aux",
    "Verif.CencFile.videoAux_fails",
    "Verif.CencFile.many_units_aux"
   ],
   "note": "The full claim is the definition VideoAuxClaim, which is false for frames of more than 40 units. Proved for segments as in C103 with at most 40 units in a frame, for audio with any frames."
  },
  {
   "property": "C105",
   "status": "partial",
   "theorems": [
    "Verif.PName.name_found_partial",
    "Verif.PName.selector_fits",
    "Verif.PName.name_found_fails_tpp",
    "Verif.PName.name_found_fails_types",
    "Verif.PName.name_found_fails_zero",
    "Verif.PName.key_two_variants"
   ],
   "note": "The full claim is the definition NameFound, which is false. Proved for ids without a zero byte, media types that the container has (or all), and not for a variant tpp with all media types in fMP4."
  },
  {
   "property": "C106",
   "status": "proved",
   "theorems": [
    "Verif.M3u8.playlist_read"
   ],
   "note": "Other timescales give wrong durations or a division by zero: scale_wrong, scale_ub."
  },
  {
   "property": "C107",
   "status": "proved",
   "theorems": [
    "Verif.M3u8.playlist_fits"
   ],
   "note": ""
  },
  {
   "property": "C108",
   "status": "partial",
   "theorems": [
    "Verif.M3u8.target_partial",
    "Verif.M3u8.target_near_partial",
    "Verif.M3u8.not_target_full"
   ],
   "note": "The full claim is the definition TargetFull, which is false. Proved for times in whole milliseconds; for all others up to one half second above the target duration."
  },
  {
   "property": "C109",
   "status": "proved",
   "theorems": [
    "Verif.M3u8.no_drift"
   ],
   "note": ""
  },
  {
   "property": "C110",
   "status": "proved",
   "theorems": [
    "Verif.KmpRtmp.buffers_fit"
   ],
   "note": "any chunk size from 8 (the configuration accepts from 128)"
  },
  {
   "property": "C111",
   "status": "partial",
   "theorems": [
    "Verif.KmpRtmp.stream_partial",
    "Verif.KmpRtmp.not_conform"
   ],
   "note": "The full claim is the definition Conform, which is false: continuation chunks do not repeat an extended timestamp (not_conform). Proved for at most 60 streams and no message of more than one chunk with an extended timestamp."
  },
  {
   "property": "C112",
   "status": "partial",
   "theorems": [
    "Verif.KmpRtmp.received_partial",
    "Verif.KmpRtmp.received_any_partial",
    "Verif.KmpRtmp.not_received"
   ],
   "note": "The full claim is the definition Received, which is false from the 61st stream on a connection (not_received). Proved for at most 60 streams."
  },
  {
   "property": "C113",
   "status": "proved",
   "theorems": [
    "Verif.KmpRtmp.video_tag_read",
    "Verif.KmpRtmp.audio_tag_read",
    "Verif.KmpRtmp.video_read",
    "Verif.KmpRtmp.audio_read"
   ],
   "note": "the first two on what the code writes, the last two on the messages of C111 and C112"
  },
  {
   "property": "C114",
   "status": "partial",
   "theorems": [
    "Verif.RtmpKmp.stream_partial",
    "Verif.RtmpKmp.not_any_times"
   ],
   "note": "The full claim is the definition AnyTimes, which is false: the difference of two times is taken with 32 bits and overflows (not_any_times). Proved for times that do not cross an odd multiple of 2^31 ms."
  },
  {
   "property": "C115",
   "status": "partial",
   "theorems": [
    "Verif.RtmpKmp.aac_partial",
    "Verif.RtmpKmp.not_exact"
   ],
   "note": "The full claim is the definition Exact, which is false: the first frame is not corrected (not_exact). Proved from the second frame on, for a second frame later than the margin."
  },
  {
   "property": "C116",
   "status": "proved",
   "theorems": [
    "Verif.Rtmp.mlen_mod",
    "Verif.Rtmp.mlen_eq"
   ],
   "note": ""
  },
  {
   "property": "C117",
   "status": "partial",
   "theorems": [
    "Verif.RtmpKmp.trip_partial",
    "Verif.RtmpKmp.not_trips"
   ],
   "note": "The full claim is the definition Trips, which is false for the reason of C114 (not_trips). Proved for times as in C114."
  },
  {
   "property": "C118",
   "status": "proved",
   "theorems": [
    "Verif.Syncer.follows"
   ],
   "note": "For runs without signed overflow of 64-bit times, which is a distinct outcome of the model."
  },
  {
   "property": "C119",
   "status": "partial",
   "theorems": [
    "Verif.Syncer.together_partial",
    "Verif.Syncer.not_together",
    "Verif.Syncer.not_near"
   ],
   "note": "The full claims are the definitions Together and TogetherNear, which are false: rounding is unsigned, so a track that is whole wraps ahead of the first is not shifted with it (not_together), and the correction 0 of a new channel counts as a correction of a source (not_near). Proved for tracks that are not ahead by wraps, and sources that are not near the clock of the server."
  },
  {
   "property": "C120",
   "status": "partial",
   "theorems": [
    "Verif.Syncer.resumes_partial",
    "Verif.Syncer.not_resumes"
   ],
   "note": "The full claim is the definition Resume, which is false: entries of lost frames stay in the log when none older is found (not_resumes). Proved when frames are lost only at the last reconnect."
  },
  {
   "property": "C121",
   "status": "partial",
   "theorems": [
    "Verif.Cbc.serves_partial",
    "Verif.Cbc.whole_ok",
    "Verif.Cbc.not_serves"
   ],
   "note": "The full claim is the definition Serves, which is false: a frame without data is taken for the end of the segment (not_serves). Proved for frames that have data; init segments in whole_ok."
  },
  {
   "property": "C122",
   "status": "proved",
   "theorems": [
    "Verif.Cbcs.audio_ok",
    "Verif.Cbcs.audio_refused"
   ],
   "note": "audio_refused: frames with more full blocks than an output buffer holds are refused, so the limit in the statement is needed."
  },
  {
   "property": "C123",
   "status": "partial",
   "theorems": [
    "Verif.Cbcs.video_partial",
    "Verif.Cbcs.not_videos"
   ],
   "note": "The full claim is the definition Videos, which is false: when the last unit of the segment has one byte, or is a short slice with less than a block after its header, the rest of the output buffer is never sent (not_videos). Proved when the last unit of the last frame with data is not of this kind."
  },
  {
   "property": "C124",
   "status": "proved",
   "theorems": [
    "Verif.Rbsp.decode_ok",
    "Verif.Rbsp.decode_unit"
   ],
   "note": "decode_ok: for any bytes; decode_unit: for escaped payloads and their cuts."
  },
  {
   "property": "C125",
   "status": "partial",
   "theorems": [
    "Verif.Rbsp.size_partial",
    "Verif.Rbsp.esc_take",
    "Verif.Rbsp.not_sizes"
   ],
   "note": "The full claim is the definition Sizes, which is false: of five zeros in a row only one of two added bytes is counted (not_sizes). Proved for headers without four zeros in a row. esc_take: the bytes that are counted are the start of the unit."
  },
  {
   "property": "C126",
   "status": "proved",
   "theorems": [
    "Verif.Rbsp.reads_ok",
    "Verif.Rbsp.cut_ok",
    "Verif.Rbsp.not_ue",
    "Verif.Rbsp.not_skip"
   ],
   "note": "not_ue and not_skip: the limits on codes and skips in the statement are needed."
  },
  {
   "property": "C127",
   "status": "partial",
   "theorems": [
    "Verif.CodecCfg.avcc_partial",
    "Verif.CodecCfg.avcc_any",
    "Verif.CodecCfg.len_ok",
    "Verif.CodecCfg.not_avccs"
   ],
   "note": "The full claim is the definition Avccs, which is false: of the number of picture parameter sets only five of eight bits are used (not_avccs). Proved for less than 32 picture parameter sets; avcc_any: what happens with any data."
  },
  {
   "property": "C128",
   "status": "proved",
   "theorems": [
    "Verif.CodecCfg.hvcc_ok",
    "Verif.CodecCfg.len_ok"
   ],
   "note": "hvcc_ok: for any data, whether it is a record or not."
  },
  {
   "property": "C129",
   "status": "partial",
   "theorems": [
    "Verif.AacCfg.mp4a_partial",
    "Verif.AacCfg.cut_partial",
    "Verif.AacCfg.mp4a_total",
    "Verif.AacCfg.not_configs"
   ],
   "note": "The full claim is the definition Configs, which is false: PS with the sample rate of the extension as a number is taken for an old format without extension (not_configs). Proved for all other object types, and for PS when the rate is an index and the object type beneath does not end in three zero bits; cuts for all object types but PS."
  },
  {
   "property": "C130",
   "status": "proved",
   "theorems": [
    "Verif.SampleAes.unit_play",
    "Verif.SampleAes.unit_enc"
   ],
   "note": "OpenSSL is modelled as in C121, for any block cipher. unit_enc: the bytes that are written for a slice."
  },
  {
   "property": "C131",
   "status": "proved",
   "theorems": [
    "Verif.FrameEnc.frame_play"
   ],
   "note": "OpenSSL is modelled as in C121, for any block cipher. For AAC and AC-3, where the writes of a frame are its size in all; for E-AC-3 see C132."
  },
  {
   "property": "C132",
   "status": "proved",
   "theorems": [
    "Verif.Eac3Enc.frame_play",
    "Verif.Eac3Enc.frame_any"
   ],
   "note": "frame_any: any data. That the chain goes on between sync frames is taken from the code (only the start of a frame sets the IV), not from the text of Apple, which was not at hand."
  },
  {
   "property": "C133",
   "status": "proved",
   "theorems": [
    "Verif.Segmenter.ends_best",
    "Verif.Segmenter.choose_best"
   ],
   "note": "The claim is about the choice. Which times are considered and what their spans are is as in the model of the code; nothing more is claimed about them."
  }
 ]
}