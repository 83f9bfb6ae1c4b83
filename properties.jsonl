{"id": "C01", "title": "Chain copy returns the next n bytes whatever the fragmentation", "statement": "Copying n bytes out of a buffer chain returns exactly the first n bytes of the concatenation of the chain's buffers and leaves a chain whose concatenation is the rest. It fails exactly when the chain holds fewer than n bytes, and it reads nothing outside the buffers.", "quantifier": "every chain (any number of buffers, including empty ones), every n, and every sequence of copies", "why_tests_cant": "The number of ways to split a byte string into buffers grows exponentially, and recv() decides the split at run time.", "anchors": ["nginx-common/src/ngx_buf_chain.c:ngx_buf_chain_copy", "nginx-common/src/ngx_buf_chain.c:ngx_buf_chain_skip"]}
{"id": "C02", "title": "Chain skip, seek, compare and tail agree with the flat byte string", "statement": "Skip drops exactly n bytes; seek(offset) returns the buffer and offset of the byte at that flat position; compare returns 'equal' exactly when the chain starts with the given bytes; get_tail returns the buffer holding byte size-1. Each result depends only on the concatenated bytes.", "quantifier": "every chain, offset, size and comparison buffer meeting the documented preconditions", "why_tests_cant": "The boundary cases (offset at a buffer edge, empty buffers, size equal to the total) depend on run time fragmentation.", "anchors": ["nginx-common/src/ngx_buf_chain.c:ngx_buf_chain_seek", "nginx-common/src/ngx_buf_chain.c:ngx_buf_chain_compare", "nginx-common/src/ngx_buf_chain.c:ngx_buf_chain_get_tail", "nginx-common/src/ngx_buf_chain.c:ngx_buf_chain_terminate"]}
{"id": "C03", "title": "Queue reader returns the bytes that were queued, in order, for any read sizes", "statement": "A reader positioned in a buffer queue returns exactly the bytes stored at that position, in order, for any sequence of read, skip and rewrite calls. After each success the reader points strictly inside a buffer, so that freeing up to the reader is always legal. A call fails only when the next buffer has not been allocated.", "quantifier": "every buffer size, every queue content, every sequence of read/skip/write sizes", "why_tests_cant": "Failures appear only when a packet ends exactly at, one before or one after a buffer end; the set of alignments is unbounded.", "anchors": ["nginx-common/src/ngx_buf_queue_stream.c:ngx_buf_queue_stream_read", "nginx-common/src/ngx_buf_queue_stream.c:ngx_buf_queue_stream_skip", "nginx-common/src/ngx_buf_queue_stream.c:ngx_buf_queue_stream_write"]}
{"id": "C04", "title": "Freeing a queue up to a pointer releases exactly the earlier buffers", "statement": "Freeing up to a pointer that lies in the queue keeps the buffer containing the pointer and all later buffers, in order, and releases every earlier one.", "quantifier": "every queue state and every pointer inside the queue", "why_tests_cant": "Use-after-free and leaks depend on the history of gets and frees.", "anchors": ["nginx-common/src/ngx_buf_queue.c:ngx_buf_queue_free"]}
{"id": "C05", "title": "Queue memory accounting is exact", "statement": "At every moment (memory budget left) + (buffer size) x (buffers held by the queue, in use or cached) equals the initial budget; the budget never goes negative; deleting the queue gives everything back; a buffer is never in use and cached at the same time.", "quantifier": "every interleaving of get, free, delete on one queue, with any budget and any cache size", "why_tests_cant": "It is a whole-history invariant; a leak of one buffer per million operations would pass any test.", "anchors": ["nginx-common/src/ngx_buf_queue.c:ngx_buf_queue_get", "nginx-common/src/ngx_buf_queue.c:ngx_buf_queue_free", "nginx-common/src/ngx_buf_queue.c:ngx_buf_queue_delete"]}
{"id": "C06", "title": "Large buffer allocator never hands out a live buffer twice", "statement": "A buffer returned by alloc is different from (and does not overlap) every buffer that is currently allocated, lies inside a mapped block, and its block is not unmapped until the buffer is freed.", "quantifier": "every sequence of alloc and free calls on valid buffers, every buffer size and bin count", "why_tests_cant": "Corruption needs a particular allocation history over many blocks and bins.", "anchors": ["nginx-common/src/ngx_lba.c:ngx_lba_alloc", "nginx-common/src/ngx_lba.c:ngx_lba_free"]}
{"id": "C07", "title": "Large buffer allocator reuses free buffers before mapping a new block", "statement": "Alloc maps a new 512K block only when no mapped block has a free buffer.", "quantifier": "every sequence of alloc and free calls, in debug and in release builds", "why_tests_cant": "Needs blocks to move between occupancy bins many times; memory growth is invisible to functional tests.", "anchors": ["nginx-common/src/ngx_lba.c:ngx_lba_alloc", "nginx-common/src/ngx_lba.c:ngx_lba_block_alloc_buf", "nginx-common/src/ngx_lba.c:ngx_lba_block_free_buf"]}
{"id": "C08", "title": "Block pool never exceeds its memory limit and never double-allocates", "statement": "Buffers handed out and not yet freed are pairwise distinct and disjoint; total memory taken from the system never exceeds the limit; a freed buffer is handed out again only by its own slot.", "quantifier": "every sequence of alloc, free, free_list and auto alloc/free operations, every slot size table and limit", "why_tests_cant": "Whole-history invariant over an unbounded number of operations.", "anchors": ["nginx-live-module/src/ngx_block_pool.c:ngx_block_pool_alloc", "nginx-live-module/src/ngx_block_pool.c:ngx_block_pool_free", "nginx-live-module/src/ngx_block_pool.c:ngx_block_pool_free_list"]}
{"id": "C09", "title": "Automatic slot choice picks the smallest slot that fits and frees into it", "statement": "Allocating n bytes by size uses the smallest configured slot that can hold n bytes plus its header, or fails when none does; freeing the buffer returns it to that same slot.", "quantifier": "every sorted slot table and every n", "why_tests_cant": "The binary search has to be right for every table length and every boundary value.", "anchors": ["nginx-live-module/src/ngx_block_pool.c:ngx_block_pool_auto_alloc", "nginx-live-module/src/ngx_block_pool.c:ngx_block_pool_auto_free"]}
{"id": "C10", "title": "Memory reader never leaves its input and delivers exactly the next bytes", "statement": "Every read of a fixed-size value, sub-stream, length-prefixed string or list either returns exactly the next bytes and advances by that amount, or reports bad data. A failed read of a value or sub-stream consumes nothing; a failed string read consumes at most the length; a failed list read leaves a suffix of what was left. No byte outside the input is touched, and a written string is read back exactly.", "quantifier": "every input byte string (hostile lengths included) and every sequence of reads", "why_tests_cant": "The input is attacker or storage controlled: all byte strings of all lengths.", "anchors": ["nginx-common/src/ngx_mem_rstream.h", "nginx-common/src/ngx_mem_rstream.c:ngx_mem_rstream_read_list", "nginx-common/src/ngx_wstream.h"]}
{"id": "C11", "title": "Persisted block trees read back as written", "statement": "A file produced by opening, filling, nesting and closing blocks is parsed by the reader into the same tree of blocks: same identifiers, same headers, same payload bytes, same nesting.", "quantifier": "every well-nested sequence of write calls up to the supported depth, any payload sizes", "why_tests_cant": "Block sizes are back-patched after an arbitrary nested history; payloads cross internal 2048 byte buffers at arbitrary points.", "anchors": ["nginx-common/src/ngx_persist_write.c:ngx_persist_write_block_open", "nginx-common/src/ngx_persist_write.c:ngx_persist_write_block_close", "nginx-common/src/ngx_persist_read.c:ngx_persist_read_blocks"]}
{"id": "C12", "title": "Persist writer output does not depend on its internal buffering", "statement": "The bytes produced by a sequence of write, append, reserve and later marker writes equal the concatenation of the written data with each reserved hole filled by its later marker write, whatever the internal buffer boundaries.", "quantifier": "every sequence of write/append/reserve/marker_write sizes", "why_tests_cant": "Boundary cases depend on the sum of all earlier sizes modulo the buffer size.", "anchors": ["nginx-common/src/ngx_persist_write.c:ngx_persist_write", "nginx-common/src/ngx_persist_write.c:ngx_persist_write_append", "nginx-common/src/ngx_persist_write.c:ngx_persist_write_reserve", "nginx-common/src/ngx_persist_write.c:ngx_persist_write_marker_write"]}
{"id": "C13", "title": "Persist reader is safe on arbitrary bytes", "statement": "Reading blocks from any byte string terminates, touches no byte outside the input, gives each handler a view contained in its block, skips unknown block types without affecting later ones, and reports bad data for a block whose size does not fit.", "quantifier": "every byte string", "why_tests_cant": "Files come back from remote storage and may be truncated or corrupt in any way.", "anchors": ["nginx-common/src/ngx_persist_read.c:ngx_persist_read_block", "nginx-common/src/ngx_persist_read.c:ngx_persist_read_blocks", "nginx-common/src/ngx_persist_read.c:ngx_persist_read_file_header"]}
{"id": "C14", "title": "JSON integers are parsed exactly or rejected", "statement": "When the JSON parser accepts an integer literal, the value is the mathematical value of the literal; a literal whose value does not fit in 64 bits is rejected and no signed overflow happens on the way.", "quantifier": "every digit string of every length, with and without a minus sign", "why_tests_cant": "Overflow checks must be right at every magnitude; there are 2^64 values and unboundedly many digit strings.", "anchors": ["nginx-common/src/ngx_json_parser.c:ngx_json_parser_int"]}
{"id": "C15", "title": "JSON parser never reads past the terminator and bounds nesting", "statement": "Parsing any zero-terminated text ends without reading beyond the terminator, and in an accepted text at most 32 non-empty arrays and objects are nested (the documented limit).", "quantifier": "every zero-terminated byte string", "why_tests_cant": "The API body is attacker controlled; every text of every length has to be covered.", "anchors": ["nginx-common/src/ngx_json_parser.c:ngx_json_parse"]}
{"id": "C16", "title": "JSON string decoding is exact and never grows", "statement": "Decoding a string literal replaces each escape by the character it denotes (UTF-8 for \\u escapes), copies all other bytes, rejects malformed escapes, and never produces more bytes than it consumed.", "quantifier": "every byte string", "why_tests_cant": "In-place decoding is memory safe only if no escape expands; escapes combine without bound.", "anchors": ["nginx-common/src/ngx_json_parser.c:ngx_json_decode_string"]}
{"id": "C17", "title": "KMP receiver events do not depend on how the bytes arrive", "statement": "The sequence of events delivered to the application (connect data, media info with its payload, frames with headers and payload, end of stream, protocol error) is a function of the received byte stream only. Splitting the stream into different reads gives the same events.", "quantifier": "every byte stream and every way to split it into receive calls", "why_tests_cant": "TCP can deliver any of 2^(n-1) splittings of n bytes.", "anchors": ["nginx-kmp-in-module/src/ngx_kmp_in.c:ngx_kmp_in_process_buffer", "nginx-kmp-in-module/src/ngx_kmp_in.c:ngx_kmp_in_read_handler"]}
{"id": "C18", "title": "KMP receiver numbers frames consecutively and drops exactly the announced duplicates", "statement": "After a connection that starts at frame id f with s frames to skip, the k-th frame packet is given id f+k; the first s are not delivered; every later well-formed frame is delivered unless the documented filters (wait for key frame, empty frame) reject it.", "quantifier": "every packet sequence and every s", "why_tests_cant": "It is an unbounded history property over arbitrary mixes of packet types.", "anchors": ["nginx-kmp-in-module/src/ngx_kmp_in.c:ngx_kmp_in_frame", "nginx-kmp-in-module/src/ngx_kmp_in.c:ngx_kmp_in_connect"]}
{"id": "C19", "title": "Acks on the wire are whole, increasing and reach the newest value", "statement": "The bytes sent back by the receiver are a sequence of complete ack packets (plus at most one incomplete tail) with strictly increasing frame ids, each a value the application acknowledged; once the socket accepts all data the last one is the newest acknowledged id.", "quantifier": "every interleaving of application acks and partial socket writes", "why_tests_cant": "Depends on how many bytes each send accepts and when acks arrive between sends.", "anchors": ["nginx-kmp-in-module/src/ngx_kmp_in.c:ngx_kmp_in_ack_frames", "nginx-kmp-in-module/src/ngx_kmp_in.c:ngx_kmp_in_write_handler"]}
{"id": "C20", "title": "KMP sender keeps every byte that may have to be resent", "statement": "Every byte of a packet that some upstream has not acknowledged is still held in the sender's buffers.", "quantifier": "every interleaving of writes, acks, automatic acks and buffer releases with any number of upstreams", "why_tests_cant": "A violation needs two upstreams that acknowledge differently and a packet that straddles a buffer end.", "anchors": ["nginx-kmp-out-module/src/ngx_kmp_out_track.c:ngx_kmp_out_track_append_all", "nginx-kmp-out-module/src/ngx_kmp_out_upstream.c:ngx_kmp_out_upstream_ack_frames"]}
{"id": "C21", "title": "A new connection resumes exactly at the first unacknowledged frame", "statement": "When a sender reconnects, the first packet announces the id of the first unacknowledged frame, the media info in force at that frame follows, then exactly the unacknowledged packets.", "quantifier": "every history of writes, acks, disconnects and reconnects", "why_tests_cant": "Disconnects can happen after any byte.", "anchors": ["nginx-kmp-out-module/src/ngx_kmp_out_upstream.c:ngx_kmp_out_upstream_send_buffered", "nginx-kmp-out-module/src/ngx_kmp_out_upstream.c:ngx_kmp_out_upstream_ack_packet"]}
{"id": "C22", "title": "The sender accepts only acks for frames it has sent", "statement": "An ack for a frame that was not yet fully sent on the connection is rejected as a protocol error; an ack for an already acknowledged frame is ignored; otherwise exactly the packets before the acknowledged id are released.", "quantifier": "every ack value in every state", "why_tests_cant": "The peer is remote and may send any 64 bit value at any moment.", "anchors": ["nginx-kmp-out-module/src/ngx_kmp_out_upstream.c:ngx_kmp_out_upstream_ack_frames"]}
{"id": "C23", "title": "KMP transport delivers each frame once, in order, across reconnects", "statement": "With the resume-from-last-acked policy, the frames handed to the receiving application are a prefix of the frames written by the sender: none lost, none duplicated, none reordered, whatever connections break.", "quantifier": "every schedule of writes, partial transmissions, acks, connection losses and reconnects", "why_tests_cant": "A distributed history property: crash points and message losses are unbounded.", "anchors": ["nginx-kmp-out-module/src/ngx_kmp_out_upstream.c", "nginx-kmp-in-module/src/ngx_kmp_in.c", "nginx-live-module/src/ngx_live_segmenter.c:ngx_live_segmenter_start_stream"]}
{"id": "C24", "title": "Input buffers referenced by a locked segment are not released", "statement": "While a reader holds a lock on a segment, the buffer holding the start of the segment's data and all later buffers of that track stay allocated, also after the track or channel is freed; when the last lock and owner are gone everything is released.", "quantifier": "every interleaving of lock, unlock, trim, link and track free", "why_tests_cant": "Needs overlapping locks on several segments together with trimming.", "anchors": ["nginx-live-module/src/ngx_live_input_bufs.c:ngx_live_input_bufs_lock", "nginx-live-module/src/ngx_live_input_bufs.c:ngx_live_input_bufs_unlock", "nginx-live-module/src/ngx_live_input_bufs.c:ngx_live_input_bufs_set_min_used"]}
{"id": "C25", "title": "Segment list reports the time and duration every segment was added with", "statement": "For every retained segment index, looking the index up gives the start time and duration with which the segment was added (or last updated), and iterating from it yields the following segments in order.", "quantifier": "every history of add, update-last and free calls; every index", "why_tests_cant": "The list is run-length compressed over linked nodes; errors show only for particular duration patterns and node boundaries.", "anchors": ["nginx-live-module/src/ngx_live_segment_list.c:ngx_live_segment_list_add", "nginx-live-module/src/ngx_live_segment_list.c:ngx_live_segment_list_update_last", "nginx-live-module/src/ngx_live_segment_list.c:ngx_live_segment_iter_init", "nginx-live-module/src/ngx_live_segment_list.c:ngx_live_segment_iter_get_one"]}
{"id": "C26", "title": "Time lookup finds the segment that contains the time", "statement": "Looking up a time returns the unique segment whose interval contains it, with its true start time, or fails when no segment does; in closest mode it returns the segment whose start is nearest.", "quantifier": "every list history and every time value", "why_tests_cant": "Gaps, repeated durations and node boundaries combine without bound.", "anchors": ["nginx-live-module/src/ngx_live_segment_list.c:ngx_live_segment_list_get_segment_index"]}
{"id": "C27", "title": "Segment list survives a save and restore", "statement": "Saving the segments of an index range and restoring them into an empty list gives a list that reports, for every index in the range, the same start time and duration, and reports the same period boundaries.", "quantifier": "every list history and every index range", "why_tests_cant": "The range can cut a run, a node or a period anywhere.", "anchors": ["nginx-live-module/src/ngx_live_segment_list.c:ngx_live_segment_list_write_periods", "nginx-live-module/src/ngx_live_segment_list.c:ngx_live_segment_list_read_period"]}
{"id": "C28", "title": "Segment restore rejects corrupt data without looping or overflow", "statement": "Restoring periods from arbitrary bytes either reports bad data or yields a list with increasing, contiguous indexes inside the announced range and positive run counts.", "quantifier": "every byte string and announced range", "why_tests_cant": "Stored data can be corrupt in any way.", "anchors": ["nginx-live-module/src/ngx_live_segment_list.c:ngx_live_segment_list_read_period"]}
{"id": "C29", "title": "Track existence query is exact", "statement": "With gap tracking on, the query 'does the track have media in the index range [a,b)', for a range that is not empty, of segments that were created and not freed, answers yes exactly when some segment in the range was created with media for that track.", "quantifier": "every history of segment creations, every range, every freeing of old entries", "why_tests_cant": "Only changes are stored; correctness depends on the whole history and on node boundaries.", "anchors": ["nginx-live-module/src/ngx_live_segment_info.c:ngx_live_segment_info_segment_exists", "nginx-live-module/src/ngx_live_segment_info.c:ngx_live_segment_info_track_segment_created"]}
{"id": "C30", "title": "Bitrate change log survives a save and restore", "statement": "After restoring a saved index range the track reports the same bitrate for every segment in the range, and later segments are recorded exactly as they would have been without the restart.", "quantifier": "every history, every bitrate, every range", "why_tests_cant": "Depends on the numeric size of the bitrate and on node boundaries.", "anchors": ["nginx-live-module/src/ngx_live_segment_info.c:ngx_live_segment_info_write_index", "nginx-live-module/src/ngx_live_segment_info.c:ngx_live_segment_info_read_index"]}
{"id": "C31", "title": "Frames are acknowledged upstream only after their segment is persisted", "statement": "With persistence enabled, a frame is acknowledged to the sender only when every segment up to the snapshot that covers it has been written successfully, was given up after a reported error, or was dropped from memory (for lack of memory, or because it left all timelines).", "quantifier": "every order of segment creation and of persist completions and failures", "why_tests_cant": "Completions arrive in any order; the number of orders is factorial.", "anchors": ["nginx-live-module/src/ngx_live_segment_index.c:ngx_live_segment_index_persisted", "nginx-live-module/src/ngx_live_segment_index.c:ngx_live_segment_index_ready"]}
{"id": "C32", "title": "Forced in-memory segments are kept", "statement": "A completed segment is dropped from memory by the normal retention rule only if it was persisted (or failed) and at least the configured number of newer segments were completed.", "quantifier": "every history of ready and persisted events", "why_tests_cant": "History property over arbitrary completion orders.", "anchors": ["nginx-live-module/src/ngx_live_segment_index.c:ngx_live_segment_index_free_non_forced"]}
{"id": "C33", "title": "Reading a persisted file is memory safe", "statement": "Reading a whole persisted file - header, optional decompression, blocks - from any byte string ends without touching memory outside the file or the decompressed data and without releasing memory it does not own, for every behaviour of the decompressor.", "quantifier": "every byte string, every decompressor result, heap and pool memory", "why_tests_cant": "Files may be corrupt in any way; the failing path needs a file with a valid header and damaged compressed data.", "anchors": ["nginx-common/src/ngx_persist_read.c:ngx_persist_read_file_header", "nginx-common/src/ngx_persist_read.c:ngx_persist_read_inflate"]}
{"id": "C34", "title": "JSON parser accepts exactly its grammar", "statement": "A zero-terminated text is accepted exactly when it is a value of the JSON dialect (arrays of one type, integers allowed among fractions, bounded size and nesting) with white space around it; the result tree is the one the text denotes, object keys are lower-cased in place, nothing else in memory changes and bytes behind the terminator have no influence.", "quantifier": "every byte string without a zero, any memory behind it", "why_tests_cant": "Acceptance of unboundedly many texts with nesting; tests only sample them.", "anchors": ["nginx-common/src/ngx_json_parser.c:ngx_json_parse", "nginx-common/src/ngx_json_parser.c:ngx_json_parse_value", "nginx-common/src/ngx_json_parser.c:ngx_json_parse_array", "nginx-common/src/ngx_json_parser.c:ngx_json_parse_object"]}
{"id": "C35", "title": "Decoded JSON strings are valid UTF-8 for the characters written", "statement": "If a JSON string literal spells a sequence of Unicode characters - directly in UTF-8, by one-letter escapes, by \\u escapes or by surrogate pairs of \\u escapes - decoding yields the UTF-8 encoding of that sequence.", "quantifier": "every character sequence and every way of spelling it", "why_tests_cant": "There are more than a million characters and unboundedly many sequences.", "anchors": ["nginx-common/src/ngx_json_parser.c:ngx_json_decode_string", "nginx-common/src/ngx_json_parser.c:ngx_json_unicode_hex_to_utf8"]}
{"id": "C36", "title": "KMP receiver neither leaks nor double-frees packet data, and hands over exactly the received memory", "statement": "Every descriptor of packet data that the receiver allocates is either given to the application or given back, exactly once, over the whole life of a connection and however it ends. Every descriptor given to the application points to memory that holds exactly the bytes of the event it came with.", "quantifier": "every byte stream, every splitting, every placement of the pieces in memory and every answer of the application", "why_tests_cant": "Descriptors are split, merged and trimmed depending on where packet boundaries fall in the buffers.", "anchors": ["nginx-kmp-in-module/src/ngx_kmp_in.c:ngx_kmp_in_process_buffer", "nginx-kmp-in-module/src/ngx_kmp_in.c:ngx_kmp_in_copy_packet_header", "nginx-kmp-in-module/src/ngx_kmp_in.c:ngx_kmp_in_cleanup"]}
{"id": "C37", "title": "Packager sees the bitrates and gaps that were reported to the live side", "statement": "For a request with several tracks the packager finds for each segment the sum over the tracks of the estimates of the bitrates last reported for the segment (within the configured tolerance), and a gap exactly when no track has media.", "quantifier": "every history of the tracks on the live side, every ascending sequence of segments, every estimator", "why_tests_cant": "The packager walks the log of changes of every track in step; correctness depends on the whole history of each.", "anchors": ["nginx-pckg-module/src/ngx_pckg_segment_info.c:ngx_pckg_segment_info_get", "nginx-live-module/src/ngx_live_segment_info.c:ngx_live_segment_info_write_serve"]}
{"id": "C38", "title": "Room for gap tags in the media playlist is enough", "statement": "When no track has bitrates, the number of gap tags written to a media playlist is at most the number for which room was reserved.", "quantifier": "every set of tracks and logs of changes, every timeline of periods, the last segment written or not", "why_tests_cant": "The room is computed by another walk than the writing; a difference is a heap overflow for some combination of gaps only.", "anchors": ["nginx-pckg-module/src/ngx_http_pckg_m3u8.c:ngx_http_pckg_m3u8_get_gap_size", "nginx-pckg-module/src/ngx_pckg_segment_info.c:ngx_pckg_segment_info_min_gap_count"]}
{"id": "C39", "title": "Restoring corrupt segment info is refused or leaves a usable log", "statement": "Reading segment info from any bytes gives an error or a log whose indexes ascend within the announced range, on which queries are defined.", "quantifier": "every byte string, every announced range, every previous state", "why_tests_cant": "Files may be corrupt in any way.", "anchors": ["nginx-live-module/src/ngx_live_segment_info.c:ngx_live_segment_info_read_index", "nginx-live-module/src/ngx_live_segment_info.c:ngx_live_segment_info_segment_exists"]}
{"id": "C40", "title": "A lost segment is taken off the timelines", "statement": "When a segment leaves the memory by the retention rule or for lack of memory and was not written successfully, the timelines are cut off at or behind it, so that no playlist lists it; and timelines are cut off only where such a segment was lost.", "quantifier": "every history of creation, completion, writes in any order, reads, lack of memory", "why_tests_cant": "Needs a write that fails or is cancelled for lack of memory at a particular point of the history.", "anchors": ["nginx-live-module/src/ngx_live_segment_index.c:ngx_live_segment_index_free", "nginx-live-module/src/ngx_live_segment_index.c:ngx_live_segment_index_watermark", "nginx-live-module/src/ngx_live_segment_index.c:ngx_live_segment_index_free_non_forced"]}
{"id": "C41", "title": "Snapshots for acks are released exactly once", "statement": "Every snapshot of the positions of the tracks is released exactly once, whoever it was handed to; the count of open snapshots, which delays all acks while it is above zero, is exact; when the channel ends all are released without sending acks.", "quantifier": "every history of creation, completion, writes in any order, cancelled writes, reads, lack of memory, end of the channel", "why_tests_cant": "Snapshots are handed from segment to segment depending on the order in which writes end; a double release needs a rare order.", "anchors": ["nginx-live-module/src/ngx_live_segment_index.c:ngx_live_segment_index_persisted", "nginx-live-module/src/ngx_live_segment_index.c:ngx_live_segment_index_channel_free", "nginx-live-module/src/persist/ngx_live_persist_index.c:ngx_live_persist_index_snap_close", "nginx-live-module/src/persist/ngx_live_persist_snap_frames.c:ngx_live_persist_snap_frames_close"]}
{"id": "C42", "title": "Sequence numbers of a playlist never change", "statement": "For two responses for the same timeline, at any two times and for any two tracks: a segment that is in both has the same media sequence number and the same discontinuity sequence number in both; different segments have different numbers, in the order of the segments; the numbers in the header never go back.", "quantifier": "every history of the channel (segments added, updated, truncated, timelines created, changed, freed, cleaned up) between the two responses", "why_tests_cant": "A client sees a wrong number only after some combination of gaps, removals and configuration changes; the numbers are the result of the whole history.", "anchors": ["nginx-live-module/src/ngx_live_timeline.c:ngx_live_timelines_add_segment", "nginx-live-module/src/ngx_live_timeline.c:ngx_live_manifest_timeline_remove_segments", "nginx-live-module/src/ngx_live_timeline.c:ngx_live_timeline_serve_write"]}
{"id": "C43", "title": "A playlist response is exact", "statement": "A response for a timeline with a playlist that is not empty is defined, and has exactly the segments of the playlist up to the last one that may be shown, in order, each with the time and duration it was added with; only the last one may have duration zero, when it is pending on the track of the request. No period of the response is empty.", "quantifier": "every history of the channel, every track, every last index", "why_tests_cant": "Durations are stored as runs shared between timelines, and iterators into them are kept over additions, removals and merging of runs.", "anchors": ["nginx-live-module/src/ngx_live_timeline.c:ngx_live_timeline_serve_write_periods", "nginx-live-module/src/ngx_live_timeline.c:ngx_live_timelines_update_last_segment"]}
{"id": "C44", "title": "A playlist lists the newest segments that the timeline admitted", "statement": "A timeline admits a segment when it is active and the middle of the segment is in its range of times. The segments of a response are the last ones that the timeline admitted, without holes, up to the last one that may be shown.", "quantifier": "every history of the channel", "why_tests_cant": "Needs all interleavings of additions with changes of the configuration and removals for all reasons.", "anchors": ["nginx-live-module/src/ngx_live_timeline.c:ngx_live_timelines_add_segment", "nginx-live-module/src/ngx_live_timeline.c:ngx_live_timeline_remove_segments"]}
{"id": "C45", "title": "Playlist and timeline are cut exactly by their limits", "statement": "When a segment is added the playlist is cut at the front until it has at most the configured number of segments and duration, or, when it is live, until it would have less than three target durations; and not further. A live playlist that lost segments has at least three target durations. The timeline keeps what its own limits allow, and never less than the playlist.", "quantifier": "every history of the channel, every configuration, segments shorter than 2^30 units", "why_tests_cant": "The cut depends on counters that are maintained over the whole history, in two nested windows.", "anchors": ["nginx-live-module/src/ngx_live_timeline.c:ngx_live_manifest_timeline_remove_segments", "nginx-live-module/src/ngx_live_timeline.c:ngx_live_timeline_remove_segments"]}
{"id": "C46", "title": "Target duration covers every listed segment", "statement": "Unless the target duration is configured to be fixed after some segments, no segment of a response is longer than the target duration of the response.", "quantifier": "every history of the channel", "why_tests_cant": "The target is updated on addition and on completion of pending segments; segments listed come from any time in the past.", "anchors": ["nginx-live-module/src/ngx_live_timeline.c:ngx_live_manifest_timeline_post_add_segment", "nginx-live-module/src/ngx_live_timeline.c:ngx_live_timeline_serve_write"]}
{"id": "C47", "title": "Segments of timelines stay known, and all others are forgotten", "statement": "No operation uses a period, or a node of the segment list, that was given back. Every segment of a timeline is in the segment list of the channel with the time and duration it was added with. After a segment was added, the window of the channel begins at the first segment of some timeline or at the next segment.", "quantifier": "every history of the channel", "why_tests_cant": "A use after free needs a particular order of removals in several timelines that share the list.", "anchors": ["nginx-live-module/src/ngx_live_timeline.c:ngx_live_timelines_free_old_segments", "nginx-live-module/src/ngx_live_timeline.c:ngx_live_timelines_add_segment"]}
{"id": "C48", "title": "The end of a playlist is announced exactly when all of it is there", "statement": "On a timeline that is configured to end, a response announces the end exactly when every segment of the playlist may be shown, is complete on the track of the request, and is not pending on the channel. Such a response has the whole playlist, with the durations that the segments keep for ever.", "quantifier": "every history of the channel, every track, every last index", "why_tests_cant": "Depends on the relation of three indexes that advance independently.", "anchors": ["nginx-live-module/src/ngx_live_timeline.c:ngx_live_timeline_serve_end_list", "nginx-live-module/src/ngx_live_timeline.c:ngx_live_timeline_serve_write_periods"]}
{"id": "C49", "title": "Segments are found by index and by number", "statement": "A segment that the timeline has is found by its index, with the time correction of its period; for an index that is not found the answer tells whether the segment left the timeline. The media sequence number of every listed segment is the one computed from its index, and the index computed from its number is its index; numbers that were not assigned yet are mapped to the indexes that follow.", "quantifier": "every history of the channel, every shape of the search tree, every index and number", "why_tests_cant": "The computation walks back over periods with 32 bit counters; holes between periods make numbers and indexes diverge.", "anchors": ["nginx-live-module/src/ngx_live_timeline.c:ngx_live_timeline_get_segment_info", "nginx-live-module/src/ngx_live_timeline.c:ngx_live_timeline_sequence_to_index", "nginx-live-module/src/ngx_live_timeline.c:ngx_live_timeline_index_to_sequence"]}
{"id": "C50", "title": "A blocking playlist request waits exactly as long as needed", "statement": "A playlist request that asks for a media sequence number, and perhaps a part, is answered at once exactly when the playlist has this segment or a later one complete on the track, or has the part, or has ended. The answer then has the number or a later one, unless it announces the end. A request that waits waits for the segment that has or will get the number.", "quantifier": "every history of the channel, every number and part; requests without max_segment_index, some listed segment is complete on the track, the timeline has no more segments than the numbers it counted", "why_tests_cant": "Depends on the relation of channel, track and timeline, which advance independently.", "anchors": ["nginx-live-module/src/http/ngx_http_live_ksmp_module.c:ngx_http_live_ksmp_wait_request", "nginx-live-module/src/ngx_live_timeline.c:ngx_live_timeline_sequence_to_index"]}
{"id": "C51", "title": "A delta playlist completes what the client has", "statement": "The response for a delta playlist lists exactly the segments of the full playlist without the ones at its beginning that it counts as skipped, with the same sequence and discontinuity numbers and the exact times and durations. Nothing is skipped when the playlist has ended; when something is skipped, the segments that are listed last together at least as long as the skip boundary. The response names the last segment that was skipped.", "quantifier": "every history of the channel in which the times of segments do not go back, every track state, every skip boundary in percent of the target duration", "why_tests_cant": "The cut depends on durations summed over any number of periods, on pending segments, and on a lookup by time.", "anchors": ["nginx-live-module/src/ngx_live_timeline.c:ngx_live_timeline_serve_skip_segments", "nginx-live-module/src/ngx_live_timeline.c:ngx_live_timeline_serve_write_periods"]}
{"id": "C52", "title": "Counter mode encryption does not depend on how the data is cut", "statement": "Encrypting data in counter mode gives the data with the key stream of the key and IV added from the current position on: byte j of the key stream is byte j mod 16 of the encrypted counter block made of the IV and the block number j / 16. The result is the same however the data is divided into calls, and also when many blocks of the key stream are computed at once.", "quantifier": "every key and IV, every data, every division into calls, every position", "why_tests_cant": "The key stream is computed in runs of up to 64 blocks with carry in the counter, the positions where calls end are arbitrary.", "anchors": ["nginx-pckg-module/src/media/mp4/mp4_aes_ctr.c:mp4_aes_ctr_process", "nginx-pckg-module/src/media/mp4/mp4_aes_ctr.c:mp4_aes_ctr_increment_be64", "nginx-pckg-module/src/media/mp4/mp4_aes_ctr.c:mp4_aes_ctr_write_encrypted"]}
{"id": "C53", "title": "Encrypted video fragments decrypt to the original", "statement": "For a fragment of video made of units with sizes before them, the packager with common encryption sends exactly as many bytes as it got; a player that has the key and reads the IV and subsamples of each frame from the auxiliary data gets the original bytes; the sizes of units and their types stay clear, and so do units that are not slices. The list of sizes gives the size of each frame's auxiliary data. Data is refused only when it is not made of units with the announced frame sizes, and nothing undefined happens for any data.", "quantifier": "every fragment, every division of its data into buffers, every size of output buffers, AVC and HEVC, sizes of 1 to 4 bytes", "why_tests_cant": "The state machine can be interrupted at every byte; sizes, subsamples and IVs of all frames must agree with what was encrypted.", "anchors": ["nginx-pckg-module/src/media/mp4/mp4_cenc_encrypt.c:mp4_cenc_encrypt_video_write_buffer", "nginx-pckg-module/src/media/mp4/mp4_cenc_encrypt.c:mp4_cenc_encrypt_video_start_frame", "nginx-pckg-module/src/media/mp4/mp4_cenc_encrypt.c:mp4_cenc_encrypt_video_end_frame", "nginx-pckg-module/src/media/mp4/mp4_cenc_encrypt.c:mp4_cenc_encrypt_video_add_subsample"]}
{"id": "C54", "title": "Encrypted audio fragments decrypt to the original", "statement": "For a fragment of audio, the packager with common encryption sends exactly as many bytes as it got, and a player that has the key and the IVs from the auxiliary data gets the original bytes of every frame.", "quantifier": "every list of frame sizes, every data, every division into buffers, every size of output buffers", "why_tests_cant": "Frames and buffers end independently of each other, and frames can be empty.", "anchors": ["nginx-pckg-module/src/media/mp4/mp4_cenc_encrypt.c:mp4_cenc_encrypt_audio_write_buffer", "nginx-pckg-module/src/media/mp4/mp4_cenc_encrypt.c:mp4_cenc_encrypt_audio_write_auxiliary_data"]}
{"id": "C55", "title": "No key stream is used twice", "statement": "With common encryption no two blocks of data that are encrypted with the same key use the same counter block: not in a frame, not in two frames of a segment, not in two segments, and not in two tracks.", "quantifier": "every IV, every pair of segments, every pair of frames", "why_tests_cant": "A repeated counter block shows only when outputs of different requests are compared.", "anchors": ["nginx-pckg-module/src/media/mp4/mp4_cenc_encrypt.c:mp4_cenc_encrypt_init_state", "nginx-pckg-module/src/media/mp4/mp4_cenc_encrypt.c:mp4_cenc_encrypt_start_frame", "nginx-pckg-module/src/ngx_http_pckg_enc.c:ngx_http_pckg_enc_get_iv"]}
{"id": "C56", "title": "Every frame goes to one segment, in order", "statement": "For every audio or video track of a live channel, the frames that were accepted are, in order, those that went to segments, those that were disposed or discarded, and those that are pending: no frame is lost, duplicated or reordered. A segment has exactly the bytes, sizes and key flags of its frames. When a publisher connects again it is told to skip exactly the frames that already left, so that the stream goes on with the next one.", "quantifier": "every sequence of tracks added and removed, frames, media info, disconnects and rounds of segment creation, every configuration, every answer of the rest of the module", "why_tests_cant": "Frames are kept in lists of parts with a parallel list of key frames; a wrong index shows only for certain positions of key frames and splits at part boundaries.", "anchors": ["nginx-live-module/src/ngx_live_segmenter.c:ngx_live_segmenter_add_frame", "nginx-live-module/src/ngx_live_segmenter.c:ngx_live_segmenter_frame_list_remove", "nginx-live-module/src/ngx_live_segmenter.c:ngx_live_segmenter_frame_list_copy", "nginx-live-module/src/ngx_live_segmenter.c:ngx_live_segmenter_start_stream", "nginx-live-module/src/ngx_live_segmenter.c:ngx_live_segmenter_create_segments"]}
{"id": "C57", "title": "The state of the segmenter stays consistent", "statement": "In every state that a live channel can reach, the counters, the durations, the start and end times and the list of key frames of every track agree with its list of pending frames (the checks of debug builds report nothing), no event reads or removes beyond the end of a list, and every video segment starts with a key frame.", "quantifier": "every sequence of events, every configuration", "why_tests_cant": "The checks are compiled only in debug builds, and cover only the inputs that were tried.", "anchors": ["nginx-live-module/src/ngx_live_segmenter.c:ngx_live_segmenter_validate_track_ctx", "nginx-live-module/src/ngx_live_segmenter.c:ngx_live_segmenter_validate_channel_ctx", "nginx-live-module/src/ngx_live_segmenter.c:ngx_live_segmenter_remove_frames", "nginx-live-module/src/ngx_live_segmenter.c:ngx_live_segmenter_kf_list_remove"]}
{"id": "C58", "title": "Segments keep the times of their frames", "statement": "A player that adds up the durations of the frames of a segment finds for every frame the presentation time that the publisher sent; no frame is shown before it is decoded; the last frame lasts until the next frame, and when that is not known, as long as the other frames on average; segments that follow each other have no gap.", "quantifier": "every sequence of frames whose decode times do not go back, every distance of presentation and decode times below 2^30", "why_tests_cant": "Decode times are shifted when frames are shown before they are decoded, and the shift stays for the following segments.", "anchors": ["nginx-live-module/src/ngx_live_segmenter.c:ngx_live_segmenter_frame_list_copy", "nginx-live-module/src/ngx_live_segment_cache.c:ngx_live_segment_cache_shift_dts"]}
{"id": "C59", "title": "The creation of segments ends", "statement": "From every state of a live channel, the loop that creates segments comes to an end.", "quantifier": "every reachable state, every configuration, every answer of the rest of the module", "why_tests_cant": "A loop without progress needs a certain combination of times on several tracks, and a test that hits it does not return.", "anchors": ["nginx-live-module/src/ngx_live_segmenter.c:ngx_live_segmenter_create_segments", "nginx-live-module/src/ngx_live_segmenter.c:ngx_live_segmenter_dispose_segment", "nginx-live-module/src/ngx_live_segmenter.c:ngx_live_segmenter_set_split_indexes"]}
{"id": "C60", "title": "Subtitles are in every segment in which they are shown", "statement": "A segment has the cues that start before its end, and a cue that is still shown at the end of a segment is kept for the next one, while cues that ended are removed.", "quantifier": "every list of cues, every end of a segment", "why_tests_cant": "Cues that overlap are rare in test streams.", "anchors": ["nginx-live-module/src/ngx_live_segmenter.c:ngx_live_segmenter_frame_list_get_subtitle_indexes"]}
{"id": "C61", "title": "Segments of the timeline do not overlap", "statement": "The segments that a live channel adds to the timelines have consecutive indexes and are not empty; each starts at or after the end of the one before it, and a segment that starts later, or is the first one, starts a new period.", "quantifier": "every sequence of events, every configuration, every duration of a filler", "why_tests_cant": "The start of a segment comes from the tracks, its end from key frames of several tracks, splits and the filler.", "anchors": ["nginx-live-module/src/ngx_live_segmenter.c:ngx_live_segmenter_get_segment_times", "nginx-live-module/src/ngx_live_segmenter.c:ngx_live_segmenter_create_segments", "nginx-live-module/src/ngx_live_segmenter.c:ngx_live_segmenter_dispose_segment"]}
{"id": "C62", "title": "No jump of time inside a segment", "statement": "Inside a segment of an audio or video track no frame is shown more than the forward threshold after the frame that arrived before it, nor more than the backward threshold before it; of a video track this is so for key frames.", "quantifier": "every sequence of frames, media infos, connections and rounds of the segmenter, every configuration with thresholds up to the given ones", "why_tests_cant": "The place where a segment is cut comes from a target time, the list of key frames, and marks on frames that are moved when frames are removed; the jump can be at any of them.", "anchors": ["nginx-live-module/src/ngx_live_segmenter.c:ngx_live_segmenter_add_frame", "nginx-live-module/src/ngx_live_segmenter.c:ngx_live_segmenter_frame_list_get_index", "nginx-live-module/src/ngx_live_segmenter.c:ngx_live_segmenter_kf_list_get_index"]}
{"id": "C63", "title": "A jump of time between segments starts a period", "statement": "When the first frame of a segment of an audio or video track is further than the thresholds from the last frame of the segment before it, or frames of the track were disposed between them, the segment starts a new period.", "quantifier": "every sequence of events, every configuration with thresholds up to the given ones", "why_tests_cant": "The mark for the jump has to survive cuts, disposals and the removal of the frame that carries it.", "anchors": ["nginx-live-module/src/ngx_live_segmenter.c:ngx_live_segmenter_add_frame", "nginx-live-module/src/ngx_live_segmenter.c:ngx_live_segmenter_remove_frames", "nginx-live-module/src/ngx_live_segmenter.c:ngx_live_segmenter_set_split_indexes"]}
{"id": "C64", "title": "RTMP messages do not depend on how the bytes arrive", "statement": "The messages that a publisher's connection gives to the application, their payloads, and how they are cut into buffers, depend only on the bytes that the publisher sent, not on how the network divided them; with more bytes the messages before stay the same; bytes that close the connection in one division close it in every other; no access is outside of a buffer or to released memory; bytes that were received are always processed in finitely many steps.", "quantifier": "every sequence of bytes, every division of it, every behaviour of the handlers including changes of the chunk size, every configuration", "why_tests_cant": "Bytes that are left after a chunk are copied between buffers of different sizes, in place or from pools that are about to be released, while a change of the chunk size is in progress; the number of divisions is exponential.", "anchors": ["nginx-rtmp-module/src/ngx_rtmp_handler.c:ngx_rtmp_recv", "nginx-rtmp-module/src/ngx_rtmp_handler.c:ngx_rtmp_set_chunk_size", "nginx-rtmp-module/src/ngx_rtmp_handler.c:ngx_rtmp_finalize_set_chunk_size"]}
{"id": "C65", "title": "RTMP messages are received as they were sent", "statement": "For every publisher that follows the RTMP specification, the application gets exactly the messages that were sent, with their times, types, stream ids and payloads, in the order of their last chunks, whatever chunk sizes, header types and interleaving of chunk streams the publisher uses; the connection is not closed.", "quantifier": "every conforming sequence of chunks, also with changes of the chunk size in the middle of messages, and every division of the bytes by the network", "why_tests_cant": "Header compression keeps state per chunk stream; extended timestamps, interleaving, changes of the chunk size and the division of the bytes combine freely.", "anchors": ["nginx-rtmp-module/src/ngx_rtmp_handler.c:ngx_rtmp_recv", "nginx-rtmp-module/src/ngx_rtmp_handler.c:ngx_rtmp_set_chunk_size"]}
{"id": "C66", "title": "The input buffers of an RTMP connection are released", "statement": "When an RTMP connection ends, all the memory pools that it created for its input are released, whatever the peer sent.", "quantifier": "every sequence of bytes and every division of it", "why_tests_cant": "A pool is lost only when a change of the chunk size comes while bytes of an earlier one are still waiting; leaks are not visible to functional tests.", "anchors": ["nginx-rtmp-module/src/ngx_rtmp_handler.c:ngx_rtmp_set_chunk_size", "nginx-rtmp-module/src/ngx_rtmp_handler.c:ngx_rtmp_finalize_set_chunk_size", "nginx-rtmp-module/src/ngx_rtmp_init.c:ngx_rtmp_close_session_handler"]}
{"id": "C67", "title": "RTMP messages that are not complete are bounded", "statement": "A chunk stream of an RTMP connection never holds more data of an incomplete message than the configured maximum size of messages.", "quantifier": "every sequence of bytes and every division of it", "why_tests_cant": "A length that changes in the middle of a message is not what any publisher does; an attacker can.", "anchors": ["nginx-rtmp-module/src/ngx_rtmp_handler.c:ngx_rtmp_recv"]}
{"id": "C68", "title": "AMF messages are read safely, and independently of buffers", "statement": "Reading an AMF message into destinations of the sizes that the template gives never writes outside of them, whatever the bytes are, and what is read, the outcome and the rest of the message depend only on the bytes, not on how they are divided into buffers. The same holds for the name of a command.", "quantifier": "every message, every division into buffers, every template whose destinations are large enough", "why_tests_cant": "The bytes come from the network before any authentication, and the templates of a server are nested and partly optional; tests try a few messages.", "anchors": ["nginx-rtmp-module/src/ngx_rtmp_amf.c:ngx_rtmp_amf_read", "nginx-rtmp-module/src/ngx_rtmp_amf.c:ngx_rtmp_amf_get", "nginx-rtmp-module/src/ngx_rtmp_amf.c:ngx_rtmp_amf_read_object", "nginx-rtmp-module/src/ngx_rtmp_amf.c:ngx_rtmp_amf_read_array", "nginx-rtmp-module/src/ngx_rtmp_amf.c:ngx_rtmp_amf_read_variant", "nginx-rtmp-module/src/ngx_rtmp_receive.c:ngx_rtmp_amf_message_handler"]}
{"id": "C69", "title": "AMF values are read as they were sent", "statement": "Of a message that is a sequence of numbers, booleans, strings, nulls, objects, mixed arrays and arrays, nested as deep as the stack allows, a receiver gets exactly the values that its template asks for, by position and by name, strings cut to the size of their destination; other values change nothing, and what follows is still there to be read. Optional elements at the end can be missing. A command reaches the handlers of its name, in lower case, with exactly the bytes after the name.", "quantifier": "every sequence of values, every template without typeless elements other than variants, every division into buffers", "why_tests_cant": "Objects can have any fields in any order, with names that share prefixes, and unwanted values of any shape in between.", "anchors": ["nginx-rtmp-module/src/ngx_rtmp_amf.c:ngx_rtmp_amf_read", "nginx-rtmp-module/src/ngx_rtmp_amf.c:ngx_rtmp_amf_read_object", "nginx-rtmp-module/src/ngx_rtmp_amf.c:ngx_rtmp_amf_read_array", "nginx-rtmp-module/src/ngx_rtmp_amf.c:ngx_rtmp_amf_read_variant", "nginx-rtmp-module/src/ngx_rtmp_receive.c:ngx_rtmp_amf_message_handler", "nginx-rtmp-module/src/ngx_rtmp_receive.c:ngx_rtmp_receive_amf"]}
{"id": "C70", "title": "The stack that AMF messages need is bounded", "statement": "There is a number of nested calls that is enough to read any AMF message.", "quantifier": "every message", "why_tests_cant": "The depth is chosen by the sender; only a message made for it is deep.", "anchors": ["nginx-rtmp-module/src/ngx_rtmp_amf.c:ngx_rtmp_amf_read", "nginx-rtmp-module/src/ngx_rtmp_amf.c:ngx_rtmp_amf_read_object", "nginx-rtmp-module/src/ngx_rtmp_amf.c:ngx_rtmp_amf_read_array"]}
{"id": "C71", "title": "AMF messages are written as their values", "statement": "A message made from elements whose data are there is the AMF0 encoding of their values, one after the other, in buffers that are all full but the last; it is made if and only if there are enough buffers; nothing outside of the data of the elements is read. Reading it back gives the values.", "quantifier": "every list of elements of any nesting, every size of buffers", "why_tests_cant": "Values are cut at buffer ends at any byte, and lengths come from the elements or from the data.", "anchors": ["nginx-rtmp-module/src/ngx_rtmp_amf.c:ngx_rtmp_amf_write", "nginx-rtmp-module/src/ngx_rtmp_amf.c:ngx_rtmp_amf_write_object", "nginx-rtmp-module/src/ngx_rtmp_amf.c:ngx_rtmp_amf_write_array", "nginx-rtmp-module/src/ngx_rtmp_amf.c:ngx_rtmp_amf_put", "nginx-rtmp-module/src/ngx_rtmp_send.c:ngx_rtmp_create_amf"]}
{"id": "C72", "title": "Messages are sent in chunks that a receiver puts together", "statement": "The buffers of an outgoing message become RTMP chunks that follow the specification, whatever was sent before on this and on other chunk streams: a receiver gets the payload with its time, type and stream. The headers fit in the room in front of the data, and the data are not overwritten.", "quantifier": "every header on a chunk stream from 2 to 65599, every time, every payload below 16 MB, with and without repeated extended timestamps", "why_tests_cant": "Header sizes depend on the stream, the time and the header before; a header that is too long overwrites data or memory in front of the buffer.", "anchors": ["nginx-rtmp-module/src/ngx_rtmp_handler.c:ngx_rtmp_prepare_message", "nginx-rtmp-module/src/ngx_rtmp_shared.c:ngx_rtmp_alloc_shared_buf", "nginx-rtmp-module/src/ngx_rtmp_send.c:ngx_rtmp_create_amf"]}
{"id": "C73", "title": "An MPEG transport stream is read the same in all pieces", "statement": "The events of an MPEG transport stream (tables, PES packets with their times and data), an error, and the state after them depend only on the bytes, not on the pieces in which they arrive; no bytes make the reader use memory that it does not own.", "quantifier": "every sequence of bytes, every division into calls and buffers, every answer of the handlers, every limit of memory", "why_tests_cant": "Packets, tables and PES headers are cut at any byte by the network and at 188 bytes by the sender; the two cuts combine freely.", "anchors": ["nginx-mpegts-module/src/ngx_ts_stream.c:ngx_ts_read", "nginx-mpegts-module/src/ngx_ts_stream.c:ngx_ts_read_packet", "nginx-mpegts-module/src/ngx_ts_stream.c:ngx_ts_read_header", "nginx-mpegts-module/src/ngx_ts_stream.c:ngx_ts_read_pat", "nginx-mpegts-module/src/ngx_ts_stream.c:ngx_ts_read_pmt", "nginx-mpegts-module/src/ngx_ts_stream.c:ngx_ts_read_pes"]}
{"id": "C74", "title": "The memory of a transport stream is bounded and not lost", "statement": "While a transport stream is read, every buffer that was created is in exactly one place, free or in use, and the buffers together are never larger than the configured limit of memory.", "quantifier": "every sequence of bytes and every division, every answer of the handlers, every limit", "why_tests_cant": "A lost or doubly used buffer shows only after hours of a stream with errors in it.", "anchors": ["nginx-mpegts-module/src/ngx_ts_stream.c:ngx_ts_read", "nginx-mpegts-module/src/ngx_ts_stream.c:ngx_ts_append_buf", "nginx-mpegts-module/src/ngx_ts_stream.c:ngx_ts_free_chain", "nginx-mpegts-module/src/ngx_ts_stream.c:ngx_ts_free_buf"]}
{"id": "C75", "title": "PES packets are received as they were sent", "statement": "After its tables, a transport stream that conforms and has no losses gives, for every elementary stream, exactly its PES packets in their order, with their stream ids, times and data, however they are spread over transport packets and interleaved with other streams; padding is left out.", "quantifier": "every sequence of PES packets of every stream, every adaptation field, every interleaving, every division of the bytes", "why_tests_cant": "Spreading, interleaving, adaptation fields and header lengths combine freely, also with headers that are cut by packet ends.", "anchors": ["nginx-mpegts-module/src/ngx_ts_stream.c:ngx_ts_read_pes", "nginx-mpegts-module/src/ngx_ts_stream.c:ngx_ts_read_header", "nginx-mpegts-module/src/ngx_ts_stream.c:ngx_ts_append_buf"]}
{"id": "C76", "title": "Losses do not make up PES packets", "statement": "When transport packets are lost, not more than 15 of a stream in a row, every PES packet that is received was sent, with its stream id, times and data: PES packets that lost data are left out, not joined with others.", "quantifier": "every sequence of PES packets, every loss of up to 15 packets in a row, every division of the bytes", "why_tests_cant": "The places of losses are exponentially many, and the counter has only 16 values.", "anchors": ["nginx-mpegts-module/src/ngx_ts_stream.c:ngx_ts_read_pes", "nginx-mpegts-module/src/ngx_ts_stream.c:ngx_ts_read_header"]}
{"id": "C77", "title": "The tables of a transport stream are read as they were sent", "statement": "A transport stream that starts with its program association table and the program map tables of its programs, each over any number of packets, is announced as it was sent: the numbers and pids of the programs, the types, pids and descriptors of their streams.", "quantifier": "every set of programs and streams, every section header, every number of packets, every division of the bytes", "why_tests_cant": "Tables of several packets, with descriptors that are cut by packet ends, are rare in samples.", "anchors": ["nginx-mpegts-module/src/ngx_ts_stream.c:ngx_ts_read_pat", "nginx-mpegts-module/src/ngx_ts_stream.c:ngx_ts_read_pmt", "nginx-mpegts-module/src/ngx_ts_stream.c:ngx_ts_read_header"]}
{"id": "C78", "title": "Video of a transport stream becomes frames of NAL units with lengths", "statement": "From a PES packet of AVC or HEVC video one frame is written: the NAL units of the packet other than parameter sets and access unit delimiters, in their order, each with its length in four bytes, marked as a key frame exactly when there is an IDR picture in it. It depends on the bytes of the packet and not on the buffers they came in, and nothing undefined happens.", "quantifier": "every sequence of NAL units, every number of zeros in start codes, every division of the bytes into buffers, every track state", "why_tests_cant": "Start codes that are cut by the end of a transport packet are rare in samples, and depend on the position of each NAL unit.", "anchors": ["nginx-mpegts-kmp-module/src/ngx_ts_kmp_track.c:ngx_ts_kmp_track_heavc_init_nalu_array", "nginx-mpegts-kmp-module/src/ngx_ts_kmp_track.c:ngx_ts_kmp_track_heavc_write_frame", "nginx-mpegts-kmp-module/src/ngx_ts_kmp_track.c:ngx_ts_kmp_track_heavc_pes_handler"]}
{"id": "C79", "title": "Frames follow the parameter sets they need", "statement": "When a frame of video is written to a KMP track, the last media info before it was made of the parameter sets that were received last, one for each id, those of the packet of the frame included; for AVC the decoder configuration holds these parameter sets.", "quantifier": "every history of PES packets, every parser of parameter sets", "why_tests_cant": "Changes of parameter sets within a stream, with or without change of the id, are not in samples.", "anchors": ["nginx-mpegts-kmp-module/src/ngx_ts_kmp_track.c:ngx_ts_kmp_track_heavc_save_nalu", "nginx-mpegts-kmp-module/src/ngx_ts_kmp_track.c:ngx_ts_kmp_track_heavc_handle_nalu", "nginx-mpegts-kmp-module/src/ngx_ts_kmp_track.c:ngx_ts_kmp_track_avc_update_media_info", "nginx-mpegts-kmp-module/src/ngx_ts_kmp_track.c:ngx_ts_kmp_track_handle_media_info"]}
{"id": "C80", "title": "AAC of a transport stream becomes frames with their times", "statement": "From the ADTS frames that PES packets of AAC carry, the raw data of each is written as one frame, in order, with the time of the packet and the duration of the samples before it in the packet; before the first, and before each whose header differs from that of the frame before, the sampling frequency, the channels and the AudioSpecificConfig of the header are announced. It depends on the bytes and not on the buffers they came in.", "quantifier": "every sequence of ADTS frames with or without CRC, every division of the bytes into buffers", "why_tests_cant": "Headers that are cut by the end of a transport packet at each of their bytes are not in samples.", "anchors": ["nginx-mpegts-kmp-module/src/ngx_ts_kmp_track.c:ngx_ts_kmp_track_aac_pes_handler", "nginx-mpegts-kmp-module/src/ngx_ts_kmp_track.c:ngx_ts_kmp_track_aac_update_media_info", "nginx-mpegts-module/src/ngx_ts_aac.c:ngx_ts_aac_decode_params"]}
{"id": "C81", "title": "Times of 33 bits do not wrap in the output", "statement": "The times of the frames that are written to a KMP track have the differences of the decoding times of the packets, though these are sent modulo 2^33, and the delay of presentation of a frame is exact.", "quantifier": "every sequence of times, with any number of wraps", "why_tests_cant": "A wrap comes once in 26 hours.", "anchors": ["nginx-mpegts-kmp-module/src/ngx_ts_kmp_track.c:ngx_ts_kmp_track_init_frame"]}
{"id": "C82", "title": "A frame of video is one PES packet of its NAL units", "statement": "In a segment of MPEG-TS each frame of a video track is one PES packet with the presentation and decoding times of the frame, the same offset added to all, whose data are an access unit delimiter, the parameter sets if it is a key frame, and the NAL units of the frame with start codes in place of lengths, delimiters of the frame left out.", "quantifier": "every set of tracks, every frame of NAL units, every size of length fields, every division of a frame into pieces", "why_tests_cant": "The positions of packet ends in the start codes, and of the pieces in the lengths, combine freely.", "anchors": ["nginx-pckg-module/src/media/mpegts/mp4_to_annexb_filter.c:mp4_to_annexb_write", "nginx-pckg-module/src/media/mpegts/mpegts_encoder_filter.c:mpegts_encoder_start_frame", "nginx-pckg-module/src/media/mpegts/mpegts_encoder_filter.c:mpegts_encoder_write"]}
{"id": "C83", "title": "AAC is written as ADTS frames, whole in PES packets", "statement": "In a segment of MPEG-TS with the default settings the PES packets of an AAC track carry the frames of the track in order, each once and with an ADTS header of the format of the track, and no frame is divided between PES packets.", "quantifier": "every set of tracks, every sequence of frames up to 8184 bytes, every division into pieces", "why_tests_cant": "How frames are joined depends on their sizes and on the times of all other tracks.", "anchors": ["nginx-pckg-module/src/media/mpegts/adts_encoder_filter.c:adts_encoder_start_frame", "nginx-pckg-module/src/media/mpegts/buffer_filter.c:buffer_filter_write", "nginx-pckg-module/src/media/mpegts/buffer_filter.c:buffer_filter_flush_frame", "nginx-pckg-module/src/media/mpegts/mpegts_muxer.c:mpegts_muxer_start_frame"]}
{"id": "C84", "title": "A segment of MPEG-TS has all frames of all tracks", "statement": "With the default settings a segment is written without error, in packets of 188 bytes, each of the pid of a track. The packets of a track are those of PES packets with all its frames, in order, each PES packet with the times of its first frame; with a PCR 50 ms before the decoding time if the track has the PCR; with continuity counters that go up by one; and after them up to 15 packets without data.", "quantifier": "every number of tracks of video, AAC, other audio and ID3, every sequence of frames, all times", "why_tests_cant": "Tracks are interleaved by time, audio is buffered, and packets of one track may be written when another is flushed.", "anchors": ["nginx-pckg-module/src/media/mpegts/mpegts_muxer.c:mpegts_muxer_process", "nginx-pckg-module/src/media/mpegts/mpegts_encoder_filter.c:mpegts_encoder_start_frame", "nginx-pckg-module/src/media/mpegts/mpegts_encoder_filter.c:mpegts_encoder_flush_frame", "nginx-pckg-module/src/media/mpegts/buffer_filter.c:buffer_filter_force_flush"]}
{"id": "C85", "title": "Continuity counters go on from segment to segment", "statement": "The continuity counters of a pid go up by one also over the border of two segments that are played one after the other, though segments are made independently of each other.", "quantifier": "every pair of segments with the same tracks", "why_tests_cant": "The number of packets in a segment depends on all frames.", "anchors": ["nginx-pckg-module/src/media/mpegts/mpegts_encoder_filter.c:mpegts_encoder_flush_frame", "nginx-pckg-module/src/media/mpegts/mpegts_encoder_filter.c:mpegts_append_null_packet", "nginx-pckg-module/src/media/mpegts/mpegts_encoder_filter.c:mpegts_encoder_init"]}
{"id": "C86", "title": "The announced size of an MPEG-TS segment is its size", "statement": "The size of a segment that is computed from the sizes and times of the frames, without their data, and sent as content length, is the number of bytes that are written.", "quantifier": "every number of tracks, every sequence of frames, both settings of the alignment of frames", "why_tests_cant": "The simulation is other code than the writing, and both depend on all sizes and times.", "anchors": ["nginx-pckg-module/src/media/mpegts/mpegts_muxer.c:mpegts_muxer_simulate_get_segment_size", "nginx-pckg-module/src/media/mpegts/mpegts_encoder_filter.c:mpegts_encoder_simulated_write", "nginx-pckg-module/src/media/mpegts/buffer_filter.c:buffer_filter_simulated_force_flush"]}
{"id": "C87", "title": "The tables of an MPEG-TS segment describe its streams", "statement": "A segment starts with a program association table and a program map table, each in a packet with a correct CRC and a counter that goes up by one with each segment; they have one program, and all streams with the types of their codecs and the pids of their packets. The pids differ and are not reserved. A receiver announces exactly these streams. If there is no room for all streams the request fails.", "quantifier": "every list of streams, every segment number", "why_tests_cant": "Tables are built from templates with precomputed parts; a CRC that is right for samples says little about others.", "anchors": ["nginx-pckg-module/src/media/mpegts/mpegts_encoder_filter.c:mpegts_encoder_add_stream", "nginx-pckg-module/src/media/mpegts/mpegts_encoder_filter.c:mpegts_encoder_finalize_streams", "nginx-pckg-module/src/media/mpegts/mpegts_encoder_filter.c:mpegts_crc32", "nginx-pckg-module/src/media/mpegts/mpegts_encoder_filter.c:mpegts_encoder_init_streams"]}
{"id": "C88", "title": "The table names the stream with the PCR", "statement": "The program map table of a segment names as PCR_PID the pid of the stream whose packets have the PCR.", "quantifier": "every list of streams", "why_tests_cant": "Samples with video and samples with audio only differ in the pid, and players tolerate errors to a varying degree.", "anchors": ["nginx-pckg-module/src/media/mpegts/mpegts_encoder_filter.c:mpegts_encoder_add_stream", "nginx-pckg-module/src/media/mpegts/mpegts_encoder_filter.c:pmt_header_template"]}
{"id": "C89", "title": "An ack of transcoded audio is the exact input sample", "statement": "When the receiver of transcoded audio acks an output frame, the transcoder acks to its sender the input frame and the number of samples in it at which that output frame starts: as many samples of the input are before this position as samples of the output before the acked frame, also if the decoder left out frames after the first.", "quantifier": "every sequence of decoded frames, encoded frames and acks in any order, of a session without a filter, every size of frames", "why_tests_cant": "The map is kept in runs of frames of the same size from which acked frames are removed; errors show only for changes of size, gaps and acks at certain borders of runs, after long sessions.", "anchors": ["transcoder/ackHandler/audioAckMap.cpp:AudioAckMap::map", "transcoder/ackHandler/audioAckMap.cpp:FrameHistory"]}
{"id": "C90", "title": "A filter that keeps the samples leaves acks exact", "statement": "The position of C89 is exact also if the frames pass a filter that neither adds nor drops samples.", "quantifier": "every session with such a filter, every size of frames", "why_tests_cant": "Tests use the same frame size for input and output, for which the correction of the output by the filtered frames does nothing.", "anchors": ["transcoder/ackHandler/audioAckMap.cpp:AudioAckMap::addOut", "transcoder/ackHandler/audioAckMap.cpp:FrameHistory::adjustLastFrameDuration"]}
{"id": "C91", "title": "Frames that the decoder skips or splits do not harm acks", "statement": "Whatever packets the decoder skips, and whatever packets it gives out in several frames, an ack of an output frame is answered without a crash and with the exact position of C89.", "quantifier": "every sequence of decoded frames with ids that do not go down", "why_tests_cant": "Damaged input at the very start of a session is rarely tested, and a shift by one frame is not visible until a session breaks.", "anchors": ["transcoder/ackHandler/audioAckMap.cpp:FrameHistory::handleFrameDiscontinuity", "transcoder/ackHandler/audioAckMap.cpp:FrameHistory::frameByOffset"]}
{"id": "C92", "title": "An ack of transcoded video is a frame to start decoding from", "statement": "When the receiver of transcoded video acks an output frame, the transcoder acks the last key frame of the input up to the frame it was made from, with the number of frames to skip after it, so that nothing that is not acked is lost and nothing is sent twice.", "quantifier": "every sequence of input frames, output frames and acks", "why_tests_cant": "Output key frames fall on input key frames in tests; otherwise the position is used only after a break.", "anchors": ["transcoder/ackHandler/videoAckMap.cpp:VideoAckMap::addIn", "transcoder/ackHandler/videoAckMap.cpp:VideoAckMap::map", "transcoder/ackHandler/ackHandlerInternal.cpp:BaseAckMap::ack_map_ack"]}
{"id": "C93", "title": "A session that starts at an acked position goes on at the right sample", "statement": "After a break the sender sends from the acked position on, and the new session passes on exactly the samples from the start of the acked output frame on; the same is true for positions that are acked in the new session.", "quantifier": "every session without a filter, every ack, every input", "why_tests_cant": "It needs a break at a position within a frame, and then another one before the first ack of a later frame.", "anchors": ["transcoder/transcode/transcode_session.c:OnDecodedFrame", "transcoder/ackHandler/audioAckMap.cpp:AudioAckMap::map"]}
{"id": "C94", "title": "An fMP4 segment has every frame of every track", "statement": "A player that reads an fMP4 segment as ISO/IEC 14496-12 says gets the requested tracks in their order, and in each of them every frame with exactly its data, its duration and, for video, whether it is a key frame.", "quantifier": "every segment of any number of video, audio and cue tracks with any number of frames of any sizes (also empty ones) and any times, that fits the fields of the boxes; every content of the memory", "why_tests_cant": "The place of the data is computed in one pass and the data is written in a second one, with frames of several tracks interleaved by time; a mistake shows only for certain interleavings and sizes.", "anchors": ["nginx-pckg-module/src/media/mp4/mp4_muxer.c:mp4_muxer_build_fragment_header", "nginx-pckg-module/src/media/mp4/mp4_muxer.c:mp4_calculate_output_offsets", "nginx-pckg-module/src/media/mp4/mp4_muxer.c:mp4_muxer_process_frames", "nginx-pckg-module/src/media/mp4/mp4_muxer.c:mp4_muxer_choose_stream"]}
{"id": "C95", "title": "The announced size of an fMP4 segment is exact", "statement": "The header of an fMP4 segment never goes beyond the buffer that is allocated for it, and the response has exactly the number of bytes that was announced before.", "quantifier": "every segment as in C94", "why_tests_cant": "The sizes of boxes are added up in advance, the number of runs of frames in another function than the one that writes them.", "anchors": ["nginx-pckg-module/src/media/mp4/mp4_muxer.c:mp4_muxer_build_fragment_header", "nginx-pckg-module/src/media/mp4/mp4_muxer.c:mp4_muxer_write_video_trun_atoms"]}
{"id": "C96", "title": "Frames of an fMP4 segment are shown at their times", "statement": "A player that reads an fMP4 segment shows every frame at the time that the track gives it.", "quantifier": "every segment as in C94", "why_tests_cant": "Tests compare with recorded output; tracks with times before zero and segments with several cues are rare.", "anchors": ["nginx-pckg-module/src/media/mp4/mp4_muxer.c:mp4_muxer_write_video_trun_frame", "nginx-pckg-module/src/media/mp4/mp4_muxer.c:mp4_muxer_write_subtitle_trun_atoms", "nginx-pckg-module/src/media/mp4/mp4_muxer.c:mp4_muxer_get_earliest_pres_time"]}
{"id": "C97", "title": "The index of an fMP4 segment describes the segment", "statement": "The index of an fMP4 segment with one track refers to exactly the rest of the response, and has the timescale, the duration and the earliest presentation time of the frames.", "quantifier": "every segment with one track, as in C94", "why_tests_cant": "The size in the index is computed before the boxes are written, in two versions for small and large times.", "anchors": ["nginx-pckg-module/src/media/mp4/mp4_muxer.c:dash_packager_write_sidx_atom", "nginx-pckg-module/src/media/mp4/mp4_muxer.c:dash_packager_write_sidx64_atom", "nginx-pckg-module/src/media/mp4/mp4_muxer.c:mp4_muxer_build_fragment_header"]}
{"id": "C98", "title": "Metadata of a segment arrives in an event", "statement": "If a segment has metadata and its first track has frames, the fMP4 segment has an event of the scheme of ID3 at the start of the first track, whose message is an ID3 tag with exactly this metadata; with no metadata it has no event.", "quantifier": "every segment as in C94, any metadata", "why_tests_cant": "Lengths within the tag have seven bits per byte, so errors show only for certain lengths.", "anchors": ["nginx-pckg-module/src/media/mp4/mp4_muxer.c:mp4_muxer_write_emsg_atom", "nginx-pckg-module/src/media/mp4/mp4_muxer.c:mp4_muxer_write_id3_text_frame"]}
{"id": "C99", "title": "Cues are cut exactly at the borders of a segment", "statement": "The cues of a subtitle segment are exactly the parts of the cues of the track that are within the segment: each cue that is shown at some time within the segment is there once, in order, with its data, from the later of its start and the start of the segment to the earlier of its end and the end of the segment; no other cue is there.", "quantifier": "every track with any number of cues, any times between cues (also none), any times shown (also overlapping cues), every segment of a positive length below 2^32", "why_tests_cant": "Cues that overlap, that last over several segments, that start at a border or are left out one after the other have to be combined; times between cues are computed anew from those that stay.", "anchors": ["nginx-pckg-module/src/media/subtitle/subtitle_format.c:subtitle_trim_timestamps_track", "nginx-pckg-module/src/media/subtitle/subtitle_format.c:subtitle_trim_timestamps"]}
{"id": "C100", "title": "A WebVTT segment has the cues of the track", "statement": "A client that reads a WebVTT segment finds the first line of the header of the track, the map of times, and then exactly the cues of the track that are within the segment, cut at its borders, with text, settings, and times to the nearest millisecond, counted from a multiple of 2^33 that is the same for all cues.", "quantifier": "every track with a header that has no arrow, any number of samples with one cue (text with no empty line and no arrow, settings in one line, other boxes) or none, every timescale, every segment at any 64-bit time, also a negative one", "why_tests_cant": "Line ends of headers (CR, LF, CR LF, none), hours with more than two digits, rounding and wrapping times at 2^33 can be combined in any way.", "anchors": ["nginx-pckg-module/src/media/subtitle/webvtt_builder.c:webvtt_builder_build", "nginx-pckg-module/src/media/subtitle/webvtt_builder.c:webvtt_split_first_line", "nginx-pckg-module/src/media/subtitle/webvtt_builder.c:webvtt_builder_write_timestamp", "nginx-pckg-module/src/media/subtitle/webvtt_builder.c:webvtt_parse_cue", "nginx-pckg-module/src/media/mp4/mp4_parser_base.c:mp4_parser_parse_atoms"]}
{"id": "C101", "title": "A TTML document has the cues of the track", "statement": "The TTML document that is made of a subtitle segment is well-formed, and has for each cue within the segment a paragraph with its times to the nearest millisecond and its text without tags.", "quantifier": "every track and segment as in C100", "why_tests_cant": "Any text of WebVTT has to give well-formed XML.", "anchors": ["nginx-pckg-module/src/media/subtitle/ttml_builder.c:ttml_builder_write", "nginx-pckg-module/src/media/subtitle/ttml_builder.c:ttml_builder_strip_tags", "nginx-pckg-module/src/media/subtitle/ttml_builder.c:ttml_builder_convert_segment"]}
{"id": "C102", "title": "Subtitle buffers are never overrun", "statement": "Whatever bytes the samples and the header of a subtitle track hold, and whatever its times are, the WebVTT file and the TTML document never go beyond the buffers that are allocated for them.", "quantifier": "every track, with any bytes as samples (also broken boxes, nested and repeated ones) and as header, any times, every segment", "why_tests_cant": "The size is a bound from the sizes of samples, the writing depends on their content; only crafted samples come near the bound.", "anchors": ["nginx-pckg-module/src/media/subtitle/webvtt_builder.c:webvtt_builder_build", "nginx-pckg-module/src/media/subtitle/ttml_builder.c:ttml_builder_get_max_size", "nginx-pckg-module/src/media/subtitle/ttml_builder.c:ttml_builder_write"]}
{"id": "C103", "title": "An encrypted segment gives the frames of the clear one", "statement": "A client that reads a segment with common encryption (scheme cenc) finds in the fragment the vectors and, for video, the clear and encrypted parts of each sample, and with the key gets exactly the frames, times and flags that it reads from the segment without encryption. The vectors are the consecutive numbers after that of the start of the segment, and the parts of video are as in ISO/IEC 23001-7: sizes and heads of slices, and other units, are clear.", "quantifier": "every segment of one video track (AVC or HEVC, any size of lengths of units, any units) or one audio track, with any number and any sizes of frames, every IV, every block cipher, every size of the output buffers of at least 16 bytes", "why_tests_cant": "The segment is written in two passes that have to agree on sizes, in buffers of any size, with AES in counter mode whose position goes on over parts of units, and a header that is made only after all frames were written.", "anchors": ["nginx-pckg-module/src/media/mp4/mp4_cenc_encrypt.c:mp4_cenc_encrypt_video_get_fragment_writer", "nginx-pckg-module/src/media/mp4/mp4_cenc_encrypt.c:mp4_cenc_encrypt_audio_get_fragment_writer", "nginx-pckg-module/src/media/mp4/mp4_dash_encrypt.c:mp4_dash_encrypt_get_fragment_writer", "nginx-pckg-module/src/media/mp4/mp4_muxer.c:mp4_muxer_build_fragment_header", "nginx-pckg-module/src/ngx_http_pckg_fmp4.c:ngx_http_pckg_fmp4_init_frame_processor"]}
{"id": "C104", "title": "The two ways to find sample information agree", "statement": "A client that finds the information on encrypted samples by the boxes saiz and saio (sizes and an offset within the file) gets the same as one that reads the box senc: one entry for each sample, with the same vector and parts.", "quantifier": "every segment as in C103", "why_tests_cant": "The offset depends on the sizes of all boxes before it, and the sizes of entries on the units of each frame.", "anchors": ["nginx-pckg-module/src/media/mp4/mp4_cenc_encrypt.c:mp4_cenc_encrypt_video_write_saiz_saio", "nginx-pckg-module/src/media/mp4/mp4_cenc_encrypt.c:mp4_cenc_encrypt_audio_write_auxiliary_data"]}
{"id": "C105", "title": "The names in playlists lead to the files they name", "statement": "When a client asks for a file by a name that a playlist has (segment, part, initialization segment, media playlist, encryption key), after the usual encoding of paths, the server answers with exactly this file: the same kind of file, number of segment and of part, variant and media types.", "quantifier": "every variant id that a channel accepts, every number of a segment and part, every set of media types and container, every directory", "why_tests_cant": "Ids may have any bytes but two, and names are taken apart by separators, prefixes and suffixes; tests use ids like video1.", "anchors": ["nginx-pckg-module/src/ngx_pckg_utils.c:ngx_pckg_selector_write", "nginx-pckg-module/src/ngx_http_pckg_utils.c:ngx_http_pckg_parse_uri_file_name", "nginx-pckg-module/src/ngx_http_pckg_core_module.c:ngx_http_pckg_core_parse", "nginx-pckg-module/src/ngx_http_pckg_fmp4.c:ngx_http_pckg_fmp4_init_ctx", "nginx-pckg-module/src/ngx_http_pckg_enc.c:ngx_http_pckg_parse_key_request"]}
{"id": "C106", "title": "A client finds the channel in the media playlist", "statement": "A client that reads the media playlist after RFC 8216 (second edition) finds exactly what the channel has: for each complete segment its file, duration in milliseconds, media sequence number, discontinuity sequence number, initialization segment, date, if it is a gap, bitrate and parts; the parts of the segment that is being made, the hint of the next part, rendition reports, the values of the server control, and if the playlist is at its end. The same for a delta update, given what the client knows of the last segment that is skipped.", "quantifier": "every channel whose timescale is a multiple of 1000 (as the code assumes) and that the reader of responses accepts; every container, directive values, any functions as estimators of bitrates, without encryption; a delta update that starts with a segment of a new period or of the same initialization segment", "why_tests_cant": "The text is made by some fifteen functions with conditions on each other, by position in lists that are walked in parallel; tests compare a few files with expected text.", "anchors": ["nginx-pckg-module/src/ngx_http_pckg_m3u8.c:ngx_http_pckg_m3u8_index_build", "nginx-pckg-module/src/ngx_http_pckg_m3u8.c:ngx_http_pckg_m3u8_write_period_segments", "nginx-pckg-module/src/ngx_http_pckg_m3u8.c:ngx_http_pckg_m3u8_parts_write", "nginx-pckg-module/src/ngx_pckg_media_info.c:ngx_pckg_media_info_get"]}
{"id": "C107", "title": "The buffer of a media playlist is large enough", "statement": "The size that is computed for a media playlist is not less than its length, so building it does not write past the buffer.", "quantifier": "every channel that the reader of responses accepts, every container, any functions as estimators of bitrates, every timescale from 1000", "why_tests_cant": "The size is computed by other functions than the text, from counts and digits of the last index; an overflow needs a list in which all the slack is used.", "anchors": ["nginx-pckg-module/src/ngx_http_pckg_m3u8.c:ngx_http_pckg_m3u8_index_build", "nginx-pckg-module/src/ngx_http_pckg_m3u8.c:ngx_http_pckg_m3u8_get_bitrate_size", "nginx-pckg-module/src/ngx_http_pckg_m3u8.c:ngx_http_pckg_m3u8_get_gap_size", "nginx-pckg-module/src/ngx_http_pckg_m3u8.c:ngx_http_pckg_m3u8_parts_get_size"]}
{"id": "C108", "title": "No segment is longer than the target duration", "statement": "The duration of each segment of a media playlist, rounded to the nearest second, is not above the target duration in the playlist (RFC 8216, 4.3.3.1), when no segment of the channel is longer than its target duration.", "quantifier": "every channel as in C106", "why_tests_cant": "It depends on rounding of sums at three places.", "anchors": ["nginx-pckg-module/src/ngx_http_pckg_m3u8.c:ngx_http_pckg_m3u8_index_build", "nginx-pckg-module/src/ngx_http_pckg_m3u8.c:ngx_http_pckg_m3u8_write_period_segments"]}
{"id": "C109", "title": "Durations in a media playlist do not drift", "statement": "In each period of a media playlist, the start of the period in whole milliseconds plus the durations of its first segments is the end of these segments in whole milliseconds, however many there are.", "quantifier": "every channel as in C106", "why_tests_cant": "Needs playlists with thousands of segments of odd durations.", "anchors": ["nginx-pckg-module/src/ngx_http_pckg_m3u8.c:ngx_http_pckg_m3u8_write_period_segments"]}
{"id": "C110", "title": "Writing RTMP messages stays inside their buffers", "statement": "For every message that is sent to an RTMP server, the size that is computed for its buffer is the number of bytes that are written, and nothing is written or moved outside the buffer.", "quantifier": "every connection: any values of the connect message, any streams, media infos, extra data, frames in any parts and order, any chunk size from 8; messages below 4 GB", "why_tests_cant": "The size is computed by other functions than the bytes, the chunk headers are put in afterwards by moving the body from the end; tests use few chunk sizes and lengths.", "anchors": ["nginx-kmp-rtmp-module/src/ngx_kmp_rtmp_encoder.c:ngx_kmp_rtmp_encoder_add_chunk_headers", "nginx-kmp-rtmp-module/src/ngx_kmp_rtmp_encoder.c:ngx_kmp_rtmp_encoder_amf_get_size", "nginx-kmp-rtmp-module/src/ngx_kmp_rtmp_amf.c:ngx_kmp_rtmp_amf", "nginx-kmp-rtmp-module/src/ngx_kmp_rtmp_stream.c:ngx_kmp_rtmp_stream_write_meta"]}
{"id": "C111", "title": "What is sent to an RTMP server is RTMP", "statement": "The bytes sent on a connection are a stream of chunks as the RTMP specification defines it, and the messages in it are exactly: connect, the chunk size, the commands that create and publish each stream, its metadata and sequence headers, its frames and time messages in their order, and the commands that delete it; each with its timestamp and stream.", "quantifier": "every connection, any chunk size from 128 up to the limit of servers; at most 60 streams on a connection; no message of more than one chunk with an extended timestamp", "why_tests_cant": "Chunk headers depend on the whole history of the connection: formats without fields, deltas of timestamps, chunk stream ids.", "anchors": ["nginx-kmp-rtmp-module/src/ngx_kmp_rtmp_encoder.c:ngx_kmp_rtmp_encoder_frame_write", "nginx-kmp-rtmp-module/src/ngx_kmp_rtmp_encoder.c:ngx_kmp_rtmp_encoder_write_header", "nginx-kmp-rtmp-module/src/ngx_kmp_rtmp_encoder.c:ngx_kmp_rtmp_encoder_stream_write", "nginx-kmp-rtmp-module/src/ngx_kmp_rtmp_stream.c:ngx_kmp_rtmp_stream_write_frame"]}
{"id": "C112", "title": "nginx-rtmp gets the messages that were sent", "statement": "nginx-rtmp, reading what is sent to an RTMP server in any parts, never closes the connection because of it, and hands on exactly the messages that were to be sent, with their timestamps, types, streams and payloads.", "quantifier": "every connection as in C111; with the setting of nginx-rtmp for continuation chunks without extended timestamps any times, with its other settings time fields below 2^24 - 1", "why_tests_cant": "Two programs with a protocol between them; the outcome depends on the history on both sides.", "anchors": ["nginx-kmp-rtmp-module/src/ngx_kmp_rtmp_encoder.c:ngx_kmp_rtmp_encoder_frame_write", "nginx-rtmp-module/src/ngx_rtmp_handler.c:ngx_rtmp_recv"]}
{"id": "C113", "title": "Frames keep their properties in RTMP", "statement": "A reader of FLV tags gets from the message of a frame the codec, if it is a key frame, the composition time, the data, and for audio the sample size and if it is stereo, all as in the frame and media info; the timestamp of the message is the time of the frame modulo 2^32.", "quantifier": "every frame of H.264, H.265, AAC or MP3 with a composition time of 24 bits with sign, any other fields", "why_tests_cant": "The header packs signed and unsigned numbers into bits; tests use few frames.", "anchors": ["nginx-kmp-rtmp-module/src/ngx_kmp_rtmp_encoder.c:ngx_kmp_rtmp_encoder_avc_header_write", "nginx-kmp-rtmp-module/src/ngx_kmp_rtmp_encoder.c:ngx_kmp_rtmp_encoder_ext_header_write", "nginx-kmp-rtmp-module/src/ngx_kmp_rtmp_encoder.c:ngx_kmp_rtmp_encoder_update_media_info"]}
{"id": "C114", "title": "Frames of an RTMP stream are sent as they are", "statement": "A stream that is received by RTMP becomes KMP: for video and audio each, the packets are the frames with data in their order, each with its data, key flag, composition time, and its time in ticks continued over wraps of 32 bits (AAC within the margin of correction); the media info with the last decoder configuration is sent before the first frame that needs it, and the track is published once, right behind the first media info.", "quantifier": "every sequence of audio and video messages, cut into buffers in any way, with any interleaving; H.264, extended headers, AAC and other audio codecs; times that are less than 2^31 ms apart and do not cross an odd multiple of 2^31 ms; timescales up to 255999", "why_tests_cant": "Times are continued from 32 bits with a state in a wider type; headers may be cut between buffers; tests have neither long streams nor odd cuts.", "anchors": ["nginx-rtmp-kmp-module/src/ngx_rtmp_kmp_track.c:ngx_rtmp_kmp_track_av", "nginx-rtmp-kmp-module/src/ngx_rtmp_kmp_track.c:ngx_rtmp_kmp_track_init_frame", "nginx-rtmp-kmp-module/src/ngx_rtmp_kmp_track.c:ngx_rtmp_kmp_track_send_media_info", "nginx-rtmp-kmp-module/src/ngx_rtmp_kmp_module.c:ngx_rtmp_kmp_av"]}
{"id": "C115", "title": "Times of AAC frames are corrected to those of their samples", "statement": "When the times of AAC frames are those of their samples cut to whole milliseconds, and the margin of correction is at least a millisecond, the times that are sent are those of the samples in whole ticks, for any length of the stream: errors do not add up.", "quantifier": "every sample rate, timescale that is a multiple of 1000, margin, start and number of frames", "why_tests_cant": "It is about drift over hours; tests have a few frames.", "anchors": ["nginx-rtmp-kmp-module/src/ngx_rtmp_kmp_track.c:ngx_rtmp_kmp_track_sync_audio"]}
{"id": "C116", "title": "Messages of RTMP have the length they tell", "statement": "Every message that the RTMP receiver gives to its handlers has at least one buffer and a length below 2^24, and the bytes in its buffers are as many as its length (modulo 2^32; exactly when fewer than 2^32 bytes were received).", "quantifier": "every sequence of received bytes, valid or not, every way of receiving them, every setting", "why_tests_cant": "Handlers trust the length; senders may change the length in the middle of a message or mix chunk streams.", "anchors": ["nginx-rtmp-module/src/ngx_rtmp_handler.c:ngx_rtmp_recv"]}
{"id": "C117", "title": "Video comes back from RTMP as it was sent", "statement": "Frames of H.264 and H.265 that are sent to an RTMP server by one program and made into KMP again by the other keep their data, key flag, composition time and decoding time, in ticks of the new track, in the same order, none lost and none added.", "quantifier": "every connection as in C112, every stream on it; composition times of 24 bits with sign; times as in C114", "why_tests_cant": "Three programs in a row; each has a state that lasts as long as the stream.", "anchors": ["nginx-kmp-rtmp-module/src/ngx_kmp_rtmp_encoder.c:ngx_kmp_rtmp_encoder_frame_write", "nginx-rtmp-module/src/ngx_rtmp_handler.c:ngx_rtmp_recv", "nginx-rtmp-kmp-module/src/ngx_rtmp_kmp_track.c:ngx_rtmp_kmp_track_av"]}
{"id": "C118", "title": "Times of a live channel follow the clock", "statement": "A frame that may start a segment is handed on with a time of display that differs from the time it was created by no more than the larger of the limits for drift and for reuse of a correction; it has the shift of the frame before it unless it is marked as the start of a split; a frame in the middle of a segment has the shift of the frame before it, unless its time jumps by more than the limit, and then its time of decoding is after that of the frame before it and it is shown near the clock or just after the frame before it; the first frame that may start a segment, and the first after a track was inactive, starts a split; nothing but the time of decoding and the split mark of a frame is changed.", "quantifier": "every number of tracks, every sequence of new tracks, frames, inactive tracks and reconnects, every setting, as long as 64-bit times do not overflow", "why_tests_cant": "The correction is shared by tracks and depends on everything that came before; wraps of 32-bit milliseconds take weeks.", "anchors": ["nginx-live-module/src/ngx_live_syncer.c:ngx_live_syncer_add_frame", "nginx-live-module/src/ngx_live_syncer.c:ngx_live_syncer_sync_track"]}
{"id": "C119", "title": "Tracks of one source are shifted together", "statement": "When the tracks of a channel come from one source whose clock differs from that of the server by a constant and some jitter, apart from wraps of 32-bit milliseconds, all frames of all tracks are shifted by one number and by the wraps of their track: they stay in sync, and no overflow happens.", "quantifier": "every number of tracks, every length of the stream, every order of frames and of tracks that become inactive, jitter below half the limit of reuse", "why_tests_cant": "Which track comes first and where it syncs decides for the others; wraps take weeks.", "anchors": ["nginx-live-module/src/ngx_live_syncer.c:ngx_live_syncer_sync_track"]}
{"id": "C120", "title": "A track that connects again goes on with its shift", "statement": "After a track has connected again, the first frame that may start a segment is marked as the start of a split, or has the same shift as the last frame that was kept, the one before the frame at which the sender goes on, also if later frames, which are lost, had another shift.", "quantifier": "every channel, every sequence of events, every number of reconnects, every setting", "why_tests_cant": "It needs a jump of time, a loss and a reconnect in that order, with a log of three entries.", "anchors": ["nginx-live-module/src/ngx_live_syncer.c:ngx_live_syncer_track_reconnect", "nginx-live-module/src/ngx_live_syncer.c:ngx_live_syncer_get_log"]}
{"id": "C121", "title": "Segments with AES-128 are decrypted to the segment", "statement": "A media segment that is encrypted as a whole with AES-128 (METHOD=AES-128 of HLS, CBC with PKCS7 padding) is decrypted by a player to exactly the head and the frames of the clear segment, wherever writes are cut; its size is the size that is announced; the same is true of an init segment.", "quantifier": "every block cipher with inverse, key, IV, head, every number and size of frames", "why_tests_cant": "Block boundaries and writes meet in all ways; the last block depends on the whole length.", "anchors": ["nginx-pckg-module/src/media/aes_cbc_encrypt.c:aes_cbc_encrypt_write", "nginx-pckg-module/src/media/aes_cbc_encrypt.c:aes_cbc_encrypt"]}
{"id": "C122", "title": "Audio samples with cbcs are decrypted to the samples", "statement": "In a segment of one audio track that is encrypted with the scheme cbcs, when the full blocks of each frame fit an output buffer, each frame keeps its size, and decryption of its full blocks with the constant IV gives the clear frame; all of the segment is sent.", "quantifier": "every block cipher with inverse, IV, output buffer size, every number of frames, with and without data", "why_tests_cant": "Output buffers, blocks and frames end at different places.", "anchors": ["nginx-pckg-module/src/media/mp4/mp4_cbcs_encrypt.c:mp4_cbcs_encrypt_audio_write_buffer"]}
{"id": "C123", "title": "Video samples with cbcs are decrypted to the samples", "statement": "In a segment of one video track that is encrypted with the scheme cbcs and the pattern 1:9, each unit of each frame keeps its size; decryption of the slices behind their headers, as a player finds them in the encrypted data, gives the clear units; frames that can be read are not refused, and all of the segment is sent.", "quantifier": "every block cipher with inverse, IV, output buffer size, every rule for slices and their headers that reads only the header, every number of frames, units and sizes", "why_tests_cant": "The pattern, the header buffer of 128 bytes, the size of headers and the ends of units meet in many ways; the truncation needs a certain last unit.", "anchors": ["nginx-pckg-module/src/media/mp4/mp4_cbcs_encrypt.c:mp4_cbcs_encrypt_video_write_buffer"]}
{"id": "C124", "title": "Emulation prevention bytes are removed", "statement": "Before parameter sets and slice headers of H.264 and H.265 are parsed, exactly the bytes 3 that follow two zeros are removed from the data of a unit: a payload that was escaped as the standards say is got back, and of a unit that is cut anywhere a start of its payload.", "quantifier": "every payload, every sequence of bytes, every cut", "why_tests_cant": "Escapes may follow each other and stand at either end and at the cut.", "anchors": ["nginx-pckg-module/src/media/avc_hevc_parser.c:avc_hevc_parser_emulation_prevention_decode"]}
{"id": "C125", "title": "Sizes of slice headers count emulation prevention bytes", "statement": "The size of a slice header, behind which sample encryption begins, is the number of bytes the header takes in the unit, with the bytes that were added against emulation of start codes.", "quantifier": "every payload, size of the head, cut of the unit and size of the header within what is seen", "why_tests_cant": "Needs headers with long runs of zero bytes.", "anchors": ["nginx-pckg-module/src/media/avc_hevc_parser.c:avc_hevc_parser_emulation_prevention_encode_bytes"]}
{"id": "C126", "title": "Syntax elements are read as they were written", "statement": "From bytes that begin with the codes of any sequence of syntax elements, fixed length numbers of up to 31 bits and signed and unsigned Exp-Golomb codes of up to 61 bits, where each element is read or skipped (fixed length up to 128 bits), exactly the values are read, the position is after the last code, and no end of data is reported; when the bytes end before the codes do, the end of data is reported; there is no undefined behaviour in either case.", "quantifier": "every sequence of elements and of the choice to read or skip, every data after them, every place where data ends", "why_tests_cant": "Codes lie at all offsets within bytes; skips cross any number of bytes; data may end at each bit.", "anchors": ["nginx-pckg-module/src/media/bit_read_stream.h:bit_read_stream_get", "nginx-pckg-module/src/media/bit_read_stream.h:bit_read_stream_skip", "nginx-pckg-module/src/media/avc_hevc_parser.h:bit_read_stream_get_unsigned_exp", "nginx-pckg-module/src/media/avc_hevc_parser.h:bit_read_stream_get_signed_exp", "nginx-pckg-module/src/media/avc_hevc_parser.h:bit_read_stream_skip_unsigned_exp"]}
{"id": "C127", "title": "Parameter sets of H.264 go to MPEG-TS with start codes", "statement": "From the configuration record of an H.264 track the packager makes a byte stream with all sequence parameter sets and then all picture parameter sets, each after a start code, in their order and nothing else; the size of NAL unit sizes is that of the record; data that is not a record, or a record without sets, is refused, and nothing is read or written outside the buffers.", "quantifier": "every sequence of bytes, every number and size of sets the record can hold", "why_tests_cant": "Sizes are checked by one function and used by another; counts use other numbers of bits than they may fill.", "anchors": ["nginx-pckg-module/src/media/codec_config.c:codec_config_avcc_nal_units_get_size", "nginx-pckg-module/src/media/codec_config.c:codec_config_avcc_nal_units_write", "nginx-pckg-module/src/ngx_pckg_ksmp.c:ngx_pckg_ksmp_parse_avc_extra_data"]}
{"id": "C128", "title": "Parameter sets of H.265 go to MPEG-TS with start codes", "statement": "From the configuration record of an H.265 track the packager makes a byte stream with the units of all arrays, each after a start code, in their order and nothing else; the size of NAL unit sizes is that of the record; data that is not a record, or a record without units, is refused, and nothing is read or written outside the buffers.", "quantifier": "every sequence of bytes, every number and size of arrays and units", "why_tests_cant": "Sizes are checked by one function and used by another, for nested loops.", "anchors": ["nginx-pckg-module/src/media/codec_config.c:codec_config_hvcc_nal_units_get_size", "nginx-pckg-module/src/media/codec_config.c:codec_config_hvcc_nal_units_write", "nginx-pckg-module/src/ngx_pckg_ksmp.c:ngx_pckg_ksmp_parse_hevc_extra_data"]}
{"id": "C129", "title": "Configuration of AAC is read", "statement": "From the configuration of an AAC track, with plain or escaped object type, sample rate as index or number, with and without the extension of SBR or PS, exactly the object type of the stream beneath, the index of the sample rate and the channel configuration are read; configurations that are cut are refused, and no data leads to undefined behaviour.", "quantifier": "every configuration, all that may follow, every cut", "why_tests_cant": "Optional fields shift all others by 6 or 24 bits; the look ahead for PS depends on later fields.", "anchors": ["nginx-pckg-module/src/media/codec_config.c:codec_config_mp4a_config_parse"]}
{"id": "C130", "title": "SAMPLE-AES of H.264 is undone by players", "statement": "However a NAL unit is cut into writes, what is written for it with SAMPLE-AES is what a player that follows the format of Apple turns back into the unit: slices of more than 48 bytes have 32 clear bytes, then a block of each ten encrypted as long as more than 16 bytes remain, chained from the IV, and bytes against the emulation of start codes; all other units are unchanged. A unit without start codes leads to none, and no buffer is exceeded.", "quantifier": "every block cipher with an inverse, every IV, every unit of less than 2^32 - 176 bytes, every cut into writes", "why_tests_cant": "The cuts come from where buffers of the segmenter end; start codes within encrypted bytes depend on the key.", "anchors": ["nginx-pckg-module/src/media/mpegts/sample_aes_avc_filter.c:sample_aes_avc_start_nal_unit", "nginx-pckg-module/src/media/mpegts/sample_aes_avc_filter.c:sample_aes_avc_filter_write_nal_body", "nginx-pckg-module/src/media/mpegts/sample_aes_avc_filter.c:sample_aes_avc_write_emulation_prevention"]}
{"id": "C131", "title": "SAMPLE-AES of audio is undone by players", "statement": "However an audio frame is cut into writes, and whatever was encrypted before it, what is written for it with SAMPLE-AES has the size of the frame, and a player that follows the format of Apple (16 clear bytes, all full blocks chained from the IV, the remainder clear) gets the frame back; no buffer is exceeded.", "quantifier": "every block cipher with an inverse, every IV, every frame, every cut into writes, every earlier state", "why_tests_cant": "The cipher keeps parts of blocks between writes; the buffer is smaller than writes may be.", "anchors": ["nginx-pckg-module/src/media/mpegts/frame_encrypt_filter.c:frame_encrypt_start_frame", "nginx-pckg-module/src/media/mpegts/frame_encrypt_filter.c:frame_encrypt_write"]}
{"id": "C132", "title": "SAMPLE-AES of E-AC-3 is undone by players", "statement": "However a frame of E-AC-3 is cut into writes, and whatever was encrypted before it, what is written for it with SAMPLE-AES has the size of the frame, and a player gets the frame back by taking the sync frames by their sizes, each with a clear lead and trail and with its blocks chained on from the sync frame before, from the IV at the start of the frame; a frame that is not a sequence of sync frames is refused, and no data leads to undefined behaviour.", "quantifier": "every block cipher with an inverse, every IV, every sequence of sync frames, every data, every cut into writes, every earlier state", "why_tests_cant": "Headers come in parts; the sizes decide where encryption begins again, and come from the data.", "anchors": ["nginx-pckg-module/src/media/mpegts/eac3_encrypt_filter.c:eac3_encrypt_start_frame", "nginx-pckg-module/src/media/mpegts/eac3_encrypt_filter.c:eac3_encrypt_write", "nginx-pckg-module/src/media/mpegts/frame_encrypt_filter.c:frame_encrypt_start_sub_frame"]}
{"id": "C133", "title": "Segments end at the best time that is considered", "statement": "A segment starts where the last one ended, or at the first frame when there is a gap. Of the times that are considered for its end, each with the span of the times at which the video tracks would be cut, those whose span is within the alignment margin of the least are compared, and the segment ends at the one closest to the configured duration, or after the least duration if that is later; when no time is considered it has the configured duration.", "quantifier": "every state of all tracks, every configuration, as long as the times are not the mark of unknown times", "why_tests_cant": "The choice depends on all key frames of all tracks at once.", "anchors": ["nginx-live-module/src/ngx_live_segmenter.c:ngx_live_segmenter_get_segment_times", "nginx-live-module/src/ngx_live_segmenter.c:ngx_live_segmenter_candidates_get_span"]}
