# Formal model of kaltura/media-framework: design

## What this is

A Lean 4 model of selected C code in `/repo`, with theorems about it that hold for
all inputs, states and executions. `properties.jsonl` lists the English properties
(C01, C02, ...). `MANIFEST.json` maps each property to theorem names.

## Trusted base

* The Lean 4.33.0 kernel.
* Axioms: at most `propext`, `Classical.choice`, `Quot.sound` (the standard ones).
  No own axioms, no `sorry`, no `native_decide`, no `bv_decide`.
* The faithfulness of the hand-written model to the C text. Every definition cites the
  file and lines it models, and names its simplifications.
* nginx core (`ngx_queue_t`, `ngx_rbtree_t`, `ngx_pool_t`, event loop) is not in `/repo`.
  Queues are modelled as lists. A red-black tree is modelled as an arbitrary binary tree
  whose in-order walk is the sorted list; search theorems hold for every tree shape.
* zlib, OpenSSL, the kernel socket layer and the clock are not modelled. They appear as
  arbitrary inputs (an arbitrary send size, an arbitrary read split, an arbitrary cipher).

## Conventions

* A C pointer into a buffer becomes (list of remaining bytes) or (buffer number, offset).
* Undefined behaviour (reading outside a buffer, dereferencing NULL, unsigned wrap that the
  code does not intend, signed overflow) is a distinct outcome in the model and never a
  default value. Theorems state that it is not reached, or name the precondition.
* Fixed width integers are `Nat`/`Int` with explicit wrap or range tests where the C code can wrap.
* Each module `Verif/X.lean` holds the model of one source file; `Verif/XProps.lean` holds
  an independent specification and the property theorems with a concrete example beside each.

## Plan per property

| id | model | proof method |
|----|-------|--------------|
| C01 C02 | `ngx_buf_chain.c` as recursion over a list of buffers | refinement to the flat byte string |
| C03 | `ngx_buf_queue_stream.c` over a list of equal-size buffers | refinement to flat string and offset |
| C04 C05 | `ngx_buf_queue.c` state machine | invariant by induction on operations |
| C06 C07 | `ngx_lba.c` state machine, with a flag for debug/release `ngx_queue_remove` | invariant; counterexample for release builds |
| C08 C09 | `ngx_block_pool.c` state machine | invariant; binary search correctness |
| C10 | `ngx_mem_rstream.h` | decision logic, round trip |
| C11 C12 C13 | `ngx_persist_write.c`, `ngx_persist_read.c` | refinement and round trip by induction on block trees |
| C14 C15 C34 | `ngx_json_parser.c`, parser | soundness and completeness against a grammar by induction on the nesting budget |
| C16 C35 | `ngx_json_parser.c`, string decoding | refinement of the in-place loop to a denotation of escapes |
| C17 C18 | `ngx_kmp_in.c`, receiving; the application is any state machine | simulation of the incremental reader by a whole-stream parser; history invariant |
| C19 | `ngx_kmp_in.c`, sending acks | invariant over acks and partial sends |
| C36 | `ngx_kmp_in.c`, chain nodes with numbers and addresses | invariant |
| C20 C21 C22 | `ngx_kmp_out_upstream.c`, `ngx_kmp_out_track.c`: buffers, positions, connect, send, acks, watermark | invariant relating buffers, positions and wire to the list of packets written; counterexamples |
| C23 | sender (`KmpOut`, first upstream) and receiver (`KmpIn`, `KmpInAck`) with the frame skipping of `ngx_live_segmenter.c`; bytes on a connection are any prefix of what was on the wire of any connection | invariant by induction over the schedule of both sides |
| C24 | `ngx_live_input_bufs.c`: objects by address, tracks, locks, buffers out of the allocator; the data of segments is in the order of their indexes (callers) | invariant by induction over calls |
| C25-C28 | `ngx_live_segment_list.c`, all but logging: queue of nodes as a list, the red-black tree as any binary tree over the nodes, saved data down to bytes | refinement to the log of (index, time, duration) for every tree shape; round trip; histories include restarts |
| C29 C30 C39 | `ngx_live_segment_info.c`, all but logging; saved data down to bytes | refinement to the history of segments and bitrates for every tree shape; round trip over several files; any bytes |
| C37 C38 | `ngx_pckg_segment_info.c`, gap tags of `ngx_http_pckg_m3u8.c`; estimators of bitrates are any functions | composition with the live side; counting of tags and of room for them |
| C31 C32 C40 C41 | `ngx_live_segment_index.c`, and closing of snapshots in `persist/ngx_live_persist_index.c` and `persist/ngx_live_persist_snap_frames.c`; snapshots have numbers, everything visible outside goes to a log; files cover buckets of segments | invariant by induction over calls; the log is split at each event |
| C42-C48 | `ngx_live_timeline.c`: timelines, manifests, periods, additions, removals, truncation, cleanup, serving, end of list; `ngx_http_live_ksmp_module.c`: choice of the last segment. Periods have numbers, iterators count nodes from the first ever; using a period or node that is gone is undefined behaviour | invariant over all histories of a channel; refinement to an append-only list of numbered rows, and to the log of segments |
| C49, C50 | `ngx_live_timeline.c`: `get_segment_info`, `sequence_to_index`, `index_to_sequence`; `ngx_http_live_ksmp_module.c`: `wait_request`. The red-black tree is any search tree over the positions | counting the segments that are not before an index; induction over the tree; the log of segments |
| C51 | `ngx_live_timeline.c`: `serve_skip_segments`, `serve_write_periods` with the skip flag | the loops that look for the first period to show, as folds from the last period; a lemma that cutting a period drops rows from the flat list of segments |
| C52 | `mp4_aes_ctr.c`: `set_iv`, `increment_be64`, `process`, `write_encrypted`; `write_buffer.c` | state related to a position in the key stream of the IV; induction on the data of each call. AES is any function from 16 bytes to 16 bytes |
| C53 | `mp4_cenc_encrypt.c`: `video_write_buffer`, `video_start_frame`, `video_add_subsample`, `video_end_frame`, the sizes of auxiliary data | invariant over the phases of the state machine (between frames, in an empty frame, in a size, in a unit) that relates output, auxiliary data and sizes to the units read; a player is specified separately and gets the data back; a fragment has one reading as units |
| C54 | `mp4_cenc_encrypt.c`: `audio_write_buffer`, `audio_write_auxiliary_data` | the same for frames without units |
| C55 | `mp4_cenc_encrypt.c:87-92`, `start_frame` | arithmetic of the first IVs of two segments |
| C56 | `nginx-live-module/src/ngx_live_segmenter.c`: `add_frame`, `frame_list_push/remove/copy`, `kf_list_push/remove`, `remove_frames`, `remove_all_frames`, `start_stream`, `create_segments` and all it calls | the model keeps a log for every track (accepted frames, segments, disposed frames); an invariant of all reachable states of a channel relates the log, the lists of parts and the segments; by induction over events, with an environment that answers anything for media info, filler and timelines |
| C57 | the same, `validate_track_ctx`, `validate_channel_ctx` | the invariant implies that the validators of debug builds have nothing to report; out of range accesses and counters below zero are `ub` in the model and are not reached |
| C58 | `frame_list_copy`, `ngx_live_segment_cache_shift_dts` | loop invariant of the copy; the times that a player computes are a separate function (`playTimes`) |
| C59 | `create_segments`, `dispose_segment`, `set_split_indexes` | number of pending frames as the measure; with subtitle tracks false, a state that is its own successor |
| C60 | `frame_list_get_subtitle_indexes` | the indexes compared to filters of the list of cues; false in general |
| C61 | `create_segments`, `get_segment_times`, `dispose_segment` | the list of segments given to the timelines is part of the invariant of C56 |
| C62 | the same, with the marks on frames (`split`) of `add_frame` and `enable_split` | every pending frame that is far from the one before it has a mark, and a segment ends before the first mark after its start; a second invariant over the reachable states (`Brk`), beside that of C56 |
| C63 | the same | partial: the log of a track gives the segments that follow a gap (`hist`, a separate definition); the first pending frame after a gap has a mark, and a mark at the start of a segment starts a period. False for a jump when no frame is pending, see Findings |
| C64 | `ngx_rtmp_recv`, `ngx_rtmp_set_chunk_size`, `ngx_rtmp_finalize_set_chunk_size`, `ngx_rtmp_alloc_in_buf` (nginx-rtmp-module/src/ngx_rtmp_handler.c), with the buffers, the pools they are in, and the bytes that are read again after a chunk | refinement: every round of the loop does what a machine without memory does with the list of all the bytes that are not read yet (`Rel`, `iter_sim`); that machine is deterministic |
| C65 | the same | partial: a sender after sections 5.3 and 5.4 of the RTMP specification is a separate definition (RtmpSpec.lean); every chunk of it is one step of the machine of C64 (`sends_step`). False in general, see Findings |
| C66 | the same, and the end of the session (ngx_rtmp_init.c:305-311) | partial: invariant, all the pools that exist are in the two fields of the session; false for a peer that makes the chunk size smaller, see Findings |
| C67 | the same | partial: from the relation of C65; false for a peer that changes the length of a message, see Findings |
| C68 | `Amf.lean`: ngx_rtmp_amf_read and what it calls, over a memory of sized objects and an abstract source of bytes; `AmfCmd.lean`: the name of a command | `AmfFlat.lean`: a relation between the chain of buffers and a flat string of bytes is kept by every function; `AmfSafe.lean`: induction over the depth, that destinations keep their sizes and nothing undefined happens |
| C69 | `AmfSpec.lean`: values, their encoding, and what a template takes of them, independent of the reader | `AmfRead.lean`: induction over values |
| C70 | the same | partial: below the length of the message; false for a constant, see Findings |
| C71 | `AmfWrite.lean`: ngx_rtmp_amf_write and what it calls, with a limit on buffers | `AmfEnc.lean`: induction over elements; round trip with C69 |
| C72 | `RtmpSend.lean`: ngx_rtmp_prepare_message with the room in front of buffers; the sender of `RtmpSpec.lean` (C65) | induction over the buffers of a message |
| C73 | `Ts.lean`: ngx_ts_read, _read_packet, _read_header, _read_pat, _read_pmt, _read_pes, _append_buf, _free_chain (nginx-mpegts-module/src/ngx_ts_stream.c:184-264, 360-1107, 1547-1609), with every buffer as an object with a number and a position | `TsSafe.lean`: nothing undefined happens; `TsProps.lean`: reading pieces is pushing bytes one by one (`session_push`) |
| C74 | the same | invariant: the count of every number over all the lists of buffers (`cnt`) |
| C75 | the same; `TsSpec.lean`: packets, PES packets and their bytes after ISO 13818-1, independent of the reader | partial: `TsFlat.lean`: per pid the reader refines a machine over payloads (`packets_run`); `TsPes.lean`: induction over the PES packets. False for packets without payload, see Findings |
| C76 | the same, with the relation `Lossy` | partial: `TsLoss.lean`: the data of a stream are always a first part of one PES packet or are marked as corrupt. False without a written length, see Findings |
| C77 | the same, with sections and tables of `TsSpec.lean` | `TsTable.lean`, `TsStart.lean`: parsing gives back what was written, by induction over programs and streams |
| C78 | `TsNal.lean`: the PES handler for AVC and HEVC (nginx-mpegts-kmp-module/src/ngx_ts_kmp_track.c:144-203, 232-309, 318-712, 737-951), parsers of parameter sets and SEI are arbitrary functions; `TsNalSpec.lean`: byte streams of Annex B, independent of the model | partial: `TsNalProps.lean`: the scan over buffers refines `cut` over the bytes; `TsNalStream.lean`: `cut` gives back the NAL units of a stream; `TsNalFrames.lean`. False for more than 16 NAL units, see Findings |
| C79 | the same | partial: `TsNalSets.lean`: invariant: the saved NAL units are the last of each id, and the last media info is made of them when it counts as sent; `TsNalAvc.lean`: the avcC box. False for two PPS, see Findings |
| C80 | `TsAac.lean`: the PES handler for AAC (ngx_ts_kmp_track.c:955-1180, ngx_ts_aac.c); `TsAacSpec.lean`: bits of ADTS headers and AudioSpecificConfig, independent of the model | partial: `TsAacFlat.lean`: the loops over buffers refine a loop over the bytes; `TsAacFrames.lean`: induction over frames and packets. False for frames that PES packets divide, see Findings |
| C81 | the clock of `TsNal.lean` (ngx_ts_kmp_track.c:318-352) | partial: `TsTimes.lean`: induction over the packets. False for times that go back, see Findings |
| C82 | `MtsEnc.lean`: the encoder (nginx-pckg-module/src/media/mpegts/mpegts_encoder_filter.c:188-384, 708-1335), `MtsFilt.lean`: mp4_to_annexb_filter.c, adts_encoder_filter.c, id3_encoder_filter.c, buffer_filter.c, mpegts_muxer.c:241-399, 449-817, with `interleave_frames` off; `MtsSpec.lean`: what is asked, independent of the model | `MtsNal.lean`, `MtsVideo.lean`: the filter of video; `MtsStreams.lean`: from C84 |
| C83 | the same | `MtsAudio.lean`: the buffer; `MtsStreams.lean`: from C84 |
| C84 | the same | `MtsLay.lean`, `MtsFrame.lean`, `MtsCarve.lean`, `MtsPes.lean`: what the encoder writes for a frame is a PES packet; `MtsStream.lean`, `MtsMux.lean`, `MtsRun.lean`: invariant of the muxer over all frames; `MtsGroups.lean`, `MtsProps.lean` |
| C85 | the same | partial: `MtsStreams.lean`: from C84. False for ID3, see Findings |
| C86 | the same, with the simulation | partial: `MtsSim.lean`, `MtsMux.lean`, `MtsRun.lean`: the simulation is in step with the writing, packet by packet. False without alignment and for length fields that are not of four bytes, see Findings |
| C87 | `MtsTables.lean`: the tables (mpegts_encoder_filter.c:28-187, 386-436, 522-705) | `MtsCrc.lean`: the CRC by table is that by bits, linearity; `MtsPsi.lean`: invariant over the streams; reading back is C77 |
| C88 | the same | partial: `MtsPsi.lean`. False for segments of audio, see Findings |
| C89 | `AckMap.lean`: the maps of acks of the transcoder (transcoder/ackHandler/audioAckMap.cpp, videoAckMap.cpp, ackHandlerInternal.cpp) and the start at an offset (transcode/transcode_session.c:566-620); `AckSpec.lean`: spec | `AckHist.lean`: a history as a list of durations; `AckAudio.lean`: invariant over all events |
| C90 | the same | partial: `AckAudio.lean`: invariant for frames of one size. False for other sizes, see Findings |
| C91 | the same | partial: from C89. False if the first packet is not decoded and for packets of several frames, see Findings |
| C92 | the same | partial: `AckVideo.lean`: invariant over all events. False for input frames that are no key frames and acks of other frames, see Findings |
| C93 | the same | partial: `AckVideo.lean`: induction on the frames, with C89. False for acks of the second session, see Findings |
| C94 | `Fmp4.lean`: fragments of the packager (nginx-pckg-module/src/media/mp4/mp4_muxer.c) with the source of frames (ngx_http_pckg_core_module.c:995-1055); `Fmp4Spec.lean`: a reader of fragments | `Fmp4Order.lean`: both passes go through the frames in the same order; `Fmp4Data.lean`: the data is at the offsets of the first pass; `Fmp4Box.lean`, `Fmp4Trun.lean`, `Fmp4Head.lean`, `Fmp4Read.lean`: boxes are read as they were written; `Fmp4Props.lean` |
| C95 | the same | `Fmp4Head.lean`: sums of lengths; the number of runs is the one counted in the first pass |
| C96 | the same | partial: `Fmp4Props.lean`. False for times before 0 and several cues, see Findings |
| C97 | the same | partial: `Fmp4Props.lean`. The earliest time is false if a later frame is shown before the first, see Findings |
| C98 | the same | `Fmp4Props.lean`, with the ID3 tag of C88 |
| C99 | `Sub.lean`: subtitles of the packager (nginx-pckg-module/src/media/subtitle/subtitle_format.c, webvtt_builder.c, ttml_builder.c) with the parser of atoms (media/mp4/mp4_parser_base.c); `SubSpec.lean`: cues, readers of WebVTT and TTML | `SubTrim.lean`: an invariant of the loop: the frames so far are the cues so far |
| C100 | the same | `SubTime.lean`: times are read as they were written; `SubBox.lean`: samples; `SubVtt.lean`: lines of the file; `SubProps.lean` |
| C101 | the same | partial: `SubTtml.lean`, `SubProps.lean`. False for references of WebVTT and negative times, see Findings |
| C102 | the same | `SubBox.lean`: payload and settings are separate parts of the sample; `SubTime.lean`: length of times; `SubProps.lean` |
| C103 | `CencFile.lean`: fragments with scheme cenc (mp4_cenc_encrypt.c, mp4_dash_encrypt.c) on top of `Cenc.lean` (data) and `Fmp4.lean` (fragment); `CencFileSpec.lean`: a reader that finds `senc` and decrypts samples | partial: `CencFileBox.lean`: boxes are read as written; `CencFileRead.lean`: the fragment with the boxes added is read as the one without them; `CencFileProps.lean` |
| C104 | the same | partial: the offset in `saio` is that of the data in `senc` (`file_aux` in `CencFileProps.lean`) |
| C105 | `PckgName.lean`: the names that playlists have and the parser of names of requests; `PckgNameSpec.lean`: decoding of paths, what each name means | partial: `PckgNameProps.lean`: decoding undoes the encoding; the extension, prefix, numbers, variant and types are cut where they were joined |
| C106 C109 | `M3u8.lean`: `ngx_http_pckg_m3u8_index_build` and `ngx_pckg_media_info.c`, without encryption; `M3u8Spec.lean`: a client after RFC 8216 bis, and what there is to find | `M3u8Line.lean`, `M3u8Tags.lean`, `M3u8Head.lean`: each line is read back; `M3u8Body.lean`, `M3u8Periods.lean`, `M3u8Props.lean`: induction over segments and periods with the state of the client; `M3u8Cases.lean`: sums of durations |
| C107 | `M3u8Size.lean`: the computed size | `M3u8Fits.lean`: both passes in lock-step, lines against the room for each; the room for gaps by C38 |
| C108 | as C106 | partial: `M3u8Cases.lean`: rounding |
| C110 | `KmpRtmp.lean`: `ngx_kmp_rtmp_amf.c`, `ngx_kmp_rtmp_encoder.c`, the functions of `ngx_kmp_rtmp_stream.c` that write, `ngx_kmp_rtmp_upstream_write_connect`. A buffer is an array of bytes; writing or moving outside of it is undefined behaviour | `KmpRtmpChunk.lean`: the moves from the end, as a cut of the body; `KmpRtmpMem.lean`: sizes and writes of AMF; `KmpRtmpConn.lean`: induction over events |
| C111 C112 | as C110; `KmpRtmpSpec.lean`: the messages of each event; the sender and receiver of C65 | partial: `KmpRtmpSend.lean`, `KmpRtmpLanes.lean`: each chunk stream has its last header as the sender has; `KmpRtmpProps.lean`: induction over events; composition with C65 |
| C113 | as C110; `KmpRtmpSpec.lean`: a reader of FLV tags | `KmpRtmpProps.lean`: decision logic |
| C114 C115 | `RtmpKmp.lean`: `ngx_rtmp_kmp_av` and `ngx_rtmp_kmp_track.c` from a message to KMP packets; buffers of a message are lists; signed overflow of 32 bits is undefined behaviour. `RtmpKmpSpec.lean`: a reader of FLV tags, the packets, exact times | partial: `RtmpKmpRead.lean`: headers over cut buffers; `RtmpKmpRun.lean`: induction over messages; `RtmpKmpProps.lean`: both tracks; the correction of AAC times as arithmetic with rounding |
| C116 | the receiver of C65 | `RtmpLen.lean`: invariant over runs of the receiver |
| C117 | the models of C110, C65 and C114 | partial: `RtmpKmpTrip.lean`: composition of C112, C113, C116 and C114 |
| C118 | `Syncer.lean`: `ngx_live_syncer.c` without saving and counters; signed overflow is undefined behaviour. `SyncerSpec.lean`: the rule for what is seen of one track | `SyncerProps.lean`: each action of a frame against the rule; induction over runs with a state for what is known of the last frame |
| C119 | the same; a source with a constant offset, jitter and wraps per track | partial: `SyncerLip.lean`: invariant over runs: corrections of channel and tracks are one number plus wraps |
| C120 | the same; frames that are kept | partial: `SyncerBack.lean`: the log holds the last three syncs; the search finds the sync of the last frame that was kept |
| C121 | `Cbc.lean`: `aes_cbc_encrypt.c` with the writes of the head and the frames; OpenSSL is modelled as CBC with a buffer of part of a block, use after the end is undefined behaviour. `CbcSpec.lean`: decryption and removal of padding | partial: `CbcProps.lean`: what came out and what is pending is CBC of what went in; decryption undoes CBC by induction over blocks |
| C122 | `Cbcs.lean`: `mp4_cbcs_encrypt.c` for one track, one call per frame. `CbcsSpec.lean`: decryption of samples | `CbcsUnits.lean`: the output buffer holds what was written; induction over frames |
| C123 | the same; slice parsers are a parameter, of which is assumed that the header alone decides | partial: `CbcsProps.lean`: the loop of encrypted and clear parts writes the pattern; `CbcsUnits.lean`: units, frames, segments |
| C124 | `Rbsp.lean`: `avc_hevc_parser_emulation_prevention_decode`. `RbspSpec.lean`: escaping and its reverse as in the standards | `RbspProps.lean`: the window of three bytes agrees with the count of zeros before, by induction |
| C125 | the same, and `avc_hevc_parser_emulation_prevention_encode_bytes` with its use at the end of slice header parsers | partial: `RbspProps.lean`: the count is the number of bytes `esc` adds |
| C126 | `Rbsp.lean`: `bit_read_stream.h`, `read_stream.h` and the Exp-Golomb readers; overflow of `int` is undefined behaviour, `signed char` wraps. `RbspSpec.lean`: codes | `RbspBits.lean`: the bits to come are the low bits of the current byte and those of the rest; each reader takes its code off; induction over elements |
| C127 | `CodecCfg.lean`: the avcC functions of `codec_config.c` and their use in `ngx_pckg_ksmp.c`; reads and writes outside the buffers are undefined behaviour. `CodecCfgSpec.lean`: records of ISO 14496-15 | partial: `CodecCfgProps.lean`: both loops agree with the list of units, in both directions, by induction |
| C128 | the same for hvcC | `CodecCfgProps.lean`: induction over units and arrays |
| C129 | `AacCfg.lean`: `codec_config_mp4a_config_parse` over the bit reader of C126. `AacCfgSpec.lean`: the configuration of ISO 14496-3 as bits | partial: `AacCfgProps.lean`: each field takes its bits off; a cut leads to the end flag |
| C130 | `SampleAes.lean`: `sample_aes_avc_filter.c` over the OpenSSL of C121; more output than the block on the stack is undefined behaviour. `SampleAesSpec.lean`: the player | `SampleAesProps.lean`: the loop is a fold over bytes, so cuts do not matter; induction over the pattern; `unesc_esc` of C124 |
| C131 | `FrameEnc.lean`: `frame_encrypt_filter.c` over the OpenSSL of C121. `FrameEncSpec.lean`: the player | `FrameEncProps.lean`: invariant over the bytes so far (lead, encrypted, trail) |
| C132 | `Eac3Enc.lean`: `eac3_encrypt_filter.c` in front of the filter of C131. `Eac3EncSpec.lean`: sync frames and the player; that the chain goes on between sync frames is taken from the code, as the text of Apple was not at hand | `Eac3EncProps.lean`, `Eac3EncAny.lean`: invariants over the place in the sync frame, with the sync frames given and with any data |
| C133 | `Segmenter.lean`: `ngx_live_segmenter_get_segment_times`. `SegmenterBestSpec.lean`: the best of a list of times with spans. Which times are considered, and their spans, are those of the model | `SegmenterBest.lean`: the two loops give the least span and the closest time, by induction |

More properties are appended as the model grows; the table is extended with them.

## Parts of /repo that are not modelled

KMP sender: republish over HTTP (its answer is an input of the model), timers, the keep-alive of idle connections,
JSON status, audio/video transcoding of headers; sends are modelled as an arbitrary number of accepted bytes.

Timelines: failures to allocate, copies of timelines (`ngx_live_timeline_copy`), saving and restoring, JSON, events, the timer of
the cleanup, `last_accessed`, the expiry threshold.

Segmenter: the chains of buffers of the frames and their release, acks, bitrates, the JSON status, saving and restoring, the low latency
segmenter (`ngx_live_segmenter_ll.c`); int64 arithmetic is on unbounded integers.

RTMP: the handshake, what the handlers do with messages other than changing the chunk size (they are any function of the messages), the
output, failures to allocate, counters of bytes, acks and pings. The specification that C65 refers to is the text "Adobe's Real Time
Messaging Protocol" 1.0; it is not in /repo.

AMF: `NGX_RTMP_AMF_CONTEXT`, which no template that is compiled uses; Date, LongString and other types, which the code refuses. RTMP output: the
queue of a connection and the socket.

MPEG-TS: the writing side of ngx_ts_stream.c (1109-1545), which only unused code calls; dump files; the fields `pcr`, `video` and `ptsf`, that nothing
reads; failures to allocate other than the limit of memory. MPEG-TS to KMP: MP3, AC-3 and Opus; the parsers of parameter sets (ngx_ts_heavc.c,
ngx_ts_avc.c, ngx_ts_hevc.c), of which only noted findings are below; the writing of the KMP packets, which succeeds; publishing; int64 times are
unbounded integers.

Transcoder: all but the maps of acks and the skipping of an offset (decoding, filters, encoding, configuration, queue, dropper).

Packager fMP4: init segments (mp4_init_segment.c), encryption other than cenc (cbcs, AES-128), the writer for one unit in each frame
(`single_nalu_per_frame` is always false), the source of trimmed cues (in the model the data of the
frames of every track is one range of memory), allocation failures.

Packager subtitles: the sources of frames (a frame of the model has its data), lists of frames in parts, overflow of `int64_t`, a timescale of 0,
the response headers (ngx_http_pckg_webvtt.c), allocation failures.

Packager media playlists: keys of encrypted channels, the choice of the container, the estimators of bitrates and `ngx_gmtime` (they are any
functions), directives with variables (their values are inputs), master playlists.

KMP to RTMP: the handshake, what the server answers, timers, the queue of the connection (`ngx_kmp_rtmp_upstream_get_buf` and the writes are one
buffer each), the merge of tracks by time (events come in any order), the scaling of times, doubles (`dbl` is any function to 8 bytes) and
`ngx_gmtime` (any function).

RTMP to KMP: inactive tracks, limits of memory, the HTTP call that publishes (it succeeds), timers, what the codec
module reads from configurations (any values), `ngx_kmp_out_float_to_rational`, overflow of 64-bit times.

Syncer: saving and restoring, counters, JSON, wrap of the sequence number of the log, overflow of settings times the
timescale.

AES-128 and cbcs: OpenSSL itself, the pool of buffers, failing allocations and callbacks; in cbcs segments of several tracks, frames that come in
several calls, the slice parsers (avc_parser.c, hevc_parser.c), the boxes of the fragment.

H.264 and H.265 parsers: the parsers of parameter sets and slice headers themselves (the number of bytes they read is a parameter); pointers two bytes
before the end of a buffer of less than two bytes; failing allocations.

Codec configuration: `codec_config_hevc_config_parse`, codec names, extra data of other codecs; what follows the base configuration of AAC.

Packager MPEG-TS: `interleave_frames`, the split of frames into NAL units before SAMPLE-AES, what is sent before the end of a segment, reading from the sources of frames, numbers that
overflow 32 or 64 bits, failures to allocate.

Configuration parsing, logging, HTTP plumbing, timers, allocation failure paths that only
abort, and everything not listed in the table above.

## Mutation tests

`seeded/LOG.jsonl` has a line for each wrong program that was tried. `theorems_failed` names the declarations at which `lake build` stopped; modules
that import them were not built then, so a theorem of the manifest that depends on a failed lemma is not named again. A failure shows that the edit is
noticed: the lemma is false, or its proof follows the definition so closely that it has to be done again. It is no proof that the theorem of the
manifest is false for the wrong program. Lines with no failed theorem are edits that were not noticed; where `claim_broken` says "none", the edit does
not break a claim. Of the segmenter some edits are still not noticed, as no property is about them: the state of a track that waits, the split flag at
frames that are no key frames, the merge of candidates, waiting for pending tracks, and the threshold after the last track was freed.

## Findings: places where the code does not have a listed property

- C07 (ngx_lba.c). The allocator tests `bin->queue.next == NULL` to learn whether a bin is in the
  active queue. nginx clears the links of a removed element only with NGX_DEBUG, so in release
  builds a bin that left the queue never comes back and free buffers are not reused
  (`Verif.Lba.release_maps_too_much`).
- C07 (ngx_lba.c). When a block holds a single buffer (buffers of 256K or more),
  `ngx_lba_block_free` unlinks the sentinel of the active queue: the next allocation dereferences
  NULL with NGX_DEBUG (`single_buffer_crash`), or allocations start to fail for ever without it
  (`single_buffer_fails`).
- C12 (ngx_persist_write.c:689-718). `ngx_persist_write_chain` has a branch for an empty second
  output, but `ngx_persist_write_close` returns NULL for it, so chaining an empty output fails
  (`Verif.Persist.chain_empty_refused`).
- C33 (ngx_persist_read.c:80-155). When `uncompress` fails, `ngx_persist_read_inflate` calls `ngx_free` on
  memory that came from `ngx_palloc` if a pool was given, as the packager does (ngx_pckg_ksmp.c:1612):
  a response with a valid header and damaged compressed data corrupts the heap
  (`Verif.Persist.pool_inflate_ub`).
- C14 (ngx_json_parser.c:597-610). `ngx_json_parser_int` applies the minus sign to the array element even
  when the number was refused, so it negates memory that was never written; with the smallest int64 in it
  this is a signed overflow (`Verif.Json.int_overflow`).
- C35 (ngx_json_parser.c:697-730). A surrogate pair of `\u` escapes is decoded as two three-byte sequences
  (CESU-8) and not as one four-byte UTF-8 character (`Verif.Json.surrogate_pair_wrong`).
- C17 (ngx_kmp_in.c:192-237), not against the property but noted: a connect packet in the middle of a stream is
  not refused; 88 bytes of its header are given to `connect_data` as data, with the header of the first connect
  packet (an example in `Verif/KmpInNodes.lean`).
- C20 (ngx_kmp_out_track.c, `ngx_kmp_out_track_append_all` and the choice of the upstream with the fewest acks).
  The upstream whose position limits the release of buffers is chosen by `acked_frame_id` alone. Two upstreams with
  the same id can be at different bytes (one has acked a media info or a null packet by itself, the other has not);
  the first in the list wins, and buffers the other one needs are released (`Verif.KmpOut.tie_releases`).
- C21, C22 (ngx_kmp_out_upstream.c, `ngx_kmp_out_upstream_auto_ack` and `ngx_kmp_out_upstream_send_buffered`).
  Under memory pressure, or with the last written policy, the acked position can pass the position up to which
  packets were handed out. A connection that starts before the next flush announces the acked frame id, and the next
  flush then sends packets that were acked already; `sent_base` is off by the same number of bytes, and acks of frames
  that were never sent are accepted (`Verif.KmpOut.skewed_wire`, `skewed_ack`).
- C20 (ngx_kmp_out_upstream.c, `ngx_kmp_out_upstream_auto_ack`). With a policy other than last acked, an automatic ack
  that meets an end of stream takes its header from the reader without counting it; the next automatic ack reads
  behind the written bytes (`Verif.KmpOut.eos_overread`).
- Noted, no property: `ngx_kmp_out_upstream_auto_ack` returns 0 when the first packet it acks ends its budget, so the
  watermark code stops without releasing the buffer; and `ngx_kmp_out_upstream_from_json` uses the upstream after a
  connect that succeeded at once may have freed it.
- C23 (ngx_kmp_in.c, `ngx_kmp_in_frame` with `wait_key`, and ngx_live_segmenter.c:3327-3359). The media info that is
  resent after a reconnect makes the receiver wait for a key frame. When no frame is skipped, non-key video frames that
  were never delivered are dropped, although they follow directly on what the application kept
  (`Verif.KmpLink.video_lost_after_reconnect`). The theorems on C23 therefore speak of the frames that are `Due`.
- C23 (ngx_live_segmenter.c:3346-3354). When the sender resumes more than `max_skip_frames` before the next frame of the
  receiver, nothing is skipped and frames arrive twice; an example in `Verif/KmpLinkCases.lean`. The model excludes it.
- C24 (ngx_live_input_bufs.c:570-587), not against the property: `ngx_live_input_bufs_track_free` detaches the buffer
  queue also when another track is linked to it. The other track then takes its next buffer from a NULL memory counter
  (`Verif.InputBufs.get_after_linked_free`). With the filler, which links to tracks of another channel, this happens when
  the source track receives after the filler track was freed. Also the memory of the source channel is not given back.
- C26 (ngx_live_segment_list.c:339-351). In closest mode a time in the second half of the last segment gives the index
  behind the last one, which does not exist, and an iterator from which reading is undefined behaviour
  (`Verif.SegmentList.closest_past_end`). At the end of a period it gives an index and a time of no segment, while the
  iterator reads the first segment after the gap (`closest_gap`). With times that go back the lookup can miss a segment
  (`times_back`); the segmenter does not make such times (ngx_live_segmenter.c:2354-2357), and the theorems ask for that.
- C28 (ngx_live_segment_list.c:595-645). Only the first period of a file is compared with the last index of the list.
  A later period in the same file may have an index that is there already, and the tree then has two nodes with the
  same key (`Verif.SegmentList.indexes_back`).
- C28 (ngx_live_segment_list.c:653-672, 692-709, 748-766). Duration times count, and its sum with the time of the period,
  are computed as signed 64 bit numbers from the file without a check (`Verif.SegmentList.overflow`).
- C28 (ngx_live_segment_list.c:619, 650-677). When the announced range ends at 2^32 - 1 the end of the range wraps to 0, and
  two joined runs can get the count 0 (`Verif.SegmentList.count_wraps`).
- C30 (ngx_live_segment_info.c:823). The last bitrate is restored as `bitrate * 100` in 32 bits, while it is kept in 64
  bits otherwise. After 42,949,673 bit/s or more it is wrong; after 2^30 bit/s it is 0, a gap after the restart is then not
  recorded, and the query answers that the gap has media (`Verif.SegmentInfo.restored_bitrate_wraps`).
- C29 (ngx_live_segment_info.c:78-90, 219). A lower bound of 0 percent is accepted; then media is never recorded and the
  query answers that there is none (`Verif.SegmentInfo.lower_bound_zero`). The theorems ask for a bound above 0.
  An empty range can be answered with yes (`empty_range`), and with gap tracking off the answer is always yes (`gaps_off`).
- C31 (ngx_live_segment_index.c:552-558). When the write of a segment fails its snapshot is acked at once, also while an earlier
  segment is still being written; a comment in the code says so. A crash before that write ends loses frames that were acked
  (`Verif.SegmentIndex.acked_early`). Acks are also sent when the write of the index file fails (ngx_live_persist_index.c:684-737).
- C31, not against the property (ngx_live_segment_index.c:126-128, 560-572). A segment that is in no timeline and is being read when it
  is completed stays in the queue of pending segments, also after the reader is gone. Snapshots of later segments are handed to it, and no
  frame is acked until the segment is behind the window of the timelines (`Verif.SegmentIndex.held_up`).
- C40 (ngx_live_segment_index.c:165-186, 612-660). The index 0 stands for none in `truncate`, so a lost first segment stays in the timelines
  (`Verif.SegmentIndex.first_segment_lost`).
- C41 (ngx_live_segment_index.c:817-819). `ngx_live_segment_index_channel_free` closes a snapshot without resetting the pointer to it. When the
  index is in the queue of pending ones and the write of a later segment is cancelled after it, the snapshot is closed again, which
  destroys its pool twice (`Verif.SegmentIndex.channel_free_twice`).
- Noted, no property: ngx_live_persist_index.c tests the snapshot of frames for NULL, while the function that makes it returns
  `NGX_LIVE_PERSIST_INVALID_SNAP` on failure. `ngx_live_segment_index_get_first` and the queues rely on indexes being created in ascending order.
- C45 (ngx_live_timeline.c, `ngx_live_manifest_timeline_remove_segments` is called before `ngx_live_manifest_timeline_post_add_segment`). The rule
  that a live playlist keeps three target durations uses the target before the new segment. When the new segment is longer the
  playlist can have less than three of the new target durations, against RFC 8216 section 6.2.2 (`Verif.Timeline.three_targets_fails`).
- C46 (ngx_live_timeline.c). With `target_duration_segments` set, later segments may be longer than the announced target
  (`Verif.Timeline.target_fixed_fails`); this is the meaning of the setting, and the property excludes it.
- C48 (ngx_live_timeline.c:1754-1855). A timeline that announced its end still admits segments while it is active (`Verif.Timeline.ended_grows`).
- C42, not against the property: a segment that leaves the playlist in the call that adds it takes no media sequence number, while its
  period takes a discontinuity number (`Verif.Timeline.dropped_takes_no_number`).
- C43, not against the property (ngx_http_live_ksmp_module.c:1646-1690): `max_segment_index` is compared with the first segment of the
  timeline and not of the playlist, so a response without any segment is possible (`Verif.Timeline.empty_response`).
- C49 (ngx_live_timeline.c:851-900). The number of the first segment of a period is counted back from the last number with the segments of
  the timeline. Segments that left the playlist in the call that added them took no number but are counted, so the count can wrap below
  zero, and the index is then wrong (`Verif.Timeline.number_to_index_fails`).
- Noted, no property: `ngx_http_live_ksmp_wait_write_handler` checks that the channel still exists when a waiting request goes on, but
  not the pointer to the timeline, which can have been freed between the notification and the posted event.
- C51 (ngx_live_timeline.c:3475). `sp->last_skipped_index = segment_index--` stores the index of the first segment listed, not of the last
  one skipped, when both are in one period (`Verif.Timeline.last_skipped_fails`). The packager compares the media info of this index to the
  one of the first segment listed (ngx_http_pckg_m3u8.c:2317): when the media info changes exactly there, the playlist has no EXT-X-MAP
  for the new one.
- Noted, no property: the product `skip_boundary_percent * target duration` has 32 bits (ngx_live_timeline.c:3356-3359) and can wrap for a
  large timescale; the boundary is then shorter than configured. C51 speaks about the boundary after this computation.
- C53 (mp4_cenc_encrypt.c:406, 638). The clear size of a subsample is passed as 16 bits. A unit that is not a slice and has 64 KB or more
  with its size (a large SEI, filler data) gets a wrong size in the auxiliary data, and players cannot decrypt the frame
  (`Verif.Cenc.large_unit_fails`). The standard wants several subsamples then.
- C53 (mp4_cenc_encrypt.c:434). The sizes of auxiliary data are stored in one byte without a check: with more than 40 units in a frame the
  list of sizes is wrong (`Verif.Cenc.many_units_fail`).
- C53, C54 (mp4_cenc_encrypt.c:516, 692, 903, 932). When the last frame is empty, the loop ends before the frame is reached, so that the
  rest of the output is not flushed, and the header of a video fragment is not written (`Verif.Cenc.empty_last_fails`,
  `Verif.Cenc.audio_empty_last_fails`).
- C55 (mp4_cenc_encrypt.c:88-90). IVs are numbered with 60 frames for each second. With more than 60 the IVs of a segment go on into the next
  one: video with 120 frames per second, but also AAC with 64 kHz or more (`Verif.Cenc.fast_repeats`, `Verif.Cenc.fast_audio_repeats`).
- C55 (ngx_http_pckg_enc.c:136-200, 781). By default all tracks of a channel have the same key and IV, and IVs depend only on the time: frames
  of different tracks are encrypted with the same key stream (`Verif.Cenc.tracks_repeat`).
- C58 (ngx_live_segmenter.c:1027-1034). When the frame after the segment is not known, or starts a period, the duration of the last frame is
  the average of the others. The code takes it from `start_dts`, from which the shift of decode times was subtracted, but the dts of the
  last frame was not shifted: the estimate is too long by shift / (count - 1), and the segment ends too late by the same amount
  (`Verif.Segmenter.last_duration_too_long`).
- C59 (ngx_live_segmenter.c:2642-2658). `dispose_segment` takes a track with `copy_index` above zero as one that removes frames. For a
  subtitle track `remove_index` can be zero at the same time, while a cue is shown over the end of the segment. When the other tracks give
  no frames to the segment, nothing changes and the loop of `create_segments` never ends: the worker process hangs
  (`Verif.Segmenter.loop_hangs`). Eight messages are enough: a cue of 5 seconds, and a video track with B-frames that changes its media
  info after two frames. Without the subtitle track the same video ends the channel with "no frames removed".
- C60 (ngx_live_segmenter.c:853-881). `remove_index` is the number of cues that ended, but it is used to remove that many cues from the start
  of the list. When a cue ends before an earlier cue does, the cue that is still shown is removed, and missing in the next segment; the one
  that ended stays, and is sent again (`Verif.Segmenter.cue_lost`).
- Noted, no property: in `create_segments` `split_pts = 0` means that the indexes were not computed; a segment that ends at time 0 would use
  stale indexes. It cannot happen, since segments have a length and no segment starts before 0.
- C63 (ngx_live_segmenter.c:3231-3251). The time of a frame is compared with the last frame only when the track has pending frames. A
  track that stops has all its frames in the next segment, while other tracks go on; when it comes back with an earlier time, the two
  consecutive segments of the track go back in time in one period (`Verif.Segmenter.jump_missed`, with the default thresholds).
- Noted, no property: `ngx_live_segmenter_fill` stores `min_split_pts - start_pts` in 32 bits without a sign; when the split is before the
  start of the segment (frames that are not in the order of presentation) the filler gets a very large maximum.
- C65, first (ngx_rtmp_handler.c:454-478). With `type3_ext_ts auto`, the default, the first chunk of type 3 that has an extended timestamp
  decides whether all do: its first four bytes are compared with `s->last_timestamp`, the last timestamp of any chunk stream, not of its
  own. When the start of a message on another chunk stream comes between, a sender that follows the specification is taken for one that
  does not: the timestamp becomes part of the payload, and all later messages are wrong (`Verif.Rtmp.not_delivers_auto`). Times need to be
  above 4.6 hours, and two chunk streams to be interleaved, as audio and video are.
- C65, second (ngx_rtmp_handler.c:483-499). When a message that starts with type 3 follows one that started with type 0, the specification
  (5.3.1.2.4) says that the difference of times is the time of the former. The code has set `dtime` to 0, so the second message gets the
  time of the first (`Verif.Rtmp.not_delivers_type3`).
- C65, third: what is proved is for handlers that do not depend on how the payload is cut into buffers. The handler of protocol messages does
  (ngx_rtmp_receive.c:25-32): it looks at the first buffer only. With a chunk size below 4 a message that sets the chunk size is ignored.
- C66 (ngx_rtmp_handler.c:977-979). A change of the chunk size overwrites `in_old_pool`. When it still has a pool, which is so as long as
  bytes of the old buffers are left, that pool is never destroyed, not even when the connection ends. 48 bytes in one packet are enough
  to lose a pool (`Verif.Rtmp.not_released`), and they can be repeated: a peer can use up the memory of the server.
- C67 (ngx_rtmp_handler.c:410-424, 523). A header of type 0 or 1 in the middle of a message changes its length. When the new length is below
  what was received, `fsize` wraps around to almost 2^32 and the message never ends: its chunks are kept, whatever `max_message` is
  (`Verif.Rtmp.not_bounded`).
- C70 (ngx_rtmp_amf.c:318-478, 176-255). Objects and arrays are read by recursion without a limit on the depth, also when no element wants
  them. Four bytes are enough for a level, so a message of the default maximum of 1 MB nests 262144 levels of two functions each, which is
  more than the stack of a process (`Verif.Amf.not_depth_bounded`, `Verif.Amf.reading_depth_is_not_bounded`). The first read of every
  message, the name of the command, is affected: a peer can end the worker process before it is authenticated.
- Noted, no property (ngx_rtmp_handler.c:699-713): a message with the time of the one before gets a header of type 3 when a last header is
  passed, which a receiver takes as a repeated difference of times (`Verif.RtmpSend.repeated_time_needs_a_repeated_difference`). The only
  caller that passes one is not compiled (ngx_rtmp_live_module.c:804).
- C75 (ngx_ts_stream.c:910-917). A transport packet without payload has the counter of the packet before it (ISO 13818-1, 2.4.3.3), and so
  has a packet that is sent twice. The code takes every counter that is not one more for a gap, and drops the PES packet: a stream
  with packets that carry only a PCR on the pid of the video loses frames (`Verif.Ts.Cases.packets_without_payload_lose_data`,
  `not_pes_received`).
- C75. A PES packet is received when the next one of its stream starts. The end of a connection does not flush, so the last one of every stream is
  never received (`Verif.Ts.Cases.the_last_is_not_received`).
- C76 (ngx_ts_stream.c:888-917). When the last transport packets of a PES packet without written length are lost, what came of it
  is received as if it were whole, and the PES packet after it, that had no losses, is marked as corrupt and dropped
  (`Verif.Ts.Cases.a_truncated_packet_is_received`, `not_received_was_sent`).
- C77, noted (ngx_ts_stream.c:591-874): the CRC of tables is not checked (`Verif.Ts.Cases.the_crc_is_not_checked`), nor are the table id and
  the current_next_indicator.
- C78 (ngx_ts_kmp_track.c:546-550). A frame of more than 16 NAL units is an error that ends the session
  (`Verif.TsKmp.Cases.seventeen_slices`, `not_packets_become_frames`); pictures of many slices are allowed.
- C78 (ngx_ts_kmp_track.c:560-565). When a start code ends a buffer, and the next buffer has no bytes, the type of the NAL unit is read from
  beyond that buffer (`an_empty_buffer_is_read`). A transport packet whose adaptation field takes all of it makes such a buffer.
- C78 (ngx_ts_kmp_track.c:579-586). Zeros after the last NAL unit (trailing_zero_8bits) are made a part of it (`zeros_are_kept`).
- C79 (ngx_ts_kmp_track.c:737-818). The avcC box has only the last SPS and the last PPS of the saved ones, while all of them are removed from
  the frames: a stream with two PPS can not be decoded (`two_pps_written`, `not_sets_are_announced`). HEVC is not concerned.
- C79, noted (ngx_ts_kmp_track.c:475-488). Captions that are detected after the media info was sent are not announced until the
  parameter sets change (`late_captions`).
- C80 (ngx_ts_kmp_track.c:1030-1180). ADTS frames that go on in the next PES packet, which ISO 13818-1 allows, end the session (`a_divided_frame`,
  `not_frames_are_received`). A PES packet without payload is read through NULL (`no_buffer`); the handlers of MP3 (1363) and Opus do the
  same. The number of raw data blocks is not read, so times are wrong after a frame of several (`two_blocks`).
- C80, noted (ngx_ts_aac.c:48, ngx_ts_kmp_track.c:986). The channel configuration is announced as the number of channels, but 7 stands for 8
  channels, and 0 for a number that is in the data.
- C81 (ngx_ts_kmp_track.c:343-347). A decoding time that goes back by one tick is taken as 2^33 - 1 ticks forward, 26 hours
  (`not_times_are_kept`).
- Noted, no property (ngx_ts_heavc.c, ngx_ts_avc.c): the reader of bits loads one byte beyond the end of the NAL unit; a count of
  reference frames that a damaged SPS gives (up to 2^63) is looped over, which stops the worker; the height of interlaced video is computed with the
  crop of progressive video, so 1080i is announced with 1084 lines.
- C84, noted (mpegts_encoder_filter.c:1066-1085). The packets without data that fill up to 16 have adaptation_field_control '11' (field and
  payload) with a field of 183 bytes, and thus a payload of no bytes; ISO 13818-1 allows up to 182 with a payload, and 183 only for '10', for which
  counters do not go up. What the receiver of this repository does with packets without payload is in C75.
- C83, noted (adts_encoder_filter.c:68). AAC frames of 8185 bytes or more get an ADTS header with the length modulo 8192. A PES packet of audio or
  ID3 with more than 65535 bytes gets the length 0 (mpegts_encoder_filter.c:1107-1116), which is allowed for video only.
- C82, noted (mp4_to_annexb_filter.c:188-308). A NAL unit that ends after the end of the frame, and one of no bytes at the end of it, are accepted
  without an error.
- C85 (mpegts_encoder_filter.c:1371). The counter of ID3 starts with the number of the segment and is not filled up, so it goes on only if each
  segment has one packet of ID3: text of more than 149 bytes is over two packets (`not_counters_go_on`).
- C86 (buffer_filter.c:79-171, 311-339; mpegts_muxer.c:704-733). With `pckg_mpegts_align_frames off` the size that is announced is wrong for some
  segments (9400 bytes are written and 6392 announced, `not_size_without_alignment`), which breaks the HTTP response. The header of the next
  PES packet is then written into a packet that has another PES header. With NAL unit lengths of 1 or 2 bytes the simulation takes the size of
  the frame for that of its output, though start codes need more (`not_size_of_short_lengths`).
- C88 (mpegts_encoder_filter.c:66). PCR_PID is the constant 0x100 of the template; `pmt_set_pcr_pid` is not called. In a segment without video the
  PCR is on pid 0x101 (`not_pcr_pid`).
- C87, noted (mpegts_encoder_filter.c:553). The ids of video streams go on after 0xef, which is the last of video.
- C90 (audioAckMap.cpp:233-256, 166-169). The end of the output frame is compared with the first filtered frame it was made from, so an output
  frame that needs two filtered frames is made shorter; and if the last run has more than one frame the correction itself is pushed as
  duration, not the corrected duration. With frames of 1024 samples in and 960 out (AAC to Opus) the second frame gets -896 samples, and acks name
  input long before the right place: after a break audio is sent twice (`not_filtered_exact`).
- C91 (audioAckMap.cpp:63-64, 84-85). If the first packets of a session are not decoded, the history starts with a run of duration 0, and the first
  ack divides by zero, which ends the process (`skip_crashes`).
- C91 (audioAckMap.cpp:47-57, 71-79). `m_lastFrame` of the input is the last frame, not the next one, so a second frame of one packet has distance
  0, not -1, and is counted as one more frame: all later acks are one packet too far, and after a break a packet is lost (`not_split_exact`).
- C92 (videoAckMap.cpp:31). The number of frames to skip is computed as key minus frame, modulo 2^32: 4294967294 for two frames. A session that
  starts there drops all frames (`not_video_exact`, `offKey_drops`).
- C92 (videoAckMap.cpp:54-57, ackHandlerInternal.cpp:52-56). An ack of a frame that is not a mapped key frame is passed on with the id of the
  output as if it were an id of the input. If there are no mappings yet, the log line reads the front of an empty deque
  (`not_video_ack_of_any_frame`). Old acks of audio are passed on in the same way (`AckCases.lean`).
- C93 (transcode_session.c:600-632). The samples that are skipped at the start of a session are taken from the frame before the map is told of it, so
  positions within the first frame of a second session lack the offset: audio is sent twice after the next break (`not_resume_twice`).
- C96 (mp4_muxer.c:920-923, 1024-1027). A base time before 0 is written as 0, which moves all frames of this track, but not those of other tracks
  (`times_fail_negative`).
- C96 (mp4_muxer.c:252-259, 440, 482-486). The duration in the entry of a cue is the time it is shown, and its composition offset is its distance
  from the first cue; a reader adds the durations of the cues before to that, so the second cue of a segment is late by the time the first one is
  shown (`times_fail_cues`).
- C97 (mp4_muxer.c:718-736). The earliest presentation time is that of the first frame, also if a later frame is shown before it (leading
  pictures of open groups of pictures) (`not_index_exact`).
- fMP4, not a violation with present callers: `mp4_muxer_reset` (mp4_muxer.c:630-645) does not reset `last_frame_size`, so a second header built from the
  same state would read `cur_frame_output_offset[-1]` before the array.
- C101 (ttml_builder.c:47-78, 162). The text of a cue is copied into XML with its references. WebVTT has `&nbsp;`, `&lrm;` and `&rlm;`, which XML does
  not have; a client that reads the document as XML fails on the whole segment (`not_ttml_claim`).
- C101 (ttml_builder.c:34-44). A time before 0 is converted to `uint64_t` before it is scaled; the paragraph gets a time more than a million hours later
  (`ttml_negative`). WebVTT has no such problem, as it takes times modulo 2^33.
- C100 (webvtt_builder.c:31-54). ISO/IEC 14496-30 allows several cues in a sample; of these only the last text is shown, with the settings of the last
  cue that has some (an `example` in `SubCases.lean`). C100 is for samples with at most one cue, as README.md has them.
- C103, C104. The findings of C53 and C54 for whole files: with an empty frame at the end a video response has no header at all
  (`empty_last_no_header`) and the data of audio is cut (`audio_empty_last_cut`); with more than 40 units in a frame nothing is found by `saiz`
  (`many_units_aux`), while `senc` is right.
- C105. Three kinds of names are not found. Files of fMP4 of a variant with the id `tpp` and all media types: the end of `seg-1-stpp.m4s` is
  taken for the subtitle format `-stpp`, and the request is refused (`name_found_fails_tpp`). Segments of MPEG-TS of a playlist whose types
  are, say, video and subtitles: `-vt.ts` is refused (`name_found_fails_types`). Ids with a zero byte, which the channel accepts
  (`name_found_fails_zero`). Also, the check that a key is of one variant is left out when the name ends with the variant
  (`key_two_variants`).
- C106 (ngx_http_pckg_m3u8.c:2273-2276). A timescale that is not a multiple of 1000 gives wrong durations: with 1500 all are half as long again
  (`scale_wrong`); a comment in the code says that there is drift. A timescale below 1000, which the configuration accepts, is a division by
  zero (`scale_ub`).
- C106 (ngx_http_pckg_m3u8.c:1874-1879). A bitrate below 2 kbps gets no tag; the client keeps the one of the segment before.
- C108. A segment of 6.49995 s may have the duration 6.500 in the playlist, as the ends of segments are rounded down, while the target
  duration is rounded to 6 (`not_target_full`).
- C111 (ngx_kmp_rtmp_encoder.c:529-536, 1131-1170). Continuation chunks do not repeat the extended timestamp (RTMP 5.3.1.3). It is there for the
  first frame on a connection when its time is above 4.66 hours, and when times go back (`not_conform`). nginx-rtmp copes by default.
- C112 (ngx_kmp_rtmp_stream.c:490). The chunk stream id is 3 plus the number of the stream, which is never used again; from the 61st stream on it
  does not fit into the 6 bits of the header and its messages are on a wrong chunk stream or not readable (`not_received`).
- C111 (ngx_kmp_rtmp_encoder.c:1116). A frame of 16 MB, the most that KMP allows, plus its header does not fit into the 24 bits of the length. The
  configuration allows a chunk size up to 0xffffff, nginx-rtmp only 10485760. Strings above 65535 bytes get a wrong length in AMF.
- C111. After the metadata was sent, a new media info of a track (other extra data) sends no new sequence header (ngx_kmp_rtmp_stream.c:370-372); only
  `sound_info` changes. The name of the metadata is "@onMetaData" (ngx_kmp_rtmp_encoder.c:113-114).
- C114 (ngx_rtmp_kmp_track.c:428-430). The difference of two times is computed as `int32_t` from two `int32_t`; when a stream crosses 2^31 ms, 24.8 days
  on the clock of the encoder, that is signed overflow (`not_any_times`). With the usual wrap it does the right thing.
- C115. The first AAC frame is not corrected, because the correction runs before the media info is there; the count of samples starts at the second
  frame (`not_exact`). With a margin not less than a frame and a stream that starts at 0, the first two frames get the same time (`same_start`).
- C114. Video frames other than H.264 without extended header never have the key flag; a packet type 4 of the extended header (metadata) and the
  command frames of FLV (frame type 5) are sent as frames. A timescale that is no multiple of 1000 scales times by the rounded factor.
- C119 (ngx_live_syncer.c:15-16, ngx_live.h:37-40). `ngx_round_to_multiple` is computed without sign, because the timescale is a `ngx_uint_t`; a track
  whose times are one or more wraps ahead of the first does not get the correction of the channel (`not_together`). A timescale below 1000 makes it
  divide by zero.
- C119. A channel starts with the correction 0, which is taken for the correction of an earlier source; a source that is about 10 s behind the clock
  gets 0 for one track and its own for another (`not_near`).
- C118 (ngx_live_syncer.c:339-345). A video track whose first frames are no key frames hands them on with the correction 0; `pts_diff` is computed from
  the invalid time LLONG_MAX and overflows if the first time is negative.
- C120 (ngx_live_syncer.c:537-584, 790-830). When no entry is older than the next frame, the track is reset but its log is kept; of two entries with the
  same frame id the one with the lower index wins, so that a later reconnect may bring back the correction of a lost frame (`not_resumes`).
- C121 (aes_cbc_encrypt.c:131-184, mp4_muxer.c:1255-1262). A write of size 0 means the end of the segment; a frame without data is written that way by
  the fMP4 muxer, so padding comes in the middle and OpenSSL is used after the end (`not_serves`). A write near 2^32 bytes makes the rounded size wrap.
- C123 (mp4_cbcs_encrypt.c:350, 420-463, 598-632). The end of a unit is seen only when the loop runs again; when the last unit of a segment has one byte
  (an end of sequence in H.264), or is a slice of 18 to 128 bytes with less than 16 bytes after its header, the output buffer is not flushed and the
  segment is truncated (`not_videos`).
- C122 (mp4_cbcs_encrypt.c:170-206). The full blocks of an audio frame must fit one output buffer; larger frames are refused (`audio_refused`).
- C125 (avc_hevc_parser.c:80-86). After a match the search goes on three bytes later, though the third byte may be a zero that counts for the next match;
  with five zero bytes in a slice header the size is one byte short (`not_sizes`), and sample encryption would begin within the header.
- C126 (avc_hevc_parser.h:33-41). An Exp-Golomb code with 31 or more leading zeros, which a stream may contain, shifts `1` into or beyond the sign bit
  (`not_ue`). bit_read_stream.h:44-58: the bit position is a `signed char`; skips of more than 128 bits go to a wrong position (`not_skip`), which
  is reachable with an Exp-Golomb code of that many zeros.
- C127 (codec_config.c:67, 106). The number of picture parameter sets has eight bits in ISO 14496-15, but is masked to five like that of sequence
  parameter sets; with 32 or more sets some or all are missing in MPEG-TS (`not_avccs`).
- C129 (codec_config.c:504-505). The look ahead that tells PS from an old format uses bits that may be of the extension: with an explicit sample rate in
  the extension, object type 29 is kept, where the stream is AAC-LC (`not_configs`); PS that is cut is not refused.
