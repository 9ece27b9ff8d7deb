{
 "claims": [
  {
   "property": "C01",
   "status": "proved",
   "theorems": [
    "Verif.Props.built_content",
    "Verif.Props.built_bytes",
    "Verif.Props.build_write_read",
    "Verif.Props.build_netbox"
   ],
   "note": "Hash and signature are parameters with the assumptions of Crypto.Laws (output sizes, a signature made with a key verifies)."
  },
  {
   "property": "C02",
   "status": "proved",
   "theorems": [
    "Verif.Props.read_iff",
    "Verif.Props.layout_injective",
    "Verif.Props.same_hash_same_point",
    "Verif.Props.read_parts",
    "Verif.Props.read_unchecked_is_checked"
   ],
   "note": "read_unchecked_is_checked records that lk_read_unchecked does the full check in a build without debug assertions."
  },
  {
   "property": "C03",
   "status": "proved",
   "theorems": [
    "Verif.Props.datapoint_iff",
    "Verif.Props.point_iff",
    "Verif.Props.built_size"
   ],
   "note": ""
  },
  {
   "property": "C04",
   "status": "partial",
   "theorems": [
    "Verif.Props.calc_eq",
    "Verif.Props.calc_free_space_partial",
    "Verif.Props.calc_free_space_signed",
    "Verif.Props.calc_free_space_signed_wrong"
   ],
   "note": "Exact for unsigned points. For signed points the code over-reports by 60 bytes: calc_free_space_signed states the exact value, calc_free_space_signed_wrong the counterexample."
  },
  {
   "property": "C05",
   "status": "proved",
   "theorems": [
    "Verif.Props.prefix_needs_more"
   ],
   "note": ""
  },
  {
   "property": "C06",
   "status": "proved",
   "theorems": [
    "Verif.Props.built_isPkt",
    "Verif.Props.read_stream",
    "Verif.Props.decoder_stream",
    "Verif.Props.decoder_cut"
   ],
   "note": "Both the buffer loop over lk_read and the stream decoder for any chunking; decoder_cut says what a truncated stream looks like (cut inside the first 68 bytes is reported as a clean end)."
  },
  {
   "property": "C07",
   "status": "partial",
   "theorems": [
    "Verif.Props.read_panic_iff",
    "Verif.Props.read_no_panic_partial",
    "Verif.Props.read_panics",
    "Verif.Props.read_accessors"
   ],
   "note": "The property is false of the code: read_panics. read_panic_iff is the exact set of buffers that panic."
  },
  {
   "property": "C08",
   "status": "proved",
   "theorems": [
    "Verif.Props.privateGroup_eq",
    "Verif.Props.checkPrivate_layout",
    "Verif.Props.read_private",
    "Verif.Props.write_private"
   ],
   "note": ""
  },
  {
   "property": "C09",
   "status": "partial",
   "theorems": [
    "Verif.Props.read_reroute",
    "Verif.Props.fields_reroute",
    "Verif.Props.hop_header",
    "Verif.Props.reroute_bytes",
    "Verif.Props.reroute_keypoint_wrong",
    "Verif.Props.mutate_eq",
    "Verif.Props.mutate_partial",
    "Verif.Props.mutate_wrong"
   ],
   "note": "Identity part proved. ReroutePkt over a keypoint in enum form is wrong (reroute_keypoint_wrong) and header mutation only ors the value in (mutate_eq exact, mutate_wrong)."
  },
  {
   "property": "C10",
   "status": "proved",
   "theorems": [
    "Verif.Props.space_build_iff",
    "Verif.Props.space_build_no_panic",
    "Verif.Props.space_iter",
    "Verif.Props.space_check_iff",
    "Verif.Props.space_unique",
    "Verif.Props.space_injective",
    "Verif.Props.space_check_accepts_nine",
    "Verif.Props.space_components_fails"
   ],
   "note": "The byte check does not bound the depth by 8 (space_check_accepts_nine) and components() fails on every non-empty space (space_components_fails); both are recorded as findings."
  },
  {
   "property": "C100",
   "status": "partial",
   "theorems": [
    "Verif.Props.status_cmd_exact",
    "Verif.Props.status_cmd_sound",
    "Verif.Props.status_cmd_unfit",
    "Verif.Props.status_cmd_dry",
    "Verif.Props.status_cmd_example",
    "Verif.Props.status_cmd_two",
    "Verif.Props.status_cmd_panics"
   ],
   "note": "Exact when lk_status_watch succeeds and writing does. False of the code: without --multi a stored reply and one that comes in are both written; a stored point that has links or data but not both, and arguments that do not fit a space, make it panic."
  },
  {
   "property": "C101",
   "status": "partial",
   "theorems": [
    "Verif.Props.set_answers",
    "Verif.Props.status_set_cmd",
    "Verif.Props.status_set_example"
   ],
   "note": "Exact for all readers and sequences of requests, saving assumed to succeed. False of the code: an empty record ends the command."
  },
  {
   "property": "C102",
   "status": "partial",
   "theorems": [
    "Verif.Props.lk_dir_meant",
    "Verif.Props.session_per_dir",
    "Verif.Props.runtimes_new",
    "Verif.Props.session_one_dir",
    "Verif.Props.moves_alone",
    "Verif.Props.sessions_race",
    "Verif.Props.first_stays",
    "Verif.Props.scope_stays",
    "Verif.Props.command_dir",
    "Verif.Props.dir_ignored",
    "Verif.Props.open_not_cloned"
   ],
   "note": "For all sequences of calls by any number of threads and all interleavings of the steps of get_env. False of the code: two threads that open a directory at the same time can get two sessions; a command line whose LK_GROUP is looked up works on the default directory, not on the one it names."
  },
  {
   "property": "C103",
   "status": "proved",
   "theorems": [
    "Verif.Props.group_constant",
    "Verif.Props.group_source",
    "Verif.Props.set_group_iff",
    "Verif.Props.domain_constant",
    "Verif.Props.domain_source",
    "Verif.Props.set_domain_iff",
    "Verif.Props.defaults_example"
   ],
   "note": "For all sequences of calls on all threads and all environments."
  },
  {
   "property": "C104",
   "status": "partial",
   "theorems": [
    "Verif.Props.told_exactly_partial",
    "Verif.Props.told_last_partial",
    "Verif.Props.watch_over_partial",
    "Verif.Props.told_example",
    "Verif.Props.ends_untold",
    "Verif.Props.replaced_told_closed",
    "Verif.Props.reasons_swapped"
   ],
   "note": "A callback is told exactly of the ends that are recorded as closed or stopped, with that reason, for all programs and runs; for programs whose callbacks do not process, the end is one and the last event of the watch, and what has happened before fits the reason (watch_over_partial). Missing because false: four kinds of ends are not told (ends_untold), a replaced watch is told Closed (replaced_told_closed), and Break and Finish are swapped (reasons_swapped)."
  },
  {
   "property": "C105",
   "status": "partial",
   "theorems": [
    "Verif.Props.built_wraps",
    "Verif.Props.wrap_fields",
    "Verif.Props.wrap_bytes_partial",
    "Verif.Props.wrap_box_partial",
    "Verif.Props.wrap_arc",
    "Verif.Props.wrap_keep",
    "Verif.Props.wrap_recv",
    "Verif.Props.wrap_deep",
    "Verif.Props.wrap_stale",
    "Verif.Props.wrap_example"
   ],
   "note": "Fields, point and shared copy are proved for every nesting of wrappers. The bytes and the boxed copy are proved as long as headers and parts fit in the eight segments; beyond that writing is proved to panic (wrap_deep). A shared copy made before the header is set is proved stale (wrap_stale)."
  },
  {
   "property": "C106",
   "status": "proved",
   "theorems": [
    "Verif.Props.sp_match_iff",
    "Verif.Props.sp_match_total",
    "Verif.Props.sp_match_rest",
    "Verif.Props.sp_match_literal",
    "Verif.Props.sp_match_raw",
    "Verif.Props.sp_match_example"
   ],
   "note": "An equivalence for all spaces and patterns; patterns compose. sp_match_raw shows that bytes that are no space can match."
  },
  {
   "property": "C107",
   "status": "partial",
   "theorems": [
    "Verif.Props.bus_value",
    "Verif.Props.bus_wait_partial",
    "Verif.Props.bus_never_waits",
    "Verif.Props.bus_wait_twice",
    "Verif.Props.bus_example"
   ],
   "note": "The value is proved to be the greatest emitted. Waiting is proved never to wait and, called twice, to yield 0; bus_wait_partial says exactly what a wait yields after any history."
  },
  {
   "property": "C11",
   "status": "proved",
   "theorems": [
    "Verif.Props.space_push",
    "Verif.Props.space_push_front",
    "Verif.Props.space_prepend",
    "Verif.Props.space_append",
    "Verif.Props.space_split_last",
    "Verif.Props.space_parent",
    "Verif.Props.space_split_first",
    "Verif.Props.space_first",
    "Verif.Props.space_head",
    "Verif.Props.space_tail",
    "Verif.Props.space_pop",
    "Verif.Props.space_split_at",
    "Verif.Props.space_starts_with",
    "Verif.Props.space_strip_prefix",
    "Verif.Props.space_truncate_last",
    "Verif.Props.space_scan",
    "Verif.Props.space_to_array"
   ],
   "note": ""
  },
  {
   "property": "C12",
   "status": "partial",
   "theorems": [
    "Verif.Props.rooted_of_space",
    "Verif.Props.rooted_build_iff",
    "Verif.Props.rooted_append_iff",
    "Verif.Props.rooted_check_accepts",
    "Verif.Props.rooted_access",
    "Verif.Props.rooted_injective",
    "Verif.Props.rooted_check_iff",
    "Verif.Props.rooted_check_canonical_partial",
    "Verif.Props.rooted_depth_byte_unchecked",
    "Verif.Props.rooted_depth_byte_hides",
    "Verif.Props.rooted_two_empty",
    "Verif.Props.rooting_truncates",
    "Verif.Props.rooted_one"
   ],
   "note": "Forward direction proved for all spaces; the converse is false of the code (depth byte unchecked at eight components, two encodings of the empty space). rooted_check_iff is the exact characterisation of what is accepted."
  },
  {
   "property": "C13",
   "status": "proved",
   "theorems": [
    "Verif.Props.space_text_roundtrip",
    "Verif.Props.space_text",
    "Verif.Props.space_text_injective",
    "Verif.Props.space_text_nine",
    "Verif.Props.tree_form_double_escape",
    "Verif.Props.tree_form_partial"
   ],
   "note": "Every space of up to eight components (the maximum depth), every byte value. Nine-component byte strings that the byte check lets through (finding of C10) do not read back: space_text_nine. The separate tree form used when printing queries escapes twice: tree_form_double_escape."
  },
  {
   "property": "C14",
   "status": "proved",
   "theorems": [
    "Verif.Props.tree_key_order",
    "Verif.Props.tree_value_order",
    "Verif.Props.tree_entry_fields",
    "Verif.Props.tree_entry_iff",
    "Verif.Props.tree_key_eq_any",
    "Verif.Props.pktCmp_eq_iff",
    "Verif.Props.pktCmp_tuple",
    "Verif.Props.pktCmp_data",
    "Verif.Props.tree_order_hostile_depth"
   ],
   "note": "For every pair of points whose space is rooted as the library roots it. tree_key_eq_any covers every accepted point; tree_order_hostile_depth shows that the unchecked depth byte of an eight-component space (finding of C12) takes a point out of the tuple order."
  },
  {
   "property": "C15",
   "status": "proved",
   "theorems": [
    "Verif.Props.set_conjunction",
    "Verif.Props.accepted_set_conjunction",
    "Verif.Props.set_test_panics",
    "Verif.Props.set_order"
   ],
   "note": "Every width from 2 bits, any order (set_order: the set itself is equal under permutation). Sets with contradictory masks are not accepted in the shipped profile; testing one that was built unchecked panics (set_test_panics)."
  },
  {
   "property": "C16",
   "status": "proved",
   "theorems": [
    "Verif.Props.mask_next",
    "Verif.Props.next_candidate",
    "Verif.Props.least_member",
    "Verif.Props.next_empty_panics"
   ],
   "note": "The search is exact on every set that has a member; on a set without members it panics when debug assertions are on (next_empty_panics), see also C17."
  },
  {
   "property": "C17",
   "status": "partial",
   "theorems": [
    "Verif.Props.accepted_iff_satisfiable",
    "Verif.Props.accepted_satisfiable",
    "Verif.Props.satisfiable_accepted",
    "Verif.Props.try_add_exact",
    "Verif.Props.contradiction_error_partial",
    "Verif.Props.contradictory_masks_panic",
    "Verif.Props.contradictory_masks_accepted",
    "Verif.Props.query_contradiction",
    "Verif.Props.query_accepts"
   ],
   "note": "Accepted iff satisfiable in the shipped profile. The property is false for contradictory masks: panic with debug assertions, acceptance without."
  },
  {
   "property": "C18",
   "status": "partial",
   "theorems": [
    "Verif.Props.printed_same_partial",
    "Verif.Props.printed_text_same_partial",
    "Verif.Props.printed_canonical_same_partial",
    "Verif.Props.printed_hash_limits",
    "Verif.Props.printed_aborts",
    "Verif.Props.iter_ok",
    "Verif.Props.printed_type"
   ],
   "note": "Statement level: for every accepted query that some packet satisfies at some moment, the printed statements are accepted and say the same about every packet, receive time and counters; the compiled tests agree. Needs: if the statements leave a single hash, one of them is hash:= (printed_hash_limits shows the print adds i=0 otherwise). A query no packet satisfies can print statements that abort on re-reading (printed_aborts). printed_text_same_partial and printed_canonical_same_partial carry this through the text that is printed and read back (the latter for plain domains, see C62)."
  },
  {
   "property": "C19",
   "status": "proved",
   "theorems": [
    "Verif.Props.compileTest_iff",
    "Verif.Props.filter_exact",
    "Verif.Props.query_accepts",
    "Verif.Props.exQuery_ok",
    "Verif.Props.exShows",
    "Verif.Props.error_points_never",
    "Verif.Props.prefix_nine_cut",
    "Verif.Props.recv_mask_ignored",
    "Verif.Props.todo_aborts"
   ],
   "note": "For every accepted statement list (any length, every field with a predicate set, prefix and exact space name) and every packet whose rooted space is as the library roots it: the compiled tests accept exactly when every statement holds of the packet. Values are those a statement reads (ValueIs, SpaceIs in Spec/Predicates). Findings proved beside it: no field statement selects an error point, a nine-component prefix is cut to eight, masks on recv are ignored, statements on data, signature, rspacename and comp0..7 abort (reachable from the Rust type, not from statement text)."
  },
  {
   "property": "C20",
   "status": "partial",
   "theorems": [
    "Verif.Props.query_counts",
    "Verif.Props.query_counts_exact",
    "Verif.Props.count_stops_partial",
    "Verif.Props.masks_read_on",
    "Verif.Props.masks_contradict"
   ],
   "note": "Which candidates are answered is proved for every accepted statement list and every candidate stream (positions from 2^32-1 on count as 2^32-1; exact below). That reading stops is proved when the limits are not given by masks; with masks reading goes on although the answer is complete (masks_read_on). Contradictory masks on i_db or i_branch are accepted and the query panics (masks_contradict)."
  },
  {
   "property": "C21",
   "status": "partial",
   "theorems": [
    "Verif.Props.ge_exact",
    "Verif.Props.le_exact",
    "Verif.Props.ge_limit",
    "Verif.Props.le_limit",
    "Verif.Props.ge_recv",
    "Verif.Props.le_recv",
    "Verif.Props.tail_exact",
    "Verif.Props.head_exact",
    "Verif.Props.mask_too_long",
    "Verif.Props.sugar_no_abort",
    "Verif.Props.sugar_empty_aborts",
    "Verif.Props.le_short_domain_dropped",
    "Verif.Props.ge_text_refused"
   ],
   "note": "Proved for every field, receive time and counter with values of full size (masks: of any size up to it). False in general: an empty value aborts (sugar_empty_aborts), a short domain of 255 bytes drops the constraint (le_short_domain_dropped), a base64 text is changed as text and then refused (ge_text_refused); >= 0 and <= max say nothing about the point type."
  },
  {
   "property": "C22",
   "status": "proved",
   "theorems": [
    "Verif.Props.saves_consistent",
    "Verif.Props.save_consistent",
    "Verif.Props.empty_consistent",
    "Verif.Props.save_cases",
    "Verif.Props.read_hash_iff",
    "Verif.Props.proper_entry",
    "Verif.Props.tree_entry_unique",
    "Verif.Props.tree_entry_sound",
    "Verif.Props.tree_no_entry",
    "Verif.Props.saves_proper",
    "Verif.Props.exHistory_log",
    "Verif.Props.exHistory_tree",
    "Verif.Props.exHistory_batch"
   ],
   "note": "saves_consistent: after every history of saves (any packets, clocks, LMDB failures, crashes) the log is strictly ascending, the hash index holds exactly the hashes of the log at their stamps, and the tree exactly the entries of the logged points. tree_entry_* say what the entries contain, for points with a right depth byte."
  },
  {
   "property": "C23",
   "status": "proved",
   "theorems": [
    "Verif.Props.log_unique",
    "Verif.Props.news_isNew",
    "Verif.Props.save_range",
    "Verif.Props.emitted_last",
    "Verif.Props.save_states",
    "Verif.Props.lk_save_new",
    "Verif.Props.lk_save_all_count"
   ],
   "note": "For every consistent database and every batch, duplicates inside the batch included. written_without_commit records that the states are also set when the commit fails."
  },
  {
   "property": "C24",
   "status": "partial",
   "theorems": [
    "Verif.Props.stamps_increase",
    "Verif.Props.save_any_clock_partial",
    "Verif.Props.save_same_clock",
    "Verif.Props.save_succeeds_iff",
    "Verif.Props.exHistory_refused"
   ],
   "note": "Stamps strictly increase whatever the clocks. That saving never fails because of the clock is false: save_same_clock proves that a save at exactly the last stamp is refused; save_any_clock_partial covers every other clock reading, save_succeeds_iff is exact."
  },
  {
   "property": "C25",
   "status": "proved",
   "theorems": [
    "Verif.Props.save_atomic",
    "Verif.Props.save_error_unchanged",
    "Verif.Props.save_ok_durable",
    "Verif.Props.written_without_commit"
   ],
   "note": "Every call into LMDB may fail or be the moment of a crash. Assumes that LMDB commits atomically and keeps uncommitted writes off the disk."
  },
  {
   "property": "C26",
   "status": "proved",
   "theorems": [
    "Verif.Props.log_append_only",
    "Verif.Props.read_stable",
    "Verif.Props.runSaves_consistent"
   ],
   "note": ""
  },
  {
   "property": "C27",
   "status": "partial",
   "theorems": [
    "Verif.Props.tree_query_sound_partial",
    "Verif.Props.treeBefore_irrefl",
    "Verif.Props.branch_limit_strays",
    "Verif.Props.branch_limit_wrong_group"
   ],
   "note": "Whenever a tree query answers: stored, matching, each once, in tree order, for every database and every query without a limit per key (i_branch). With such a limit the search can end on a cursor that is not in place, and can yield packets of another group."
  },
  {
   "property": "C28",
   "status": "partial",
   "theorems": [
    "Verif.Props.tree_query_any_depth_partial",
    "Verif.Props.tree_query_depths_partial",
    "Verif.Props.tree_query_one_depth_partial",
    "Verif.Props.prefix_misses",
    "Verif.Props.pubkey_misses",
    "Verif.Props.depth_misses",
    "Verif.Props.stamp_misses",
    "Verif.Props.depth_panics",
    "Verif.Props.last_key_hangs",
    "Verif.Props.ask_tree",
    "Verif.Props.exPointQuery_meets",
    "Verif.Props.exDepthQuery_meets",
    "Verif.Props.exGroupQuery_meets"
   ],
   "note": "False of the code in general: prefix queries, gaps in the depths, and descending queries for one stamp miss packets. Proved, in both directions and with totality, for the three families of queries that cannot skip a match."
  },
  {
   "property": "C29",
   "status": "partial",
   "theorems": [
    "Verif.Props.log_query_asc",
    "Verif.Props.log_query_desc",
    "Verif.Props.log_query_asc_partial",
    "Verif.Props.log_query_desc_partial",
    "Verif.Props.log_ignores_upper",
    "Verif.Props.log_desc_ignores",
    "Verif.Props.ask_log",
    "Verif.Props.exLogQuery_meets",
    "Verif.Props.exDb_consistent",
    "Verif.Props.exDb_shows"
   ],
   "note": "log_query_asc and log_query_desc are exact for every database and accepted query without i_branch statements. The claim is false of the code: in ascending order an upper bound on the receive stamp is ignored (log_ignores_upper), in descending order all receive bounds are (log_desc_ignores). The partial theorems give the full claim for lower bounds only, or no receive statement."
  },
  {
   "property": "C30",
   "status": "partial",
   "theorems": [
    "Verif.Props.hash_query_partial",
    "Verif.Props.hash_query_desc",
    "Verif.Props.hash_lookup_partial",
    "Verif.Props.hash_eq_finds",
    "Verif.Props.ask_hash"
   ],
   "note": "Exact, in hash order, receive bounds included, for every database and accepted query. Missing: descending order aborts (hash_query_desc), and an error point is not found by its hash because no field statement selects one (error_points_never)."
  },
  {
   "property": "C31",
   "status": "proved",
   "theorems": [
    "Verif.Props.one_watch",
    "Verif.Props.watch_table",
    "Verif.Props.watch_found",
    "Verif.Props.register_returns",
    "Verif.Props.sorted_run",
    "Verif.Props.exRun_watches"
   ],
   "note": "over all event sequences that do not panic"
  },
  {
   "property": "C32",
   "status": "partial",
   "theorems": [
    "Verif.Props.stop_one",
    "Verif.Props.stop_range_partial",
    "Verif.Props.stop_range_none",
    "Verif.Props.exRun_watches"
   ],
   "note": "stopping a range works only when a watch is registered under exactly the given bytes; otherwise nothing is stopped (stop_range_none)"
  },
  {
   "property": "C33",
   "status": "partial",
   "theorems": [
    "Verif.Props.watch_made",
    "Verif.Props.watch_calls",
    "Verif.Props.watch_ends_partial",
    "Verif.Props.gc_safe",
    "Verif.Props.gc_deadline",
    "Verif.Props.exGc",
    "Verif.Props.watch_lingers",
    "Verif.Props.exFeed_ends",
    "Verif.Props.exFeed_meets"
   ],
   "note": "the calls are exact and removal is only for a reason; with masks on positions a finished watch is not removed (watch_lingers)"
  },
  {
   "property": "C34",
   "status": "partial",
   "theorems": [
    "Verif.Props.watch_active_partial",
    "Verif.Props.watch_over_partial",
    "Verif.Props.watch_prefix_partial",
    "Verif.Props.watch_log_partial",
    "Verif.Props.exRt_reached",
    "Verif.Props.exRt_stream",
    "Verif.Props.exRt_inner",
    "Verif.Props.watch_misses_nested"
   ],
   "note": "Over all programs whose callbacks never process (they may watch, stop and save), all requests of the main program and saves by anyone at any place: an active watch was given exactly the result of its query on the snapshot it began with and then the matching packets of the log after it, a finished one a prefix of that, ending for a stated reason. False if a callback processes while the watch reads the database: watch_misses_nested."
  },
  {
   "property": "C35",
   "status": "partial",
   "theorems": [
    "Verif.Props.process_catches_up_partial",
    "Verif.Props.process_again",
    "Verif.Props.process_nested",
    "Verif.Props.process_leaves_pending",
    "Verif.Props.process_panics_on_replacing",
    "Verif.Props.reasons_swapped"
   ],
   "note": "For programs whose callbacks do not process. Requests made inside callbacks are active after a process that had something new; without anything new they stay pending (process_leaves_pending). Two more findings: a stopped callback that watches while it is replaced from a callback panics (process_panics_on_replacing), and the stop reasons Break and Finish are swapped (reasons_swapped)."
  },
  {
   "property": "C36",
   "status": "proved",
   "theorems": [
    "Verif.Props.abtxt_roundtrip",
    "Verif.Props.abtxt_parse_iff",
    "Verif.Props.abtxt_printable",
    "Verif.Props.abtxt_injective"
   ],
   "note": ""
  },
  {
   "property": "C37",
   "status": "proved",
   "theorems": [
    "Verif.Props.parse_iff_grammar",
    "Verif.Props.parse_print",
    "Verif.Props.parse_norm",
    "Verif.Props.parse_print_parse",
    "Verif.Props.parse_loose_extends",
    "Verif.Props.parse_balanced"
   ],
   "note": ""
  },
  {
   "property": "C38",
   "status": "partial",
   "theorems": [
    "Verif.Props.tokenize_iff_split",
    "Verif.Props.tokenize_rejoin_partial",
    "Verif.Props.tokenize_loses_trailing_separator",
    "Verif.Props.tokenize_double_exclusion_cancels"
   ],
   "note": "The tokenizer is characterised exactly (tokenize_iff_split). The property as stated is false of the code for a text ending in a separator and for a separator excluded twice; both are proved as counterexamples, and tokenize_rejoin_partial covers every other text."
  },
  {
   "property": "C39",
   "status": "partial",
   "theorems": [
    "Verif.Props.ablist_parse_iff",
    "Verif.Props.ablist_roundtrip_iff",
    "Verif.Props.ablist_print_parses_partial",
    "Verif.Props.ablist_silent_head_lost",
    "Verif.Props.ablist_parse_print_parse",
    "Verif.Props.ablist_display_injective",
    "Verif.Props.ablist_nodes_roundtrip",
    "Verif.Props.ablist_of_nodes_iff",
    "Verif.Props.ablist_split_iff",
    "Verif.Props.ablist_components",
    "Verif.Props.ablist_components_entry",
    "Verif.Props.ablist_concat_plain",
    "Verif.Props.ablist_exact_iff"
   ],
   "note": "Exact characterisation of the texts that parse to a list and of the lists that survive printing; a list whose first entry is empty and followed by a separator loses it (ablist_silent_head_lost), so the full claim is false of the code."
  },
  {
   "property": "C40",
   "status": "partial",
   "theorems": [
    "Verif.Props.encode_sound",
    "Verif.Props.lk_encode_core_partial",
    "Verif.Props.encode_b16_iff",
    "Verif.Props.encode_b16_aborts",
    "Verif.Props.encode_space_aborts",
    "Verif.Props.encode_colon_no_fallback"
   ],
   "note": "encode_sound holds in any scope with right encoders; for the encoders of core_scope the claim holds for every byte string and option text except b2/b16 on bytes that are not a plain number (encode_b16_iff is exact) and s on the empty or too deep space; both exceptions are proved to abort. Not modelled: the lns encoder of the linkspace crate (needs a database)."
  },
  {
   "property": "C41",
   "status": "partial",
   "theorems": [
    "Verif.Props.plus_adds",
    "Verif.Props.minus_subtracts",
    "Verif.Props.plus_minus_mismatch",
    "Verif.Props.plus_empty_aborts",
    "Verif.Props.uint_text_roundtrip"
   ],
   "note": "For every non-empty common length and any number of arguments; two empty arguments abort (plus_empty_aborts)."
  },
  {
   "property": "C42",
   "status": "partial",
   "theorems": [
    "Verif.Props.slice_py_partial",
    "Verif.Props.slice_overflow_aborts",
    "Verif.Props.slice_huge_index_wraps",
    "Verif.Props.slice_zero_step"
   ],
   "note": "Python slicing for all starts, stops and steps in the machine word whose last step does not overflow; the three exceptions are proved as counterexamples."
  },
  {
   "property": "C43",
   "status": "proved",
   "theorems": [
    "Verif.Props.fit_back_iff",
    "Verif.Props.fit_front_iff",
    "Verif.Props.fit_exact",
    "Verif.Props.fit_fails_iff",
    "Verif.Props.fit_back_value",
    "Verif.Props.fit_back_cut",
    "Verif.Props.fit_back_restore",
    "Verif.Props.cut_fit_back",
    "Verif.Props.cut_fit_front",
    "Verif.Props.lpad_iff",
    "Verif.Props.rpad_iff",
    "Verif.Props.pad_default_length",
    "Verif.Props.fixed_length",
    "Verif.Props.cut_iff"
   ],
   "note": "Lengths whose allocation fails are outside the model."
  },
  {
   "property": "C44",
   "status": "proved",
   "theorems": [
    "Verif.Props.b64_encode_iff",
    "Verif.Props.b64_decode_iff",
    "Verif.Props.b64_roundtrip",
    "Verif.Props.b64_canonical",
    "Verif.Props.b64_length",
    "Verif.Props.b64_fixed_iff",
    "Verif.Props.b64_fixed_length",
    "Verif.Props.b64_fit_both",
    "Verif.Props.b64_fit_only",
    "Verif.Props.b64_std_roundtrip",
    "Verif.Props.b64_std_iff"
   ],
   "note": "The base64 crate is replaced by a model of the documented behaviour of its two engines."
  },
  {
   "property": "C45",
   "status": "partial",
   "theorems": [
    "Verif.Props.option_value_iff",
    "Verif.Props.option_absent_iff",
    "Verif.Props.option_error_iff",
    "Verif.Props.option_never_bare",
    "Verif.Props.option_set",
    "Verif.Props.option_set_other",
    "Verif.Props.bare_option_lost",
    "Verif.Props.many_values_error",
    "Verif.Props.undelimited_name_is_value",
    "Verif.Props.options_read_back",
    "Verif.Props.marked_refused",
    "Verif.Props.mode_text_iff",
    "Verif.Props.mode_iff",
    "Verif.Props.exOptions_meets",
    "Verif.Props.printed_option_oldest_iff",
    "Verif.Props.printed_option_once_partial",
    "Verif.Props.printed_mode_changes"
   ],
   "note": "Looking up is exact for every history of options. An option without a value is never found although the documentation says it gives Some(None) (bare_option_lost). Printing and reading back the options keeps all lookups if the names are not marked with % (options_read_back); otherwise it is refused (marked_refused). Printing and reading a whole query reverses the options, so that the oldest wins (printed_option_oldest_iff, printed_mode_changes); lookups are kept for names set once."
  },
  {
   "property": "C46",
   "status": "partial",
   "theorems": [
    "Verif.Props.stamp_add_saturates",
    "Verif.Props.stamp_sub_saturates",
    "Verif.Props.checked_add_iff_partial",
    "Verif.Props.checked_sub_iff_partial",
    "Verif.Props.checked_add_longer",
    "Verif.Props.checked_longer_fails",
    "Verif.Props.stamp_difference",
    "Verif.Props.stamp_age_adds"
   ],
   "note": "The checked operations fail exactly on overflow for durations below 2^64 microseconds. Longer durations are cut to the largest stamp first, so 0 plus a longer duration and the largest stamp minus one succeed (checked_add_longer); everywhere else they fail (checked_longer_fails)."
  },
  {
   "property": "C47",
   "status": "partial",
   "theorems": [
    "Verif.Props.range_contains",
    "Verif.Props.range_of_bound",
    "Verif.Props.range_after",
    "Verif.Props.range_walk_partial",
    "Verif.Props.range_single_backwards"
   ],
   "note": "Both ends are included. Classification agrees with the walk except backwards over a single stamp (range_single_backwards), which makes descending tree queries with create:=: miss packets."
  },
  {
   "property": "C48",
   "status": "partial",
   "theorems": [
    "Verif.Props.matches_iff",
    "Verif.Props.position_least_partial",
    "Verif.Props.position_whole",
    "Verif.Props.partial_accept_iff",
    "Verif.Props.complete_iff",
    "Verif.Props.position_aborts",
    "Verif.Props.text_order_differs"
   ],
   "note": "The position is the least matching hash for every text of at most 42 characters of the alphabet, and whole texts find their hash. Missing because false: a text is accepted by its leading multiple of four characters only, and for accepted texts with another character after that computing the position aborts (position_aborts). text_order_differs: the comparison of texts does not follow the order of hashes."
  },
  {
   "property": "C49",
   "status": "partial",
   "theorems": [
    "Verif.Props.server_reply_iff",
    "Verif.Props.client_accepts_iff",
    "Verif.Props.server_accepts_iff",
    "Verif.Props.handshake_completes",
    "Verif.Props.client_rejects_replay_partial",
    "Verif.Props.server_rejects_replay_partial",
    "Verif.Props.servers_confused"
   ],
   "note": "What each side accepts is exact for every packet; completion is proved for all keys and clocks. Replaying an answer of a server to another client, or the last message of a client to another server, is rejected up to hash collisions. Missing because false: the answer of a server to a first message is accepted as a last message by another server (servers_confused), since neither the link tag nor the kind of message is checked."
  },
  {
   "property": "C50",
   "status": "proved",
   "theorems": [
    "Verif.Props.unicast_symmetric",
    "Verif.Props.unicast_is_pair",
    "Verif.Props.unicast_injective",
    "Verif.Props.unicast_private_iff"
   ],
   "note": ""
  },
  {
   "property": "C51",
   "status": "proved",
   "theorems": [
    "Verif.Props.name_of_iff",
    "Verif.Props.name_of_no_panic",
    "Verif.Props.name_of_space_iff",
    "Verif.Props.name_space_roundtrip",
    "Verif.Props.name_injective",
    "Verif.Props.claim_space_eq",
    "Verif.Props.claim_space_injective",
    "Verif.Props.claim_group_iff",
    "Verif.Props.name_text_roundtrip",
    "Verif.Props.name_of_list_iff",
    "Verif.Props.name_check",
    "Verif.Props.stamp_tag_iff",
    "Verif.Props.lns_tag_iff",
    "Verif.Props.claim_of_iff",
    "Verif.Props.claim_of_no_panic",
    "Verif.Props.claim_new",
    "Verif.Props.claim_pubkey_iff",
    "Verif.Props.claim_group_tag_iff",
    "Verif.Props.root_no_name"
   ],
   "note": "Exact for every list of components, space, tag and packet; text, claims and the parts of a claim included."
  },
  {
   "property": "C52",
   "status": "partial",
   "theorems": [
    "Verif.Props.public_lookup_partial",
    "Verif.Props.public_lookup_most",
    "Verif.Props.lookup_step_partial",
    "Verif.Props.vote_newest",
    "Verif.Props.subname_not_found",
    "Verif.Props.tie_hidden",
    "Verif.Props.other_name_found",
    "Verif.Props.deep_claim_aborts",
    "Verif.Props.half_stops",
    "Verif.Props.key_twice"
   ],
   "note": "For a name of one component the lookup always ends, counts the newest point of each authority, and a claim that is found has at least as many votes as any other; a claim that is strictly ahead is found whatever the order of the map. Missing because false: names of more than one component are never found (subname_not_found), ties above a third claim go unreported and depend on the order of the map (tie_hidden), the name in the claim is not compared (other_name_found), a claim of depth eight aborts the next level (deep_claim_aborts)."
  },
  {
   "property": "C53",
   "status": "partial",
   "theorems": [
    "Verif.Props.buffer_iff",
    "Verif.Props.buffer_points",
    "Verif.Props.buffer_once",
    "Verif.Props.buffer_linked",
    "Verif.Props.buffer_drops",
    "Verif.Props.dedup_iff",
    "Verif.Props.dedup_seen_partial",
    "Verif.Props.dedup_zero",
    "Verif.Props.dedup_size_zero"
   ],
   "note": "The buffer is exact for every stream. The deduplicator is exact for every history; the claim fails only for the all-zero hash, which is called seen at once (dedup_zero). Size zero aborts (dedup_size_zero)."
  },
  {
   "property": "C54",
   "status": "proved",
   "theorems": [
    "Verif.Props.encrypt_decrypt",
    "Verif.Props.encrypt_aborts",
    "Verif.Props.decrypt_matches",
    "Verif.Props.other_password",
    "Verif.Props.other_password_iff",
    "Verif.Props.lk_key_roundtrip",
    "Verif.Props.enckey_trailing"
   ],
   "note": "argon2 and the key library are parameters; their laws are hypotheses that toyLib meets. With another password decryption succeeds exactly if the derived masks agree (other_password_iff). enckey_trailing: text after the key is ignored."
  },
  {
   "property": "C55",
   "status": "proved",
   "theorems": [
    "Verif.Props.query_order",
    "Verif.Props.query_narrow",
    "Verif.Props.query_twice"
   ],
   "note": "Acceptance and the resulting predicate sets do not depend on the order of the statements; adding statements only narrows; adding the same list twice changes nothing."
  },
  {
   "property": "C56",
   "status": "proved",
   "theorems": [
    "Verif.Props.run_while_ends",
    "Verif.Props.run_while_spins",
    "Verif.Props.exRt_while"
   ],
   "note": "run_while_spins: with a pending request and no id the loop goes round without waiting until someone saves. The documentation says the watch matched at least once when 1 is returned; the code also returns 1 when it was stopped or ran out."
  },
  {
   "property": "C57",
   "status": "proved",
   "theorems": [
    "Verif.Props.bracket_value_iff",
    "Verif.Props.exPipe",
    "Verif.Props.name_of_parts"
   ],
   "note": "Exact, as an inductive relation on expressions, for every scope. The value and failure of functions and macros are those of the scope. name_of_parts records that the check against computed function names only sees names of exactly two parts."
  },
  {
   "property": "C58",
   "status": "proved",
   "theorems": [
    "Verif.Props.size_test_iff",
    "Verif.Props.val_test_iff",
    "Verif.Props.or_iff",
    "Verif.Props.mini_b64",
    "Verif.Props.exPipe"
   ],
   "note": "In the scope of the library. mini_b64 describes the abbreviation 2mini."
  },
  {
   "property": "C59",
   "status": "partial",
   "theorems": [
    "Verif.Props.duration_parse_iff",
    "Verif.Props.duration_in_range",
    "Verif.Props.duration_unique",
    "Verif.Props.duration_print_partial",
    "Verif.Props.duration_roundtrip_partial",
    "Verif.Props.duration_print_rounds",
    "Verif.Props.duration_cut_panics"
   ],
   "note": "Reading is exact for every text. Printing and the round trip are proved for durations below 2^61 nanoseconds (73 years), for which the double precision division is exact; above it is false (duration_print_rounds: 500 years minus a microsecond prints 500Y). A text cut inside a UTF-8 character panics (duration_cut_panics)."
  },
  {
   "property": "C60",
   "status": "partial",
   "theorems": [
    "Verif.Props.us_computes",
    "Verif.Props.us_only_partial",
    "Verif.Props.us_word_last",
    "Verif.Props.us_accepts_longer",
    "Verif.Props.stamp_digits_roundtrip",
    "Verif.Props.stamp_relative_iff",
    "Verif.Props.us_words_partial",
    "Verif.Props.us_only_words_partial",
    "Verif.Props.delta_text_partial",
    "Verif.Props.delta_example"
   ],
   "note": "us_computes holds for all lists of steps that have a result, and us_words_partial for those followed by one of the words ticks, val, delta and str: the text is the distance in units, if it is below 73 years (longer ones are rounded, see C59); the printed date is a parameter. The converse (us_only_words_partial) is for durations below 2^64 microseconds, since a longer one is accepted at the ends of the range (us_accepts_longer)."
  },
  {
   "property": "C61",
   "status": "partial",
   "theorems": [
    "Verif.Props.get_all_feeds",
    "Verif.Props.get_all_counts_partial",
    "Verif.Props.get_all_counts_skipped",
    "Verif.Props.break_overflows",
    "Verif.Props.get_oldest_partial",
    "Verif.Props.get_newest_partial",
    "Verif.Props.get_hash_first_partial",
    "Verif.Props.get_tree_first_partial",
    "Verif.Props.get_hashes_feeds",
    "Verif.Props.exLogQuery_first",
    "Verif.Props.exLogQuery_stops"
   ],
   "note": "What the callback is given is exact for every mode and query and the sign tells whether it stopped (the documentation states both signs). The size of the number is that of the packets given if the i statements have no masks and allow the first position; otherwise skipped packets are counted too (get_all_counts_skipped). Up to 2^31 candidates; stopping at exactly 2^31 overflows (break_overflows). The first result is the oldest, newest or smallest packet for log and hash queries, and the first of the tree for the tree queries of C28."
  },
  {
   "property": "C62",
   "status": "partial",
   "theorems": [
    "Verif.Props.query_text_raw",
    "Verif.Props.query_text_canonical_partial",
    "Verif.Props.domain_text_iff",
    "Verif.Props.domain_text_changes",
    "Verif.Props.one_word_aborts",
    "Verif.Props.push_compares",
    "Verif.Props.push_option",
    "Verif.Props.operator_iff",
    "Verif.Props.push_unsupported_aborts",
    "Verif.Props.exText_meets",
    "Verif.Props.exText_prints",
    "Verif.Props.exText_run"
   ],
   "note": "Exact for the plain text in every scope. For the text with functions the domain and the 16 byte components of the prefix have to be plain characters after the filling; for other domains it is false: they are escaped twice and read back as another domain or not at all (domain_text_iff, domain_text_changes). Options come back in the opposite order."
  },
  {
   "property": "C63",
   "status": "partial",
   "theorems": [
    "Verif.Props.private_first_partial",
    "Verif.Props.tag_first_partial",
    "Verif.Props.tag_lookup_iff_partial",
    "Verif.Props.local_found_iff_partial",
    "Verif.Props.local_none_iff_partial",
    "Verif.Props.local_error_iff_partial",
    "Verif.Props.setup_found_iff_partial",
    "Verif.Props.setup_pubkey_partial",
    "Verif.Props.setup_fresh_partial",
    "Verif.Props.setup_reverse_partial",
    "Verif.Props.setup_succeeds_partial",
    "Verif.Props.setup_refused",
    "Verif.Props.setup_keeps",
    "Verif.Props.entry_links",
    "Verif.Props.reverse_sound",
    "Verif.Props.empty_tag_aborts",
    "Verif.Props.overwrite_lost"
   ],
   "note": "Lookups are exact for every database without points of the all-ones key (which make tree queries hang, C28). A call that returns a key has stored the claim, and the exact condition under which it is found is proved (setup_found_iff_partial); it holds for a name without claims. Missing because false: replacing a key, where the greater hash wins because claims have the stamp 0 (overwrite_lost). The theorems that need it assume that no other stored packet has the hash of the new one."
  },
  {
   "property": "C64",
   "status": "partial",
   "theorems": [
    "Verif.Props.reopen_partial",
    "Verif.Props.reopen_other_partial",
    "Verif.Props.lk_key_creates_partial",
    "Verif.Props.lk_key_reads",
    "Verif.Props.lk_key_keeps",
    "Verif.Props.lk_key_shown",
    "Verif.Props.enckey_of_iff_partial",
    "Verif.Props.local_quiet",
    "Verif.Props.setup_enckey_partial",
    "Verif.Props.read_enckey_iff",
    "Verif.Props.enckey_found_iff",
    "Verif.Props.enckey_lost",
    "Verif.Props.identity_same",
    "Verif.Props.identity_given",
    "Verif.Props.bad_link_fails",
    "Verif.Props.claim_keys_differ",
    "Verif.Props.long_costs_lost"
   ],
   "note": "For local names: opening again gives the same key for every later time at which no new point was made at the place of the name, and creating succeeds under stated conditions on writes and clock. Which text a name leads to is exact (enckey_of_iff_partial), as is which texts are found in the data of a claim (enckey_found_iff: at most 20 digits of costs; enckey_lost). Missing because false: the key of the text need not be the pubkey@ of the claim (claim_keys_differ). Public names are only covered by lk_key_reads, lk_key_keeps and lk_key_shown. The theorems assume that no stored packet has the hash of the new claim."
  },
  {
   "property": "C65",
   "status": "partial",
   "theorems": [
    "Verif.Props.keygen_printed",
    "Verif.Props.keygen_opens",
    "Verif.Props.keygen_keeps",
    "Verif.Props.keygen_some_refused",
    "Verif.Props.keygen_none_refused",
    "Verif.Props.keygen_some_allowed",
    "Verif.Props.keygen_none_allowed",
    "Verif.Props.keygen_created_partial",
    "Verif.Props.overwrite_repass",
    "Verif.Props.overwrite_generates",
    "Verif.Props.repass_unsaved",
    "Verif.Props.repass_replaces",
    "Verif.Props.repass_forgotten"
   ],
   "note": "Printed keys match and open for every combination of options, and existing keys are kept without --overwrite. Missing because false: a new password is never saved for the key of a name; without --overwrite nothing is written (repass_unsaved, repass_forgotten), and with it another key is generated (overwrite_generates, repass_replaces); only for a key given by --enckey it works (overwrite_repass)."
  },
  {
   "property": "C66",
   "status": "proved",
   "theorems": [
    "Verif.Props.check_path_iff",
    "Verif.Props.files_data_iff",
    "Verif.Props.files_none_iff",
    "Verif.Props.files_inside",
    "Verif.Props.files_func",
    "Verif.Props.set_changes",
    "Verif.Props.set_ok",
    "Verif.Props.set_ok_iff",
    "Verif.Props.set_get",
    "Verif.Props.set_kept",
    "Verif.Props.set_no_panic",
    "Verif.Props.set_tree",
    "Verif.Props.failed_write_truncates"
   ],
   "note": "The standard library's paths and the kernel's path resolution are modelled without symbolic links; the location of the database is assumed to resolve to a directory and to have no zero byte. Other failures of the operating system are arbitrary; a failed write may leave a part of the new content (failed_write_truncates)."
  },
  {
   "property": "C67",
   "status": "partial",
   "theorems": [
    "Verif.Props.pull_iff",
    "Verif.Props.pull_made",
    "Verif.Props.pinned_packets",
    "Verif.Props.pins_of_equal",
    "Verif.Props.pull_reads_partial",
    "Verif.Props.pull_same_place",
    "Verif.Props.pull_seen",
    "Verif.Props.pull_aborts",
    "Verif.Props.pull_other_domain",
    "Verif.Props.pullHi_meets"
   ],
   "note": "When a request is made, what it is, where it is and who sees it is exact. Missing because false: a domain that is not plain text is read from the request as another domain (pull_other_domain), and an id that is empty or longer than 186 bytes aborts instead of being refused (pull_aborts). pull_reads_partial leaves out the queries whose printing is wrong (C18, C62)."
  },
  {
   "property": "C68",
   "status": "partial",
   "theorems": [
    "Verif.Props.or_enforced",
    "Verif.Props.or_watch",
    "Verif.Props.or_none",
    "Verif.Props.or_first",
    "Verif.Props.or_first_accepts",
    "Verif.Props.or_case",
    "Verif.Props.or_second_refused",
    "Verif.Props.or_dead",
    "Verif.Props.or_request_dropped",
    "Verif.Props.or_option_kept"
   ],
   "note": "That every packet satisfies an alternative is proved for all requests and all alternatives, also for the watch with its counters and receive times (positions in the database are left out, which the watch does not use). The rest is exact without alternatives and for the first alternative. Missing because false: after a refused alternative the state it left behind may refuse what is allowed, pass nothing, drop a mask of the request, or keep its options (the four last theorems)."
  },
  {
   "property": "C69",
   "status": "partial",
   "theorems": [
    "Verif.Props.status_space_iff",
    "Verif.Props.status_same_place",
    "Verif.Props.status_request_iff",
    "Verif.Props.status_request_made",
    "Verif.Props.status_overwatch_iff",
    "Verif.Props.status_watch_sound_partial",
    "Verif.Props.status_watch_gives",
    "Verif.Props.status_reply_about",
    "Verif.Props.status_refused",
    "Verif.Props.status_default_refused",
    "Verif.Props.status_set_iff",
    "Verif.Props.status_set_query",
    "Verif.Props.status_replies",
    "Verif.Props.status_request_asks",
    "Verif.Props.status_chain",
    "Verif.Props.status_answers_valid",
    "Verif.Props.status_answers_count",
    "Verif.Props.status_misses",
    "Verif.Props.status_oldest",
    "Verif.Props.status_half_reply",
    "Verif.Props.status_break_asks",
    "Verif.Props.status_any_group"
   ],
   "note": "Places, requests, the queries, what is given, the watch afterwards and replies are exact. Missing because false: a stored reply may be missed when points about another type exist (status_misses), the deadline is set by the oldest recent request (status_oldest), points with only links or only data count as stored replies (status_half_reply), a callback that breaks causes another request (status_break_asks), and points of any group and domain are replied to (status_any_group)."
  },
  {
   "property": "C70",
   "status": "partial",
   "theorems": [
    "Verif.Props.follow_given",
    "Verif.Props.follow_snapshot",
    "Verif.Props.follow_quiet",
    "Verif.Props.notify_given",
    "Verif.Props.notify_iff",
    "Verif.Props.watch_query_iff",
    "Verif.Props.watch_query_aborts",
    "Verif.Props.follow_flag_lost",
    "Verif.Props.follow_not_told",
    "Verif.Props.follow_example",
    "Verif.Props.notify_missed"
   ],
   "note": "What a callback is given is exact for all programs and callbacks, and with follow_quiet the packets of the watch are those of C34. Missing because false: the bare options :follow and :notify-close have no effect (follow_flag_lost), a callback that follows is never told of the end and gets no notice (follow_not_told), and a watch that is used up by the database gives no notice (notify_missed)."
  },
  {
   "property": "C71",
   "status": "partial",
   "theorems": [
    "Verif.Props.cli_selects",
    "Verif.Props.cli_accepts",
    "Verif.Props.cli_refuses_nothing",
    "Verif.Props.cli_tree_partial",
    "Verif.Props.cli_bare",
    "Verif.Props.cli_space_refused",
    "Verif.Props.cli_mode",
    "Verif.Props.cli_mode_only",
    "Verif.Props.cli_qid",
    "Verif.Props.cli_watch_qid",
    "Verif.Props.cli_follow_lost",
    "Verif.Props.cli_text",
    "Verif.Props.cli_prefix_misses",
    "Verif.Props.cli_empty_component",
    "Verif.Props.cli_mode_ignored"
   ],
   "note": "What is selected is exact for all lines; a written component that stands for no bytes counts for the depth. Missing because false: in the order of the tree a space with deeper points is not answered completely (cli_prefix_misses), an empty component allows one component more (cli_empty_component), a mode among the expressions is overridden (cli_mode_ignored), watch ignores --qid (cli_watch_qid) and --follow has no effect (cli_follow_lost)."
  },
  {
   "property": "C72",
   "status": "partial",
   "theorems": [
    "Verif.Props.blocks_fit",
    "Verif.Props.data_in_order",
    "Verif.Props.data_repeats",
    "Verif.Props.records_in_order",
    "Verif.Props.record_too_long",
    "Verif.Props.split_in_order",
    "Verif.Props.datapoint_each",
    "Verif.Props.datapoint_complete",
    "Verif.Props.linkpoint_each",
    "Verif.Props.linkpoint_complete_partial",
    "Verif.Props.signed_too_large",
    "Verif.Props.carry_disorders",
    "Verif.Props.trim_makes_records",
    "Verif.Props.reads_lose_rest",
    "Verif.Props.no_data_never_ends",
    "Verif.Props.full_point_ends",
    "Verif.Props.long_text_splits"
   ],
   "note": "Complete and in order for every input, with and without delimiter and evaluation, in the modes error and split. Missing because false: signed points with the default buffer size panic on large inputs (signed_too_large), the mode carry changes the order, trim makes new records of what it did not read, --data-reads loses what is left over. Reading the source does not fail in the model and the options of the point are taken as evaluated."
  },
  {
   "property": "C73",
   "status": "partial",
   "theorems": [
    "Verif.Props.template_render",
    "Verif.Props.template_render_behind",
    "Verif.Props.template_render_core",
    "Verif.Props.field_bytes_forms",
    "Verif.Props.space_str_reads",
    "Verif.Props.rspacename_differs",
    "Verif.Props.link_first",
    "Verif.Props.link_missing",
    "Verif.Props.links_slice_partial",
    "Verif.Props.links_all",
    "Verif.Props.pkt_page",
    "Verif.Props.pkt_quick_page",
    "Verif.Props.pkt_quick_differs",
    "Verif.Props.netbytes_layout",
    "Verif.Props.recv_stamp"
   ],
   "note": "Templates, pages and single functions are exact for every packet. links_slice_partial excludes slice arguments near the ends of 64 bits, which panic. The text of net flags is a parameter, and [netflags:str] is not part of a template; [spacename:str] and [rspacename:str] both read as the space (space_str_reads), although the bytes differ (rspacename_differs). pkt-quick is not the text of pkt, as its help says (pkt_quick_differs)."
  },
  {
   "property": "C74",
   "status": "partial",
   "theorems": [
    "Verif.Props.html_marks",
    "Verif.Props.html_shape",
    "Verif.Props.html_tells",
    "Verif.Props.html_same",
    "Verif.Props.html_text_partial",
    "Verif.Props.html_semicolon_lost",
    "Verif.Props.html_other_char",
    "Verif.Props.someNames_meets"
   ],
   "note": "Markup is exact for every packet, read by a conservative reader of tags and quoted attributes. That text is shown as it is is proved for text without semicolons; missing because false: the escapes end without one, so a semicolon after them is lost or makes another character (html_semicolon_lost, html_other_char). Line ends are not normalised by the reader."
  },
  {
   "property": "C75",
   "status": "partial",
   "theorems": [
    "Verif.Props.readhash_asks",
    "Verif.Props.readhash_field",
    "Verif.Props.readhash_expr",
    "Verif.Props.path_field",
    "Verif.Props.readhash_missing",
    "Verif.Props.readhash_pkt",
    "Verif.Props.macro_found",
    "Verif.Props.macro_missing",
    "Verif.Props.macro_template",
    "Verif.Props.macro_shadowed",
    "Verif.Props.macro_asks",
    "Verif.Props.recv_differs",
    "Verif.Props.read_asks",
    "Verif.Props.read_newest_partial",
    "Verif.Props.read_within",
    "Verif.Props.read_private_group",
    "Verif.Props.read_empty_name",
    "Verif.Props.read_misses",
    "Verif.Props.read_deeper",
    "Verif.Props.args_named",
    "Verif.Props.args_refused",
    "Verif.Props.arg_list_partial",
    "Verif.Props.env_named",
    "Verif.Props.read_defaults",
    "Verif.Props.demo_stored",
    "Verif.Props.demo_path",
    "Verif.Props.demo_read",
    "Verif.Props.demo_place"
   ],
   "note": "Exact for every database and every expression for a hash, nested to any depth. Missing because false: a single alternative text is not used (macro_missing), fields of an outer packet hide those of the one read (macro_shadowed), and [read] also looks at deeper places, so it may miss the point or give another (read_misses, read_deeper); read_newest_partial is for places without deeper points. arg_list_partial excludes slice arguments near the ends of 64 bits."
  },
  {
   "property": "C76",
   "status": "partial",
   "theorems": [
    "Verif.Props.name_value_iff",
    "Verif.Props.private_value_iff",
    "Verif.Props.local_name_partial",
    "Verif.Props.bad_name",
    "Verif.Props.name_shadowed",
    "Verif.Props.private_not_only",
    "Verif.Props.which_name_partial",
    "Verif.Props.which_name_back_partial",
    "Verif.Props.print_name_partial",
    "Verif.Props.print_word_aborts",
    "Verif.Props.print_base64_aborts",
    "Verif.Props.none_aborts",
    "Verif.Props.claim_macro",
    "Verif.Props.claim_macro_bare",
    "Verif.Props.macro_claim_partial",
    "Verif.Props.macro_no_claim_partial",
    "Verif.Props.macro_claim_shadowed",
    "Verif.Props.setup_eval_partial",
    "Verif.Props.setup_print_partial",
    "Verif.Props.me_value",
    "Verif.Props.me_listed",
    "Verif.Props.none_value",
    "Verif.Props.none_listed",
    "Verif.Props.me_leads"
   ],
   "note": "For names in the group of the machine: exact for every database, claim and index. Missing because false: names that start with a fixed word (name_shadowed), whose keys can not be printed (print_word_aborts, none_aborts); keys given in base64 (print_base64_aborts). Public names are reduced to the lookup of C52 (name_value_iff, claim_macro). Points with the key of all ones are excluded (C63), and one evaluation sees one state of the store."
  },
  {
   "property": "C77",
   "status": "partial",
   "theorems": [
    "Verif.Props.filter_splits",
    "Verif.Props.filter_cmd_exact",
    "Verif.Props.filter_file",
    "Verif.Props.filter_pipe",
    "Verif.Props.ignore_file",
    "Verif.Props.dedup_cmd",
    "Verif.Props.deduped_sublist",
    "Verif.Props.deduped_covers",
    "Verif.Props.deduped_next",
    "Verif.Props.save_cmd_partial",
    "Verif.Props.route_cmd",
    "Verif.Props.pktf_cmd",
    "Verif.Props.file_append",
    "Verif.Props.file_stream",
    "Verif.Props.dedup_cmd_spoiled",
    "Verif.Props.save_cmd_spoiled",
    "Verif.Props.route_cmd_spoiled",
    "Verif.Props.pktf_cmd_spoiled",
    "Verif.Props.filter_cmd_spoiled",
    "Verif.Props.private_in_refused",
    "Verif.Props.private_dropped",
    "Verif.Props.private_forbidden",
    "Verif.Props.no_pkts_panics",
    "Verif.Props.buffer_fails",
    "Verif.Props.pktf_error_point",
    "Verif.Props.dedup_cmd_zero",
    "Verif.Props.save_cmd_same_clock",
    "Verif.Props.hop_defaults",
    "Verif.Props.ignore_datapoint",
    "Verif.Props.filter_stops_reading"
   ],
   "note": "Exact for every stream, chunking and list of destinations that are files or expressions. Missing because false: save fails if the clock does not tick between two new packets (save_cmd_same_clock), filter stops reading once its count is reached (filter_stops_reading), pktf aborts on error points and dedup with memory 0 aborts. Destinations of filter, route, dedup and pktf other than the store."
  },
  {
   "property": "C78",
   "status": "partial",
   "theorems": [
    "Verif.Props.collect_cmd",
    "Verif.Props.collect_timed",
    "Verif.Props.made_links",
    "Verif.Props.made_pointers",
    "Verif.Props.made_chain",
    "Verif.Props.collect_complete",
    "Verif.Props.collect_stdout",
    "Verif.Props.collect_buffer",
    "Verif.Props.collect_save",
    "Verif.Props.default_room",
    "Verif.Props.collect_cmd_spoiled",
    "Verif.Props.timed_ignores_errors",
    "Verif.Props.chain_extra_point",
    "Verif.Props.private_points_dropped",
    "Verif.Props.data_ends_loses"
   ],
   "note": "Exact for every stream, chunking, list of destinations, reader and sequence of intervals, with expressions taken as evaluated. Missing because false: with --chain-tag or links of the command line a stream that fills its rounds gets one more point that links to no packet (chain_extra_point), the end of the data loses packets though the command ends well (data_ends_loses), with --min-interval a bad packet is no error (timed_ignores_errors), points in the private group go nowhere (private_points_dropped)."
  },
  {
   "property": "C79",
   "status": "partial",
   "theorems": [
    "Verif.Props.rewrite_cmd",
    "Verif.Props.rewrite_cmd_spoiled",
    "Verif.Props.rewrite_no_key",
    "Verif.Props.rewritten_length",
    "Verif.Props.rewritten_at",
    "Verif.Props.isPoint_exact",
    "Verif.Props.becomes_genuine",
    "Verif.Props.becomes_links",
    "Verif.Props.rewrite_skip_same",
    "Verif.Props.rewrite_unsign",
    "Verif.Props.rewrite_signs",
    "Verif.Props.rewrite_forgets_routing",
    "Verif.Props.rewrite_link_always",
    "Verif.Props.rewrite_error_point",
    "Verif.Props.rewrite_sign_too_large"
   ],
   "note": "Exact for every stream, chunking, mode, list of destinations and reader, with the values of the options given as functions of the packet and its number, and nothing held back in the buffer. Missing because false: the routing header of a point made anew is lost (rewrite_forgets_routing), an error point aborts the command (rewrite_error_point), a link point of almost full size cannot be signed and ends the command (rewrite_sign_too_large), with skip and resign link points are made anew too (rewrite_link_always)."
  },
  {
   "property": "C80",
   "status": "partial",
   "theorems": [
    "Verif.Props.get_links_cmd",
    "Verif.Props.get_links_cmd_spoiled",
    "Verif.Props.get_links_skip",
    "Verif.Props.get_links_error_iff",
    "Verif.Props.reached_unique",
    "Verif.Props.reached_skip_ok",
    "Verif.Props.reached_iff",
    "Verif.Props.reached_error_iff",
    "Verif.Props.reached_leaf",
    "Verif.Props.link_query_opts",
    "Verif.Props.link_level",
    "Verif.Props.get_links_inner_lost",
    "Verif.Props.get_links_lost_example",
    "Verif.Props.watch_arrival_panics",
    "Verif.Props.watch_panic_example"
   ],
   "note": "Exact for the modes skip and error, every stream, chunking, store, level and list of destinations of which --write does not save and none is held back in the buffer; the callbacks run in the model of the runtime of C31-C35, given enough steps. Missing because false: in the mode error, missing links of packets that were found by a link are lost (get_links_inner_lost). Not covered: the mode pause; of the mode watch only the abort when an awaited packet comes whose own link is missing (watch_arrival_panics)."
  },
  {
   "property": "C81",
   "status": "proved",
   "theorems": [
    "Verif.Props.ports_spec",
    "Verif.Props.port_again",
    "Verif.Props.port_file_whole",
    "Verif.Props.ports_differ",
    "Verif.Props.ports_range",
    "Verif.Props.ports_run_out",
    "Verif.Props.ports_shared",
    "Verif.Props.port_moves",
    "Verif.Props.port_taken"
   ],
   "note": "For every sequence of calls from an empty table, and for the same port again from every file of whole entries. Findings: the ports run out after 55034 databases, as the statement says (ports_run_out, ports_shared); a file that an interrupted write has cut inside of an entry moves or shares ports (port_moves, port_taken)."
  },
  {
   "property": "C82",
   "status": "partial",
   "theorems": [
    "Verif.Props.handle_takes_iff",
    "Verif.Props.handle_panics_iff",
    "Verif.Props.bus_grows",
    "Verif.Props.emit_returned",
    "Verif.Props.bus_value_given",
    "Verif.Props.bus_settles",
    "Verif.Props.sleeper_unchanged",
    "Verif.Props.sleeper_missed_nothing",
    "Verif.Props.sleeper_is_current",
    "Verif.Props.wake_up_lost",
    "Verif.Props.same_pid_unheard",
    "Verif.Props.short_datagram_deafens",
    "Verif.Props.deaf_never_told"
   ],
   "note": "For all interleavings, numbers of threads and processes, stale reads, spurious failures, reorderings and (where the statement allows them) losses. Restrictions: processes have different process ids and have all opened the database at the start; nobody else sends to the port where values are to agree. Findings: a packet saved between the processing of the log and listening does not wake run_while (wake_up_lost); processes with equal ids ignore each other (same_pid_unheard); a short datagram from any local program ends the receiving thread for good (short_datagram_deafens, deaf_never_told)."
  },
  {
   "property": "C83",
   "status": "proved",
   "theorems": [
    "Verif.Props.next_read",
    "Verif.Props.reads_exists",
    "Verif.Props.reads_unique",
    "Verif.Props.input_reads",
    "Verif.Props.sent_unique"
   ],
   "note": "For every byte string, every way of cutting it into non-empty pieces, and all options. Reading ends in a panic exactly on the rests of C07."
  },
  {
   "property": "C84",
   "status": "proved",
   "theorems": [
    "Verif.Props.serve_spec",
    "Verif.Props.connect_spec",
    "Verif.Props.phase0_spec",
    "Verif.Props.phase1_spec",
    "Verif.Props.phase2_spec",
    "Verif.Props.phase3_spec",
    "Verif.Props.serve_success_iff",
    "Verif.Props.connect_success_iff",
    "Verif.Props.pipes_complete",
    "Verif.Props.pipes_exist",
    "Verif.Props.hop_false_panics",
    "Verif.Props.phase3_forever",
    "Verif.Props.skip_hash_forged"
   ],
   "note": "Exact for all inputs, keys, clocks and lists of destinations that are files, with the default options: hops counted, hashes checked. What success means is stated in terms of signatures that verify; that only the holder of a key can make them is not assumed or proved. Findings: with --hop false the first message of a client panics the server; phase3 looks at no clock; with --skip-hash (or LK_SKIP_HASH) anybody passes for any key."
  },
  {
   "property": "C85",
   "status": "proved",
   "theorems": [
    "Verif.Props.create_key_of",
    "Verif.Props.create_spec",
    "Verif.Props.made_secret",
    "Verif.Props.copy_missing"
   ],
   "note": "Exact for every name, key, list of authorities and data, and every list of destinations that are files or the database. Expressions are taken as evaluated. Finding: --copy-from of a name that is not found makes a claim without a key (copy_missing); a claim that is too large panics."
  },
  {
   "property": "C86",
   "status": "partial",
   "theorems": [
    "Verif.Props.vote_unknown",
    "Verif.Props.vote_local",
    "Verif.Props.vote_refused",
    "Verif.Props.vote_authority",
    "Verif.Props.vote_spec",
    "Verif.Props.say_top",
    "Verif.Props.say_deep",
    "Verif.Props.vote_at",
    "Verif.Props.vote_counts",
    "Verif.Props.vote_decides"
   ],
   "note": "For every database whose log has the points, every name, hash and key. The property does not hold for local names (todo!, vote_local), for names of two components (votes are made but no lookup counts them, subname_not_found) and for longer ones (nobody has a say, say_deep); for names of one component it is proved in full."
  },
  {
   "property": "C87",
   "status": "partial",
   "theorems": [
    "Verif.Props.get_chain",
    "Verif.Props.get_root",
    "Verif.Props.live_public",
    "Verif.Props.get_public",
    "Verif.Props.get_ahead",
    "Verif.Props.get_local"
   ],
   "note": "For every database, name and list of destinations. Exact, with what is wrong: a local name without a claim gets one made up that is written before the command fails (get_local), and for a public name of several components the claim of the last one is written before it fails (get_public)."
  },
  {
   "property": "C88",
   "status": "partial",
   "theorems": [
    "Verif.Props.check_finds_partial",
    "Verif.Props.check_panics_iff",
    "Verif.Props.check_passes",
    "Verif.Props.check_history",
    "Verif.Props.check_first_key",
    "Verif.Props.check_not_contents",
    "Verif.Props.tree_loss_missed",
    "Verif.Props.tree_junk_missed"
   ],
   "note": "Exact on any three tables: when db-check ends well. It never complains about a database made by saves. The converse is false of the code: a lost tree, junk behind the first key of the tree and changed contents of packets are not found."
  },
  {
   "property": "C89",
   "status": "partial",
   "theorems": [
    "Verif.Props.import_all",
    "Verif.Props.import_succeeds",
    "Verif.Props.import_refuses",
    "Verif.Props.import_changes",
    "Verif.Props.import_not_private",
    "Verif.Props.import_takes_private"
   ],
   "note": "Exact for every file and database. The part about private points is false of the code: --private is not looked at."
  },
  {
   "property": "C90",
   "status": "proved",
   "theorems": [
    "Verif.Props.loose_is_plain",
    "Verif.Props.loose_iff_grammar",
    "Verif.Props.loose_accepts_iff",
    "Verif.Props.loose_errors",
    "Verif.Props.loose_needs_digits",
    "Verif.Props.loose_words"
   ],
   "note": "For all byte strings, without assumption."
  },
  {
   "property": "C91",
   "status": "proved",
   "theorems": [
    "Verif.Props.eval_word",
    "Verif.Props.evalCmd_text",
    "Verif.Props.eval_nth",
    "Verif.Props.eval_argv",
    "Verif.Props.json_read_back",
    "Verif.Props.json_injective",
    "Verif.Props.json_same",
    "Verif.Props.args_records",
    "Verif.Props.args_plain",
    "Verif.Props.args_whole",
    "Verif.Props.record_nth",
    "Verif.Props.plain_ambiguous",
    "Verif.Props.no_data_endless"
   ],
   "note": "For all expressions, inputs and values; the scopes of names and files are assumed not to take digits or argv as names. Finding: with argv --no-data the command does not end."
  },
  {
   "property": "C92",
   "status": "partial",
   "theorems": [
    "Verif.Props.py_eq",
    "Verif.Props.py_lt",
    "Verif.Props.py_total",
    "Verif.Props.py_trans",
    "Verif.Props.link_order",
    "Verif.Props.py_hash_panics"
   ],
   "note": "The six operators are exact for all packets. That a packet can be a key is false of the code: __hash__ panics."
  },
  {
   "property": "C93",
   "status": "partial",
   "theorems": [
    "Verif.Props.object_of_built",
    "Verif.Props.object_of_bytes",
    "Verif.Props.attributes",
    "Verif.Props.attributes_none",
    "Verif.Props.attributes_space",
    "Verif.Props.attributes_components",
    "Verif.Props.comp_list_hostile"
   ],
   "note": "Exact for every packet that was built or accepted. That no attribute panics is false of the code: the list of components of an accepted hostile space panics."
  },
  {
   "property": "C94",
   "status": "partial",
   "theorems": [
    "Verif.Props.set_iff",
    "Verif.Props.get_set_same",
    "Verif.Props.get_set_other",
    "Verif.Props.set_frame",
    "Verif.Props.assigned",
    "Verif.Props.header_attrs",
    "Verif.Props.write_edited",
    "Verif.Props.item_ignores",
    "Verif.Props.save_ignores"
   ],
   "note": "Exact for all sequences of assignments and for writing. False of the code for indexing by field and saving, which use the header the packet came with."
  },
  {
   "property": "C95",
   "status": "partial",
   "theorems": [
    "Verif.Props.link_index",
    "Verif.Props.link_loop",
    "Verif.Props.second_loop",
    "Verif.Props.linksBytes_slice",
    "Verif.Props.object_links"
   ],
   "note": "Counting, indexing and the first loop are exact. False of the code: a second loop gives nothing, and an index outside gives None."
  },
  {
   "property": "C96",
   "status": "partial",
   "theorems": [
    "Verif.Props.py_point",
    "Verif.Props.py_means_unique",
    "Verif.Props.py_link",
    "Verif.Props.py_datapoint",
    "Verif.Props.js_link",
    "Verif.Props.js_point",
    "Verif.Props.py_space_text",
    "Verif.Props.space_bytes_dropped",
    "Verif.Props.js_link_bytes"
   ],
   "note": "Exact for all arguments, against a relation of what arguments denote. False of the code in three corners, each with a witness."
  },
  {
   "property": "C97",
   "status": "proved",
   "theorems": [
    "Verif.Props.js_read_same",
    "Verif.Props.js_read_iff",
    "Verif.Props.js_unchecked_iff",
    "Verif.Props.js_number",
    "Verif.Props.js_final",
    "Verif.Props.js_stream",
    "Verif.Props.js_write",
    "Verif.Props.js_write_read",
    "Verif.Props.py_read_iff",
    "Verif.Props.py_read_fault",
    "Verif.Props.serde_iff",
    "Verif.Props.serde_back"
   ],
   "note": "For all buffers and packets; a serde format is assumed to give byte strings back."
  },
  {
   "property": "C98",
   "status": "partial",
   "theorems": [
    "Verif.Props.py_get_all",
    "Verif.Props.py_get_all_whole",
    "Verif.Props.py_hashes_iff",
    "Verif.Props.py_get_hashes",
    "Verif.Props.py_list_watches",
    "Verif.Props.py_watch_ends",
    "Verif.Props.exception_lost",
    "Verif.Props.exception_last",
    "Verif.Props.on_close_panics"
   ],
   "note": "Exact for all callbacks, databases and queries. False of the code: an exception that is not of the last call is lost, and on_close panics."
  },
  {
   "property": "C99",
   "status": "proved",
   "theorems": [
    "Verif.Props.slices_raise",
    "Verif.Props.slices_end",
    "Verif.Props.slices_bounded",
    "Verif.Props.process_while_end",
    "Verif.Props.process_while_raise"
   ],
   "note": "For all runtimes, programs, clocks and saves in between; signals are left out."
  }
 ]
}