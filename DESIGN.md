# Formal model of AntonSol919/linkspace in Lean 4

Source of truth: `/repo` (Rust, pinned).  The model lives in `lean/Verif/`.
The code was read as text only; it was not built or run.

## Layout

* `Verif/Model/*.lean`  - the model.  One Lean definition per Rust function, each with a comment
  citing file and lines, and a note where it is simplified.
* `Verif/Spec/*.lean`   - what the properties mean, written without the definitions of the model
  (tables, relations and small functions on lists of bytes or components).
* `Verif/Lemmas/*.lean` - helper lemmas, no claims.
* `Verif/Props/*.lean`  - the property theorems, each with a concrete case that meets its hypotheses.
* `Verif.lean`          - imports everything.
* `properties.jsonl`    - the properties; `MANIFEST.json` - which theorems settle them;
  `seeded/LOG.jsonl`    - wrong programs the theorems were tried against.

Conventions

* bytes are `List UInt8`; fixed arrays are lists with a length hypothesis;
* `Result`/`Option` stay data; a Rust panic (index out of range, `unwrap`, `todo!`, arithmetic
  overflow, failed `debug_assert`) is an explicit value, and so is a loop that does not end.  The
  release profile of the workspace sets `debug-assertions = true` and `overflow-checks = true`, so
  these are panics in the shipped build;
* `&mut self` becomes "returns the new value"; a callback is a function of everything it may see;
* numbers that cannot overflow in the code are `Nat`; fields of a packet are `BitVec`/bounded;
* a theorem named `..._partial` covers less than its property; what is missing is in `MANIFEST.json`.

## Trusted base

* The Lean 4.33.0 kernel, with the axioms `propext`, `Classical.choice` and `Quot.sound` at most.
  No axioms of our own, no `sorry`, no `native_decide`, no `bv_decide`.  `decide +kernel` is used for
  concrete cases and for facts about all 256 bytes; it is checked by the kernel.
* The transcription of the Rust code into the definitions of `Verif/Model`.
* Assumptions that are hypotheses of the theorems which need them (never axioms):
  * `Crypto.Laws`: hashes have 32 bytes, keys 32, signatures 64, and a signature verifies under its key.
    Where a claim would need collision freedom, the theorem says "unless these two have the same hash".
    `toyCrypto` and `mixCrypto` meet the laws.
  * `Ident.Laws`: what argon2 and the key library have to satisfy (`toyLib` meets them).  The text
    format of `argon2::hash_encoded` is taken from its documentation.
* Assumptions built into the model:
  * LMDB is a set of ordered maps with transactions: a reader sees a committed state, a transaction
    commits completely or not at all, uncommitted writes never reach the disk.  Any call may fail and
    a crash may happen at any call (`Call`).
  * `binary_search` on a sorted list returns the position of the element or where it belongs.
  * the `base64` crate behaves as documented for its two engines.
  * a double precision division of nanoseconds is rounded to nearest even at 53 bits (`Stamp`).
  * iterating a hash map visits its entries in an order given as a parameter (`Votes`).
  * the issue handler of the lookup of public names returns `Ok` (`Votes`).
  * one call of a naming function sees one time and one state of the database (`Local`).
  * the file system has no symbolic links and no other writers; paths are those of Unix (`Files`).
  * `utf8`, which tells whether bytes are a valid string, is a parameter (`Keys`, `Files`).
  * memory is not exhausted.
* Not modelled: LMDB itself (pages, fsync, file locks), the operating system, threads (a runtime is
  single threaded; other processes appear as saves between steps) but for those of the bus between processes (`Bus`), the other
  notification buses of `ipcbus` (`inotify`, `wasmbus`) and the set-up of sockets,
  unsafe casts (modelled as the byte layout they denote), blake3, schnorr and argon2 (parameters), the
  command line programs (`cli/`, but for those below), the Python and JavaScript bindings (`ffi/`, but for the parts below; of `pyo3`, `wasm-bindgen` and
  `serde` formats it is assumed that they hand values over unchanged), logging.

## What is modelled

| model | code (below `crates/`) |
|---|---|
| `Bytes`, `Num` | `byte-fmt/src/{lib,endian_types}.rs`, number texts of `abe/src/scope/{base,uint}.rs` |
| `Packet`, `View` | `pkt/src/{builder,read,point,point_parts,point_ptr,byte_segments,consts,field_ids,lib}.rs`, `pkt/src/netpkt/{mod,header,reroute,netpkt_parts,netpkt_ptr}.rs`, `core/src/mut_header.rs`, `common/src/pkt_reader.rs` |
| `Space`, `RootedSpace` | `pkt/src/{space,rooted_space}.rs` |
| `TreeKey` | `pkt/src/netpkt/{tree_order,cmp}.rs` |
| `TestSet`, `Predicates` | `core/src/predicate/{uint,value_test,pkt_predicates,test_pkt,exprs,builder}.rs`, `core/src/query.rs` |
| `Env` | `core/src/env/lmdb/{db,save,get,mod}.rs`, `core/src/env/misc.rs` |
| `Query` | `core/src/env/lmdb/{queries,tree_iter,get}.rs`, `core/src/env/{query_mode,tree_key}.rs`, `core/src/stamp_range.rs`, `core/src/predicate/{bitset_test,treekey}.rs` |
| `Matcher`, `Runtime`, `Handlers` | `core/src/matcher/mod.rs`, `common/src/runtime/{rx,handlers}.rs` |
| `CliQuery` | `common/src/{dgs,predicate_aliases}.rs`, `cli/linkspace/src/watch.rs` without `clap` and `--print` |
| `CliData` | `common/src/cli/reader.rs`, `cli/linkspace/src/{datapoint,point}.rs` (what they read and write) |
| `Api` | `linkspace/src/lib.rs` (reading), `common/src/lib.rs` |
| `Options`, `AbList` | `abe/src/abconf.rs`, `core/src/query.rs` |
| `QueryText`, `PartialHash` | `core/src/{query,partial_hash}.rs`, `core/src/predicate/{exprs,predicate_type,value_test}.rs`, `pkt/src/field_ids.rs` |
| `Abtxt`, `Ast`, `Eval`, `Arith`, `Fit`, `Base64`, `Scopes` | `abe/src/{abtxt,ast,eval,convert,lib}.rs`, `abe/src/scope/*.rs`, `pkt/src/space_fmt.rs` (reading and printing spaces), `core/src/eval.rs` |
| `Stamp` | `core/src/stamp_fmt.rs`, `pkt/src/stamp.rs` |
| `Stream` | `common/src/pkt_stream_utils.rs` |
| `Handshake`, `Identity` | `common/src/protocols/{mod,handshake}.rs`, `argon2-identity/src/lib.rs`, `cryptography/src/lib.rs` |
| `Name`, `Votes`, `Local` | `common/src/protocols/lns/{name,mod,claim,public_claim,local_claim,admin}.rs` |
| `Keys` | `linkspace/src/lib.rs` (`lk_key`), `common/src/cli/keys.rs`, `common/src/protocols/lns/{mod,claim}.rs` (encrypted keys) |
| `Files` | `common/src/eval/file.rs` |
| `Pull` | `linkspace/src/conventions/pull.rs` |
| `Status` | `linkspace/src/conventions/status.rs` |
| `PktScope`, `Repr` | `pkt/src/{eval,repr}.rs`, `pkt/src/field_ids.rs` |
| `ReadHash` | `common/src/eval/mod.rs` (`lk_scope`, `ReadHash`, `ReadMacro`, `[read]`), `abe/src/scope/argv.rs`, environment variables |
| `NameEval` | `common/src/protocols/lns/eval.rs` (`NetLNS`, `PrivateLNS`: `#`, `@`, `?#`, `?@`, `private…`, `/lns`, `/private-lns` and their printers), `common/src/eval/file.rs` (`FileEnv`), the whole `lk_scope` |
| `PktCmd` | `common/src/cli/{mod,opts}.rs` (reading and writing packets), `filter`, `ignore`, `dedup`, `save`, `route` and `pktf` of `cli/linkspace/src` |
| `Collect` | `cli/linkspace/src/collect.rs` |
| `Rewrite` | `cli/linkspace/src/rewrite.rs` |
| `GetLinks` | `cli/linkspace/src/get_links.rs`, without the mode `pause` |
| `Bus` | `crates/ipcbus/src/udp_procbus.rs`: the table of ports, and the steps of the threads that emit, receive and wait |
| `HsCmd` | `cli/handshake/src/main.rs`: all modes |
| `LnsCmd` | `cli/lns/src/main.rs`: `create-claim`, `vote`, `get`; `lookup_authority_claim` of `common/src/protocols/lns/mod.rs` |
| `DbCmd` | `cli/linkspace/src/main.rs`: `db-check`, `db-import`; `core/src/env/lmdb/db_info.rs`: `linkspace_info` |
| `EvalCmd` | `cli/linkspace/src/eval.rs`; the JSON text that `serde_json` prints for a list |
| `PyPkt` | `ffi/linkspace-py/src/pynetpkt.rs`: packets, links, comparison, header attributes; `ffi/linkspace-js/src/jspkt.rs`; `pkt/src/netpkt/netpkt_arc.rs`: the checked copy |
| `FfiArgs` | arguments of the builders: `ffi/linkspace-py/src/lib.rs`, `ffi/linkspace-js/src/lib.rs` |
| `FfiRead` | `ffi/linkspace-js/src/lib.rs`: `_read`, `lk_write`; `pkt/src/netpkt/serde_impl.rs` |
| `PyCall` | callbacks in `ffi/linkspace-py/src/lib.rs` |
| `FfiRead` | `ffi/linkspace-js/src/lib.rs` 234-312, `ffi/linkspace-py/src/lib.rs` 262-268, `crates/pkt/src/netpkt/serde_impl.rs` | formats of serde are identities on byte strings |
| `PyCall` | `ffi/linkspace-py/src/lib.rs` 57-117, 433-514 | the callback is a function of what it was given before; logging is left out |
| `PyWhile` | `ffi/linkspace-py/src/lib.rs` 521-544 | signals are left out |
| `StatusCmd` | `cli/linkspace/src/status.rs` | evaluating the arguments is left out; writing a packet is a parameter |
| `Defaults` | `crates/common/src/static_env.rs`, `crates/common/src/thread_local.rs`, `lk_open` | `same_file::Handle` is a number of the directory; opening a database is a parameter; an LK_GROUP expression is its value as a function of the session it is evaluated with |
| `Wrap` | `crates/pkt/src/netpkt/reroute.rs`, `as_netbox`, `as_netarc` of all forms | with debug assertions, as the release profile has them; references and `Box<T>` forward to the inner packet and are left out |
| `SpMatch` | `crates/pkt/src/space_macro.rs` | nested tuples as a list of the values; conversions are parameters |
| `WasmBus` | `crates/ipcbus/src/wasmbus.rs` | the channel as a list; a wait that would suspend is a value of its own |
| `MultiWatch` | `setup_watch` of `cli/linkspace/src/multi_watch.rs` (not below `crates/`) |

Not modelled (other than the items of the trusted base): `pkt/src/netpkt/{slot,partial}.rs` and the layout in `netpkt_arc.rs` (memory representations),
`common/src/{cli (but for keys, reader and the loops of PktCmd),bus}`, `common/src/runtime/threads.rs`,
`common/src/protocols/lns/utils.rs`, `linkspace/src/interop.rs`, the examples.

A query in `Model/Query` computes all of its candidates: an abort at any candidate counts as an abort of
the query, even if a limit would have stopped the reading before it.  `Model/Local` has the lazy version
(`queryFirst`) for the queries that take one result.

## Plan per property

Packets (`Model/Packet`, `Props/Packet`, `Props/Packet2`)
* C01 builder, serialisation and `read_pkt` on byte lists; prove `read (write p ++ rest) = (p, rest)`.
* C02 invert `read_pkt`: exactly which buffers are accepted; layouts are injective.
* C03 arithmetic characterisation of success of the builders.
* C04 exact value; negation for signed points, exactness for unsigned ones.
* C05 case analysis on the prefix length.
* C06 induction over the packets, and over the chunks for the stream decoder.
* C07 panics are a value; the exact set of buffers that panic.
* C08 case analysis on point kinds.
* C09 header encode/decode; what mutation does exactly, and the negation.

Spaces (`Model/Space`, `Model/RootedSpace`, `Props/Space`)
* C10, C11 refinement to `List (List UInt8)`; induction over the bytes and the components.
* C12 rooted encoding against the component list; exact set of accepted encodings.
* C13 through C36 and C39 (`Props/AbeText`).

Order (`Model/TreeKey`, `Props/TreeKey`)
* C14 lexicographic order of concatenations; the encoding of spaces is prefix-free at one depth.

Predicates (`Props/TestSet`, `Props/Predicates`, `Props/Sugar`, `Props/Printed`)
* C15, C16, C17, C20, C21 over `BitVec w` for every width; sets against "all statements hold".
* C18 printing and reading back as statements; C19, C55 against a reading of statements on the content
  of a packet that does not use the tables of the model (`Spec/Predicates`).

Database (`Model/Env`, `Model/Query`, `Props/Env`, `Props/Query`, `Props/TreeQuery`)
* C22-C26 invariant by induction over histories of saves with failures and crashes.
* C27-C30, C47 the cursor machine over the sorted keys against "filter of the contents".

Watches (`Model/Matcher`, `Model/Runtime`, `Props/Matcher`, `Props/Runtime`)
* C31-C33 sorted-list invariant over event sequences.
* C34, C35, C56 an execution of a program with callbacks; invariant: what a watch was given is its
  query on the snapshot and then the matching part of the log.
* C70 handlers as functions from callbacks to callbacks (`Props/Handlers`); a run of the outer one is split into runs of the inner one.
* C71 the arguments of the command line as expressions (`Model/CliQuery`), evaluated in any scope with the core functions; the statements made are
  computed by evaluation and their meaning is taken from the theorems on predicates and queries.
* C73 the scope of a packet is a frame in front of or behind another scope (`Model/PktScope`); a template (`Spec/Template`) is parsed and evaluated
  piece by piece, with the row of the links by induction over the links.
* C74 a reader of markup as a state machine (`Spec/Html`); what is written leads it from text to text, piece by piece.
* C75 the functions that read the database as a scope over the state of C47 (`Model/ReadHash`); an expression that stands for a hash (`HashExpr`)
  stays one when a link is followed, so paths go by induction; `[read]` by the first point of a place as in C63.
* C76 names in expressions as scopes over the lookups of C52 and C63 (`Model/NameEval`); the printer of a key or group is followed through its encoders,
  its check of the printed text by the theorem on evaluating that text. One state of the store and one time per evaluation.
* C77 commands that pass on packets (`filter`, `ignore`, `dedup`, `save`, `route`, `pktf`) as loops over what the decoder of C06 yields, writing to a list
  of destinations (`Model/PktCmd`); induction over the stream, with C19/C20 for the filter, C22/C23 for the store, C53 for `dedup`, C09 for `route`, C73 for `pktf`.
* C78 `collect` as the same loop with the links gathered so far (`Model/Collect`); invariant: the links of the points made, and those gathered, are the packets read.
* C79 `rewrite` as a map over the stream (`Model/Rewrite`), point by point against the content it should have.
* C80 `get_links` as a program of requests of the runtime model, one watch for each link; by induction over the level and the links what the callbacks are given, then
  over the stream. The specification is a relation on the log alone.
* C81 `get_port` on the bytes of the file (`Model/Bus`); the file holds a table, by induction over the calls which port an id has.
* C82 threads as small steps (`Model/Bus`): an execution is any list of actions, reads that are relaxed give any earlier value, datagrams are lost or reordered. Invariants
  by induction over the actions; for the settled value: every installed value is known to a process, or a datagram or a thread is on its way to tell it.
* C83 the decoder of `Model/Packet` on arbitrary pieces: what is yielded is the front of the stream (converse of C06), by induction over the packets; with the options
  of the programs.
* C84 the program as a function of what the input delivers and of the clock (`Model/HsCmd`, on `Handshake` and `PktCmd`). The outcome as an equivalence over C83 and
  C49; for two programs connected by pipes: any inputs that are what the other wrote.
* C85 `create-claim` as a function of its options, with expressions evaluated (`Model/LnsCmd`, on `Name`, `Local` and `PktCmd`). The packet is given outright; what is read
  back from it through `Claim::from`, `group`, `pubkey`, `authorities` and `until` is compared with the options. Failures as an equivalence.
* C86 `vote` over the lookup of C52. Success as an equivalence; the packet written, saved into any database (C80's `Clock`), is the newest of its place, so C52's
  `NewestAt` gives the vote counted; with votes of most authorities the name is found.
* C87 `get` over the lookups of C52 and C63: the packets written are the list of claims from the root, by induction over it.
* C88 `linkspace_info` as a function of the three tables (`Model/DbCmd`). Soundness over `saves_consistent` (C22); what a success means is stated on the tables; the
  corruptions it misses as witnesses. Assumed of LMDB: `MDB_NEXT_DUP` on a cursor without a position goes to the first entry, later to the next value of the same key.
* C89 the loop over the mapped file, with the offset for the alignment; over C83 the file is a list of packets or not; the save is that of C23.
* C90 both parsers are one loop with a flag (`Model/Ast`). A function on texts that escapes what the strict reader refuses; equality by induction over the text.
* C91 the loop over the reader of C72 with the scope of the arguments read so far (`Model/EvalCmd`). The JSON text against a reader of JSON texts and
  what they denote, here the function `readLine`.
* C92 `__richcmp__` over the order of C14 (`Model/PyPkt`); `__hash__` over a word size as a parameter, with the witness that it panics.
* C93 a packet object is a routing header and a packet in byte form; every attribute against the content of C01, for the bytes of any content that reading accepts.
* C94 assignments as a list of edits of the 32 header bytes; by induction the last value of each attribute; what is written, saved and indexed against the edited header.
* C95 the index as an integer of 64 bits; the loop of Python as an inductive relation over `__next__`.
* C96 values of Python and JavaScript as two inductive types of what the code tells apart (`Model/FfiArgs`); a relation says which field a value denotes.
* C97 `_read` against `lk_read` of C02 by cases on the size (`Model/FfiRead`); serde formats as an identity on bytes.
* C98 the callback as a function of the calls so far that may raise; over the reading loop of C61 (`Model/PyCall`).
* C99 the loop of slices over `run_while` of C56 (`Model/PyWhile`); each slice is a run of rounds with its own last round; refinement to one run with the rounds of all slices.
* C100 `status_watch` over `lk_status_watch` of C69 with its callback (`Model/StatusCmd`): the two phases; exact outcome for each; the panics and the second reply as refutations.
* C101 `status_set` over `lk_status_set` of C69 with the reader of C72: the data of the replies are the blocks of the reader, by induction over the requests.
* C102 `get_env`, `lk_dir`, `open_linkspace_dir`, `get_lk`, `lk_open` over a process with threads and a file system (`Model/Defaults`): one call at a time by an invariant over the calls; the steps of `get_env` of several threads interleaved, where the claim is refuted; the command line whose directory is ignored.
* C103 `set_group`, `group`, `set_domain`, `domain` on the same thread state (`Model/Defaults`): by induction over all calls.
* C104 on `Model/Runtime`: a program is compared with the one that panics when it is told of an end for a reason in a set; by induction over runs the second has a result exactly if the first has it without such an end. Told once and last: from the invariant of C34. Ends that are not told, and reasons that are not true, by concrete runs.
* C105 nested wrappers as a tree over a base form (`Model/Wrap`), with `byte_segments`, `as_netbox` and `as_netarc` of each; by induction over the nesting they give the bytes of the packet, exactly when the segments have room; where they have not it is a panic; a shared copy that is out of date.
* C106 `sp_iter_match!` arm by arm over the iterator of a space; induction over the pattern: a match is a split of the components, as an equivalence, and patterns compose.
* C107 the bus of `wasmbus.rs` as a value and a queue; an invariant over every history (nothing queued is above the value) settles what a wait does. It is false: a wait never waits, which is proved.
* C72 the reader as a state machine (`Model/CliData`); invariant: blocks so far, what is left over and what is unread are the input.

ABE (`Props/AbeText`, `Props/AbList`, `Props/Eval`, `Props/Arith`, `Props/Fit`, `Props/Base64`, `Props/Logic`, `Props/Pipe`)
* C36-C45, C57, C58 byte-level parser and printer, structural induction; the evaluator against an
  inductive relation.

Stamps (`Props/Stamp`)
* C46, C59, C60 arithmetic; induction over the units and steps. The words that end the steps of `us`: the printed units add up to the distance (`Props/UsWords`).

Library (`Props/Api`, `Props/Options`, `Props/QueryText`, `Props/Push`, `Props/PartialHash`, `Props/Stream`)
* C45, C48, C53, C61, C62.

Protocols (`Props/Handshake`, `Props/Identity`, `Props/Name`, `Props/Votes`, `Props/Local`, `Props/Setup`, `Props/Keys`, `Props/Keygen`)
* C49, C50, C54 messages as packets with content; what each side accepts, exactly.
* C51 refinement to component lists; C52 the tally against "the newest vote of each authority";
  C63 the first point of a place against the order of keys, stamps and hashes.
* C64, C65 the keys of C54 stored by C63: what a call leaves behind is what the next one finds; case
  analysis over the options of `keygen`.

Files (`Lemmas/Files`, `Props/Files`, `Props/FilesSet`)
* C66 a file system as a function from lists of names; the three ways a path is read (components, join, kernel) are all reduced to its
  list of names; induction on the names for making directories.

Conventions (`Lemmas/Pull`, `Props/Pull`, `Lemmas/Status`, `Props/Status`)
* C67 a request as a point with content; the values left by the comparisons of a query (`Pins`) against its predicate sets; the text by C62.
* C68 adding statements with the state that a refusal leaves behind; the result agrees with the model of C19 to C21. A relation between
  the states before and after accepted statements (`Step`) that holds from every state left behind, satisfiable or not.
* C69 the places as component lists, the queries as statements on them (C19, C53), the stored part by C48 and the watch by C31; the
  replies by induction over the points the watch gives. The user's update is any function, its `link` argument is what is chained.

## Findings

Behaviour of the code that contradicts its documentation or the property; each is a theorem.

Packets
* `calc_free_space_signed_wrong`: the free space of signed points is 60 bytes too large.
* `read_panics`: a buffer whose header declares a size below 4 makes reading panic.
* `reroute_keypoint_wrong`: rerouting the parts of a key point changes it; `mutate_wrong`: setting a
  header field only ors bits into it.
* `space_check_accepts_nine`, `space_components_fails`: the check of a space does not bound its depth;
  `components` fails on every non-empty space.
* `tree_order_hostile_depth`: the unchecked depth byte takes a point out of the order of the tree.

Predicates and queries
* `set_test_panics`, `next_empty_panics`: contradictory masks and empty sets panic.
* `error_points_never`: no statement on a field selects an error point.
* `sugar_empty_aborts`, `le_short_domain_dropped`, `ge_text_refused`: `<=` and `>=` with short values.
* `printed_hash_limits`, `printed_aborts`: printed queries that are not the query.
* `masks_read_on`, `masks_contradict`: limits given by masks.
* `log_ignores_upper`, `log_desc_ignores`: receive bounds of log queries are ignored.
* `hash_query_desc`: hash queries in descending order abort.
* `range_single_backwards`: a descending walk over one stamp is empty.
* `branch_limit_wrong_group`: with a limit per key a tree query can give packets of another group.
* `save_same_clock`: a save at the stamp of the last packet is refused; `written_without_commit`: packets
  are marked written although the commit failed.
* `break_overflows`, `get_all_counts_skipped`: the number returned by `lk_get_all`.
* `bare_option_lost`, `printed_mode_changes`, `domain_text_changes`: options and domains in printed queries.
* `position_aborts`, `text_order_differs`: partial hashes.

Watches
* `watch_misses_nested`: a watch misses packets if a callback processes while it reads the database.
* `process_leaves_pending`, `process_panics_on_replacing`, `reasons_swapped`, `run_while_spins`.
* `follow_flag_lost`: `:follow` and `:notify-close` without a value have no effect; `follow_not_told`: a callback that follows is never told
  that its watch has ended; `notify_missed`: no notice if the watch follows or the database had everything.
* `stop_range_none`: stopping a range does nothing unless a watch has exactly the given id; `watch_lingers`.

ABE and stamps
* `ablist_silent_head_lost`, `tree_form_double_escape`, `space_text_nine`: texts that do not read back.
* `plus_empty_aborts`; `checked_add_longer`, `duration_print_rounds`, `duration_cut_panics`, `us_accepts_longer`.

Protocols
* `servers_confused`: the answer of one server is accepted by another as the last message of a client.
* `dedup_zero`, `dedup_size_zero`, `enckey_trailing`.
* `subname_not_found`, `tie_hidden`, `other_name_found`, `deep_claim_aborts`, `half_stops`, `key_twice`: public names. A key that a claim lists twice as authority has two votes.
* `overwrite_lost`: replacing the key of a local name succeeds, but the old key stays if its claim has
  the greater hash; the index of keys is changed all the same.
* `empty_tag_aborts`: a lookup under the empty tag aborts.
* `repass_unsaved`, `repass_forgotten`: `keygen` with a new password prints the re-encrypted key of a name
  but does not save it; the name keeps the old password.
* `overwrite_generates`, `repass_replaces`: with `--overwrite` as well, the key is not re-encrypted but replaced by
  another one.
* `claim_keys_differ`: the claim of a name may show one public key and hold the encrypted key of another.
* `enckey_lost`, `long_costs_lost`: an encrypted key longer than 130 bytes is stored but never found.
* `failed_write_truncates`: a failed write to the files directory may lose the old content.
* `pull_other_domain`: the text of a pull request for a domain that is not plain text names another domain;
  `pull_aborts`: an id that is empty or too long aborts.
* `multi-watch` tries its alternatives one after the other on the same query, and what a refused one has changed stays:
  `or_second_refused` (a request allowed by the second alternative is refused), `or_dead` (it is accepted, and passes nothing),
  `or_request_dropped` (packets that do not satisfy the request are passed), `or_option_kept` (options of a refused alternative apply).
* `status_misses`: a status watch misses a stored reply if there are points about another type; `status_oldest`: it waits from the oldest
  recent request, not from the last; `status_half_reply`: stored points with data or links alone are given as replies;
  `status_break_asks`: a callback that breaks makes another request; `status_any_group`: points in any group and domain are answered.
* Command line: `cli_prefix_misses` (`/b:**` in the default order misses points), `cli_empty_component` (`/b/[:]` also selects one component
  more), `cli_mode_ignored` (`:mode:` is overridden by the default), `cli_watch_qid` (`watch` ignores `--qid`), `cli_follow_lost`.
* Data for points: `signed_too_large` (a signed `linkpoint` panics on input that does not fit), `carry_disorders` (`--data-overflow carry` changes the
  order of bytes), `trim_makes_records` (what `trim` did not read of a record becomes the next record), `reads_lose_rest`, `no_data_never_ends`,
  `full_point_ends` (no free space counts as end of input), `long_text_splits` (a long expression is cut before it is evaluated).
* Packet templates: `rspacename_differs` (the raw form of `[rspacename]` is not that of `[spacename]`, its text is), `pkt_quick_differs`
  (`[pkt-quick]` is not the text of `[pkt]`).
* Reading in expressions: `macro_missing` (`[/readhash:HASH:..:x]` for a missing packet is an error unless a second alternative text follows),
  `macro_shadowed` (inside the macro the fields of an outer packet in front win), `recv_differs` (`[recv]` of a packet that was read is its stored
  stamp in one form and an error in another), `read_misses`, `read_deeper` (`[read]` looks below the given space too: it may give a deeper point
  or miss), `read_empty_name` (the documented example with an empty name never has a value). `[readhash]` does not check for the private group, `[read]` does.
* Names in expressions: `name_shadowed` (a name that starts with `0`, `pub`, `test` or `none`, like `none:local`, is never looked up in `[#:..]` or
  `[@:..]`), `print_word_aborts`, `none_aborts` (printing a key that has such a name aborts the program), `print_base64_aborts` (so does printing
  a known key given in base64), `private_not_only` (`private#` and `private@` also find public names), `macro_claim_shadowed`.
* `html_semicolon_lost`, `html_other_char`: `html-quick` escapes `<` as `&lt` without a semicolon, so `<;` is shown as `<` and `<cc;` as one
  other character.
* Commands on packets: `no_pkts_panics` (`--no-pkts` aborts every command that reads packets), `hop_defaults` (only `save` counts hops without being
  asked), `private_in_refused`, `private_dropped`, `private_forbidden` (a private point on the input is an error; on the output it is left out without a word,
  or an error with `--private-write false`), `filter_stops_reading` (after the last packet of a count the rest goes neither to `--write` nor to
  `--write-false`), `ignore_datapoint` (`ignore --allow-datapoint` drops datapoints), `buffer_fails` (the destination `buffer` is an error
  outside of `collect`), `pktf_error_point` (`pktf` aborts on error points), `dedup_cmd_zero`, `save_cmd_same_clock` (`save` fails on two new
  packets within one microsecond). An input that ends within the first 68 bytes of a packet counts as complete.
* `collect`: `chain_extra_point` (with `--chain-tag` or links of the command line a stream that fills its rounds ends with a point that links to no
  packet), `data_ends_loses` (when the data for the points ends the packets since the last point are in none, the rest is not read, and the command
  ends well), `timed_ignores_errors` (with `--min-interval` a bad packet ends the input without an error), `collect_cmd_spoiled` (without it, the packets
  since the last point are in none), `private_points_dropped` (points in the private group are made and go nowhere).
* `rewrite`: `rewrite_forgets_routing` (a point made anew has the default routing header, whatever it had), `rewrite_error_point` (an error point aborts the
  command), `rewrite_sign_too_large` (a link point of almost full size cannot be signed and ends the command), `rewrite_link_always` (`skip` and `resign` still
  make link points anew).
* `get-links`: `get_links_inner_lost` (in the mode `error` a missing link of a packet that was itself found by a link is lost: `try_cb` makes the error a break of the
  callback, and the command goes on), `watch_arrival_panics` (in the mode `watch` with levels the program aborts when a packet comes that was waited for and whose own
  first link is missing: the callback asks to process while packets are being processed).
* The bus between processes: `wake_up_lost` (`run_while` processes the log and then begins to listen; a packet saved in between wakes nobody, and it sleeps although the
  log has something new: it should look again after it listens), `same_pid_unheard` (a process ignores messages with its own process id, and in different containers ids
  are equal), `short_datagram_deafens` and `deaf_never_told` (a datagram of less than 8 bytes to the port, which any local program can send, panics the thread that
  receives, and the process is told of nothing any more).
* Ports: `ports_run_out` and `ports_shared` (entries are never removed, and from the 55034th database on all have port 65535), `port_moves` and `port_taken` (a
  `procbus.map` that was cut inside of an entry is continued there: a database has another port the next time, or two have the same).
* The handshake program: `skip_hash_forged` (with `--skip-hash`, or `LK_SKIP_HASH` in the environment, signatures are not checked and `serve` succeeds for any key),
  `hop_false_panics` (with `--hop false` the first message of every client is a failed assertion), `phase3_forever` (`phase3` checks no stamp: three messages are
  accepted again at any later time).
* The program for names: `copy_missing` (`create-claim --copy-from` of a name nobody has claimed makes a claim without a key), `create_spec` (a claim too large for a
  point is a panic), `vote_local` (`vote` for a local name runs into `todo!()`; so do `ls-group` and `ls-pubkey` always), `say_deep` (nobody may vote for a name of three
  or more components; votes for two may be made, but no lookup counts them, `subname_not_found`), `get_local` (`get` of a local name without a claim writes a made-up one
  to the destinations, the database too if asked for, before it fails), `get_public` (`get` of a public name of several components writes the claim of its last
  component before it fails).
* `db-check`: `tree_loss_missed` (a database without its tree passes), `tree_junk_missed` (of the tree only the entries under its first key are looked at, the cursor
  iterates over duplicates), `check_not_contents` (no hash is computed: changed packets pass).
* `db-import`: `import_takes_private` (private points are imported without `--private`).
* `eval`: `no_data_endless` (`eval .. argv --no-data` collects empty arguments without end), `plain_ambiguous` (without `--json`, `a:b` and `a\:b` print the same).
  A backslash before a letter without meaning is a backslash in loose texts and an error in strict ones (`loose_is_plain`), but `\x` without two digits is an error
  in both (`loose_needs_digits`).
* Packet objects: `py_hash_panics` (`hash(pkt)` panics: 32 bytes are put into a word), `comp_list_hostile` (the list of components of a space that `lk_read` accepts
  can panic), `item_ignores` and `save_ignores` (assignments to header attributes are seen by attributes and `lk_write`, not by `pkt["hop"]` or `lk_save`),
  `second_loop` (a second loop over the same links object gives nothing).
* Arguments of points: `py_space_text` (a `str` as a space is taken apart into letters), `space_bytes_dropped` (components behind the eighth are dropped),
  `js_link_bytes` (48 bytes are no link in JavaScript).
* Python callbacks: `exception_lost` (an exception in `lk_get_all` or `lk_get_hashes` does not stop the loop and is forgotten unless the last call raised),
  `on_close_panics` (the end of a watch with `on_close` is a `todo!`).
* JavaScript: the second argument of `lk_read` is called `validate` in the TypeScript declarations; it allows private points (`js_read_iff`).
* `lk status watch`: `status_cmd_two` (without `--multi` it writes a stored reply and waits for another), `status_cmd_panics` (a stored point with data and no links at the place of the status makes it
  panic), `status_cmd_unfit` (arguments that are too long for a space make it panic).
* `lk status set`: an empty record ends the command (`status_set_cmd`), since a reply with no data is refused.
* Opening: `sessions_race` (two threads that call `get_env` for one directory at the same time can open it twice; LMDB does not allow that in one process), `dir_ignored` (with an `LK_GROUP` or
  `LK_DOMAIN` that has to be looked up, parsing the command line opens the default directory, and `get_lk` then ignores `--dir`), `open_not_cloned` (the comment of `open_linkspace_dir` says that
  without a path it clones the first opened; it opens the default directory).
* The notice `stopped`: `ends_untold` (a callback is not told if it breaks in the database, if its query is used up by the database, if the time of its watch is over when it is made or
  runs out later), `replaced_told_closed` (a watch replaced by another of its id is told `Closed`).
* C105: headers put around a packet (`ReroutePkt`) take a segment each, and there are eight. A packet in byte form takes seven headers and panics when written with
  the eighth; a signed point held as parts panics with the first. Boxing such a packet works, since `ReroutePkt` boxes the one inside (`wrap_deep`, `wrap_example`).
* C105: a `ShareArcPkt` keeps the copy it made; if the header of the packet inside is set afterwards the copy has the old header and the bytes the new one
  (`wrap_stale`).
* C106: `sp_match!` looks at a space through the unchecked iterator, which takes a component that is cut short for the end; bytes that are no space can match
  (`sp_match_raw`). On spaces it is exact.
* C107: in a browser `next_async` compares what was sent with a value that `emit` has already raised, so it never waits; called again it yields 0
  (`bus_never_waits`, `bus_wait_twice`). `emit` is also the only way in, so nothing else can make it wait.

## Status

`MANIFEST.json` has the state of every property.  A property is "partial" if it is false of the code in a
corner (then the corner is one of the findings and the exact behaviour is proved where possible), or if
a class of inputs is excluded by a hypothesis of its theorems.

## Axioms

`#print axioms` of every theorem in `MANIFEST.json` lists a subset of `propext`, `Classical.choice` and
`Quot.sound`; `vcheck` replays all modules in the kernel.
