{"id": "C01", "title": "Build, serialise, read back: nothing is lost", "statement": "Whenever lk_datapoint / lk_linkpoint / lk_keypoint return a packet, writing that packet to bytes and reading it with lk_read yields a packet with the same hash and the same data, group, domain, create stamp, links, space (and public key and signature for keypoints), and the unread rest of the buffer is returned untouched.", "quantifier": "every data, group, domain, space, link list, stamp, key, routing header and every trailing buffer content", "why_tests_cant": "The input space is unbounded (links and data up to 64 KiB, all padding residues mod 8, all space shapes); tests sample a handful of sizes.", "anchors": ["crates/pkt/src/builder.rs: try_datapoint_ref, try_linkpoint_ref, try_keypoint_ref", "crates/pkt/src/read.rs: read_pkt", "crates/pkt/src/point_ptr.rs: internal_consitent_length, parts", "crates/linkspace/src/lib.rs: lk_read, lk_write"]}
{"id": "C02", "title": "An accepted packet is what its hash says it is", "statement": "If lk_read accepts a byte buffer, then the hash it reports is the hash of exactly the point bytes it delivers, the length fields, type and space encoding of the packet are mutually consistent, and for a keypoint the signature verifies under the packet's public key for the linkpoint part. Hence (hash injective on the compared inputs) two accepted packets with equal hash carry the same point.", "quantifier": "every byte buffer, adversarial ones included", "why_tests_cant": "Adversarial inputs cannot be enumerated; a single unchecked offset is enough to break it.", "anchors": ["crates/pkt/src/read.rs: read_pkt", "crates/pkt/src/netpkt/netpkt_ptr.rs: check", "crates/pkt/src/point_ptr.rs: internal_consitent_length, check_signature, unchecked_tail"]}
{"id": "C03", "title": "Size limits are exact", "statement": "A point builder succeeds exactly when the resulting point fits the published maximum point size; every packet it returns is at most MAX_NETPKT_SIZE bytes, a multiple of 8 long, and its declared size equals the number of bytes written.", "quantifier": "every data length, link count and space size", "why_tests_cant": "Off-by-one boundaries sit at one length out of 65000, combined with link counts and space sizes.", "anchors": ["crates/pkt/src/point.rs: new_content_len, new_point_size, padded_point_size", "crates/pkt/src/builder.rs", "crates/pkt/src/consts.rs"]}
{"id": "C04", "title": "calc_free_space is exact", "statement": "calc_free_space(space, links, data, signed) is non-negative exactly when building that (signed or unsigned) point succeeds, and the reported number is exactly how many more data bytes fit.", "quantifier": "every space, link list, data and signed flag", "why_tests_cant": "The boundary is a single data length per (space, links, signed) combination.", "anchors": ["crates/pkt/src/builder.rs: calc_free_space, linkp, try_keypoint_ref", "crates/pkt/src/consts.rs: MAX_LINKPOINT_DATA_SIZE, MAX_KEYPOINT_DATA_SIZE"]}
{"id": "C05", "title": "A partial packet asks for more bytes, never yields a packet", "statement": "For every packet built by the library and every strict prefix of its bytes, the reader returns a 'need more bytes' error whose requested amount never exceeds what is really missing; it never returns a packet and never reports the prefix as invalid.", "quantifier": "every built packet and every cut position", "why_tests_cant": "The cut positions times packets are unbounded; network chunking is adversarial.", "anchors": ["crates/pkt/src/read.rs: read_pkt", "crates/pkt/src/lib.rs: Error::requires_more"]}
{"id": "C06", "title": "A stream of packets decodes to the same packets", "statement": "Concatenating the serialised bytes of any list of built packets and repeatedly reading the front of the buffer yields exactly that list, in order, with nothing left over.", "quantifier": "every finite list of built packets", "why_tests_cant": "Framing errors accumulate only over long heterogeneous streams.", "anchors": ["crates/pkt/src/read.rs: read_pkt", "crates/common/src/pkt_reader.rs: NetPktDecoder::next", "crates/pkt/src/point_parts.rs: pkt_segments"]}
{"id": "C07", "title": "Reading untrusted bytes never panics", "statement": "lk_read returns a packet or an error for every byte buffer; it never aborts the process.", "quantifier": "every byte buffer", "why_tests_cant": "A single malformed header value among 2^64 suffices.", "anchors": ["crates/pkt/src/read.rs: read_pkt", "crates/pkt/src/point.rs: PointHeader::check, ucontent_size", "crates/pkt/src/point_ptr.rs: fixed, internal_consitent_length"]}
{"id": "C08", "title": "Private-group points never leave or enter unless allowed", "statement": "With allow_private=false lk_write writes no bytes of a point whose group is the private group and lk_read never returns one; every other valid packet is unaffected by the flag.", "quantifier": "every packet and every buffer", "why_tests_cant": "It is an absence claim over all packets and all code paths of the API.", "anchors": ["crates/pkt/src/lib.rs: check_private", "crates/linkspace/src/lib.rs: lk_read, lk_read_unchecked, lk_write"]}
{"id": "C09", "title": "Routing header is outside the identity", "statement": "Changing the routing header (flags, hop, stamp, ubits) of a packet changes neither its hash nor any point field, and a packet stays readable and valid; the header mutation option sets the requested header field to the requested value and leaves the rest of the header unchanged.", "quantifier": "every packet, every header and every mutation list", "why_tests_cant": "Ranges over all header values and all packets.", "anchors": ["crates/pkt/src/netpkt/header.rs", "crates/core/src/mut_header.rs: NetHeaderMutate::mutate", "crates/pkt/src/netpkt/reroute.rs"]}
{"id": "C10", "title": "A space is its list of components", "statement": "Building a space from a list of components succeeds exactly when every component has 1..200 bytes, there are at most 8 of them and the encoded size is at most 242; iterating the result yields exactly that list; and any byte string accepted as a space is the encoding of exactly one component list.", "quantifier": "every list of byte strings and every byte string", "why_tests_cant": "Sizes and depths combine; the accepting byte strings are a grammar.", "anchors": ["crates/pkt/src/space.rs: try_push, extend_from_iter, check_components, SpaceIter::next"]}
{"id": "C11", "title": "Space editing operations act on the component list", "statement": "push/prepend/append/split_last/split_first/split_at/drop_prefix/strip_prefix/starts_with/truncate on an encoded space agree with the same operation on its component list; in particular starts_with on bytes holds exactly when the component list is a prefix.", "quantifier": "every valid space and every operation argument", "why_tests_cant": "Byte-prefix versus component-prefix only differ on crafted length bytes; unbounded combinations.", "anchors": ["crates/pkt/src/space.rs: try_push, try_push_front, try_prepend, split_last, split_first, split_at, starts_with, strip_prefix"]}
{"id": "C12", "title": "A rooted space gives O(1) access to the same components", "statement": "Rooting a valid space of at most 8 components and reading its components by index, range, last or iteration gives exactly the components of the space, its depth is the number of components, and the rooted encoding is accepted by the validity check; conversely every rooted encoding accepted by the validity check is the rooting of exactly one space.", "quantifier": "every space and every byte string offered as a rooted space", "why_tests_cant": "The offset table has 8 one-byte entries whose consistency must hold for all encodings, including hostile ones.", "anchors": ["crates/pkt/src/rooted_space.rs: try_append_component, check_components, iter, range, last, comp, rspace1", "crates/pkt/src/space.rs: try_into_rooted"]}
{"id": "C13", "title": "Space text form round-trips", "statement": "Printing any valid space as ABE text and evaluating/parsing that text as a space gives back the same space.", "quantifier": "every valid space, all byte values", "why_tests_cant": "All 256 byte values at every position must be escaped correctly with the separators.", "anchors": ["crates/pkt/src/space_fmt.rs: Space::ablist, SpaceBuf::try_from_ablist, Display"]}
{"id": "C14", "title": "Tree order is the documented tuple order", "statement": "Comparing two tree-index keys as byte strings (which is what the database does) orders points by (group, domain, space depth, spacename, public key), and entries under one key by (create stamp, hash); two points have the same key exactly when these five fields agree; the fields are recovered from the key.", "quantifier": "all pairs of linkpoints/keypoints with well-formed spaces", "why_tests_cant": "Concatenated variable-length fields: only crafted field contents expose an order or injectivity error.", "anchors": ["crates/pkt/src/netpkt/tree_order.rs: TreeKey::from_fields, TreeEntry::from_pkt, space_and_key, fixed_head, TreeValue::into_bytes", "crates/pkt/src/netpkt/cmp.rs: PktCmp"]}
{"id": "C15", "title": "A predicate set is the conjunction of the predicates added", "statement": "A value passes the test set of a field exactly when it satisfies every predicate (=,<,>,0,1) added to that field, in any order and any number.", "quantifier": "every sequence of predicates and every value, every integer width used (8..256 bit)", "why_tests_cant": "Interaction of bounds and masks over unbounded sequences.", "anchors": ["crates/core/src/predicate/value_test.rs: Bound::add, Mask::add, TestSet::add, TestSet::test"]}
{"id": "C16", "title": "The next-candidate search never skips a match", "statement": "Asking a test set for the next acceptable value at or after v returns the least value >= v that satisfies all predicates, or nothing exactly when there is none; it reports 'in set' exactly when v itself is acceptable.", "quantifier": "every test set, every v, every width", "why_tests_cant": "The mask arithmetic (carry over fixed bits) must be right for all 2^256 values and masks.", "anchors": ["crates/core/src/predicate/value_test.rs: Mask::in_set, Mask::overflowing_in_set, TestSet::info, Bound::bound_cmp"]}
{"id": "C17", "title": "Contradictory predicates are reported as an error", "statement": "Adding a predicate through the query API returns an error exactly when no value can satisfy the field's predicates any more, and never aborts the process.", "quantifier": "every sequence of predicates on a field", "why_tests_cant": "Emptiness of a bound-and-mask intersection over 2^256 values.", "anchors": ["crates/core/src/predicate/value_test.rs: has_any, min_value, try_add, overflowing_in_set", "crates/core/src/predicate/pkt_predicates.rs: and"]}
{"id": "C18", "title": "A printed query means the same query", "statement": "Listing the predicates of a field's test set and adding them to an empty set gives a set with the same members; the value text of each printed predicate evaluates to the same value.", "quantifier": "every test set", "why_tests_cant": "All combinations of bounds and masks, including the degenerate ones.", "anchors": ["crates/core/src/predicate/value_test.rs: TestSet::rules, TestSet::unpack", "crates/core/src/predicate/pkt_predicates.rs: iter", "crates/core/src/predicate/exprs.rs"]}
{"id": "C19", "title": "The compiled packet filter decides the query", "statement": "The list of compiled tests accepts a packet exactly when every field of the packet satisfies the field's predicates and the packet's space starts with the query's prefix; packets lacking a field are treated as documented.", "quantifier": "every predicate set and every packet", "why_tests_cant": "Dropped or reordered tests only show for particular combinations of predicates.", "anchors": ["crates/core/src/predicate/test_pkt.rs: compile_predicates, compile_stest, SpacePrefix"]}
{"id": "C20", "title": "The i-count predicates select by position", "statement": "Over any stream of candidate matches, the query returns exactly the candidates whose position (0,1,2,...) satisfies the 'i' predicates, in order, and stops reading once no later position can satisfy them.", "quantifier": "every 'i' test set and every stream", "why_tests_cant": "Streams are unbounded and position sets can have gaps.", "anchors": ["crates/core/src/predicate/value_test.rs: iter_contains, MembershipIter", "crates/core/src/env/lmdb/queries.rs: query"]}
{"id": "C21", "title": "The sugar operators mean what they say", "statement": "field:>=:v and field:<=:v restrict the field to values >= v and <= v respectively, with the documented 'nothing below 0 / above max' behaviour, and never abort.", "quantifier": "every operand byte string of every length and every field value", "why_tests_cant": "Boundary operands (all 0x00, all 0xff, empty, short) are the only interesting ones and differ per width.", "anchors": ["crates/core/src/predicate/exprs.rs: try_iter", "crates/core/src/predicate/uint.rs: add_one, sub_one"]}
{"id": "C22", "title": "Indexes and log agree after any history of saves", "statement": "After any sequence of saves (batches of any packets, duplicates included, any clock readings, failed saves included): every log entry is found under its hash at its log position, every hash entry points to a log entry with that hash, and the tree index contains exactly one entry for each logged link/keypoint, carrying that point's key, stamp, hash and log position.", "quantifier": "all histories of save batches and clock readings", "why_tests_cant": "Needs every interleaving of duplicates within and across batches.", "anchors": ["crates/core/src/env/lmdb/save.rs: save", "crates/core/src/env/lmdb/mod.rs: save"]}
{"id": "C23", "title": "Every packet is stored at most once and reported correctly", "statement": "No two log entries have the same hash; lk_save returns true exactly when the packet's hash was not stored before; lk_save_all returns exactly the number of distinct new hashes in the batch, and the returned range [start,end) is exactly the receive stamps given to the new packets, in batch order.", "quantifier": "all histories and all batches, including batches with internal duplicates", "why_tests_cant": "Duplicates inside one batch and across processes.", "anchors": ["crates/core/src/env/lmdb/save.rs: save", "crates/linkspace/src/lib.rs: lk_save, lk_save_all, lk_save_all_ext"]}
{"id": "C24", "title": "Receive stamps strictly increase whatever the clock does", "statement": "Receive stamps in the log strictly increase in save order even if the system clock stands still or jumps backwards, and saving never fails because of the clock.", "quantifier": "all sequences of clock readings, adversarial ones included", "why_tests_cant": "Clock behaviour cannot be scheduled in a test.", "anchors": ["crates/core/src/env/lmdb/save.rs: save"]}
{"id": "C25", "title": "A crash or error loses at most the current batch, never consistency", "statement": "If the process stops at any point inside a save, or the save returns an error, the database afterwards is exactly the database before that save (or, if the commit happened, exactly the one after it).", "quantifier": "every crash point inside every save of every history", "why_tests_cant": "Crash points between individual index writes cannot be enumerated for all histories.", "anchors": ["crates/core/src/env/lmdb/save.rs: save"]}
{"id": "C26", "title": "The log is append-only", "statement": "Once saved, a packet stays readable by its hash and by its receive stamp with identical bytes after any further saves.", "quantifier": "all later histories", "why_tests_cant": "Ranges over all continuations.", "anchors": ["crates/core/src/env/lmdb/save.rs: save", "crates/core/src/env/lmdb/get.rs: read, read_ptr"]}
{"id": "C27", "title": "Tree queries return only matching packets, in tree order, once each", "statement": "Every packet returned by a tree-mode query is stored, satisfies all predicates of the query, appears at most once, and keys are visited in ascending tree order with stamps ascending (tree-asc) or descending (tree-desc) inside a key.", "quantifier": "every database content and every query", "why_tests_cant": "Database contents times queries are unbounded.", "anchors": ["crates/core/src/env/lmdb/tree_iter.rs: set_pointer_at_match, next_stamp_match", "crates/core/src/env/lmdb/queries.rs: query_tree_entries, query_tree"]}
{"id": "C28", "title": "Tree queries return every matching packet", "statement": "Every stored link/keypoint that satisfies the predicates of a query is returned by a tree-mode query (up to the 'i' count selection).", "quantifier": "every database content and every query", "why_tests_cant": "The skip-scan can jump over matches only for particular neighbouring keys.", "anchors": ["crates/core/src/env/lmdb/tree_iter.rs: set_pointer_at_match", "crates/core/src/predicate/bitset_test.rs: next_depth", "crates/core/src/env/lmdb/queries.rs: query_tree_entries"]}
{"id": "C29", "title": "Log queries return exactly the matching packets in log order", "statement": "A log-mode query returns exactly the stored packets that satisfy the predicates, receive-stamp bounds included, in ascending (log-asc) or descending (log-desc) receive order.", "quantifier": "every database content and every query", "why_tests_cant": "Unbounded contents and bound combinations.", "anchors": ["crates/core/src/env/lmdb/queries.rs: query_log2", "crates/core/src/env/lmdb/get.rs: log_range", "crates/core/src/stamp_range.rs"]}
{"id": "C30", "title": "Hash queries return exactly the matching packets", "statement": "A hash-mode query returns exactly the stored packets whose hash and other fields satisfy the predicates, in hash order; looking up one hash returns the packet iff it was saved.", "quantifier": "every database content and every query", "why_tests_cant": "Unbounded contents; skip arithmetic on 256-bit values.", "anchors": ["crates/core/src/env/lmdb/queries.rs: query_hash_entries, query_hash", "crates/core/src/env/lmdb/get.rs: read"]}
{"id": "C31", "title": "One watch per query id", "statement": "After any sequence of registering, stopping and triggering, at most one watch is registered per query id, looking up an id finds the watch registered last under it (unless stopped or finished), and registering under a used id replaces and returns the old one.", "quantifier": "all histories of register/stop/trigger", "why_tests_cant": "Binary search over a list that other operations mutate: needs the order invariant in every reachable state.", "anchors": ["crates/core/src/matcher/mod.rs: get, register, deregister, trigger, gc"]}
{"id": "C32", "title": "Stopping a range of ids stops exactly the watches with that prefix", "statement": "lk_stop(id, range=true) removes exactly the watches whose id starts with the given bytes; lk_stop(id,false) removes exactly the watch with that id.", "quantifier": "all sets of registered watches and all ids", "why_tests_cant": "Set of ids is unbounded; the boundary case is when no watch has exactly the prefix as id.", "anchors": ["crates/core/src/matcher/mod.rs: deregister", "crates/linkspace/src/lib.rs: lk_stop"]}
{"id": "C33", "title": "A watch fires for exactly the matching new packets and then ends", "statement": "Feeding any sequence of packets to a registered watch calls its callback exactly for the packets that match its predicates at an accepted position, in order, until the callback breaks or no later packet can match; then it is removed and never called again.", "quantifier": "every query, every packet sequence, every callback behaviour", "why_tests_cant": "Unbounded streams with position predicates and receive bounds.", "anchors": ["crates/core/src/matcher/mod.rs: WatchEntry::_test, Matcher::trigger"]}
{"id": "C34", "title": "lk_watch misses nothing and duplicates nothing", "statement": "For a watch registered at any moment, the packets given to its callback are exactly the matching packets in the database at registration followed by the matching packets saved later, each once and in order, whatever other processes save between registration and lk_process calls.", "quantifier": "all interleavings of saves, watch registrations and process calls", "why_tests_cant": "Race between the snapshot used for the initial query and the log position of the processor.", "anchors": ["crates/common/src/runtime/rx.rs: watch, process, insert_watch, drain_pending", "crates/core/src/env/lmdb/get.rs: pkts_after"]}
{"id": "C35", "title": "lk_process catches up", "statement": "After lk_process returns, every packet in the log at the time of the call has been offered to every active watch, watches requested from inside callbacks are active, and calling it again without new packets changes nothing.", "quantifier": "all states and callback behaviours", "why_tests_cant": "Re-entrancy from callbacks.", "anchors": ["crates/common/src/runtime/rx.rs: process, drain_pending, run_while"]}
{"id": "C36", "title": "Byte text escaping round-trips", "statement": "Printing any byte string as abtxt and parsing it gives the same bytes; the printed text is printable ASCII without unescaped control characters.", "quantifier": "all byte strings", "why_tests_cant": "All strings over 256 values; escapes interact with following characters.", "anchors": ["crates/abe/src/abtxt.rs: as_abtxt, escape_default, next_byte, parse_abtxt"]}
{"id": "C37", "title": "ABE text and syntax tree correspond", "statement": "Parsing the printed form of any syntax tree the parser can produce yields the same tree; parsing is deterministic and rejects unbalanced brackets, and parse(print(parse s)) = parse s for every accepted s.", "quantifier": "all syntax trees / all strings, any nesting depth", "why_tests_cant": "Unbounded nesting and all escapes.", "anchors": ["crates/abe/src/ast.rs: parse_abe_strict_b, collect, Display for ABE"]}
{"id": "C38", "title": "Splitting an expression into top-level parts loses nothing", "statement": "lk_tokenize_abe yields parts whose re-joining with their separators is the original text, with separators only at bracket depth 0, only the excluded ones ignored, and it errors exactly on unbalanced or invalid text.", "quantifier": "all strings and all exclusion sets", "why_tests_cant": "Unbounded nesting.", "anchors": ["crates/abe/src/ast.rs: tokenize_abe_b", "crates/linkspace/src/lib.rs: lk_tokenize_abe"]}
{"id": "C39", "title": "An evaluated list prints to text that evaluates to itself", "statement": "Printing an evaluated list (components with ':' and '/' separators) and parsing it back gives the same list; concatenation, splitting on '/' and byte iteration agree with the list.", "quantifier": "all lists", "why_tests_cant": "All byte values and separator placements, including empty components.", "anchors": ["crates/abe/src/eval.rs: ABList Display, push_bytes, push_ctr, split_fslash, TryFrom<&[ABE]>, concat"]}
{"id": "C40", "title": "lk_encode output evaluates to the input", "statement": "For every byte string and every option list, evaluating the text returned by lk_encode yields the bytes; encode never aborts.", "quantifier": "all byte strings and option lists (encoders a, u8..u128, b, b2/b16, abtxt fallback)", "why_tests_cant": "Leading zeros, empty input and long inputs are encoder-specific boundaries.", "anchors": ["crates/abe/src/eval.rs: encode_abe", "crates/abe/src/scope/bytes.rs: encode_a", "crates/abe/src/scope/uint.rs", "crates/abe/src/scope/base.rs"]}
{"id": "C41", "title": "Byte arithmetic saturates and is big-endian arithmetic", "statement": "The '+' and '-' functions on equal-length byte strings compute big-endian addition and subtraction, saturating at all-0xff and all-0x00, for every length.", "quantifier": "all byte strings of all lengths", "why_tests_cant": "Carry chains of every length.", "anchors": ["crates/abe/src/scope/uint.rs: carry_add_be, carry_sub_be", "crates/core/src/predicate/uint.rs"]}
{"id": "C42", "title": "slice follows Python slicing", "statement": "The slice function returns exactly the elements Python's bytes[start:stop:step] would, for positive and negative indices and steps.", "quantifier": "all byte strings, starts, stops and steps", "why_tests_cant": "Sign and clamping combinations over unbounded integers.", "anchors": ["crates/abe/src/scope/bytes.rs: slice"]}
{"id": "C43", "title": "Padding and fixing to a length preserves the value", "statement": "Fitting bytes into N bytes at the back or front keeps the bytes and pads with the pad byte, fails exactly when too long, and for big-endian numbers keeps the numeric value; cutting the padding restores the bytes without leading zeros.", "quantifier": "all byte strings and N", "why_tests_cant": "All lengths.", "anchors": ["crates/abe/src/lib.rs: fit_back, fit_front, cut_prefix_nulls", "crates/byte-fmt/src/lib.rs: ab, try_ab"]}
{"id": "C44", "title": "Base64 text of hashes round-trips and keeps prefix structure", "statement": "The base64 text of N bytes parses back to the same bytes, has length ceil(4N/3), and texts with non-canonical trailing bits or wrong length are rejected.", "quantifier": "all byte arrays of all sizes", "why_tests_cant": "All residues mod 3 and all values.", "anchors": ["crates/byte-fmt/src/lib.rs: B64::parse_str, b64"]}
{"id": "C45", "title": "Options: the newest matching option wins and survives printing", "statement": "Looking up an option in a query returns the value of the most recently added option with that name, or nothing if none was added; printing and re-parsing the options keeps all lookups.", "quantifier": "all option histories", "why_tests_cant": "Unbounded sequences and prefix-related names.", "anchors": ["crates/abe/src/abconf.rs: get_inner, has_optional_value, Display, try_from", "crates/core/src/query.rs: add_option, get_option"]}
{"id": "C46", "title": "Stamp arithmetic saturates and inverts", "statement": "stamp_add/stamp_sub saturate at the ends of the range, the checked variants fail exactly on overflow, and the signed age between two stamps added back gives the later stamp.", "quantifier": "all stamps and durations", "why_tests_cant": "64-bit boundary values.", "anchors": ["crates/pkt/src/stamp.rs: stamp_add, stamp_sub, checked_stamp_add, stamp_sub_stamp, stamp_age"]}
{"id": "C47", "title": "Stamp ranges select the stamps between their ends in the direction given", "statement": "A stamp range contains exactly the stamps between its two ends (both included) in its direction, and classifying a stamp as before/inside/after agrees with walking the range in that direction.", "quantifier": "all ranges and stamps", "why_tests_cant": "Direction and boundary combinations over 64-bit values.", "anchors": ["crates/core/src/stamp_range.rs: after, asc_from, bound_cmp, contains, iter_cmp_u64"]}
{"id": "C48", "title": "A partial hash finds the hashes with that text prefix", "statement": "The database position computed from a base64 hash prefix is a lower bound for every hash whose base64 text starts with that prefix and the matching test accepts exactly those hashes.", "quantifier": "all prefixes and hashes", "why_tests_cant": "Base64 digits straddle byte boundaries; alphabet order differs from byte order.", "anchors": ["crates/core/src/partial_hash.rs: try_from_strlike, aprox_btree_idx, str_matches"]}
{"id": "C49", "title": "Handshake authenticates both sides to the same exchange", "statement": "If both sides follow the protocol with clocks within the allowed difference the handshake succeeds and both learn the other's key; a side that accepts has verified a signature by the claimed key over the fresh point it created itself, so replaying or reflecting another session's messages is rejected.", "quantifier": "all keys, clocks and adversarial message contents", "why_tests_cant": "Adversarial messages.", "anchors": ["crates/common/src/protocols/handshake.rs: phase0, phase1, phase2, phase3, valid_stamp_range"]}
{"id": "C50", "title": "The pairwise group is symmetric and pair-specific", "statement": "The group derived from two keys does not depend on their order, equals the private group exactly when the keys are equal, and for a fixed own key different peers give different groups.", "quantifier": "all pairs of keys", "why_tests_cant": "2^512 pairs.", "anchors": ["crates/common/src/protocols/mod.rs: unicast_group"]}
{"id": "C51", "title": "Names map to spaces and back", "statement": "A valid LNS name maps to a claim space with reversed components and back to the same name; names and tags carrying an expiry stamp decode to that stamp.", "quantifier": "all names and stamps", "why_tests_cant": "All component lists.", "anchors": ["crates/common/src/protocols/lns/name.rs: Name::from, from_space, claim_space", "crates/common/src/protocols/lns/mod.rs: stamp_tag, as_stamp_tag"]}
{"id": "C52", "title": "A name resolves by majority vote of its authorities", "statement": "Looking up a name follows, level by level, the claim with most authority votes; if no unique winner exists an error is reported, and the outcome does not depend on iteration order.", "quantifier": "all vote sets and authority sets", "why_tests_cant": "Tie patterns among any number of claims.", "anchors": ["crates/common/src/protocols/lns/public_claim.rs: walk_live_claims"]}
{"id": "C53", "title": "Stream helpers forward a packet at most once and only if linked", "statement": "The stream deduplicator suppresses only packets already seen and the link buffer emits a datapoint only directly before/after a packet linking to it, dropping nothing else.", "quantifier": "all packet streams", "why_tests_cant": "Ring-buffer wraparound over unbounded streams.", "anchors": ["crates/common/src/pkt_stream_utils.rs: QuickDedup, Buffer::push"]}
{"id": "C54", "title": "An encrypted key decrypts to itself with the right password only", "statement": "lk_key_decrypt(lk_key_encrypt(k,p),p) = k and the embedded public key is k's; a string that decrypts successfully has a private key matching its embedded public key.", "quantifier": "all keys and passwords, all strings", "why_tests_cant": "Password and key space.", "anchors": ["crates/argon2-identity/src/lib.rs: encrypt, decrypt, pubkey"]}
{"id": "C55", "title": "Query statements are atomic and order-independent", "statement": "Adding predicate statements in a different order yields a query matching the same packets, and each statement narrows (never widens) the set of matching packets.", "quantifier": "all statement sequences and permutations", "why_tests_cant": "Permutations of unbounded sequences.", "anchors": ["crates/core/src/query.rs: add_stmt, parse", "crates/core/src/predicate/pkt_predicates.rs: and, add_ext_predicate"]}
{"id": "C56", "title": "lk_process_while returns for the reason it gives", "statement": "lk_process_while returns 0 only if the time is up, -1 only if the watch asked about is still registered and has counted a matching packet since the call, and 1 only if that watch is no longer registered (or replaced) or nothing is watched or pending.", "quantifier": "all runtime states, callbacks and saves by others between rounds", "why_tests_cant": "Loops of any length with any interleaving of saves.", "anchors": ["crates/common/src/runtime/rx.rs: run_while, watch_status, next_work", "crates/linkspace/src/lib.rs: lk_process_while"]}
{"id": "C57", "title": "A bracket means the composition of its calls", "statement": "Evaluating a bracket expression yields a value exactly when its calls do: inner brackets are evaluated first, their values are passed as single arguments whatever bytes they contain (never split or parsed again), every later call gets the previous result as first argument, and a macro gets its argument unevaluated.", "quantifier": "all expressions of any size and nesting, all scopes", "why_tests_cant": "Unbounded nesting, arbitrary byte values from inner brackets.", "anchors": ["crates/abe/src/eval.rs: match_expr, _eval, ABList::push, split_fslash"]}
{"id": "C58", "title": "Tests and alternatives in expressions", "statement": "size? and val? return their input unchanged exactly if the stated test holds, and [/or:a:b:..] gives the first alternative that evaluates without error, failing if none does.", "quantifier": "all values and all lists of alternatives", "why_tests_cant": "Any number of alternatives, any bytes.", "anchors": ["crates/abe/src/scope/logic.rs: LogicOps", "crates/abe/src/scope/base.rs: mini_b64"]}
{"id": "C59", "title": "Duration text is read as the sum it denotes and printing round trips", "statement": "A duration text is accepted exactly if it is a sequence of counts with units in the order Y M W D h m s (each at most once), its value is the sum of count times unit, and a printed duration reads back as the same whole number of seconds.", "quantifier": "all texts and all durations", "why_tests_cant": "Unbounded texts; printing goes through binary floating point division whose rounding only shows for long durations.", "anchors": ["crates/core/src/stamp_fmt.rs: parse_duration_str, duration_to_string, DELTA_FORMATS"]}
{"id": "C60", "title": "The us function computes stamps from a list of steps", "statement": "The function us applied to a stamp and steps (+d, ++d, -d, --d, nothing) gives the stamp reached by doing the steps in order, where single signs fail when leaving the range and double signs saturate; a word at the end (ticks, val, delta, str) gives its text instead, which says how far the stamp is from 0 or from now.", "quantifier": "all stamps, all lists of steps", "why_tests_cant": "Unbounded lists and 64-bit boundary values.", "anchors": ["crates/core/src/stamp_fmt.rs: UsEF::apply", "crates/pkt/src/stamp.rs"]}
{"id": "C61", "title": "Reading functions give the callback the results in order and return how many", "statement": "lk_get_all calls the callback with the results of the query in order until it returns true and returns the number of packets given, negative if it was stopped; lk_get returns the first result or nothing if there is none; lk_get_hashes does the same for a list of hashes.", "quantifier": "all databases reached by saves, all queries, all callbacks", "why_tests_cant": "Callbacks with state, counters that also count what is skipped, and 32-bit edge cases.", "anchors": ["crates/linkspace/src/lib.rs: lk_get_all, lk_get, lk_get_ref, lk_get_hashes", "crates/common/src/lib.rs: saturating_cast, saturating_neg_cast"]}
{"id": "C62", "title": "Reading the text of a query adds exactly the printed statements", "statement": "The text lk_query_print gives for a query, read by lk_query_parse into any query, adds exactly the statements of the printed query with the same values, and its options, in both formats.", "quantifier": "all queries built by adding statements and options, all domains, hashes, spaces and numbers in them, any number of options", "why_tests_cant": "Values are arbitrary bytes and every printed value has to survive escaping, parsing and evaluation.", "anchors": ["crates/core/src/query.rs: to_str, parse, add_stmt, add_option", "crates/core/src/predicate/exprs.rs: Predicate::to_str, canonical, TryFrom<ABList> for ExtPredicate", "crates/pkt/src/field_ids.rs: try_to_abe", "crates/linkspace/src/lib.rs: lk_query_print, lk_query_parse, lk_query_push"]}
{"id": "C63", "title": "A local name has the key it was last given, and the key leads to the name", "statement": "After setup_local_keyclaim has returned a key for a local name, looking up the name gives this key and looking up the key gives the name; a name that has a claim is only changed if overwriting is asked for; a lookup gives the first claim at the place of the name and never aborts.", "quantifier": "all databases reached by saves, all local names, all keys and encrypted keys, all times", "why_tests_cant": "What is found depends on everything stored at the place of the name: on stamps, keys and the order of hashes of unrelated packets.", "anchors": ["crates/common/src/protocols/lns/local_claim.rs: get_private_claim, setup_local_keyclaim", "crates/common/src/protocols/lns/admin.rs: save_private_claim, ptr_lookup, ptr_lookup_entry, mut_ptrlookup_entry", "crates/common/src/protocols/lns/mod.rs: lookup_claim, lookup_pubkey, reverse_lookup, setup_special_keyclaim"]}
{"id": "C64", "title": "A named key that was opened or created is the same when it is opened again", "statement": "lk_key returns the key of the encrypted text that the name leads to if the password fits, and otherwise no key; if the name has no claim and creating is asked for, it returns a new key and opening the name again with the same password returns this key and writes nothing; another password never gives another key.", "quantifier": "all databases reached by saves, all names, passwords, keys, times and outcomes of writes", "why_tests_cant": "Creating goes through encryption, claims, the index and a lookup over everything stored at the place of the name, and reading back cuts the text after 130 bytes.", "anchors": ["crates/linkspace/src/lib.rs: varscope::lk_key", "crates/common/src/protocols/lns/mod.rs: lookup_enckey, setup_special_keyclaim", "crates/common/src/protocols/lns/claim.rs: read_enckey, Claim::enckey", "crates/common/src/cli/keys.rs: KeyOpts::identity"]}
{"id": "C65", "title": "keygen prints a key that opens with the given password and keeps existing keys", "statement": "keygen prints an encrypted key together with its own public key, which opens with the password given last; without --overwrite an existing key is untouched; a key made for a name opens later under this name; a new password given for a key is in effect afterwards and the key stays the same.", "quantifier": "all combinations of options, all databases reached by saves, all passwords and keys", "why_tests_cant": "Eight interacting options and everything stored at the place of the name.", "anchors": ["crates/common/src/cli/keys.rs: keygen, KeyGenOpts"]}
{"id": "C66", "title": "Files stay inside the files directory", "statement": "The function [files:..] and the calls behind it only accept paths that are not absolute, do not begin with '.' and have no '..'. For these, reading gives exactly the file at those names below the files directory of the database and depends on nothing outside of it. Writing changes nothing but the named file and missing directories on the way to it, keeps an existing file unless asked to overwrite, succeeds exactly if nothing is in the way, and what was written is what is read.", "quantifier": "all paths, file systems without symbolic links, working directories, database locations, contents, flags, and all ways in which calls of the operating system fail", "why_tests_cant": "The paths that escape are exactly the ones one did not think of, and the interplay of three different ways to take a path apart (check, join, kernel) is over all strings.", "anchors": ["crates/common/src/eval/file.rs: check_path, files_data, set_files_data, FileEnv", "crates/common/src/runtime/rx.rs: files"]}
{"id": "C67", "title": "A pull request asks an exchange for exactly the packets of the query", "statement": "lk_pull_point makes a request exactly if the query fixes one group and one domain, has an id of allowed size and its text fits into a point. The request is an unsigned point in the private group and the exchange domain, at a place that determines group, domain and id. A process that watches the pull requests of a group sees the requests for this group and no others, and reads from its text a query that selects the same packets.", "quantifier": "all queries built by adding statements and options, all groups, domains, ids, times and routing headers", "why_tests_cant": "The group and domain may be fixed by any combination of comparisons, values are arbitrary bytes, and the text goes through printing, parsing and evaluation.", "anchors": ["crates/linkspace/src/conventions/pull.rs: lk_pull_point", "crates/core/src/query.rs: Display for Query, qid", "crates/core/src/predicate/uint.rs: TestSet::as_eq", "crates/pkt/src/rooted_space.rs: rspace_buf"]}
{"id": "C68", "title": "A constrained watch stays inside of its constraint", "statement": "In multi-watch with alternatives, a request is accepted only if it is compatible with one of them. Every packet given to the client satisfies all statements of an alternative, and of the request. The first alternative compatible with the request is used, its options are added, and the watch passes exactly the packets that satisfy both. Without alternatives the watch is the request.", "quantifier": "all requests, all lists of alternatives, all scopes, all packets and all moments", "why_tests_cant": "Both texts are arbitrary queries from different parties, and what a refused alternative leaves behind depends on where in it the contradiction is.", "anchors": ["cli/linkspace/src/multi_watch.rs: setup_watch, OrConstrait", "crates/core/src/query.rs: parse, add_stmt", "crates/core/src/predicate/pkt_predicates.rs: and, add_ext_predicate"]}
{"id": "C69", "title": "A status request reaches the processes it is about, and only their replies are given", "statement": "lk_status_watch gives the callback only points about the domain, group, type and instance asked for that were made after now minus timeout; it makes a request exactly if it read no recent one, and then watches exactly for complete replies until a timeout after the request. A process that has set its status replies to each request about its group and type that names its instance or none, with a valid reply that links to its previous one.", "quantifier": "all databases, domains, groups, types, instances, times, timeouts, callbacks, sequences of requests and update functions", "why_tests_cant": "What is asked for is a place and a time range built by nested queries over everything stored, and the reply is checked against an arbitrary user function.", "anchors": ["crates/linkspace/src/conventions/status.rs: lk_status_space, lk_status_overwatch, lk_status_request, lk_status_watch, lk_status_set, is_status_reply"]}
{"id": "C70", "title": "A watch that follows gives each packet and then the packets linked from it", "statement": "With the option follow, the callback of a watch is given every packet of the watch, with the link flags cleared, and directly after it the packets it links to that are in the database, in the order of the links and with the flag linked-in-future set, until it breaks; nothing else of the packets changes. With notify-close the callback is given the request when the watch ends, and then told of the end. The id and mode of the watch are those of the options.", "quantifier": "all programs and callbacks, all packets, links and databases, all options", "why_tests_cant": "Callbacks may do anything in between, including registering and closing watches; packets and links are arbitrary.", "anchors": ["crates/common/src/runtime/handlers.rs: FollowHandler, NotifyClose, PktStreamHandler", "crates/common/src/runtime/rx.rs: watch_query", "cli/linkspace/src/multi_watch.rs: setup_watch"]}
{"id": "C71", "title": "A command line asks for exactly the packets it names", "statement": "The query made from domain:group:space:depth, the flags (--max, --new-only, --db-only, --signed, --unsigned, --until, ...) and further expressions selects exactly the packets in that domain and group whose space starts with the given one and is at most depth components longer, that satisfy the flags and the further statements; an empty domain or group is the default. It is accepted if some packet satisfies it and the limits leave a position. The id and mode of the query are those of the command line. Without a space, or without deeper points, every stored packet asked for is answered in the order of the tree.", "quantifier": "all arguments, all scopes with the core functions, all clocks, all packets and all databases", "why_tests_cant": "Arguments are expressions evaluated to arbitrary bytes, joined into statements of several modules; the selected packets are a set over all contents.", "anchors": ["crates/common/src/dgs.rs: DGSDExpr, dgpd, try_take_dgs, predicate_exprs", "crates/common/src/predicate_aliases.rs: PredicateAliases", "cli/linkspace/src/watch.rs: DGPDWatchCLIOpts, CLIQuery, watch"]}
{"id": "C72", "title": "Data fed to new points arrives complete and in order", "statement": "datapoint and linkpoint --multi cut their input into points whose data, joined, are exactly the input; each block fits into its point, none is empty, and each later point of linkpoint has the links of the command and one to the point before. With a delimiter each point has the (evaluated) value of one record, in order, and a record that is too long is an error after the records before it. With --data-repeat the input is repeated without end.", "quantifier": "all inputs, buffer sizes, delimiters, evaluations, free spaces, links, spaces, keys and numbers of points", "why_tests_cant": "The free space of a point, the buffer size, the limit on reads and what is left over of earlier reads interact at every boundary of inputs of any length.", "anchors": ["crates/common/src/cli/reader.rs: Reader::read_next_data, check_size, ReadSource::read", "cli/linkspace/src/datapoint.rs: write_datapoint", "cli/linkspace/src/point.rs: build_with_reader, linkpoint", "crates/pkt/src/builder.rs: calc_free_space"]}
{"id": "C73", "title": "Packet templates show the fields of the packet", "statement": "A text with [field], [field:str], [field:abe] and [/links:row] evaluated with a packet is the text with each reference replaced by that field: raw bytes, a text that reads as the value, or an expression that evaluates to it, with the row once for each link in order. It never fails, whatever the packet contains. [link:suffix] is the pointer of the first link whose tag ends in suffix, [links:delim:start:stop:step] the Python slice, [netbytes] the bytes of the packet, and [pkt] the page with all fields, whose group, space and key read back.", "quantifier": "all packets (contents, headers, spaces, links), templates, scopes behind or in front, arrival stamps, suffixes, delimiters and slices", "why_tests_cant": "Fields are arbitrary bytes that are escaped, printed by several printers and put between other text; templates nest evaluations for any number of links.", "anchors": ["crates/pkt/src/eval.rs: pkt_scope, NetPktFieldsEval, NetPktPrintDefault, SelectLink, LinkEnv, RecvStamp", "crates/pkt/src/repr.rs: PktFmt::to_str, DEFAULT_FMT", "crates/pkt/src/field_ids.rs: FieldEnum"]}
{"id": "C74", "title": "The web fragment of a packet is safe markup", "statement": "html-quick never fails and reads as exactly the elements of the packet: no content (domain, tags, space, data) opens or ends a tag or an attribute, so the tags depend only on the type, the number of components and the number of links; every attribute is the full base64 or decimal text of its field, so packets with the same fragment agree in hash, type, key, group, domain, space, stamp and links; text is shown as it is.", "quantifier": "all packets and contents, lossy decoders and tables of character references", "why_tests_cant": "Content is arbitrary bytes; whether some content breaks out of its element is a property of a parser on all outputs.", "anchors": ["crates/pkt/src/repr.rs: PktFmt::to_html, fmt_b64, EscapeHTML", "crates/pkt/src/eval.rs: NetPktPrintDefault (html-quick)"]}
{"id": "C75", "title": "Reading packets inside expressions", "statement": "[readhash:HASH:field] is that field of the stored packet with that hash, however the hash is written, and fails if it is not stored; piping it along links by tag ends at the packet at the end of the path. [/readhash:HASH:template:alternative] is the template of the packet, or the alternative if there is none. [read:name:space] is about the newest point of that place and key, in that group and domain only, and never of the private group unless allowed. Asking changes nothing. [i], [argv] and [env:NAME] are the arguments and variables given.", "quantifier": "all databases, packets, hashes, expressions for hashes, paths of any length, templates, scopes around, arguments and names", "why_tests_cant": "Expressions nest without bound and each step reads an arbitrary database; results of one are arguments of the next.", "anchors": ["crates/common/src/eval/mod.rs: lk_scope, ReadHash, read", "crates/abe/src/scope/argv.rs: ArgV, ArgList", "crates/core/src/env/lmdb/queries.rs: query_tree"]}
{"id": "C76", "title": "Names in expressions and in printed text", "statement": "[#:a:b] and [@:a:b] stand for the group and key of the claim that leads at the place of the name, and fail if there is none; words with a fixed meaning are the same on every machine. [?#:H] and [?@:H] give the name of a group or key. A group or key is printed as its fixed word, its name or base64, never fails, and what is printed evaluates to it again. [/lns:a:b/template] prints the template for the claim. After a key was set up for a name, the name stands for the key and the key is printed with the name.", "quantifier": "all databases, names, groups, keys, templates, packets at hand, times and orders of the votes", "why_tests_cant": "What a name stands for depends on every stored point, and the printed text goes through the parser, the scopes and the lookup again.", "anchors": ["crates/common/src/protocols/lns/eval.rs: NetLNS, PrivateLNS, get_by_tag_abe, name_str, list_macros", "crates/common/src/eval/mod.rs: lk_scope"]}
{"id": "C77", "title": "Commands that pass packets on lose and change nothing", "statement": "filter writes exactly the packets of its input that satisfy its query to --write and the others to --write-false, each once, unchanged and in order (ignore the other way round); two filters in a pipe are one filter with both queries; dedup passes on a packet exactly if it was not the last one with its place in the memory, so nothing is lost and neighbours are never repeated; save stores every packet, tells the new from the known ones and the store then has all of them; route changes the routing header of every packet as asked and nothing else; pktf prints the text of every packet, separated or ended by the delimiter, and passes them on unchanged. An input that turns bad after some packets gives an error after those packets were handled. Private points are neither read nor written without being asked for.", "quantifier": "all streams of packets of any length, chunkings, queries, options, destinations, memories, stores, clocks and routing rules", "why_tests_cant": "Streams have any length and any mix of packets; what is written depends on the state after all packets before.", "anchors": ["crates/common/src/cli/opts.rs: IOOpts, write_multi_dest, inp_reader", "crates/common/src/cli/mod.rs: write_private_dest, WriteDest", "cli/linkspace/src/filter.rs: select", "cli/linkspace/src/main.rs: Command::{Filter,Ignore,Dedup,Save,Route,Pktf}"]}
{"id": "C78", "title": "collect makes points that link to every packet once and in order", "statement": "The points made by collect link to the packets of the input, each packet in exactly one link, in the order of the input and with its tag: every point starts with the links left by the one before (to that point with --chain-tag, so the points form a chain, and the links of the command line) and goes on with one link to each packet of its round. Rounds have --max-links packets, only the last one less; with --min-interval a round also ends whenever an interval is over. No point has no links unless asked for. The packets go to --forward before the point goes to --write, or after it with the buffer; what goes to the store is saved. Unless the data for the points ends or fails, every packet is in a point; without data it always is. A bad packet is an error.", "quantifier": "all streams of packets of any length, chunkings, tags, chains, links, destinations, stores, readers of data, limits and sequences of intervals", "why_tests_cant": "Streams have any length and intervals end at any time; the links of a point depend on all points before.", "anchors": ["cli/linkspace/src/collect.rs: Collect, Collector, collect", "crates/common/src/cli/reader.rs: DataReader", "crates/common/src/cli/opts.rs: write_multi_dest"]}
{"id": "C79", "title": "rewrite writes for each packet the same point with only the asked fields changed", "statement": "For each packet of the input, in order, rewrite writes one packet to --write and then passes the packet itself to --forward. Datapoints, and key points with the mode skip, stay byte for byte. All other points are made anew: group, domain, path and stamp have the value of the option for this packet if there is one and otherwise their own, the links are always their own, the data is their own or the next data read; with sign-all all are signed with the key, with resign those that were signed, with unsign none. What is written is genuine if what was read is. Without options skip keeps every hash, and unsign gives the link point with the fields of the key point. The command ends at the first packet that it cannot make anew: an error point, data that has ended or cannot be read, or a point that would be too large; all before it are written.", "quantifier": "all streams of packets of any length, chunkings, modes, keys, values of the options for each packet, readers of data, destinations and stores", "why_tests_cant": "Streams have any length, the values of the options depend on the packet and the data on all packets before.", "anchors": ["cli/linkspace/src/rewrite.rs: Rewrite, SignMode, rewrite, rewrite_pkt", "crates/common/src/cli/reader.rs: DataReader", "crates/common/src/cli/opts.rs: write_multi_dest"]}
{"id": "C80", "title": "get-links writes exactly the stored packets that links lead to, and then the packet", "statement": "For each packet of the input, in order, get-links writes to --write the stored packets that its links lead to and then passes the packet to --forward. In the mode skip these are exactly the stored packets at the end of a chain of at most level+1 links, the first one of the packet and every other one of a stored packet, in the order of the links and as often as they are linked to; missing ones are left out and nothing is an error. In the mode error the command fails exactly if one of the packets has a link that is not stored, after writing what the links before it lead to and without forwarding the packet. What is written is determined by the log at the start.", "quantifier": "all streams of packets of any length, chunkings, stores (any history of saves), levels of recursion, both modes and destinations", "why_tests_cant": "Chains of links have any length and packets any number of links; the watches of all levels share one runtime and their ids can coincide.", "anchors": ["cli/linkspace/src/get_links.rs: get_links, GetLinksMode, exec", "crates/linkspace/src/lib.rs: lk_watch, lk_stop, try_cb, lk_hash_query", "crates/common/src/runtime/rx.rs: watch, close"]}
{"id": "C81", "title": "Every database has its own port, and all processes find the same one", "statement": "However many processes open databases in whatever order, get_port gives the same database the same port every time, and gives different databases different ports as long as no more than 55034 databases have been opened; the k-th new database has port 10501+k. From there on all new databases share port 65535.", "quantifier": "all sequences of calls of get_port, ids of databases, and files that earlier calls left", "why_tests_cant": "The table grows by one entry per database and is never cleaned; the interesting cases are tables of tens of thousands of entries and files left by an interrupted write.", "anchors": ["crates/ipcbus/src/udp_procbus.rs: get_port"]}
{"id": "C82", "title": "A process learns of every packet that is saved while it waits", "statement": "The value of a bus never decreases in any process. When emit has returned, the value is at least the one emitted, and it is always one that was emitted. When no datagram is lost and nothing is under way, all processes have the same value, the largest that was emitted. A thread that waits is woken by every value that is installed in its process after it began to listen, so that a thread that still sleeps when nothing is under way has missed no packet saved since then, in whichever process.", "quantifier": "all numbers of processes and threads, all interleavings of their steps, all values read by relaxed loads, spurious failures of the exchange, and all orders and losses of datagrams", "why_tests_cant": "The failures are races: a test sees one interleaving of a few threads.", "anchors": ["crates/ipcbus/src/udp_procbus.rs: ProcBus::_emit, init, next_deadline", "crates/ipcbus/src/udp_multicast.rs: UdpIPC::send, recv", "crates/core/src/env/lmdb/mod.rs: BTreeEnv::save, next_deadline", "crates/common/src/runtime/rx.rs: Linkspace::run_while"]}
{"id": "C83", "title": "What a program reads from a stream", "statement": "Whatever bytes come in, in whatever pieces, a program that reads packets sees exactly the longest run of admissible packets the stream starts with: their bytes one after the other are the front of the stream, each has the hash of its content and a valid signature, and none is private unless that is allowed. It then ends without error exactly when fewer bytes are left than a header has.", "quantifier": "all byte strings, ways of cutting them into pieces, and options", "why_tests_cant": "The input is unbounded and written by somebody else; tests try a few good streams and a few broken ones.", "anchors": ["crates/common/src/pkt_reader.rs: NetPktDecoder::next", "crates/common/src/cli/opts.rs: inp_reader"]}
{"id": "C84", "title": "The handshake program tells the truth", "statement": "handshake serve ends with success exactly when the input starts with a recent keypoint of another key and then a keypoint of that same key that links the reply the program itself has written and is in the group of the two keys; handshake connect likewise for the reply of a server. Whatever the input, nothing is written but the messages of the protocol, and only the packets read are forwarded. A connect and a serve that are connected by pipes both succeed when their keys differ and their clocks are near. The single phases agree with these.", "quantifier": "all inputs, pieces, keys, clocks, options and destinations that can be written", "why_tests_cant": "Who can make the program succeed is a statement about all inputs, including those made by an adversary.", "anchors": ["cli/handshake/src/main.rs: main", "crates/common/src/protocols/handshake.rs: phase0_client_init, phase1_server_signs, phase2_client_signs, phase3_server_verify"]}
{"id": "C85", "title": "A claim made on the command line says what was asked for", "statement": "lns create-claim writes one packet: a claim of the name given that ends when asked, whose group, key and authorities, when read back, are exactly those of the command line: the key itself is an authority unless --no-auth, each --auth adds one, in this order, and nothing else. It fails without writing exactly if the name of an authority has eight bytes or more, there is nothing to claim and --allow-empty is not given, or the end is the stamp 0.", "quantifier": "all names, groups, keys, lists of authorities, ends and destinations", "why_tests_cant": "Tags are cut, padded and searched by their tails; which of several links is found is a property of all combinations of them.", "anchors": ["cli/lns/src/main.rs: Cmd::CreateClaim", "crates/common/src/protocols/lns/claim.rs: Claim::new, Claim::group, Claim::pubkey, Claim::authorities"]}
{"id": "C86", "title": "A vote made on the command line counts", "statement": "lns vote writes one packet exactly if the hash is that of a stored claim of the name given and the key is an authority of the live claim of the parent of the name, and that packet is a keypoint that votes for the claim. Once it is saved and is newer than what the key has said before, the vote of that authority in every later lookup of the name is this claim.", "quantifier": "all databases, names, claims, keys, clocks and destinations", "why_tests_cant": "What is written by one program has to be what another searches for, in any database.", "anchors": ["cli/lns/src/main.rs: Cmd::Vote", "crates/common/src/protocols/lns/mod.rs: lookup_authority_claim", "crates/common/src/protocols/lns/claim.rs: vote", "crates/common/src/protocols/lns/public_claim.rs: walk_live_claims"]}
{"id": "C87", "title": "The chain of claims that is shown is the live one", "statement": "lns get NAME succeeds exactly if the name has a live claim, and then writes that claim, or with --chain all claims from the root to it in this order, each followed by the votes for it on the destinations for signatures. If the name has no live claim it fails, and writes the last live claim on the way.", "quantifier": "all databases, names and destinations", "why_tests_cant": "The chain has any length and the database any content.", "anchors": ["cli/lns/src/main.rs: Cmd::Get", "crates/common/src/protocols/lns/claim.rs: LiveClaim::list", "crates/common/src/protocols/lns/mod.rs: lookup_live_chain"]}
{"id": "C88", "title": "A check of the database finds what is wrong", "statement": "db-check ends well for every database that any history of saves, errors and crashes has left, and fails for a database in which the log and the indexes disagree: a packet that cannot be found by its hash, a hash that leads to no packet or to another one, or a tree that lacks a point or leads to a packet that is not there.", "quantifier": "all states of the three tables", "why_tests_cant": "A check has to be complete over all corruptions and sound over all histories.", "anchors": ["cli/linkspace/src/main.rs: Command::DbCheck", "crates/core/src/env/lmdb/db_info.rs: linkspace_info"]}
{"id": "C89", "title": "An import saves the packets of a file, all or none", "statement": "db-import saves exactly the packets of a file that is a sequence of packets, in order and in one transaction: those not yet stored become part of the log, and for each packet of the file a line tells whether it was new. A file that is anything else, down to one byte too many or one packet with a wrong hash, changes nothing. Private points are imported only if that is allowed.", "quantifier": "all files, databases and options", "why_tests_cant": "The file and the database are arbitrary; that packets stay aligned in the mapped file is an invariant of their sizes.", "anchors": ["cli/linkspace/src/main.rs: Command::DbImport", "crates/pkt/src/read.rs: read_pkt", "crates/core/src/env/lmdb/save.rs: save"]}
{"id": "C90", "title": "Loose text means the text with unprintable bytes escaped", "statement": "The reader of expressions that is used on the command line takes bytes that the strict reader refuses as they are. It gives for every text what the strict reader gives for the same text with these bytes written as escapes: it accepts whatever the strict reader accepts, with the same meaning, and fails only for brackets that do not match and for hexadecimal escapes without digits.", "quantifier": "all byte strings", "why_tests_cant": "Two parsers are compared on every input.", "anchors": ["crates/abe/src/ast.rs: parse_abe_with_unencoded_b, parse_abe_strict_b, parse_abe_b", "crates/abe/src/abtxt.rs: next_byte"]}
{"id": "C91", "title": "eval prints the value of the expression", "statement": "eval prints the bytes of the value and nothing else, where [n] is the n-th record of the data read and [argv] all of them. With --json it prints one JSON text from which the list of the value, its separators and bytes, can be read back: different values print differently.", "quantifier": "all expressions, inputs, delimiters and values", "why_tests_cant": "Injectivity over all values, which contain any bytes, among them quotes, control characters and bytes that are not text.", "anchors": ["cli/linkspace/src/eval.rs: eval_cmd", "crates/abe/src/scope/argv.rs: ArgList", "crates/common/src/cli/reader.rs: read_next_data"]}
{"id": "C92", "title": "Packets compare in Python as they are sorted in the tree", "statement": "In Python ==, != and the four order operators on packets agree with each other: two packets are equal exactly if they have the same hash, the order is total, and it is the order of the tree, with points that are in no tree after those that are, by hash. Links compare by tag and then by pointer. A packet can be put in a set or used as a key.", "quantifier": "all pairs and triples of packets and of links", "why_tests_cant": "Totality, transitivity and agreement of six operators over all pairs of packets of every type.", "anchors": ["ffi/linkspace-py/src/pynetpkt.rs: Pkt::__richcmp__, Pkt::__hash__, Link::__richcmp__"]}
{"id": "C93", "title": "The attributes of a packet in Python and JavaScript are its fields", "statement": "Every attribute of a packet object gives the field of the point with that name, for every packet that was built, read or loaded; attributes a point does not have are None or empty, and no attribute panics.", "quantifier": "all packets of every type and all attributes", "why_tests_cant": "Hostile packets are accepted by the reader too, so all valid encodings have to be covered.", "anchors": ["ffi/linkspace-py/src/pynetpkt.rs: Pkt", "ffi/linkspace-js/src/jspkt.rs: Pkt", "crates/pkt/src/netpkt/netpkt_arc.rs: NetPktArc::from_header_and_copy"]}
{"id": "C94", "title": "Setting header attributes in Python changes the packet that is sent and only its header", "statement": "After any sequence of assignments to netflags, hop, stamp and ubits0 to ubits3 each attribute is the one last assigned, the hash and the point are untouched, and the packet is written, saved, shown and indexed by field with these values.", "quantifier": "all packets, all sequences of assignments, all values", "why_tests_cant": "It is a statement about all histories of one object and every way to use it.", "anchors": ["ffi/linkspace-py/src/pynetpkt.rs: Pkt::set_netflags, Pkt::__getitem__", "ffi/linkspace-py/src/lib.rs: lk_write, lk_save", "crates/pkt/src/netpkt/reroute.rs: ReroutePkt"]}
{"id": "C95", "title": "Links of a packet behave as a sequence in Python and JavaScript", "statement": "The links of a point can be counted, indexed from both ends and iterated, in the order they were given; indexing outside is an error; a second loop over them gives them again. In JavaScript the iterator, the array and the bytes of the links are the same links.", "quantifier": "all packets, indexes and interleavings of loops", "why_tests_cant": "Indexes are machine integers of both signs, with wrapping addition; loops can be nested or repeated.", "anchors": ["ffi/linkspace-py/src/pynetpkt.rs: Links", "ffi/linkspace-js/src/jspkt.rs: Links, Pkt::links_array"]}
{"id": "C96", "title": "A point built from Python or JavaScript arguments has the fields given", "statement": "lk_datapoint, lk_linkpoint and lk_keypoint accept exactly arguments that denote a group, a domain, a space, links, a stamp and data within the size limits, use the defaults for those left out, and the attributes of the packet they return are the values given.", "quantifier": "all values of the two languages as arguments", "why_tests_cant": "Arguments are dynamically typed; each kind of value takes another path.", "anchors": ["ffi/linkspace-py/src/lib.rs: common_args, bytelike, lk_linkpoint, lk_keypoint, lk_datapoint", "ffi/linkspace-js/src/lib.rs: common_args, try_as_link, lk_linkpoint, lk_keypoint, lk_datapoint"]}
{"id": "C97", "title": "JavaScript and serde read and write the packets the library reads and writes", "statement": "lk_read in JavaScript accepts exactly the buffers that lk_read accepts and gives the same packet and rest; if it fails because bytes are missing, the error is the number of bytes needed, and only then is it a number. lk_write gives bytes that are read back as the packet. A packet serialised with serde is deserialised as the same packet.", "quantifier": "all buffers and packets", "why_tests_cant": "Two independent readers are compared on every buffer.", "anchors": ["ffi/linkspace-js/src/lib.rs: _read, lk_read, lk_read_unchecked, lk_write", "crates/pkt/src/netpkt/serde_impl.rs", "crates/pkt/src/netpkt/netpkt_arc.rs: from_header_and_copy"]}
{"id": "C98", "title": "Exceptions of Python callbacks are reported", "statement": "A callback is called for the packets of the answer in order until it returns True; an exception raised by a callback is raised by the function that calls it. A watch ends when on_match returns True or raises without on_err returning True, and on_close is called when it ends.", "quantifier": "all callbacks, databases and queries", "why_tests_cant": "The callback is an arbitrary program; where it raises decides what happens.", "anchors": ["ffi/linkspace-py/src/lib.rs: call_cont_py, lk_get_all, lk_get_hashes, PyPktStreamHandler"]}
{"id": "C99", "title": "Waiting in Python for a watch is waiting in the library", "statement": "lk_process_while in Python, which looks for signals every second, returns what one call of the library would return that waits as long as it does: -1 if the watch got packets, 1 if it is gone or nothing is watched, 0 only when the timeout is reached; a timeout of zero means to wait without end.", "quantifier": "all runtimes, watches, callbacks, saves in between, and all ways the clock passes", "why_tests_cant": "The waiting is cut into slices at arbitrary points; each slice begins by looking at the watch again.", "anchors": ["ffi/linkspace-py/src/lib.rs: lk_process_while", "crates/common/src/runtime/rx.rs: run_while", "crates/linkspace/src/lib.rs: _lk_process_while"]}
{"id": "C100", "title": "The command status watch writes replies and fails without one", "statement": "lk status watch writes points about what was asked that are recent and have links and data, one of them unless --multi is given, and all of them with it; it succeeds exactly if it wrote one, and never panics.", "quantifier": "all databases, arguments, clocks and packets that come in while it waits", "why_tests_cant": "What is stored, what comes in, the flags and the break of the callback in two phases combine.", "anchors": ["cli/linkspace/src/status.rs: status_watch", "crates/linkspace/src/conventions/status.rs: lk_status_watch"]}
{"id": "C101", "title": "The command status set replies with its data record by record", "statement": "lk status set makes one reply at the start and one for each request for its instance; the data of the replies are the records read, in order, each links to the reply before, and it ends when the records do.", "quantifier": "all readers, arguments, and sequences of requests", "why_tests_cant": "The reader, the chain of replies and the requests are three sequences that advance together, unbounded.", "anchors": ["cli/linkspace/src/status.rs: status_set", "crates/linkspace/src/conventions/status.rs: lk_status_set", "crates/common/src/cli/reader.rs: read_next_data"]}
{"id": "C102", "title": "A process has one session per directory and a thread one default instance", "statement": "All runtimes that a process opens for one directory share one database session, and runtimes of different directories do not; the directory is the one given, else LK_DIR, else HOME/linkspace; the first runtime a thread opens stays the default of the thread, and a command line works on the directory it names.", "quantifier": "all sequences and interleavings of calls of lk_open, get_lk and get_env by any number of threads, all paths and file systems", "why_tests_cant": "The cache of sessions is shared between threads, the defaults are set by whatever call comes first, and paths alias.", "anchors": ["crates/common/src/static_env.rs: get_env, lk_dir, open_linkspace_dir, get_lk", "crates/linkspace/src/lib.rs: lk_open", "crates/common/src/cli/opts.rs: runtime_io"]}
{"id": "C103", "title": "The default group and domain of a thread never change", "statement": "group() and domain() give what was set by set_group and set_domain, else the value of LK_GROUP and LK_DOMAIN, else the public group and the empty domain; once read or set they are the same forever, and setting another is refused.", "quantifier": "all sequences of calls on a thread and all environments", "why_tests_cant": "Reading fixes the value, evaluating the variable can open a database, and any call can be the first.", "anchors": ["crates/common/src/thread_local.rs: set_group, group, set_domain, domain", "crates/common/src/dgs.rs: try_take_dgs"]}
{"id": "C104", "title": "A callback is told of the end of its watch, once and with the reason", "statement": "When a watch ends its handler is told (stopped) exactly once, after its last packet, with the reason for which the watch ended: it broke, it is finished, it was replaced or it was closed.", "quantifier": "all programs of callbacks that watch, stop, save and process at any place, all requests of the main program and all databases", "why_tests_cant": "A watch ends in eight places of the runtime, inside of callbacks that themselves make and close watches, and the notice is itself a callback.", "anchors": ["crates/common/src/runtime/rx.rs: drop_watch, process, watch, close, insert_watch, next_work", "crates/common/src/runtime/handlers.rs: StopReason, PktStreamHandler::stopped", "crates/core/src/matcher/mod.rs: register, deregister, trigger, gc"]}
{"id": "C105", "title": "However a packet is wrapped, it is the same packet", "statement": "A packet in byte form, shared, boxed or in parts, inside any number of wrappers that give it another routing header, a stamp of receipt or a shared copy, has the hash and the point of the innermost packet and the routing header of the outermost wrapper that has one; its bytes, its boxed copy and its shared copy are those of that packet.", "quantifier": "all packets, all nestings of wrappers and all headers and stamps", "why_tests_cant": "Wrappers nest without bound, each form has its own way of copying, and the segments a packet is written from have a fixed number of places.", "anchors": ["crates/pkt/src/netpkt/reroute.rs: ReroutePkt, RecvPkt, ShareArcPkt", "crates/pkt/src/netpkt/mod.rs: NetPkt::as_netbox, NetPkt::as_netarc", "crates/pkt/src/netpkt/netpkt_arc.rs: NetPktArc", "crates/pkt/src/byte_segments.rs: push_front"]}
{"id": "C106", "title": "A space pattern matches exactly the spaces it describes", "statement": "sp_match! on a space gives a result exactly if its components are those of the pattern in order, with literals equal and every typed place convertible, and nothing left unless the pattern ends in two dots; the result is the converted components in order and, with two dots, the rest as a space, which can be matched in turn. It never panics on a space.", "quantifier": "all spaces, all patterns of any length and all conversions", "why_tests_cant": "Spaces and patterns are unbounded families and conversions are arbitrary functions; a test of the macro fixes one space and some patterns.", "anchors": ["crates/pkt/src/space_macro.rs: sp_iter_match, sp_match", "crates/pkt/src/space.rs: SpaceIter::next, SpaceIter::space"]}
{"id": "C107", "title": "Waiting on the bus of a browser waits for a new value", "statement": "In a browser the value of the bus never falls, a wait ends only once a value above all that were seen has been emitted, and it yields the greatest value emitted.", "quantifier": "all histories of emits and waits", "why_tests_cant": "The outcome of a wait depends on everything emitted before it; a test takes one history.", "anchors": ["crates/ipcbus/src/wasmbus.rs: ProcBus::emit, ProcBus::next_async"]}
