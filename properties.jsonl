{"id": "C01", "title": "fraos: append/read refinement to a log", "statement": "After any history of append calls on a fresh or reopened database, reading sequence number i returns exactly the bytes of the i-th record ever appended (counting records inside batches), reading past the end returns None, len() is the number of records, is_empty() says whether that is zero and last() is the final record; no read panics or errors.", "quantifier": "every history of batches (any number, any sizes, any bytes; less than 2^60 bytes in all), closes and reopens, in memory and file mode, every sequence number below 2^60", "why_tests_cant": "the path taken through the mapping machinery (new mapping, append to active mapping, retire mapping, remap when there are too many) depends on the sizes of all earlier batches; tests sample a few sizes", "anchors": ["fraos/src/database.rs: Database::append_get_seqno, get_by_seqno, len, last, is_empty", "fraos/src/flatfile.rs: FlatFile::append, get_record_at_offset", "fraos/src/seqno.rs: SeqNoIndex::append, get_offset_and_length", "fraos/src/growable_mmap.rs: grow_and_apply, get_ref_and_apply, rearrange_mmaps", "fraos/src/index_on_mmaps.rs: find"]}
{"id": "C02", "title": "fraos: sequence numbers are dense and stable", "statement": "append_get_seqno of a non-empty batch of non-empty records returns the number of records stored before the call, which is the sequence number of the batch's first record; put_seqno returns the record's own number; numbers are never reused, and records already stored keep their number and bytes under every later append.", "quantifier": "every history of appends and every later history", "why_tests_cant": "needs an argument over all continuations of all histories", "anchors": ["fraos/src/database.rs: append_get_seqno, put, put_seqno", "fraos/src/seqno.rs: SeqNoIndex::append"]}
{"id": "C03", "title": "fraos: rejected appends change nothing", "statement": "An append whose batch contains an empty record is rejected with EmptyRecordAppended and an append of an empty batch returns None; in both cases every later read, length and append behaves as if the call had not happened.", "quantifier": "every reachable database state, every batch and every position of the empty record in it", "why_tests_cant": "the rejection must be checked in every reachable mapping state and for every continuation", "anchors": ["fraos/src/database.rs: append_get_seqno", "fraos/src/flatfile.rs: append", "fraos/src/seqno.rs: append"]}
{"id": "C04", "title": "fraos: iteration", "statement": "iter_from_seqno(n) yields the records n, n+1, ... in order, each exactly once, ends after the last one, and yields nothing when n is past the end; an iterator that has reached the end yields newly appended records if called again after a later append. An iterator that answers an error stays where it is: it never passes over a record that could not be read.", "quantifier": "every history, every start n, every interleaving of next() calls with appends", "why_tests_cant": "unbounded histories and unbounded numbers of next() calls", "anchors": ["fraos/src/seqno_iter.rs: SeqNoIter::next_impl", "fraos/src/database.rs: iter_from_seqno"]}
{"id": "C05", "title": "fraos: clean close and reopen", "statement": "Closing a file database (dropping the only handle) and opening the same directory again gives a database with exactly the same records under the same sequence numbers, to which appends continue as before; repeated any number of times.", "quantifier": "every history of appends, closes and reopens with one handle at a time", "why_tests_cant": "depends on file lengths, zero padding and the recovered end for every possible history", "anchors": ["fraos/src/database.rs: Database::new, Drop", "fraos/src/growable_mmap.rs: GrowableMmap::new, shrink_to_size", "fraos/src/seqno.rs: SeqNoIndex::new, find_actual_end"]}
{"id": "C06", "title": "fraos: crash recovery keeps every acknowledged record", "statement": "If the process dies at any point (files keep their zero padding, a batch in flight may have reached only some of its data bytes and only a prefix of its index entries), opening the directory again succeeds and yields all acknowledged records unchanged, followed by at most the prefix of the in-flight batch whose index entries reached the file; nothing acknowledged is lost, reordered or altered.", "quantifier": "every history of appends, every crash point inside or between appends, every persisted prefix", "why_tests_cant": "crash points cannot be enumerated by tests; recovery is a binary search over file contents of any length", "anchors": ["fraos/src/seqno.rs: SeqNoIndex::new, find_actual_end, append", "fraos/src/database.rs: Database::new, append_get_seqno", "fraos/src/growable_mmap.rs: create_mmap, GrowableMmap::new"]}
{"id": "C07", "title": "fraos: finding the end of a padded index", "statement": "On an index whose first k entries have non-zero length and all others have zero length, the recovery search terminates and returns exactly k, for every k and every padding; on arbitrary contents with a zero-length last entry and a non-zero first entry it still terminates and returns a position whose entry is zero and whose predecessor is non-zero, at or after the first zero-length entry.", "quantifier": "every index length, every k, every contents", "why_tests_cant": "termination and off-by-one correctness of a binary search over all lengths", "anchors": ["fraos/src/seqno.rs: find_actual_end, get_length_at"]}
{"id": "C08", "title": "fraos: concurrent readers and writers", "statement": "With any number of threads sharing clones of one database and calling append, get_by_seqno and len in any interleaving, every successful append occupies a contiguous block of sequence numbers equal to the number it returns, appends never interleave inside a batch, every read returns None or the complete final bytes of that record, and a record once seen is seen by all later reads; an append refused because a file could not be extended or mapped leaves no record and takes no number, and the other threads go on.", "quantifier": "every number of threads, every program per thread, every schedule at the granularity of the code's lock sections and atomic loads/stores; with and without refusals of the system to extend or to map a file", "why_tests_cant": "schedules are unbounded and tests exercise a handful", "anchors": ["fraos/src/database.rs: append_get_seqno, get_by_seqno, write_lock", "fraos/src/appender.rs: append, memory_size", "fraos/src/growable_mmap.rs: storage RwLock"]}
{"id": "C09", "title": "fraos: address lookup over mappings", "statement": "Looking up a byte address in the mapping index returns the mapping that contains it, the offset inside it and a length that ends at the next append boundary; the lookup succeeds exactly for addresses below the total length and never reports an inconsistent state. An end is accepted exactly if it is after the last one, and is a boundary from then on; a mapping is accepted exactly if it is empty, and then ignored, or begins at the total length.", "quantifier": "every index built by any sequence of accepted appends, every address", "why_tests_cant": "binary search plus boundary arithmetic over unboundedly many boundaries", "anchors": ["fraos/src/index_on_mmaps.rs: MmapChunkAddressMapper::find, append_relative_end, append_global_end, IndexOnMmaps::find, append, len"]}
{"id": "C10", "title": "fraos: handles are independent", "statement": "Dropping one clone of a database while others are alive does not disturb the others: they keep appending and reading, and everything they append survives a later clean close and reopen.", "quantifier": "every history of clone, drop, append and reopen", "why_tests_cant": "a property over all interleavings of handle lifetimes; the failure needs a specific order", "anchors": ["fraos/src/database.rs: Clone, Drop for Database", "fraos/src/growable_mmap.rs: shrink_to_size, grow_and_apply"]}
{"id": "C11", "title": "fraos: a failed append does not corrupt later ones", "statement": "If an append returns an error (file cannot be extended or mapped, or flushing fails), records already stored stay readable and every later successful append is read back exactly.", "quantifier": "every history with any set of injected mapping, extension and flush failures", "why_tests_cant": "fault points multiply with histories", "anchors": ["fraos/src/appender.rs: append", "fraos/src/growable_mmap.rs: grow_and_apply, create_mmap", "fraos/src/database.rs: append_get_seqno"]}
{"id": "C12", "title": "indexed-log-map: latest append wins", "statement": "get(k) returns the value of the most recent append with key k and None if there is none; contains(k) agrees with it, last() is the most recent value, iter() is the values of all appends in order, and is_empty() says whether nothing was appended.", "quantifier": "every history of appends over any keys and values, including repeated keys", "why_tests_cant": "the key index and the log are separate stores that must agree after every history", "anchors": ["indexed-log-map/src/storage.rs: IndexedLogMap::append, get, contains, last, iter, is_empty"]}
{"id": "C13", "title": "indexed-log-map: resuming from a key", "statement": "iter_from(k) yields the value last appended under k and then everything appended after it, in order, and nothing else; it is None for an unknown key. get_next(None) is the first value, get_next(k) is the value appended right after k's latest one, None if k is unknown or latest.", "quantifier": "every history and every key", "why_tests_cant": "ranges over all histories and positions", "anchors": ["indexed-log-map/src/storage.rs: iter_from, get_next"]}
{"id": "C14", "title": "indexed-log-map: consistency between log and key index across failures", "statement": "At every point, including a crash between writing the log record and recording the key, every key in the key index designates a record of the log holding a value appended under that key; a value whose key was not recorded is still visible to iter().", "quantifier": "every history, every crash point inside append", "why_tests_cant": "crash points between two stores cannot be enumerated by unit tests", "anchors": ["indexed-log-map/src/storage.rs: append, new"]}
{"id": "C15", "title": "multiverse: structural consistency", "statement": "After any history of insertions and removals, the set of tips is exactly the set of stored blocks that have no stored child linked to them, the ordering by block number lists exactly the stored blocks, every recorded child is stored or was re-rooted, and no operation panics.", "quantifier": "every history of insert, remove, clear and reopen over every block tree, given that each block's identifier determines its block and that, while a block is removed, nobody holds a reference to a removed allocation of its re-inserted parent", "why_tests_cant": "the invariant must survive every order of insertions and removals", "anchors": ["multiverse/src/lib.rs: insert, insert_in_memory, remove, tips"]}
{"id": "C16", "title": "multiverse: insertion is idempotent and lossless", "statement": "Inserting a block makes it retrievable by its identifier and leaves all other blocks retrievable; inserting a block that is already present changes nothing observable (contents, tips, roots, ordering, stored database).", "quantifier": "every reachable multiverse, every block, any storage threshold", "why_tests_cant": "ranges over all reachable states", "anchors": ["multiverse/src/lib.rs: insert, db_insert, get, contains, len"]}
{"id": "C17", "title": "multiverse: best block is buried by depth confirmations", "statement": "select_best_block(depth, age_gap) selects a block only if it is stored and lies exactly depth parent links above a block of maximal block number; on blocks whose parent has the preceding block number the selected block's number is the maximum minus depth; if that ancestor is not stored nothing is selected.", "quantifier": "every reachable multiverse, every depth and age_gap, every tie-break among equal heights, when nobody holds a reference to a removed block that is still the parent of a stored one", "why_tests_cant": "ties are broken by hash order; all trees and depths", "anchors": ["multiverse/src/lib.rs: select_best_block_longest_chain, ancestor"]}
{"id": "C18", "title": "multiverse: garbage list is exactly the too-old blocks", "statement": "The discarded set returned with a selected block is exactly the set of stored blocks whose number is below the selected block's number minus age_gap (saturating); it never contains the selected block or anything at or above that height, and it is empty when nothing is selected.", "quantifier": "every reachable multiverse, every depth and age_gap", "why_tests_cant": "boundary arithmetic over all heights", "anchors": ["multiverse/src/lib.rs: select_best_block_longest_chain"]}
{"id": "C19", "title": "multiverse: preferred fork tip", "statement": "preferred_fork_tip returns a tip whose block number is maximal among all tips, and None exactly when there are no tips.", "quantifier": "every reachable multiverse, every iteration order of the tip set", "why_tests_cant": "hash iteration order is arbitrary", "anchors": ["multiverse/src/lib.rs: prefer_longest_chain_fork_tip"]}
{"id": "C20", "title": "multiverse: ordered iteration visits every block", "statement": "iter() yields every stored block exactly once, in non-decreasing block number.", "quantifier": "every reachable multiverse", "why_tests_cant": "forks at equal heights are rarely iterated in tests", "anchors": ["multiverse/src/visitor/depth_ordered.rs: DepthOrderedIterator::next", "multiverse/src/lib.rs: iter"]}
{"id": "C21", "title": "multiverse: persistence round trip", "statement": "Reopening the persistent store rebuilds a multiverse with exactly the stored blocks at or above the storage threshold, each linked to its parent exactly if the parent is saved and comes first by number and identifier, with the tips of these links; blocks, tips, ordering and links are unchanged if everything is saved, parents have smaller numbers and every block with a stored parent is linked.", "quantifier": "every history of insertions and removals, every threshold, every reopen point", "why_tests_cant": "the rebuilt structure depends on key order in the store for all histories", "anchors": ["multiverse/src/lib.rs: load_from, db_insert, db_remove, mk_sled_key"]}
{"id": "C22", "title": "multiverse: storage keys", "statement": "Storage keys of different (block number, identifier) pairs differ, and the byte order of keys is the order by block number first and identifier second.", "quantifier": "every pair of 64-bit block numbers and every pair of identifiers", "why_tests_cant": "2^128 pairs", "anchors": ["multiverse/src/lib.rs: mk_sled_key"]}
{"id": "C23", "title": "multiverse source: only confirmed blocks are released, in chain order", "statement": "A consumer that pulls repeatedly, always passing the position of the last block it received, receives from a linear chain exactly the blocks of the chain in order, without gap or repetition, and a block at height h only after the source has delivered height h+depth. The same holds for trees of blocks whose forks are at most as long as the depth: the consumer receives the common chain.", "quantifier": "every chain length, every tree with forks of at most the depth, every confirmation depth, every interleaving with empty pulls, repeated blocks, tip notifications, failures of the inner source and restarts; crashes as well for a consumer that began without position", "why_tests_cant": "unbounded chains and schedules of empty pulls", "anchors": ["blockchain-source/src/multiverse/mod.rs: MultiverseSource::pull, multiverse_insert_and_gc"]}
{"id": "C24", "title": "multiverse source: repeated pull is stable", "statement": "Pulling again with the position that precedes the current confirmed block returns that same block again without consuming anything from the underlying source; pulling from an unrelated position is rejected and changes nothing.", "quantifier": "every reachable source state, every position", "why_tests_cant": "ranges over all reachable states", "anchors": ["blockchain-source/src/multiverse/mod.rs: MultiverseSource::pull"]}
{"id": "C25", "title": "fork handling source: the event stream is a valid chain history", "statement": "A consumer that keeps a chain, appends the block of each block event and truncates to the target of each rollback event, always finds the block event's parent to be its current head and the rollback target on its chain; at every moment its chain is part of the chain to the last new block received, and the queue holds exactly the missing blocks; tips are passed on, and answers without a new block change nothing.", "quantifier": "every tree of blocks, every order in which the inner source delivers them, every confirmation depth", "why_tests_cant": "all forks and delivery orders", "anchors": ["blockchain-source/src/multiverse/rollback.rs: ForkHandlingSource::pull"]}
{"id": "C26", "title": "cardano source: block streaming", "statement": "For each request the source delivers exactly the blocks of the node's chain after the newest requested point that is on that chain, in order, up to the node's tip, each once; the genesis request also delivers the genesis block; no matching point or an up-to-date point yields nothing. A request for the origin gives the blocks the node gives for the range from its origin, but for the first. A request with an identifier that is not one of a block yields nothing and ends the connection. If blocks cannot be read, those before are delivered, an error stands in place of each block without an epoch, and the first undecodable block ends the source for good. A connection is used for all requests until one fails or its events are thrown away.", "quantifier": "every node chain, every list of points, every split of the deliveries over pulls", "why_tests_cant": "depends on every chain and point set", "anchors": ["blockchain-source/src/cardano/mod.rs: CardanoSource::pull, request_handler, block_fetch", "blockchain-source/src/cardano/event.rs"]}
{"id": "C27", "title": "cardano time: epochs, relative slots and timestamps", "statement": "For a slot at or after the era start, epoch and relative slot are the quotient and remainder that recompose to the slot, epochs and timestamps are monotone in the slot, and a slot before the era start is rejected; the timestamp is the era time plus elapsed slots times slot length.", "quantifier": "every slot and era configuration; every u64 for overflow behaviour", "why_tests_cant": "2^64 slots and all configurations", "anchors": ["blockchain-source/src/cardano/time.rs: Era::compute_timestamp, absolute_slot_to_epoch, absolute_slot_to_relative, epoch_slot_to_absolute_byron"]}
{"id": "C28", "title": "core: block/slot/output/timestamp arithmetic", "statement": "Checked addition and successor return the exact sum when it fits in 64 bits and nothing otherwise; saturating addition, successor and subtraction return the exact result clamped to the 64-bit range; ordering is numeric.", "quantifier": "every pair of 64-bit numbers", "why_tests_cant": "2^128 pairs", "anchors": ["core/src/block_number.rs", "core/src/slot_number.rs", "core/src/output_index.rs", "core/src/timestamp.rs"]}
{"id": "C29", "title": "core: number text round trip", "statement": "Printing a block number, slot number, timestamp or output index and parsing it back gives the same number; parsing accepts only decimal digits (with optional leading plus) in the 64-bit range; the JSON readers of block number, slot number and timestamp accept a number and its decimal string alike, the reader of an output index accepts only the number.", "quantifier": "every 64-bit number and every string", "why_tests_cant": "infinite string space", "anchors": ["core/src/block_number.rs: Display, FromStr, Deserialize", "core/src/number_visitor.rs: NumberVisitor"]}
{"id": "C30", "title": "core: value arithmetic is exact", "statement": "Adding, subtracting, multiplying, summing and comparing values agrees with exact rational arithmetic whatever decimal scales the operands carry; equality and ordering are numeric.", "quantifier": "every pair of decimals of any magnitude and scale", "why_tests_cant": "infinite domain", "anchors": ["core/src/value.rs: Add, Sub, Mul, Sum, PartialEq, Ord"]}
{"id": "C31", "title": "core: unit conversions are exact and invertible", "statement": "Converting lovelace to ada, wei to ether, microalgo to algo or a mainchain amount to its sidechain precision multiplies by the exact power of ten and converting back returns the original value; conversions preserve order and sums.", "quantifier": "every value; every precision rule", "why_tests_cant": "infinite domain; needs the law for every rule", "anchors": ["core/src/value.rs: scale, to_ada, to_lovelace, to_ether, to_wei, Rule conversions"]}
{"id": "C32", "title": "core: value parsing and truncation", "statement": "Parsing a decimal text as a unit succeeds only for non-negative numbers with at most that unit's number of decimals and yields the number written, whether or not underscores separate its digits; truncation returns the integer part for non-negative values.", "quantifier": "every decimal text, every unit", "why_tests_cant": "infinite string space", "anchors": ["core/src/value.rs: FromStr, truncate", "core/src/number_visitor.rs: BigDecimalVisitor"]}
{"id": "C33", "title": "core: balance is the net sum", "statement": "Starting from zero and adding and subtracting any non-negative amounts or balances in any order, the balance reports debt, balanced or excess according to the sign of the exact net sum, with the absolute value of that sum, whatever decimal scales the amounts carry. Two such balances compare equal exactly if their net sums are equal, and the text printed for a balance is the net sum as a decimal number with its sign.", "quantifier": "every sequence of additions and subtractions", "why_tests_cant": "unbounded sequences", "anchors": ["core/src/balance.rs: Add, Sub, AddAssign, SubAssign, PartialEq, Display, in_debt, balanced, in_excess"]}
{"id": "C34", "title": "core: UTxO store contents", "statement": "After any history of inserts and removals the store holds exactly the inserted and not removed UTxOs; insertion of a pointer already present and removal of an absent pointer are errors that change nothing; len, contains, get and iter agree.", "quantifier": "every history over any UTxOs", "why_tests_cant": "all histories", "anchors": ["core/src/utxo_store.rs: UTxOStoreMut::insert, remove, UTxOStore::len, contains, get, iter"]}
{"id": "C35", "title": "core: UTxO store balances", "statement": "For every token, including the main one, the reported balance is the sum of that token's amounts over the stored UTxOs and the per-token count and listing contain exactly the stored UTxOs holding that token.", "quantifier": "every history of inserts and removals, every token", "why_tests_cant": "incremental bookkeeping must agree with a recomputation after every history", "anchors": ["core/src/utxo_store.rs: get_balance_of, token_balance, balance, iter_token, number_utxos_for_token, contains_token"]}
{"id": "C36", "title": "core: UTxO store ordered views", "statement": "The listing of a token's UTxOs by value contains each UTxO holding the token exactly once, sorted by ascending amount of that token, and the reverse listing the same UTxOs sorted by descending amount, for every history.", "quantifier": "every history and token", "why_tests_cant": "all histories and ties", "anchors": ["core/src/utxo_store.rs: iter_token_ordered_by_value, iter_token_ordered_by_value_rev, iter_ordered_by_wmain"]}
{"id": "C37", "title": "core: UTxO store snapshots are isolated", "statement": "A frozen snapshot never changes: thawing it, inserting and removing through the thawed copy and freezing again leaves every query on the original snapshot unchanged.", "quantifier": "every snapshot and every later history", "why_tests_cant": "all histories", "anchors": ["core/src/utxo_store.rs: freeze, thaw"]}
{"id": "C38", "title": "utxo-selection: largest-first covers the demand", "statement": "When largest-first succeeds, for every requested asset the reported input amount covers the requested output amount, and the main token input covers output plus the reported fee, for any fee estimator.", "quantifier": "every set of available UTxOs naming each asset at most once with non-negative asset amounts, every request, every fee estimator charging no negative fee, every hash order and order of the requested assets", "why_tests_cant": "all stores and estimators", "anchors": ["utxo-selection/src/algorithms/largest_first.rs: select_inputs, select_input_and_update_balances"]}
{"id": "C39", "title": "utxo-selection: largest-first books are truthful", "statement": "Handing over UTxOs makes exactly these available, unless two of them are the same output: then it is refused and what was available stays. The chosen inputs are distinct members of the available set, the remaining available set is exactly the rest, the reported input balances are the given balances plus the sums over chosen inputs, and the fee is the estimator's minimum plus its per-input fees.", "quantifier": "every set of available UTxOs naming each asset at most once with non-negative asset amounts, every request, every fee estimator charging no negative fee, every hash order and order of the requested assets", "why_tests_cant": "all stores", "anchors": ["utxo-selection/src/algorithms/largest_first.rs: select_inputs, select_largest_input_for, available_inputs"]}
{"id": "C40", "title": "utxo-selection: largest-first fails only when funds are insufficient", "statement": "Given an estimator that does not fail, largest-first returns an error only if the available UTxOs together with the given inputs cannot cover some requested asset, or cannot cover the main output plus fees even when all of them are spent; when it returns an error the available set is unchanged.", "quantifier": "every set of available UTxOs naming each asset at most once with non-negative asset amounts, every request, every fee estimator charging no negative fee, every hash order and order of the requested assets", "why_tests_cant": "completeness over all stores", "anchors": ["utxo-selection/src/algorithms/largest_first.rs: select_inputs"]}
{"id": "C41", "title": "utxo-selection: largest-first takes the largest", "statement": "Each input chosen for a token carries at least as much of that token as every UTxO left available at that moment, and inputs are only added while the demand is not met.", "quantifier": "every set of available UTxOs naming each asset at most once with non-negative asset amounts, every request, every fee estimator charging no negative fee, every hash order and order of the requested assets", "why_tests_cant": "all stores", "anchors": ["utxo-selection/src/algorithms/largest_first.rs: select_largest_input_for"]}
{"id": "C42", "title": "utxo-selection: random-improve books are truthful", "statement": "For every outcome of the random choices, a successful random-improve reports input balances equal to the given ones plus the sums over distinct chosen inputs, and chosen plus remaining inputs are exactly the available ones.", "quantifier": "every request, every available list, every stream of random choices", "why_tests_cant": "random choices cannot be enumerated", "anchors": ["utxo-selection/src/algorithms/random_improve.rs: select_inputs, select_input_and_update_balances"]}
{"id": "C43", "title": "utxo-selection: random-improve covers outputs and fee", "statement": "For every outcome of the random choices, a successful random-improve selects main inputs covering the outputs plus the reported fee, and inputs covering every requested asset.", "quantifier": "every request and every random stream", "why_tests_cant": "random choices cannot be enumerated", "anchors": ["utxo-selection/src/algorithms/random_improve.rs: select_inputs"]}
{"id": "C44", "title": "utxo-selection: random-improve accepts a new available set", "statement": "After set_available_inputs the algorithm selects only from the new list, offers all of it, and never panics.", "quantifier": "every pair of old and new lists", "why_tests_cant": "needs all pairs of list lengths", "anchors": ["utxo-selection/src/algorithms/random_improve.rs: set_available_inputs, available_inputs"]}
{"id": "C45", "title": "utxo-selection: fee-change balancer", "statement": "When the fee-change balancer succeeds the result is exactly balanced (inputs equal outputs plus fee, every asset equal), nothing but the fee changed, and the fee never decreased; it fails exactly when an asset is unbalanced or the main token is in debt.", "quantifier": "every setup with non-negative amounts and every estimator", "why_tests_cant": "all amounts", "anchors": ["utxo-selection/src/algorithms/balance_change_fee.rs: select_inputs"]}
{"id": "C46", "title": "utxo-selection: single-output change balancer", "statement": "When the single-output change balancer succeeds the result is exactly balanced for the main token and every asset, at most one change output is added, it goes to the change address and carries a non-negative amount; it fails on any debt and when no change address is given.", "quantifier": "every setup with non-negative amounts and every estimator", "why_tests_cant": "all amounts, including excess smaller than the fee of the change output", "anchors": ["utxo-selection/src/algorithms/balance_change_single_output.rs: select_inputs"]}
{"id": "C47", "title": "utxo-selection: balance predicates", "statement": "For non-negative amounts, a selection is reported balanced exactly when main inputs equal outputs plus fee and every asset's inputs equal its outputs, including assets that appear on one side only; the stronger predicate in addition compares the totals of the listed inputs with those of the listed outputs and changes.", "quantifier": "every selection result with non-negative amounts", "why_tests_cant": "all asset maps", "anchors": ["utxo-selection/src/common.rs: calculate_main_token_balance, calculate_asset_balance, are_assets_balanced, is_balanced, are_utxos_balanced"]}
{"id": "C48", "title": "utxo-selection: setup totals", "statement": "A setup built from fixed inputs and outputs has main and per-asset totals equal to the exact sums over the given inputs and outputs.", "quantifier": "every list of inputs and outputs, repeated assets included", "why_tests_cant": "all lists", "anchors": ["utxo-selection/src/common.rs: InputOutputSetup::from_fixed_inputs_and_outputs"]}
{"id": "C49", "title": "utxo-selection: thermostat conserves value", "statement": "Whenever the thermostat succeeds, main inputs equal main outputs plus changes plus fee and, for every asset, inputs equal outputs plus changes.", "quantifier": "every store, request, configuration and estimator", "why_tests_cant": "many interacting branches over all amounts", "anchors": ["utxo-selection/src/algorithms/thermostat.rs: select, balance_excess_of_asset, balance_excess, split_accumulators, select_inputs"]}
{"id": "C50", "title": "utxo-selection: thermostat pays the minimum fee", "statement": "Whenever the thermostat succeeds, the fee it reports is at least the estimator's minimum required fee for the finished transaction.", "quantifier": "every store, request, configuration and estimator", "why_tests_cant": "the fee is what is left after several adjustments", "anchors": ["utxo-selection/src/algorithms/thermostat.rs: select, select_inputs"]}
{"id": "C51", "title": "utxo-selection: thermostat selection discipline", "statement": "The thermostat selects distinct available UTxOs, each holding at most the one asset it was selected for, and reports as available exactly the UTxOs not selected.", "quantifier": "every store, request, configuration and estimator", "why_tests_cant": "all stores", "anchors": ["utxo-selection/src/algorithms/thermostat.rs: select_input_for, select, available_inputs"]}
{"id": "C52", "title": "utxo-selection: linear fee estimator is additive", "statement": "The thermostat fee estimator's minimum fee after adding an input or output is the fee before plus the fee it quotes for that input or output, in any order of additions, and its size estimate grows by the constant size of each part and never ignores a part.", "quantifier": "every sequence of additions", "why_tests_cant": "unbounded sequences", "anchors": ["utxo-selection/src/estimators/thermostat_estimator.rs"]}
{"id": "C53", "title": "cardano-utils: token fingerprints", "statement": "A fingerprint is computed exactly for a 56-digit hexadecimal policy and an even-length hexadecimal name, does not depend on letter case, hashes the decoded policy bytes followed by the decoded name bytes, and two different (policy, name) pairs get different identifiers unless the hash collides.", "quantifier": "every policy and name string", "why_tests_cant": "infinite string space", "anchors": ["cardano-utils/src/cip14.rs: fingerprint_hash, fingerprint"]}
{"id": "C54", "title": "cardano-utils: value conversion round trip", "statement": "Converting a ledger value to tokens and back gives the same coin and the same quantity for every asset; an output or spent output converted to the library types and back keeps its pointer, address, quantities, script reference and datum; an output built from a list of assets holds the integer part of the quantities listed for each policy and name.", "quantifier": "every ledger value with any policies and names, every list of assets of an output, every hash-map iteration order", "why_tests_cant": "all multi-asset values", "anchors": ["cardano-utils/src/utxo.rs: csl_value_to_tokens, tokens_to_csl_value, multiasset_iter, utxo_details_to_cml_input, utxo_details_from_io, utxo_builder_to_cml_output, utxo_builder_from_output"]}
{"id": "C55", "title": "core: value JSON round trip", "statement": "Serialising a value to its JSON text and deserialising it gives a value with the same number.", "quantifier": "every value of any magnitude whose scale fits the library's exponent range, whatever notation it is printed in", "why_tests_cant": "all magnitudes, scales and printing modes", "anchors": ["core/src/value.rs: Display, Serialize, Deserialize, FromStr"]}
{"id": "C56", "title": "core: asset names of a token", "statement": "The policy and asset name the UTxO store reports for a token are those of the first accepted UTxO asset carrying that token, and stay so under every later insertion and removal; a token never inserted has none.", "quantifier": "every history of inserts and removals, every token", "why_tests_cant": "all histories", "anchors": ["core/src/utxo_store.rs: get_asset_ids, insert"]}
{"id": "C57", "title": "fraos: numbers far past the end", "statement": "Reading any sequence number at or past the number of records returns None, however large the number is.", "quantifier": "every history and every usize value", "why_tests_cant": "tests ask for numbers near the end; the arithmetic on the number itself goes wrong only for numbers above 2^60", "anchors": ["fraos/src/seqno.rs: get_offset_and_length", "fraos/src/database.rs: get_by_seqno"]}
{"id": "C58", "title": "indexed-log-map: threads sharing a map", "statement": "With any number of threads calling append, get, contains, is_empty, last, iter_from, next() of iterators and get_next on one map in any interleaving, append, get, contains and is_empty are together atomic (a map from keys to values), append and iteration are together atomic (a list of values); get(k) answers None or a value of an append under k that was called before, it does not answer None once an append under k has returned, and it answers the value of an append under k that has returned if no other append under k overlaps with it or is called later; and when nothing is running, the log has what it had and the acknowledged values once each, and get(k) answers the value under k that is last in the log; an append refused because a file of the log could not be extended or mapped has no effect.", "quantifier": "every earlier history, on disk or in memory; every number of threads, every program per thread, every schedule of lock sections, atomic accesses of the log and accesses of the key index; every lawful encoding of keys and values; with and without refusals of the system to extend or to map a file of the log", "why_tests_cant": "schedules are unbounded; the log and the key index are updated without a common lock", "anchors": ["indexed-log-map/src/storage.rs: append, iter_from, get, contains, is_empty, last, iter, get_next", "fraos/src/database.rs: append_get_seqno, get_by_seqno, write_lock"]}
{"id": "C59", "title": "utxo-selection: a failing random-improve takes nothing", "statement": "When random-improve returns an error, the inputs it offers are the same as before the call.", "quantifier": "every request, every available list, every stream of random choices, every estimator", "why_tests_cant": "failures happen at every point of a random selection", "anchors": ["utxo-selection/src/algorithms/random_improve.rs: select_inputs, select_input_and_update_balances"]}
{"id": "C60", "title": "utxo-selection: thermostat answers without panicking", "statement": "A thermostat selection ends with an answer or an error value: it does not panic and does not run for ever.", "quantifier": "every store, request, configuration and estimator", "why_tests_cant": "nested loops over all stores; panics need particular estimators, configurations and assets", "anchors": ["utxo-selection/src/algorithms/thermostat.rs: select, remaining_number_inputs_allowed, current_balance_of, balance_excess_of_asset, split_accumulators"]}
{"id": "C61", "title": "cardano-utils: assumed fees and sizes never underestimate", "statement": "For a transaction spending from a multisig plan (inputs of the plan address, its outputs, the plan script and the plan's quorum of signatures, optionally a protocol-magic metadatum), the minimum fee announced by the estimator built from the assumed network constants is at least the linear fee the ledger computes from the serialised transaction, and the size it reports is at least the serialised size.", "quantifier": "every plan, every transaction of the plan with any number of inputs, outputs, keys and any values, every order in which parts are announced; the fee is enough exactly for transactions of at most the counted bytes, which holds whenever no output serialises to more than 147 bytes", "why_tests_cant": "the assumed constants must dominate the real serialisation for every number of inputs, outputs, signatures, key counts and integer widths", "anchors": ["cardano-utils/src/network_id.rs: estimate_size_overhead, assumed_*", "utxo-selection/src/estimators/thermostat_estimator.rs", "cardano-utils/src/multisig_plan.rs: native script size"]}
{"id": "C62", "title": "cardano-utils: multisig plans", "statement": "A multisig plan is read exactly when its quorum fits and every key is the hexadecimal spelling of 28 bytes; the script of a plan accepts a transaction exactly when at least quorum different keys of the plan signed it; the script is the one the ledger asks for when spending from the address of the plan; different plans or networks have different addresses.", "quantifier": "every list of key texts, every quorum, every set of signers, every network, every pair of plans", "why_tests_cant": "quantifies over all key lists and all sets of signers; injectivity of the address is a claim about pairs of plans", "anchors": ["cardano-utils/src/multisig_plan.rs: MultisigPlan, to_script, hash, address"]}
{"id": "C63", "title": "utxo-selection: minimum value of an output", "statement": "The minimum value the estimators name for an output is enough for the ledger to accept that output with that coin.", "quantifier": "every output, every asset bundle, every per-byte cost", "why_tests_cant": "the ledger minimum depends on the serialised size of every possible output", "anchors": ["utxo-selection/src/estimators/thermostat_estimator.rs: min_value_for_output", "utxo-selection/src/estimators/cml_fee_estimator.rs: min_value_for_output"]}
{"id": "C64", "title": "blockchain-source: built-in networks and epochs of blocks", "statement": "Every built-in network configuration is consistent (well-formed block identifiers, default start not before genesis and in the first epoch of the configured era, era boundary on an epoch boundary, no two networks share magic, genesis or relay), and the network identifier tells main network from test networks. The times of its slots and the lengths of its epochs are those of the public network. Every block of a built-in network becomes an event with the block's id, parent, number, slot and the epoch the slot lies in; along a chain epochs never go down.", "quantifier": "every built-in network, every block of it, every pair of blocks in slot order", "why_tests_cant": "the epoch must be right for every slot, on both sides of the change from Byron to later eras, for every network", "anchors": ["blockchain-source/src/cardano/configuration.rs: NetworkConfiguration", "blockchain-source/src/cardano/event.rs: BlockEvent::from_serialized_block, get_parent_id", "blockchain-source/src/cardano/time.rs: Era"]}
{"id": "C65", "title": "cardano-net-fetcher: prints a gap-free chain", "statement": "The fetcher reads its start option exactly when it is a slot, a comma and a block identifier, and reports an error otherwise. Started from a point, it prints the blocks after it without gap or repetition, each following the one printed before on the node's chain; it goes on as long as it gets events, and when it ends the last printed block is the node's tip.", "quantifier": "every option text, every node chain, every schedule of the connection task and the printing loop, connections breaking at any place, the chain changing between connections", "why_tests_cant": "quantifies over all schedules, all places where a connection may break and all chains", "anchors": ["cardano-cli-tools/cardano-net-fetcher/src/main.rs: main, parse_since", "blockchain-source/src/cardano/mod.rs: pull"]}
{"id": "C66", "title": "indexed-log-map: refused appends, read-only maps and unreadable records", "statement": "An append that answers an error has no effect: later reads by key, iteration, emptiness and last value are as if it had not been made. When the system fails an append half-way, the value may be in the log, but the map opened again shows every acknowledged value and key and answers every call exactly. A map opened read-only answers every read as before and refuses every append, and the directory is unchanged afterwards. A record that cannot be decoded gives an error item at its place and iteration goes on after it.", "quantifier": "every history of calls, on disk or in memory; every set of calls at which the system refuses to extend or map files; every history on disk with any failures of the files of the log and of the key index and deaths of the process, where after an error of the log nothing more is appended before reopening; every number of calls on the read-only map; every other value type the log is read at", "why_tests_cant": "failures of the system can happen at any call of any history; the effect of a refused append can show up in any later call", "anchors": ["indexed-log-map/src/storage.rs: IndexedLogMap::new, append, iter, iter_from, last", "indexed-log-map/src/config.rs: IndexedLogMapConfig::readonly", "fraos/src/growable_mmap.rs: create_mmap"]}
{"id": "C67", "title": "thermostat: shape and amounts of the changes", "statement": "Every change made by the thermostat selection is paid to the change address of the request and holds either no asset or exactly one asset of the request, named by the policy and name under which the store knows it, in a non-negative quantity; at most two changes hold the same assets. Every change holds a positive amount of ada; a change with an asset holds at most the configured maximum and at least half the configured minimum less the fee of an output, a change without assets at least half the estimator's minimum less that fee. If all amounts of the store, the request and the fees are whole, so are all changes and the fee. (That every change holds the minimum value of an output, and that a change never holds a zero quantity, are false.)", "quantifier": "Every store, request, estimator with non-negative quantities, configuration with min <= max, and map iteration order.", "why_tests_cant": "Tests look at the changes of a few fixed requests; the bounds depend on the excess of every asset, the fee and on whether a change is split.", "anchors": ["utxo-selection/src/algorithms/thermostat.rs: balance_excess_of_asset, balance_excess, split_accumulators"]}
{"id": "C68", "title": "thermostat: an affordable payment is made", "statement": "If the available UTxOs that hold a single asset hold enough of each asset of the request, and those without assets are worth the payment, the fee, the cost of spending them, and one change of the largest configured size for each asset, then the thermostat selection answers with a selection and does not fail, and the fee reaches the minimum. (False: a request its fixed inputs already cover is refused; so is one without fixed outputs; so is one whose asset is available only in UTxOs with several assets; so can be one whose amount of an asset is met exactly.)", "quantifier": "Every store, request with change address, configuration with 0 <= min <= max, estimator with constant costs, and map iteration order.", "why_tests_cant": "Refusal of affordable payments depends on the order of the hash maps, on the split of the amounts over the UTxOs, and on the fees of inputs and changes added on the way.", "anchors": ["utxo-selection/src/algorithms/thermostat.rs: select, select_input_for, remaining_number_inputs_allowed, balance_excess_of_asset, select_inputs"]}
{"id": "C69", "title": "random-improve: an affordable payment is made", "statement": "If, of each token the outputs ask for, the available UTxOs hold what is asked and, for each output asking for it but one, the amount of the largest UTxO on top (main token: counted in UTxOs with none of the assets), and no UTxO holds two of the assets asked for, then random-improve selection succeeds whatever is drawn. (False when outputs must share an input, when only the fixed inputs pay, and when the assets sit in one UTxO.)", "quantifier": "Every pool of inputs, list of outputs, fixed inputs, stream of random numbers, hash order and estimator that answers.", "why_tests_cant": "Whether inputs run out depends on the random draws: a test sees a few streams, the bound must hold for all.", "anchors": ["utxo-selection/src/algorithms/random_improve.rs: select_inputs, select_input_and_update_balances"]}
{"id": "C70", "title": "random-improve: the choice is improved", "statement": "For one output without assets and at least two available UTxOs that each pay it, exactly one UTxO is chosen, and some other available one is no closer to twice the output or is at least three times the output: the worst one is not chosen.", "quantifier": "Every pool of at least two inputs with 64-bit amounts not below the output, every stream of random numbers and estimator.", "why_tests_cant": "The draw is random: a test can see a good choice without any improvement taking place.", "anchors": ["utxo-selection/src/algorithms/random_improve.rs: select_input_and_update_balances"]}
{"id": "C71", "title": "Thermostat: the ledger accepts fee and balance", "statement": "The transaction made from an answer of the thermostat (fixed and chosen inputs, fixed outputs and changes, the fee of the answer, signatures and script of the multisig plan) pays at least the linear fee the ledger asks for its actual bytes, and its inputs are worth exactly its outputs plus the fee.", "quantifier": "Every network, plan, protocol magic, pool of UTxOs, request whose outputs serialise to at most 147 bytes (always so with at most one asset), configuration and hash order; any addresses up to 57 bytes, asset names up to 32 bytes and amounts.", "why_tests_cant": "The fee is a sum of assumed sizes made before the transaction exists; one too small shows only for some combination of long addresses, large amounts, signatures and changes, at the node.", "anchors": ["utxo-selection/src/algorithms/thermostat.rs: select_inputs", "utxo-selection/src/estimators/thermostat_estimator.rs", "cardano-utils/src/network_id.rs"]}
{"id": "C72", "title": "Thermostat: optional inputs keep the transaction within the size limit", "statement": "UTxOs beyond those needed for the payment are added only while there is room: if the first k chosen UTxOs already pay for the request and the transaction with them and two changes per asset and for the main token fits the size limit by the assumed sizes, the transaction actually made fits the limit of the network.", "quantifier": "Every network with a fee of at least nine per byte, plan, pool, request whose outputs serialise to at most 147 bytes (always so with at most one asset), configuration and hash order, and every k.", "why_tests_cant": "The room is computed with fees in place of sizes, and in rounds that interleave tokens; an overrun needs a particular pool size and number of assets.", "anchors": ["utxo-selection/src/algorithms/thermostat.rs: remaining_number_inputs_allowed, select", "utxo-selection/src/estimators/thermostat_estimator.rs"]}
{"id": "C73", "title": "utxo-selection: the ledger accepts what the balancers answer", "statement": "When the fee-change or the single-output change balancer answers, with the fee estimator having counted the inputs and outputs of the request, the transaction made from the answer pays at least the linear fee the ledger asks for its bytes, and spends exactly what it takes in, in the main token and in every asset.", "quantifier": "every network, plan, request, estimator state and answer", "why_tests_cant": "composes the balancer, the estimator's size constants and the serialisation; the claim is about every shape of transaction", "anchors": ["utxo-selection/src/algorithms/balance_change_fee.rs", "utxo-selection/src/algorithms/balance_change_single_output.rs", "utxo-selection/src/estimators/thermostat_estimator.rs"]}
{"id": "C74", "title": "utxo-selection: affordable payments are made", "statement": "If the available UTxOs cover the outputs of a request, the minimum fee and the fee of spending all of them, largest-first selection followed by the single-output change balancer answers; nothing is created or lost, the fee is the estimated minimum of the whole transaction, and the ledger accepts fee and balance. If they do not cover the outputs and the fees and each is worth its own fee, the selection fails and takes nothing.", "quantifier": "every set of available UTxOs, order of equal values, request, network and plan", "why_tests_cant": "liveness of a composition of two algorithms with an estimator, for all sets of UTxOs", "anchors": ["utxo-selection/src/algorithms/largest_first.rs", "utxo-selection/src/algorithms/balance_change_single_output.rs", "utxo-selection/src/estimators/thermostat_estimator.rs"]}
{"id": "C75", "title": "multiverse source: resuming after a power loss", "statement": "After a power loss, when the store on disk is as it was at an earlier moment and the consumer still has its position, the consumer goes on receiving the confirmed chain in order, without gaps and repetitions.", "quantifier": "every history before the loss, every earlier moment the disk may hold, every history after it", "why_tests_cant": "quantifies over pairs of a durable and a volatile moment of every history; tests do not lose unflushed writes", "anchors": ["blockchain-source/src/multiverse/mod.rs: MultiverseSource::new, pull", "multiverse/src/lib.rs: db_insert, db_remove, load_from"]}
{"id": "C76", "title": "fraos: power failures keep every acknowledged record", "statement": "When power fails at any point, with flushed bytes on disk and any other pages of the two files written in any order or not at all, opening the directory again succeeds and yields all acknowledged records unchanged, followed by at most a prefix of the batch in flight; and records acknowledged afterwards are as safe as before.", "quantifier": "every history of calls, process deaths and power failures, every point of failure, every set of written pages and every age of each of them, every later history", "why_tests_cant": "tests cannot cut power nor choose which dirty pages reach the disk; recovery is a binary search over whatever is there", "anchors": ["fraos/src/growable_mmap.rs: grow_and_apply (flush)", "fraos/src/database.rs: append_get_seqno, Drop", "fraos/src/seqno.rs: SeqNoIndex::new, append, find_actual_end"]}
{"id": "C77", "title": "thermostat: when a change is split", "statement": "Let Q be what the changes of a thermostat selection return of an asset, left what the UTxOs not selected hold of it and n the configured number of accumulators. The asset comes back in no output if Q is zero; in one output if Q is at most the share (left + Q)/n of one accumulator, or if no UTxO outside the transaction holds the asset; otherwise in exactly two outputs, holding the rounded-down half and the rest. Ada is treated the same way, with the fee of the second output taken off and unless half of the change would not pay for an output. (That no change exceeds the share of one accumulator is false, since a change is split at most once.)", "quantifier": "Every store, request, estimator with non-negative fees, configuration and map iteration order.", "why_tests_cant": "Whether a change is split depends on the balance left after the selection, which depends on the whole run; tests fix a few balances.", "anchors": ["utxo-selection/src/algorithms/thermostat.rs: split_accumulators", "core/src/utxo_store.rs: get_balance_of"]}
{"id": "C78", "title": "fees with an estimator that knows the bytes", "statement": "With the estimator that asks the ledger library's transaction builder for the fee, started with the fixed inputs and outputs in it: largest-first selection reports exactly the least fee of the transaction with the chosen inputs, the balancer that makes one change reports at least the least fee of the transaction with this change, and the transaction made from both is accepted by the ledger as far as its fee goes. A payment without assets gets its change exactly when what is left pays this fee. A thermostat selection reports at least the least fee of the transaction with its inputs and changes. (The last sentence is false for requests with assets, because a change is counted before its asset is put into it; proved for requests without assets.)", "quantifier": "Every way to write UTxOs and outputs in which a smaller amount does not take more bytes, every fee coefficient and constant, every store, request, configuration and map iteration order.", "why_tests_cant": "The fee depends on the bytes of amounts that are only known after the fee has been taken off; the only test of this estimator has one ada-only UTxO and checks the balance, not the fee.", "anchors": ["utxo-selection/src/estimators/cml_fee_estimator.rs: CmlFeeEstimator", "utxo-selection/src/algorithms/thermostat.rs: balance_excess_of_asset", "utxo-selection/src/algorithms/largest_first.rs: LargestFirst", "utxo-selection/src/algorithms/balance_change_single_output.rs: SingleOutputChangeBalancer"]}
{"id": "C79", "title": "documents are read back as they were written", "statement": "Transactions, UTxOs, outputs to be made, blocks of the cardano source, positions, the block selection rule and the configuration of the indexed log, written as JSON, are read back equal (amounts up to trailing zeros), whatever characters their texts contain. A document is accepted exactly if it is an object with each field given once, or an array with the fields in order, every field having a document of its type; what is read is what the fields say. The order of members does not matter; a member that is not a field is refused in transactions, pointers, assets and the configuration of the indexed log and ignored in UTxOs, outputs and blocks; assets of a UTxO, extra data and transaction metadata may be omitted and read as empty. A tip is neither written nor read, so every value of a block store is a block. (Equal for every transaction and UTxO is false: metadata nested deeper than the reader accepts are written, but the document is refused; proved up to that depth.)", "quantifier": "Every value of these types, every document, every order of members, every other member, every byte string given as a tip.", "why_tests_cant": "Texts, metadata and amounts are arbitrary; tests read a few fixed documents, and no test writes a document and reads it.", "anchors": ["core/src/tx/transaction.rs: Transaction", "core/src/tx/utxo.rs: UTxODetails", "core/src/tx/utxo.rs: UTxOBuilder", "core/src/tx/transaction_asset.rs: TransactionAsset", "core/src/value.rs: Value", "blockchain-source/src/cardano/event.rs: CardanoNetworkEvent, BlockEvent", "blockchain-source/src/cardano/point.rs: Point", "multiverse/src/lib.rs: BestBlockSelectionRule, Multiverse::load_from", "indexed-log-map/src/config.rs: IndexedLogMapConfig"]}
{"id": "C80", "title": "configurations are read as written and can be used", "statement": "The documents of a multisig plan, a network, the thermostat, an era and a rule of decimals are accepted exactly if each of their fields is given once with a value of its type, in any order (other members are refused for a custom network and the thermostat, ignored otherwise), and the value read holds what the document says. A custom network whose amounts are texts of 64-bit numbers has the fee and builder parameters of the document, and the cost of a part is its size times the fee per byte unless this exceeds 64 bits. The public networks have their public fees, deposits and size limits. (That what was accepted can be used without a panic is false for each of network, thermostat and era: amounts that are no numbers, zero accumulators and epochs of length zero are accepted; proved without these.)", "quantifier": "Every document, every order of members, every other member.", "why_tests_cant": "Configurations are arbitrary; the tests construct these types directly and never read one.", "anchors": ["cardano-utils/src/multisig_plan.rs: MultisigPlan::load", "cardano-utils/src/network_id.rs: NetworkInfo", "utxo-selection/src/algorithms/thermostat.rs: ThermostatAlgoConfig", "blockchain-source/src/cardano/time.rs: Era", "core/src/value.rs: Rule"]}
{"id": "C81", "title": "following a node with confirmations", "statement": "A consumer that pulls from the multiverse source over the Cardano source, at a depth of d confirmations, while the node's chain changes by at most d blocks at a time and connections break: in every schedule it has received exactly the blocks from its start to d blocks before the highest block delivered; what it received is part of the chain the node has then and of every later one, also over restarts and crashes; nothing blocks, every pull ends; and if from some moment on the node answers and keeps a chain as long as those before, the consumer has in the end received that chain without its last d blocks, and stays so. (Catching up is false for a consumer without a position, or one that begins at the parent of the genesis block, if the chain changes before the first block is confirmed: nothing comes any more. A block that cannot be converted is left out, and so are the ones before it: the blocks received do not follow each other.)", "quantifier": "Every depth, every history of the node's chain with rollbacks up to the depth, every pattern of failures, every interleaving of consumer, source and request handler, pulls abandoned at any moment, every hash-set order, restarts and crashes anywhere.", "why_tests_cant": "The two sources, the handler and the node interact over unbounded histories; tests run each source alone against a fixed chain.", "anchors": ["blockchain-source/src/multiverse/mod.rs: MultiverseSource::pull", "blockchain-source/src/cardano/mod.rs: CardanoSource::pull, request_handler, block_fetch", "multiverse/src/lib.rs: Multiverse"]}
{"id": "C82", "title": "following a node with its rollbacks", "statement": "A consumer that pulls from the fork handling source over the Cardano source, at a depth of d, while the node's chain changes by at most d blocks at a time and connections break: in every schedule every event fits the consumer's chain (a block follows its head, a rollback is to a position on it), the chain is part of a chain of the node and the queued blocks lead from its end to the block the node sent last; the consumer is never made to go back more than d blocks; nothing blocks, every pull ends; and if from some moment on the node answers and keeps a chain longer than those before, the consumer's chain is in the end that chain, and stays so. (Catching up is false if the node's chain changes before d blocks have been received: nothing comes any more; and if the node goes back to a known chain of the same length: the consumer stays on the abandoned one. A restart while events are queued, or a block that cannot be converted, gives the consumer blocks that do not follow its chain.)", "quantifier": "Every depth, every history of the node's chain with rollbacks up to the depth, every pattern of failures, every interleaving of consumer, source and request handler, pulls abandoned at any moment, every hash-set order, restarts when nothing is queued.", "why_tests_cant": "The events depend on the interleaving of two sources, a handler and a node over unbounded histories with forks; tests replay a few fixed trees against the fork handling source alone.", "anchors": ["blockchain-source/src/multiverse/rollback.rs: ForkHandlingSource::pull", "blockchain-source/src/cardano/mod.rs: CardanoSource::pull, request_handler, block_fetch", "multiverse/src/lib.rs: Multiverse"]}
{"id": "C83", "title": "indexed-log-map: threads, process deaths and power failures together", "statement": "Whatever appends of any threads are running and however often the process dies or power fails, at any moments: the map can be opened again; a value once in the log stays there unchanged at its place and iter() shows all of them; every entry of the key index designates a value appended under its key; get(k) never fails and returns only values appended under k; while nothing dies, the key of every append that has finished is found; and calls are answered as the specification says from the log and the index. A key whose append was acknowledged may not survive a power failure.", "quantifier": "every interleaving of appends, every sequence of reopenings, deaths and power failures at every point of an append, every set of written pages, every prefix of the key index", "why_tests_cant": "interleavings, crash points and page write orders cannot be enumerated, nor produced by unit tests", "anchors": ["indexed-log-map/src/storage.rs: new, append, iter_from, get, contains, iter, get_next", "fraos/src/database.rs: append_get_seqno, Drop"]}
{"id": "C84", "title": "utxo-selection: paying again and again", "statement": "An algorithm keeps the available UTxOs from one payment to the next, and they can be moved to another algorithm. No UTxO is chosen twice since UTxOs were last handed over, whatever the order of payments, failed ones and algorithms; what is available is exactly what was handed over and not chosen; a transaction made from an answer never names an input twice. (The last two are false: UTxOs are lost when a thermostat selection fails with \"Unbalanced ada\" or a random-improve selection fails at all, and a fixed input that is also available can be chosen again.)", "quantifier": "every history of hand-overs and selections with largest-first and thermostat in any mixture, or with random-improve, each call with any request, estimator, configuration, map orders and random choices", "why_tests_cant": "needs every history of successful and failed calls; a UTxO used twice is only noticed when the ledger refuses the second transaction", "anchors": ["utxo-selection/src/algorithm.rs: InputSelectionAlgorithm, UTxOStoreSupport", "utxo-selection/src/algorithms/largest_first.rs: select_inputs, set_available_inputs", "utxo-selection/src/algorithms/thermostat.rs: select_inputs, set_available_inputs, reset", "utxo-selection/src/algorithms/random_improve.rs: select_inputs, set_available_inputs"]}
{"id": "C85", "title": "cardano source: abandoned pulls, cleared buffers and stopping", "statement": "The future of a pull can be dropped at any moment (a timeout), buffers can be cleared between pulls, and the source can be stopped. Whatever pulls are abandoned, no event is lost, repeated or out of order, and later pulls still return; after the buffers have been cleared no event of an earlier request is returned; stop always returns, after at most six steps of the request handler, however many blocks the request in progress has left, and when it has returned nothing runs any more. (What the code says of clearing buffers, that the rest of a request is received and thrown away, is not what happens: the connection is dropped.)", "quantifier": "every schedule of pulls, abandoned pulls, clearings, the stop and the handler, every behaviour of the node and the connection", "why_tests_cant": "where a future is dropped and what the handler does at that moment depend on the schedule; there are no tests of the cardano source", "anchors": ["blockchain-source/src/cardano/mod.rs: CardanoSource::pull, CardanoSource::clear_buffers, CardanoSource::stop, request_handler, block_fetch", "blockchain-source/src/multiverse/mod.rs: MultiverseSource::stop"]}
{"id": "C86", "title": "fraos: threads, deaths of the process, power failures and reopenings in any order", "statement": "A database directory is used by one process after another: each lets one thread or many threads call append, get_by_seqno and len, and then closes the database, or dies at any moment, or power fails at any moment. The database can always be opened again; every process finds all records acknowledged to any earlier one, and all records any earlier one has read, at the numbers they had; besides these it finds only records that some call brought, as whole records; and the calls of each process are answered as by a list of records.", "quantifier": "every number of processes, threads and calls, every schedule, every point of death including inside a resize, between the words of index entries and between the two files; every power failure, with any unflushed pages on disk, when the index entries of the batch in flight lie in one page (see C76 for batches over several pages); with and without refusals of the system to extend or to map a file while threads share the database", "why_tests_cant": "points of death multiply with schedules and with the number of processes", "anchors": ["fraos/src/database.rs: open, append_get_seqno, get_by_seqno, len, Drop", "fraos/src/growable_mmap.rs: grow_and_apply, create_mmap, shrink", "fraos/src/appender.rs: append, find_actual_end", "fraos/src/seqno.rs: append, get"]}
{"id": "C87", "title": "utxo-selection: a wallet and its ledger", "statement": "A wallet hands unspent outputs of a ledger to an algorithm, or to a new one, makes payments with it one after the other (largest-first or random-improve with either balancer, the latter for outputs none of which is listed twice, or the thermostat in the cases where C49 and C71 hold), and submits a transaction for each answer. Transactions arrive late, in another order, or never; the wallet hands over further outputs that no submitted transaction spends; others change the ledger without spending what is the wallet's. At every moment the ledger accepts each submitted transaction: its inputs are distinct and unspent, the fee suffices for its bytes, and coin and every asset balance. Two submitted transactions never spend the same output. In whatever order they arrive all are accepted, and together they take exactly their fees from the ledger. With largest-first a payment that can be afforded with what the algorithm has is answered at every moment. (Outputs that a submitted transaction spends must not be handed over again although the ledger still has them.)", "quantifier": "every ledger and network, every history of hand-overs, payments, failed or unused selections, arrivals in any order, expiries and foreign transactions, every request, plan, estimator state, random stream, map order and naming of outputs and assets", "why_tests_cant": "needs every history and order of arrival; it joins the selection algorithms, the balancers, the fee estimator and the bytes of the transaction, each of which is only tested on a few literals", "anchors": ["utxo-selection/src/algorithms/largest_first.rs: select_inputs, set_available_inputs", "utxo-selection/src/algorithms/random_improve.rs: select_inputs, set_available_inputs, try_from", "utxo-selection/src/algorithms/thermostat.rs: select_inputs, set_available_inputs", "utxo-selection/src/algorithms/balance_change_fee.rs: select_inputs", "utxo-selection/src/algorithms/balance_change_single_output.rs: select_inputs", "utxo-selection/src/estimators/thermostat_estimator.rs", "cardano-utils/src/multisig_plan.rs: MultisigPlan"]}
{"id": "C88", "title": "cardano-utils: addresses as text", "statement": "An address of an output (base, pointer, enterprise or reward) is written as bech32 text and read back as the same address; different addresses have different texts. A mistake in up to six neighbouring characters after the prefix is noticed: the text is rejected or read as the same address (the case of letters). An address ends where its bytes end: more bytes after it are rejected; and only the bytes written for an address are read as a base, enterprise or reward address (a pointer may also be written with zeros before its numbers). So an output goes through the conversions of C54 with its address unchanged. (The reader does not check the prefix: the text of a test network address under the prefix of the main network is accepted.)", "quantifier": "every address with any network number, any hashes and any pointer of 64-bit numbers, every text, every mistake in at most six neighbouring characters that introduces no separator, every output", "why_tests_cant": "there are 2^450 addresses, and every window of 30 bits of mistakes must be caught by the checksum", "anchors": ["cardano-utils/src/utxo.rs: UTxODetails conversions", "cardano-cli-tools/cip1852-first-address/src/main.rs: main"]}
{"id": "C89", "title": "cip1852-first-address: the address printed and the verdict", "statement": "The tool prints at most one address, first: the base address of the network named, with the hashes of the keys at 0/0 (payment) and 2/0 (stake) under the 64 bytes given as 128 hex digits. Requests go to the backend of that network and name that address only. It says that the address is used or unused exactly when the backend has named its latest block and answered successfully with a list for this address and block, unused if the list is empty; then it ends well, and only then. Keys with the same printed address agree in both key hashes and in the network. It never panics.", "quantifier": "every text given as key or network, every key derivation and hash, every behaviour of the backend", "why_tests_cant": "quantifies over all keys, all texts and all answers and failures of a backend; the tool has no tests", "anchors": ["cardano-cli-tools/cip1852-first-address/src/main.rs: main, Opt, NetworkId"]}
{"id": "C90", "title": "oura-block-fetcher: what is printed", "statement": "For whatever events the library sends, the tool prints one line for each block, in order and without gap, with number, hash, slot and bytes, up to the first block that came without bytes; there, and only there, it ends with an error. Lines of different blocks differ. When a node is followed through any rollbacks and has just sent a block, the lines, read so that a block replaces all with its number or a larger one, are the blocks of the node's chain since the start. After a rollback, too, the lines so read are that chain.", "quantifier": "every list of events, every history of blocks and rollbacks of any depth", "why_tests_cant": "needs every history of rollbacks; the tool has no tests", "anchors": ["cardano-cli-tools/oura-block-fetcher/src/main.rs: main"]}
{"id": "C91", "title": "fraos: files, mappings and extensions stay small", "statement": "After every history of calls on a database on disk, the data file is as long as the records stored or at most 512 KiB longer, and the index file is 16 bytes per record long or at most 512 KiB longer; after a clean close they are exactly that long. A file is extended at most once per opening plus twice per 512 KiB stored. A database, on disk or in memory, never holds more than 2049 mappings per part.", "quantifier": "every history of appends of any sizes, reads, closes and reopens without system failures", "why_tests_cant": "the longest file and the largest number of mappings depend on all sizes of all batches; a test sees a few", "anchors": ["fraos/src/growable_mmap.rs: grow_and_apply, rearrange_mmaps, shrink_to_size, get_new_mmap_size, create_mmap, mmaps_count", "fraos/src/database.rs: Database"]}
{"id": "C92", "title": "core: values and outputs as keys of maps", "statement": "Values that denote the same number, however they were written, are equal, compare as equal and have the same hash. Outputs and assets are equal exactly if their fields are, with amounts compared as numbers; their order is total and transitive, calls equal exactly what equality calls equal, and does not tell equal outputs apart. Two UTxO pointers with the same printed text are the same pointer.", "quantifier": "every pair or triple of values, assets and outputs, of any scale and with any text; every pair of pointers", "why_tests_cant": "infinite domain; laws over triples", "anchors": ["core/src/value.rs: PartialEq, Ord, Hash", "core/src/tx/transaction_asset.rs: derived PartialEq, Ord", "core/src/tx/utxo.rs: UTxOBuilder derived PartialEq, Ord; UtxoPointer Display"]}
{"id": "C93", "title": "fraos: damaged files", "statement": "Whatever bytes the two files of a database hold, opening them either fails with an error that calls the index or the data damaged, or gives a database and leaves the files as they are. Nothing panics. An index that breaks off inside an entry, and an index that names bytes outside the data file, are refused. Every record read from the opened database consists of exactly the bytes its index entry names, all inside the data file; iterators visit all records and end. The opened database takes further records: they are read back under the numbers answered, the records read before are read as before, no other record appears, and closing and opening again gives the same records.", "quantifier": "every contents and lengths of the two files below 2^64 bytes, read-only or writable, with and without overflow checks; every number below 2^60; every batch of non-empty records appended to the opened database", "why_tests_cant": "all contents of two files", "anchors": ["fraos/src/database.rs: Database::new, get_by_seqno", "fraos/src/seqno.rs: SeqNoIndex::new, is_correct, last, get_offset_and_length", "fraos/src/flatfile.rs: get_record_at_offset", "fraos/src/seqno_iter.rs: next_impl"]}
{"id": "C94", "title": "multiverse: two blocks under one identifier", "statement": "An identifier names one block: inserting a different block under an identifier that is stored leaves every answer of the multiverse as it is, both at once and after reopening, and does not panic.", "quantifier": "every history, every stored block, every other block with its identifier, any storage threshold", "why_tests_cant": "all histories; the damage shows only after a reopening or a removal", "anchors": ["multiverse/src/lib.rs: Multiverse::insert, db_insert, insert_in_memory, load_from, remove"]}
{"id": "C95", "title": "cardano source: announcements of the tip", "statement": "Among its events the source announces the tip of the node: for the first request that finds new blocks, and then for every request that finds new blocks at least tip_update_pace after the last announcement, and for no other request, so that in a time t there are at most t / tip_update_pace + 1 announcements. An announcement is the first event of its request and names the node's tip; the blocks sent do not depend on it. This holds for every pace, and every announcement reaches the consumer.", "quantifier": "every sequence of requests and answers of the node, all times at which they are served, broken connections, every pace", "why_tests_cant": "all schedules and times", "anchors": ["blockchain-source/src/cardano/mod.rs: request_handler, block_fetch (last_tip_event, tip_update_pace)"]}
{"id": "C96", "title": "core: timestamps as system time", "statement": "Every timestamp converts to the system time that lies exactly that number of seconds after the UNIX epoch; timestamps and system times are ordered alike; the time of a slot computed with a built-in era converts to the era time plus the seconds since its first slot.", "quantifier": "every 64-bit timestamp; every built-in era and every slot below 2^62 from the era on", "why_tests_cant": "Tests convert present-day values; the largest values and the order need all timestamps.", "anchors": ["core/src/timestamp.rs: Timestamp::into_unix_time", "blockchain-source/src/cardano/time.rs: compute_timestamp"]}
{"id": "C97", "title": "fraos: sub-views of a mapped view", "statement": "Slicing a view of mapped memory gives a view with exactly the bytes whose index is in the range, in order, for every kind of range; it never reaches outside the view it was taken from; cutting a view in two loses nothing; slices of slices compose.", "quantifier": "every view, every pair of included, excluded or open ends (beyond the view, wrong way round, empty), builds with and without overflow checks", "why_tests_cant": "The test slices one mapping with four ranges of the same kind; the arithmetic at the ends has to be right for all indices, or memory outside the mapping is read.", "anchors": ["fraos/src/shared_mmap.rs: SharedMmap::slice", "fraos/src/shared_mmap.rs: SharedMmap::as_ref"]}
{"id": "C98", "title": "multiverse source: boundary blocks", "statement": "A consumer of the multiverse source at a depth of d, over a chain in which some blocks have the number of their parent (Byron epoch boundary blocks), receives every block up to d blocks before the end of what was delivered, in order.", "quantifier": "every such chain, every depth, every pattern of failures, every hash-set order, restarts", "why_tests_cant": "Which of two blocks with the highest number a hash set gives first differs from run to run, and the loss only shows one block later.", "anchors": ["blockchain-source/src/multiverse/mod.rs: MultiverseSource::pull", "multiverse/src/lib.rs: select_best_block_longest_chain", "blockchain-source/src/cardano/event.rs: BlockEvent::from_serialized_block"]}
{"id": "C99", "title": "core, utxo-selection: dividing amounts", "statement": "Dividing an amount by a number panics for zero only and is right to 99 digits after the first; a quotient with fewer digits is exact. For whole amounts below 10^99 the truncated quotient is the integer quotient, and the thermostat answers exactly as if division were exact.", "quantifier": "every amount in every representation, every divisor; every request of whole amounts, store, estimator with whole fees, configuration and hash order", "why_tests_cant": "rounding shows for rare quotients only; all amounts, representations and requests", "anchors": ["core/src/value.rs: Div<usize>, truncate", "utxo-selection/src/algorithms/thermostat.rs: split_accumulators"]}
{"id": "C100", "title": "multiverse: several domains in one database", "statement": "Several multiverses can be kept in one database under different domains. Each of them answers, before and after reopening, as if it were alone: inserting, removing, clearing, destroying or failing in one domain shows in no other. Destroying a multiverse leaves an empty domain. A domain with a record that cannot be read is refused when it is opened, and what is stored is left as it is.", "quantifier": "every number of domains, every interleaving of requests to them, every encoding of blocks that reads back what it writes, all block trees, any storage thresholds", "why_tests_cant": "all interleavings and all encodings of the block type, which the user of the crate provides", "anchors": ["multiverse/src/lib.rs: Multiverse::load_from, new_with, open, insert, remove, clear, destroy"]}
{"id": "C101", "title": "utxo-selection: largest-first takes few inputs", "statement": "With an estimator that charges the same fee for every input, largest-first selection for a request without assets takes the fewest inputs possible: no choice of fewer available UTxOs pays for the outputs and the fee. With assets, if every available UTxO is worth its fee, it takes at most as many inputs as the smallest choice that pays, times one more than the number of assets asked for (the fewest are not always taken then).", "quantifier": "every list of available UTxOs, request, order of equal amounts, fee for an input, and every other choice of UTxOs", "why_tests_cant": "compares the answer with every subset of the available UTxOs", "anchors": ["utxo-selection/src/algorithms/largest_first.rs: select_inputs, select_largest_input_for"]}
{"id": "C102", "title": "thermostat: consolidating down to the configured number of UTxOs", "statement": "UTxOs that a payment does not need are added to it only to consolidate: a UTxO with an asset is chosen because the asset was not yet paid for by those chosen before, or it leaves at least the configured number of accumulators with the asset; a UTxO for a request without assets because outputs and fee were not yet paid, or it leaves that number of UTxOs; a UTxO without assets for a request with assets only because outputs, fee and the largest changes were not yet paid. If the transaction has room for another input in the end, then for every asset of the request, and for ada if there is none, at most the configured number of UTxOs is left, or all those left hold another asset. (That the number configured for assets counts for assets, and that ada is consolidated by requests with assets too, are false.)", "quantifier": "every store, request, configuration, map iteration order and every position in the list of chosen UTxOs; the second part for the linear estimator", "why_tests_cant": "speaks about every UTxO chosen and every one left, for all stores and configurations", "anchors": ["utxo-selection/src/algorithms/thermostat.rs: select, select_input_for, remaining_number_inputs_allowed", "core/src/utxo_store.rs: number_utxos_for_token"]}
{"id": "C103", "title": "thermostat: an object remembers nothing but its UTxOs", "statement": "Whatever was done with a thermostat object before, payments that failed half-way included, from then on it answers every sequence of calls, and offers its UTxOs after each of them, exactly as a new object that was handed the same UTxOs. UTxOs handed over are the ones it offers; if two of them are the same output they are refused and the object stays as it was.", "quantifier": "every state of the object, everything a failed payment can leave in it, every sequence of hand-overs and payments with any estimators, requests and map iteration orders", "why_tests_cant": "speaks about all histories of an object and all the places where a payment can fail", "anchors": ["utxo-selection/src/algorithms/thermostat.rs: reset, select_inputs, set_available_inputs, set_available_utxos, get_available_utxos, available_inputs"]}
{"id": "C104", "title": "The answer of a selection does not depend on hash order", "statement": "Two runs of a selection whose available UTxOs hold the same (in any order, under any transaction ids and addresses) give the same answer up to which of several equal UTxOs is taken: the same error, or the same balances, fee and changes, and chosen UTxOs that hold the same one by one; what stays available holds the same too. For largest-first this holds when UTxOs with the same amount of a needed token hold the same (for ada alone: always, in terms of the values). For the thermostat it holds for every request without assets whatever the order of all its hash maps, and for requests with assets when UTxOs with only the same amount of a requested asset hold the same and the assets are gone through in the same order. For random-improve it holds for the hash map of the assets asked for and the hash set of the chosen indices, given the random numbers drawn.", "quantifier": "all wallets, all pairs of wallets holding the same, all orders of the hash maps, all requests, all estimators that look only at what an input holds (the thermostat's estimator among them)", "why_tests_cant": "A test runs with one order of a randomly seeded hash map; that no order changes the answer is a statement about all of them.", "anchors": ["utxo-selection/src/algorithms/largest_first.rs: LargestFirst::select_inputs, select_largest_input_for", "utxo-selection/src/algorithms/thermostat.rs: Thermostat::select, select_input_for", "core/src/utxo_store.rs: UTxOSet, iter_token_ordered_by_value_rev"]}
{"id": "C105", "title": "cip1852-first-address: what goes over the wire", "statement": "The tool says that an address is used or unused exactly when the server of its network answers the POST of {\"offset\": 0} to /carp/block/latest with a JSON object that names a block (with its numbers), and the POST of the address and that block to /carp/address/used, successfully, with a JSON object that lists addresses; unused if the list is empty. The server can read the question back as one document with exactly that address and block, whatever characters the block's text contains, and different questions are different texts.", "quantifier": "every key, network, server behaviour, answer text and block text", "why_tests_cant": "Tests fix a server and a few answers; whether an odd answer can be taken for a verdict, or an odd block text can change the question, is a statement about all texts.", "anchors": ["cardano-cli-tools/cip1852-first-address/src/main.rs: main, AddressUsed, AddressUsedResult, BlockLatestResponse, BlockLatestResponseBlock"]}
{"id": "C106", "title": "fraos: an append fails only for a reason", "statement": "Whatever the files held when the database was opened, whatever was called before and whatever the operating system refused then, an append by the only handle answers the number of records held before it, or an error that the call or the world explains: an empty record, a database opened read-only, or a system call that was refused during this very append. It never panics (which would leave the locks poisoned and every later call failing) and never touches memory outside the file. After any refusals, an append of non-empty records during which nothing is refused is acknowledged.", "quantifier": "every pair of files that opens, every history of calls and failures, every append", "why_tests_cant": "the failure points multiply with histories and with the contents of the files", "anchors": ["fraos/src/growable_mmap.rs: grow_and_apply, create_mmap, rearrange_mmaps", "fraos/src/index_on_mmaps.rs: append, append_relative_end", "fraos/src/appender.rs: append", "fraos/src/flatfile.rs: append", "fraos/src/seqno.rs: append", "fraos/src/database.rs: append_get_seqno, put_seqno"]}
{"id": "C107", "title": "fraos: a reader beside a writer", "statement": "A directory opened read-only while another process appends to it, closes it, opens it again or dies gives, if the opening ends with a handle, a handle that shows every record complete when the opening began and none completed after it ended; from then on each of them reads as the writer holds it and nothing else is shown, whatever the writer does, and the handle never changes the files. The opening ends with a handle whenever no record is completed and the index file is not cut while it lasts.", "quantifier": "every history of the writer and its deaths, every moment within an append at which the reader loads an index word, every record number", "why_tests_cant": "the reader and the writer interleave at single loads and stores; a test meets a handful of the interleavings", "anchors": ["fraos/src/database.rs: file_readonly, new, get_by_seqno", "fraos/src/seqno.rs: new, get_offset_and_length, find_actual_end", "fraos/src/appender.rs: new, shrink_to_size", "fraos/src/growable_mmap.rs: new, shrink_to_size"]}
{"id": "C108", "title": "fraos: two writers of one directory", "statement": "A directory that is open for writing cannot be opened for writing a second time or, if it can, the records acknowledged through either handle stay readable whatever is done with the other one. (False. What holds instead: the second opening succeeds, changes no file and shows the records complete at that moment; when the second handle is closed, even if it appended nothing, the directory holds exactly those records, and everything the writer was acknowledged since is gone, whether the writer goes on, closes or dies; and if both append, each numbers its records by its own count, so the same numbers are given to different records.)", "quantifier": "every history of the writer before and after the second opening, every moment of an append at which it happens", "why_tests_cant": "tests open a directory once; what a second process does to the first depends on both histories", "anchors": ["fraos/src/database.rs: file, new, drop", "fraos/src/growable_mmap.rs: new, shrink_to_size"]}
{"id": "C109", "title": "multiverse: several multiverses open in one domain", "statement": "A domain can be opened several times at once. No call fails because of the others. Each multiverse shows the blocks that were stored when it was opened, with what was inserted and without what was removed through itself; what others do later shows only in multiverses opened afterwards, which have every block that was saved by any of them and not removed or cleared by any since. (False in one case: inserting again a block that the multiverse has, after another one removed it from the database, panics or makes a block with children a tip.)", "quantifier": "every number of multiverses in a domain, every interleaving of their calls, all block trees, any storage thresholds; never given again a block that another one removed. In particular every use with one writer and any number of others that are only opened", "why_tests_cant": "Tests open one multiverse per database; whether the memory of one stays right depends on the order of all insertions and removals of the others.", "anchors": ["multiverse/src/lib.rs: Multiverse::load_from, new_with, open, insert, remove, clear, destroy"]}
{"id": "C110", "title": "indexed-log-map: an opening that is refused", "statement": "While a map is open with its key index, opening its directory a second time with the key index fails, and the failed attempt changes nothing: the open map answers all later calls as if nobody had tried, and what it holds and is told afterwards is there when the directory is opened again. (True of attempts to open read-only. False of attempts to open for writing: the attempt cuts the files of the log under the open map, so that a value appended after it is acknowledged and lost, or the append kills the process.)", "quantifier": "every history of calls on the open map, of any length, with any number of refused openings of either kind at any places in it, all keys and values, every lawful encoding; for openings for writing, nothing appended between one that follows an append of the session, and the next reopening", "why_tests_cant": "It takes a second process (or handle) that fails, which tests do not start; the damage is silent: the append after the attempt is acknowledged, and only the next opening misses it.", "anchors": ["indexed-log-map/src/storage.rs: IndexedLogMap::new", "fraos/src/database.rs: Drop for Database, Database::file, Database::file_readonly", "fraos/src/growable_mmap.rs: shrink_to_size"]}
{"id": "C111", "title": "utxo-selection: the thermostat does not overpay", "statement": "A selection of the thermostat never gives away in fees what could have been returned as change: the fee exceeds the minimum fee of the planned transaction by less than the smallest value an output to the change address must have plus the cost of that output. Without a change address it does not exceed the minimum at all. (It need not be the minimum: a rest too small for a change goes to the fee.)", "quantifier": "all available UTxOs, fixed inputs, payments, orders of tokens, configurations with min ≤ max, and every estimator that charges a constant for each input and output", "why_tests_cant": "Tests compare the fee of a few sample requests; an excess shows only for amounts at the edge between a change that is made and one that is not, after any sequence of clamped and split changes.", "anchors": ["utxo-selection/src/algorithms/thermostat.rs: Thermostat::balance_excess, balance_excess_of_asset, split_accumulators, select"]}
{"id": "C112", "title": "Random-improve takes few inputs", "statement": "If every available UTxO holds at least d of the main token, and at least d_t of each token t it holds, a random-improve selection chooses at most as many UTxOs as the outputs have pieces: for each output the main amount divided by d, rounded up, and for each of its assets the quantity divided by d_t, rounded up. So the size of the selection is bounded by what is asked for and does not grow with the number of UTxOs available. It need not be the fewest possible.", "quantifier": "all available UTxOs, fixed inputs, outputs, estimators, random draws, build modes and orders of the hash set", "why_tests_cant": "The number of inputs depends on the draws and on the exchanges of the improvement; tests see some of the draws only.", "anchors": ["utxo-selection/src/algorithms/random_improve.rs: RandomImprove::select_inputs, select_input_and_update_balances"]}
{"id": "C113", "title": "utxo-selection: more UTxOs do not make a payment fail", "statement": "A payment that a selection makes from some available UTxOs is also made when further UTxOs are available. For a request without assets and a fixed price for an input, largest-first then takes no more inputs and pays no higher fee, and it answers whenever any choice of UTxOs pays. With assets it answers if every UTxO is worth what it costs.", "quantifier": "all sets of available UTxOs, all further UTxOs, all requests, all estimators with a fixed price for an input, all hash orders", "why_tests_cant": "It compares two runs for every way to add UTxOs; further UTxOs change the order of all choices.", "anchors": ["utxo-selection/src/algorithms/largest_first.rs: LargestFirst::select_inputs", "utxo-selection/src/algorithms/thermostat.rs: Thermostat::select_inputs"]}
{"id": "C114", "title": "utxo-selection: when random-improve makes a payment whatever it draws", "statement": "For a payment without assets, random-improve draws the available UTxOs in some order, and makes the payment exactly when the UTxOs in this order cover the outputs, the largest first, one after the other, where what one output takes too much is lost for the next. Every order is drawn by some random choices. So the payment is made whatever is drawn if and only if every order covers the outputs; and if it is, it still is when further UTxOs are available.", "quantifier": "all sets of UTxOs, all outputs with positive 64-bit amounts, all random choices, all estimators that answer, all further UTxOs", "why_tests_cant": "It speaks of every sequence of random choices and every order of the UTxOs, and compares runs on different sets; a test draws a few.", "anchors": ["utxo-selection/src/algorithms/random_improve.rs: RandomImprove::select_inputs, select_input_and_update_balances"]}
{"id": "C115", "title": "multiverse: a database that fails", "statement": "Writes of the database may fail, with or without effect. The multiverse never panics and goes on: it shows what it would show if the failed insertions had not been made, and opening the database gives the blocks written and not erased. An insertion that failed can be repeated and then does what it would have done at first. A removal that failed has no effect either. A consumer of the multiverse source or the fork handling source that gets an error of the database and pulls on, or makes the source anew and pulls on, misses no block, and nothing else fails.", "quantifier": "all histories of insertions and removals, all ways the writes fail, all trees of blocks, all inner sources and depths", "why_tests_cant": "It needs a database that fails at a chosen write, for every write of every history; tests run on a database that works.", "anchors": ["multiverse/src/lib.rs: Multiverse::insert, remove, db_insert, db_remove", "blockchain-source/src/multiverse/mod.rs: MultiverseSource::pull, multiverse_insert_and_gc", "blockchain-source/src/multiverse/rollback.rs: ForkHandlingSource::pull"]}
{"id": "C116", "title": "multiverse: the order in which blocks come", "statement": "What a multiverse shows depends on which blocks it was given, not on the order in which they came: the same blocks, tips and order by number, and, if one block has the largest number, the same selected block and the same blocks to discard. The same holds for removals: what is shown depends on which blocks came and which were removed. This also holds for blocks that come before their parents, at once or after the multiverse has been opened again.", "quantifier": "all trees of blocks, all lists of arrivals, with repetitions, and all histories of arrivals and removals, all thresholds of storage, depths and age gaps, all orders of iteration over the hash sets", "why_tests_cant": "The orders of a set of blocks are as many as its permutations, and the blocks form any tree; tests insert a few blocks in one order.", "anchors": ["multiverse/src/lib.rs: Multiverse::insert, insert_in_memory, load_from, select_best_block", "multiverse/src/entry.rs: Entry::add_child"]}
{"id": "C117", "title": "multiverse source: how much is kept", "statement": "The multiverse source and the fork handling source keep, in memory and in the database, exactly the blocks delivered so far that are at most depth + 1 blocks lower than the highest one. So on a chain without forks they never keep more than depth + 2 blocks, however long they run, each crash leaves at most one block more, and what crashes left behind is gone after the next new block. Whatever the crashes, none of the blocks within the bound is lost. The fork handling source never has more than depth + 1 events waiting.", "quantifier": "every chain length, every tree with forks of at most the depth (for the fork handling source: forks that begin at most depth + 1 blocks below the highest block), every depth, every interleaving with empty pulls, repeated blocks, tip notifications, failures of the inner source and restarts", "why_tests_cant": "growth without bound only shows after long runs; what is removed depends on the order of blocks, on forks and on restarts", "anchors": ["blockchain-source/src/multiverse/mod.rs: MultiverseSource::pull, multiverse_insert_and_gc", "blockchain-source/src/multiverse/rollback.rs: ForkHandlingSource::pull", "multiverse/src/lib.rs: select_best_block, remove"]}
{"id": "C118", "title": "multiverse source: where it asks to continue", "statement": "Each pull of a consumer of the multiverse source asks the inner source for what follows the consumer's own position or the end of any branch that is at most depth + 1 blocks lower than the highest block, and for nothing else. So on a chain without forks it asks for what follows the highest block or the own position, however many blocks were delivered. After crashes a pull may first release a block without asking, and may ask for other delivered blocks as well, but the positions above are always among those asked for. The fork handling source asks for the same, each position once, besides at most for what follows a confirmed block; while events wait it asks nothing.", "quantifier": "every tree with forks of at most the depth (for the fork handling source the conditions of C25), every depth, every history of pulls, empty pulls, repeated blocks, tip notifications, failures of the inner source and restarts, with and without crashes (not for the fork handling source), every order of hash sets", "why_tests_cant": "which blocks are ends of branches depends on all deliveries, removals and restarts; a position too few loses a branch, one too many grows the request without bound", "anchors": ["blockchain-source/src/multiverse/mod.rs: MultiverseSource::pull", "blockchain-source/src/multiverse/rollback.rs: ForkHandlingSource::pull", "multiverse/src/lib.rs: tips"]}
{"id": "C119", "title": "utxo-selection: a smaller payment does not fail where a larger one is made", "statement": "If a selection makes a payment, it also makes, from the same available UTxOs, every payment that asks for no more of the main token and of each asset, at no higher starting fee. For a smaller request without assets and a fixed price for an input, largest-first then takes no more inputs and pays no higher fee. With assets it answers if every UTxO is worth what it costs, with at most as many inputs for each asset, and once more. The thermostat makes the smaller payment if there are no assets and the fixed inputs do not already cover it. Random-improve, for payments without assets and the same random numbers, pays fewer or smaller outputs wherever it pays the larger ones.", "quantifier": "all sets of available UTxOs, all pairs of requests of which one asks for less, all estimators with a fixed price for an input, all hash orders and configurations, all random numbers", "why_tests_cant": "It compares two runs for every pair of requests; with another amount the selection stops elsewhere and takes other UTxOs.", "anchors": ["utxo-selection/src/algorithms/largest_first.rs: LargestFirst::select_inputs", "utxo-selection/src/algorithms/thermostat.rs: Thermostat::select_inputs", "utxo-selection/src/algorithms/random_improve.rs: RandomImprove::select_inputs"]}
{"id": "C120", "title": "core: UTxO stores holding the same cannot be told apart", "statement": "If two stores answer every lookup by pointer the same, whatever was inserted and removed before and in whatever order, then every later sequence of insertions and removals gets the same answers from both, and every query (length, emptiness, membership, balances, tokens, counts, listings up to order, amounts in ordered listings) answers the same. In particular a UTxO inserted and removed again, or removed and put back, leaves no trace.", "quantifier": "all pairs of histories of a store, all later histories, all queries, all tokens", "why_tests_cant": "It compares every two histories with the same outcome, followed by every continuation.", "anchors": ["core/src/utxo_store.rs: UTxOStoreMut::insert", "core/src/utxo_store.rs: UTxOStoreMut::remove", "core/src/utxo_store.rs: UTxOStore::get", "core/src/utxo_store.rs: UTxOStore::get_asset_ids"]}
{"id": "C121", "title": "multiverse: taking a block back and putting it back", "statement": "Inserting a block that is not stored and removing it again leaves no trace: the multiverse shows the same blocks, tips and order by number, selects and discards the same blocks (if one block has the largest number), and its database holds the same. Removing a stored block and inserting it again leaves no trace either.", "quantifier": "every multiverse after any history of insertions, removals, clearing and reopening, every block, every set of references kept by the user, all thresholds of storage", "why_tests_cant": "The block may hang on any block of any tree, or have children that came before it, and the history may have removed and stored its relatives any number of times; tests remove one block from one tree.", "anchors": ["multiverse/src/lib.rs: Multiverse::insert, insert_in_memory, remove, select_best_block", "multiverse/src/entry.rs: Entry::add_child"]}
