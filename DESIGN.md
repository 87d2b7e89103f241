# Formal model of dcspark-core: design

The code in `/repo` (Rust) is modelled in Lean 4 under `lean/Verif/`. Nothing of
the Rust code is executed; each Lean definition cites the file and lines it
models. The properties are listed in `properties.jsonl`; `MANIFEST.json` maps
each to its theorems; `seeded/LOG.jsonl` records the wrong programs the theorems
were tested against.

## Layout

| directory | content |
|---|---|
| `Verif/Util` | finite maps as association lists |
| `Verif/Core` | 64-bit number types, decimal text, decimals and `Value`, `Balance`, UTxO store |
| `Verif/Fraos` | byte level model of the append-only database, crashes, handles, threads |
| `Verif/Ilm` | indexed log map on top of the abstract log of fraos |
| `Verif/Multiverse` | block graph, best block selection, persistence |
| `Verif/Sources` | multiverse source, fork handling source, cardano source, era time, network presets, the two fetcher tools |
| `Verif/Selection` | input selection algorithms, change balancers, estimators |
| `Verif/Cardano` | fingerprints, ledger value conversion, CBOR of transactions, multisig plans, bech32, addresses, first-address tool |
| `Verif/Json` | JSON text, documents, derived readers and writers |
| `Verif/Props` | the property theorems, one file per area, with small specifications and non-vacuity examples |

Helper lemmas live beside the models; `Verif/Props` holds only specifications,
property theorems, a few lemmas about the specifications and the examples.

## Modelling conventions

* `&mut self` becomes a returned new state; `Result` is `Except`, `Option` is
  `Option`; a panic (`assert!`, `expect`, `unwrap`, index out of bounds,
  overflow in a checked build, SIGBUS) is an explicit error value.
* `usize`/`u64` are `Nat` in models where overflow is not the subject, and bounded
  explicitly (`< 2^64`) where it is (C22, C27, C28, C29, C57).
* A `HashMap`/`HashSet` is an association list or a list without duplicates. Its iteration order
  is the list order; theorems quantify over all lists, or over an explicit
  order parameter, so they hold for every hash order.
* Loops are structural recursions or carry fuel that is proved sufficient.
* External libraries (mmap, the file system, sled, serde, BigDecimal, blake2b,
  cardano-multiplatform-lib, rand) are parameters or small contracts, listed in
  the trusted base below.
* When the English property is false of the code, a theorem `..._false`
  proves the negation with a concrete witness and a `..._partial` theorem
  proves the property under the exact extra condition.

## Trusted base

* Lean's kernel (4.33.0). Axioms used: at most `propext`, `Classical.choice` and `Quot.sound`
  (`#print axioms` on every property theorem shows a subset of these). No other axioms, no `sorry`,
  no `native_decide`, no `bv_decide`.
* The reading of the Rust code into Lean definitions (citations beside each one).
* The reading is tested, not proved: `Verif/Conformance` replays the unit tests of the project that use fixed
  data on the model, with the expected values of the Rust tests (those of network_id.rs are in `Props/NetworkFees.lean`;
  those with many items or threads are replayed with fewer). These are examples on literals and no property rests on them.
* Contracts assumed of external code:
  * **fraos**: a shared mapping shows the file's bytes; `set_len` extends with zeros and cuts;
    a write to a page beyond the end of the file faults; pages have 4096 bytes; bytes
    past the end of the file in the last page are not kept; `RwLock`/`Mutex` give mutual
    exclusion; no lock is poisoned, as no writer panics (C106); 64-bit little-endian machine; atomics are
    sequentially consistent; process death keeps stores in program order and 8-byte index words
    atomic, also for a process that reads beside (C107); on power failure stores before a returned `flush` are on disk, other pages as they were at
    any one moment since (C76); fewer than 2^60 bytes (2^59 for C06, C14, C76 and C83), smallest mapping below 2^62.
  * **indexed-log-map**: a sled tree is a list of insertions and recovery gives a prefix of it; the value codec is
    a parameter with a lawfulness assumption (shown for CBOR of `u64`); an access of the sled tree is one atomic step (C58);
    sled refuses a directory that another handle has open (C110).
  * **multiverse**: sled is a map iterated in byte order of its keys, and recovers a prefix of its writes (C75); the JSON encoding of a block round-trips (C79; a parameter in C100); the trees of a sled database are independent maps (C100); a write that fails has no effect or is done (C115);
    hash-set iteration order is an arbitrary permutation; `Arc`/`Weak` are modelled by allocation numbers;
    identifiers are byte strings.
  * **sources**: the inner source is an arbitrary response function; no block references are held
    outside; states after a failed or panicking pull are not continued, but for those after an error of the database of the multiverse (C115); a crash keeps the database writes in order.
    For the cardano source the node and the protocol library are a parameter, channels hold 1000 events, and
    the executor is an arbitrary interleaving of pull and handler steps. Chain identifiers and magics of the library
    (`chain_info`) are copied, decoding of a block is a parameter (block numbers are consecutive along a chain in C81 and C82, so no Byron boundary blocks; those are C98) and a Byron slot is `epoch * 21600 + slot` (C64).
    `Instant` counts seconds in 64 signed bits, as on Linux, and does not go back (C95); so does `SystemTime` (C96).
  * **core**: `u64::from_str` follows its documentation; BigDecimal is (digits, scale) with exact arithmetic
    and hashes the digits without the zeros after the point (C92); texts are ordered by their characters (C92);
    underscores in its text are accepted after the first digit, as in bigdecimal 0.4.2; division is that version's, with a
    precision of 100 digits (`Verif/Core/Division.lean`); JSON decimals may have leading zeros; the copy-on-write maps of `imbl` have value semantics (C37).
  * **documents** (C79, C80): `serde_json` with default features and limit 128, and what `serde` derives, as written out in
    `Verif/Json`; floating point numbers are kept as their text, with the shortest text of each as a parameter; keys of
    objects are sorted and the last of equal keys wins; `BigNum::from_str` is `u64::from_str`, and `build` of the
    transaction builder's configuration succeeds.
  * **utxo-selection**: estimators are records of functions with a state; random numbers are an arbitrary
    stream; hash orders, division (exact in most theorems about the thermostat, which C99 shows to be enough), overflow mode and formatting are parameters;
    a failed `add_input` leaves the estimator unchanged; `selected_inputs_value` (a statistic of
    thermostat that nothing reads) is left out.
  * **linear estimator**: length of the serialised script and `min_pure_ada` are parameters; `usize` is unbounded.
  * **library estimator** (C78): the builder prices a part by the difference of `min_fee`, puts `2^32` in the fee field,
    and its `min_fee` does not fail.
  * **cardano-utils**: the `hex` crate is written out; Blake2b is written out from RFC 7693
    (checked against the CIP-14 vectors; the theorems hold for any hash with 20 bytes of output, C53_blake2b is about this
    one); ledger types and
    `set_asset` have map semantics; address and JSON codecs are parameters with a
    lawfulness assumption (shown for addresses in C88); building witnesses is left to the library; metadata is omitted.
  * **transactions** (C61–C63): the library writes definite lengths with shortest heads in the Babbage output format (the
    sizes agree with the exact fees in the tests of network_id.rs:486-600); Blake2b-224 is a parameter; an enterprise
    address header keeps four bits of the network; `min_pure_ada` is the least coin the ledger accepts for the output
    without assets; the ledger asks `perByte * (160 + size)` coin for an output; an n-of-k script holds if at least n
    of its parts hold.
  * **addresses and tools** (C88–C90, C105): bech32 follows BIP 173 and addresses CIP 19, as the libraries are assumed to; Byron
    addresses are left out; key derivation, key hash, backend and the readers of its answers are parameters (C89; in C105 the readers are written out, `miniserde` as described in `Cardano/Carp.lean`); the
    library `oura` is the list of events it sends (C90).

## Plan per property

### fraos (C01–C11, C57, C76, C86, C91, C93, C97, C106–C108)
Model: files and mappings are blobs (a length and a byte function). `GrowableMmap`
is modelled with its list of retired mappings, active mapping, boundary
vectors, file, `set_len`, flush and remapping; the mapping size and count
constants are parameters (instantiated with the real ones). `Appender`,
`FlatFile`, `SeqNoIndex`, `Database` follow function by function, with 8-byte
little-endian index words.
* C01, C02, C03: refinement. Abstract state = `List (List UInt8)`; invariant relating
  bytes to the log; induction over histories of operations.
* C04: `next_impl` as a step function; interleaved histories. That it stays at an unreadable record: for every state of a database.
* C05: `close` (shrink) and `open` functions; histories with reopen steps.
* C06: crash = files as they are on disk at that moment, plus arbitrary bytes of the
  in-flight data and a prefix of in-flight index entries; then `open`.
* C76: power failure = per page of the index file the number of words stored when it was last written, either length of a
  file, arbitrary unflushed data. Opening is proved for an index whose further entries are right or have length zero.
  With entries of the batch in one page this is a prefix again. False for several pages: the opened database has gaps
  (C76_gap_false), and a record acknowledged after that is lost when the process dies (C76_lost_false), because the
  search stops at the gap.
* C07: `find_actual_end` as the code's loop, with fuel shown sufficient.
* C08: interleaving semantics at the granularity of lock sections and atomic accesses; invariant over all
  schedules. The system may refuse to extend or to map a file at any append (`sys`, as in C11 without the failures after the
  resize); a refused append takes no number. The length a reader sees may lag behind what another call already read (`_false`).
* C09: `find` with the binary search loop of the standard library.
* C10: false. Dropping a clone shrinks the shared files under the mappings of the others: a later append faults or is lost.
* C11: false. A failed flush of data or index, or a failed protect call, leaves the boundaries extended while the size is not. A user who appends nothing more after an error and reopens the directory loses nothing that was acknowledged: `rTrace_recovers` analyses `grow` under every failure (`Fraos/Recover.lean`), the reopening shows the acknowledged records and then nothing or the whole failed batch. Reads before the reopening: but for its two sizes the handle is one of a database with those records, if the protect call did not fail.
* C86: phases (calls of one thread, threads sharing it, a death or power failure in the middle of that, closing) each followed by the next opening;
  each phase means a step of a list of records (`Fraos/ConcurrentCrash.lean`), with the simulation of C08 and the recovery of C06 and C76.
* C91: an invariant for a mapped file (`GM.Cost`) with a potential: extensions times the minimal mapping, plus the bytes used of the
  active mapping, against twice the bytes stored; the file is extended only if these bytes and the batch fill the mapping. In
  memory false: every stored batch is a mapping of its own (`C91_memory`), so no number bounds them.
* C106: an invariant (`Able`) that every refusal keeps: the address index ends where the active mapping begins, the mapping has room for
  what its boundaries say and lies inside the file. It says nothing of contents, which a failure may spoil (C11). Single handle: a
  dropped clone can make an append fault (C10). Sums of lengths are assumed below 2^64.
* C107: the files as a function of time, each load of the reader at a moment of its own (`Fraos/Beside.lean`); an entry may be torn between its
  two words. The moments of a writer come from the reachable states of C01 and the crash states of C06; the index only gets longer (`Grows`),
  and the reader's invariant is that what it found stays. The opening is false: `find_actual_end` narrows two bounds, and an entry that
  appears between them makes it loop for ever (`C107_hangs_false`); a closing writer cuts the file under it (`C107_fault_false`); with mappings of
  64 bytes a sound index is called damaged (`C107_damaged_false`). Power failures are not among the steps of the writer.
* C108: false, there is no lock on the files. With the moments of C107: closing a second handle cuts the files to what it knew, so the
  records since are lost for every history (`C108_cut`, `C108_cut_closed`); two appending handles overwrite each other (`C108_overwritten_false`)
  make records nobody appended (`C108_mixed_false`), or cut the files under each other (`C108_fault_false`).
* C97: the sub-view is compared with the list of bytes filtered by index. False of the range that starts after `usize::MAX`, which wraps to the
  whole view in a release build and panics with overflow checks (`C97_wrap_false`, `C97_wrap_exact`); everything else is exact.
* C93: false. `C93_exact` computes the answer of opening, of every read and of every iterator step from two arbitrary blobs (the
  index is mapped in one piece, so an entry is read whenever its 16 bytes are there). Only the last entry is compared with the
  length of the data, with an addition that may overflow. `C93_append`: the files need not satisfy the invariant of C01 for an
  append to work; `open_any` gives the state of the two mappings, `grow_spec` does the rest. Only old entries that name bytes behind
  the last record, and old entries behind the end of the index, can become visible later.
* C57: false. Numbers from 2^60 overflow the byte offset and wrap around (or panic with overflow checks); `C57_every_number` says
  exactly what every number answers.

### indexed-log-map (C12–C14, C58, C66, C83, C110)
Model: the log is the abstract log justified by C01 plus a key map (sled tree as a list of insertions).
Crash = log step done, key step not. After a crash a key may designate an older value (`C14_latest_after_crash_false`).
C58: a call is a program over the two stores (`Ilm/Shared.lean`); calls of the log run with the steps of C08, accesses of the key index
are single steps. Simulation by a specification on lists (`Ilm/SharedSim.lean`), which is then seen as a map with atomic calls (an append
takes effect when its key is recorded) and as a list with atomic calls (an append takes effect when its value is stored); an append
that the system refuses (`sys`) has no effect on either. The two
orders can differ for two appends under one key (`_false`).
C66: histories annotated with refusals of the system, refinement of the specification that skips the refused appends; read-only
opening; false if the key index refuses the key. Any failures (`Ilm/Recover.lean`, with `append_any` of C11): the handle stays exact
for reads but `last`, and the next opening shows the acknowledged values, and the failed one or not.
C83: a step relation with the two halves of appends of any threads, reopening, process death (`Crash` of fraos) and power failure
(`PowerCut` of fraos, C76; an append has one record, whose index entry lies in one page), each with loss of the newest insertions
of the key index; invariant: the relation of C12 and that pending insertions designate their records. The part of the claim that a
key survives is false after a power failure (`C83_key_after_power_false`): `get` finds nothing and `get_next` ends early.
C110: `new` opens the log before the key index; when the key index is held by an open map the log is dropped again. The effect on the
files is that of a dropped clone (C10), because without failures the data file ends with the last record (`Snug`), so that both handles
cut at the same place. Exact for openings for reading (`C110_readonly`) and for wary histories (`C110_prudent_partial`); reads are never
disturbed (`C110_reads`); false otherwise (`C110_lost_false`, `C110_fault_false`).

### multiverse (C15–C22, C94, C100, C109, C115, C116, C121)
Model: `all`, `ordered`, `tips`, `roots`, `tree`, weak parent references with the set of live
`Arc`s made explicit. C15 by refinement of a small specification over every history. Outside its conditions: a kept
reference to a removed block makes a later insertion panic or the removed block be selected; an identifier with two
numbers panics; a child inserted before its parent is linked only when the store is opened again.
C17–C19 by direct proof for every iteration order. C20 false (the iterator drains a whole height).
C21 invariant between tree and memory; C22 bytes, big endian, lexicographic order. C94 false: from the refinement relation of C15, one
more insertion outside its condition; `db_insert` writes before `insert` checks.
C100: trees of byte strings with an arbitrary encoding of blocks; each domain simulates the multiverse of C15 on its own
requests, and a request leaves the other trees.
C109: several memories over one tree; the tree is that of an imagined multiverse that saves everything. False when a block is inserted
again after another multiverse removed it: `db_insert` then takes it for new.
C115: each write of the database may fail with or without effect. Insertion writes first and can be repeated; removal writes last, so a
removal that failed has been made in memory and comes back on opening (`C115_remove_false`). In the multiverse source a removal that fails
loses the block to be released (`C115_skips_false`); with a restart it is a crash of C23. The fork handling source loses the block with a restart (`C115_fork_restart_false`),
and without one two failures in a row make it panic, as the confirmed block is gone (`C115_fork_panics_false`).
If no two follow one another it misses nothing, whichever insertions fail (`C115_fork_heals_partial`, by an invariant over the block the consumer was last told and the height of the confirmed one).

C116: the specification of C15 run over a list of arrivals, by induction from its end; a block is linked exactly if its parent was there
when it came first (`C116_exact`). Parents first: the same tree for every order (`C116_order_partial`), also with
removals in between (`C116_history_partial`); opening reads the blocks by number,
which links the others too (`C116_reopened`); without either it is false (`C116_order_false`).
C121: inserting and removing brings the specification's tree back, because a linked block has its parent stored
(`C121_taken_back`); removing and inserting does so for a tip (`C121_put_back_partial`), not for a block with a child
(`C121_put_back_false`).

### sources (C23–C27, C64, C65, C75, C81, C82, C85, C95, C98, C117, C118)
Model: `pull` as a step on (multiverse, confirmed, inner source). C23 for trees with forks no longer than the depth,
with restarts and crashes; longer forks switch branch silently, and a crash at the first block blocks a consumer with
a start position. C24: repeated pulls; false for "no position" and at the first block. C25: consumer
replay semantics; false for deep forks (silent switch), late blocks (panic), restarts (queue lost), no position (panic).
C26: false if the genesis block is the tip, for requested blocks with one slot, and for blocks without
epoch; an undecodable block stops the handler; `clear_buffers` drops the connection. C27 arithmetic over `Nat`
with explicit 64-bit bounds; the epoch length in seconds is used as a number of slots.
C64: the five configurations as data, blocks as decoded headers; the network identifier of sancho is that of the main network.
C65: the tool's loop drives the model of C26; an option without comma panics, and a fork of the last printed block ends the
tool early.
C75: the database after a power loss is that of an earlier moment of the history (sled recovers a prefix of its writes); the
invariant of C23 holds again if the last released block is still the confirmed one. False otherwise: every pull is rejected
as not continuous, or, with nothing confirmed on disk, blocks are released again.
C98: false. Two blocks share the highest number, the hash set gives one of them, and if it is the parent of the boundary block the
next selection goes on by two blocks (`C98_skip_false`); a restart may read a boundary block before its parent
(`C98_restart_false`). Proved, by an invariant over the indices of one chain (`Verif/Sources/Boundary.lean`): nothing else is lost, and
the order is kept (`C98_released_partial`, `C98_plain`). The fork handling source, which goes by identifiers, follows such a chain
without loss (`C98_followed`).
C117: the invariants of C23 and C25 with one more clause: every block kept is at most `d + 1` lower than any delivered
(`Window`); the other direction is `Inv.keep`. A new block establishes it whatever was there before, so crashes leave nothing
behind after the next one (`C117_after_crashes`). In between each crash leaves at most one block more (`C117_crashes`), and a process
that dies with every new block never cleans up (`C117_crashes_false`).
C118: the tips of the multiverse are the ends of branches in the window (`tips_leaf`, from `Rel.tips`, `Inv.link` and `Window`), and
the request is read off the model of `pull`.

C81: the models of C23 and C26 run together (`Verif/Sources/Confirmed*`): what the inner source answers is now what the
handler sends. Invariant: requested positions are the start or points of delivered blocks, and what is delivered is a segment
of the chain after one of them, so the conditions of C23 hold. Catching up by counting the answers left of old requests; a block confirmed
but not received because of a crash is given by the next pull, before the inner source is asked. False without a position, or from the parent of the genesis block, if the chain changes before the first confirmed block; and a block
that cannot be converted leaves a gap.
C82: the same with the model of C25 (`Verif/Sources/Followed*`). Invariant: blocks are delivered in the order of the nodes that
sent them, so each new block has with the one before it a common ancestor at most `d` below the highest block delivered; the queue
is no longer than the way from there. Catching up by counting answers, then by the queue, which gets shorter with each pull. False
if the chain changes before `d` blocks are received, for a return to a known chain of the same length, for restarts with a
queue and for blocks that cannot be converted.
C85: the model of C26 with three more actions: a pull is abandoned, the source is stopped, the handler's loop ends. The invariant
of C26 survives them; stopping by a measure: a request nobody listens to has at most two steps left, a queued one three. Abandoned
pulls are also actions of C81 and C82. Calls of the protocol library are assumed to return.
C95: the handler of C26 with a clock; `last_tip_event` is the time of the last announcement (`last_spec`), the requests are served in
order of time. False for receivers that are gone and for a pace below the range of the clock.

### core (C28–C37, C55, C56, C92, C96)
C28/C29 bounded naturals and decimal digit lists. C30–C32, C55: decimals as (digits, scale) with a
denotation in the rationals; each operation is proved to commute with it, which
justifies using rationals in the store and selection models. C33: sign analysis; invariant over
sequences, on rationals and on decimals with their scales; the text of a balance by reading it back. C34–C37: store with its derived indices; invariant relating each
index to the set of UTxOs; for a token some UTxO names twice balance and ordered listings are wrong
after a removal, and the surplus and the stale entries are characterised exactly
(negations), right for tokens no UTxO names twice. C56: names of a token by direct proof.
C96: false from 2^63 on, where the conversion panics (`C96_total_false`); exact below.
C92: comparison laws through the denotation; the hashed text is unchanged when digits and scale grow together.

### documents (C79, C80)
Model: JSON text as characters, documents as trees, the compact writer and the strict reader of `serde_json` as functions
(`Verif/Json/Text`), derived readers and writers of each type over documents (`Verif/Json/Types`). Round trip by mutual
induction over documents with a bound on the reader's fuel, then field by field for each type. False for metadata nested
deeper than the reader's recursion limit. Which documents are accepted (`C79_accepts_*`): a description of the documents of
each type, separate from the readers, and an equivalence with them.
C80: the readers of the configuration types, with an exact characterisation of the fields found in an object. False: amounts
of a network are only read when used and panic then; zero accumulators and empty epochs are accepted.

### utxo-selection (C38–C52, C59, C60, C67–C74, C77, C78, C84, C87, C99, C101–C104, C111–C114)
Model: estimator as a record of functions with its own state; algorithms as fuelled loops whose
fuel is bounded by the number of available UTxOs. Thermostat modelled with all branches.
Defects proved as `_false` theorems:
* C42 equal outputs are counted twice; C43 random-improve does not cover the fee, improvement can drop assets (never when UTxOs with less
  of an asset are no better matches, `C43_kept_partial`), a
  fingerprint never matches `policy:name`; C44 `set_available_inputs` keeps old indices; C59 a failure loses inputs
  (a zero-amount output is such a failure);
* C46 the change amount can be negative;
* C49 a split destroys half of an asset worth no more than the fee of an output; C50 the fee can stay below
  the minimum (dust, exact amounts), without exact amounts by no more than the chosen UTxOs lack of their cost; C51 the failure "Unbalanced ada" loses UTxOs; C60 free inputs, unknown
  assets and zero accumulators panic;
* C52 announcing a protocol magic overwrites the size counted so far;
* C67 a split change can fall below the minimum of an output, and a change can hold an asset with quantity zero.

C102: an invariant over the list of chosen UTxOs, kept by each of the three loops, with the reason each loop has for a step;
the filling loop also keeps that a token marked as empty has no more than the configured number of UTxOs or none that holds
only it, which removals cannot undo. Found false: the number configured for assets counts (the loop compares with the one
for ada), and ada is consolidated by requests with assets (the main token is only put into the list if there is no asset).

C103: the object with all its fields, and arbitrary contents of them after a failed payment; every call is shown equal to the call on
empty fields that the other properties are about, and sequences follow by induction.

C104: two runs are compared step by step (`Selection/Alike.lean`, `Selection/ThermostatAlike.lean`; random-improve sorts what comes from a hash map, `Props/ReproducibleRandom.lean`). The relation between their states says that
the stores hold the same, the selected UTxOs hold the same one by one, and everything else is equal; the states of the estimator are related by
a relation the estimator cannot see through. The orders of the hash maps (`ord`, `keyOrder`, `changeOrder`) of the two runs are arbitrary
permutations. Refuted without its conditions: `C104_ties_false`, `C104_thermostat_ties_false` (two UTxOs with as much of the asset, of which only
one pays the rest), `C104_keys_false` (two assets: the first one's change gets the ada left at that point, so the values of the changes depend on
which asset the hash map lists first).

C101: by exchange: the inputs taken for a token are each the largest of those left (C41), so any other choice of as many is
worth no more of that token. With assets the choice is not the smallest, but within a factor.

C67: invariant over the phases (every change is whole, dropped, or a half of one made under the clamp), sizes by the clamp.

C99: long division to 100 digits with the bound of its rounding; a whole amount divided by `n` is at least `1/n` away from every
whole number it is not, so rounding cannot cross one. The thermostat divides in the split only, and compares quotients with whole
numbers or truncates them: the run up to the split is the same, and each iteration of the split by the amounts it holds.
C77 (and `C49_assets_exact`, for every configuration): the outcome of each iteration of the split against the balance the store reports for what is left; the order of the
map does not matter because each token has one change. False: a change may exceed the share, as it is split only once.
C68: each phase fails only by a panic, by fuel (both excluded by C60) or for want of a candidate; then all single-asset
(ada-only) UTxOs are selected and the books contradict the debt. False for covered requests, requests without outputs,
and assets only in UTxOs with several assets.
C69: a failing first phase leaves an inequality between the inputs and the outputs (one largest input lost per further
output); passes take only inputs with their asset, so they do not disturb each other. C70: the single draw and the
single improvement are computed for an arbitrary random stream.
C112: each input drawn brings at least d of what its pass is about, so a pass stops after as many draws as the amounts have pieces;
the improvement exchanges one for one; the last phase counts all inputs taken before. Not the fewest: a pass does not see what
the inputs of the other passes bring.
C113: a failing run takes all UTxOs, each as the largest left and none before it was needed, so its first n are worth at least any
n others; with assets by C38–C40. False for UTxOs with an asset that are not worth their cost, and for the thermostat, which fails
when the further UTxOs are above the number to keep and the asset is met exactly.
C120: after any history the contents determine every query (C34–C36), and equal lookups give equal contents; the specification does
not see the order of the contents. False for the names of an asset, which are never forgotten, and for UTxOs that name an asset twice.
C119: what was chosen for the larger payment pays for the smaller one, so C113 applies; with assets by C40 and C101. For the
thermostat without assets the balance (C49), the fee (C50), its parts (C71) and the changes (C67) bound the spendable UTxOs, so C68
applies. False for UTxOs not worth their cost, and for the thermostat when the fixed inputs cover the smaller payment or when it meets
an asset exactly. For random-improve without assets the draws do not depend on the outputs, sorted smaller needs are smaller one by
one, so C114 applies for the same random numbers.
C71: the estimator has counted exactly the inputs and outputs of the answer (invariant over all phases), so C50 (fee of the
estimate), C61 (estimate above the bytes) and C49 (balance) compose; false when an asset is met exactly. C72: before the
filling loop at most k UTxOs are selected (a selection needs a debt, and the first k leave none); the loop stops with room
for two outputs per token; false for requests that need too many UTxOs, which are answered above the limit.
C73: C45/C46 (balance, fee of the estimate) compose with C61 (estimate above the bytes). C74: C40 (largest-first is
complete) gives the selection, the estimator's fee is linear in the parts, so the balancer answers with that fee; false when
what is left is less than the fee of the change output: the change is negative.
C78: the builder of the ledger library is a list of parts with an arbitrary fee function (trusted: a part costs the
difference it makes); instance: the bytes of the transaction, with the serialisation of C61. The estimator's parts are those
of the answer with values at least as large. False for the thermostat with assets: their bytes are not counted.
C84: histories of calls as an inductive relation between what the caller saw and the state; invariant: the UTxOs last handed
over are a permutation of those chosen since, those lost in failures, and those available. False: failures of the
thermostat ("Unbalanced ada") and of random-improve lose UTxOs, and fixed inputs are not kept out of the choice.
C111: invariant that a debt is positive; then the rest after `balance_excess` is at most zero or below the smallest change and its cost,
and the splits keep the difference between balance and minimum fee.
C114: the stream of random numbers is replaced by the order of the draws (`Follows`; every stream has an order and every order a
stream). Whether the first phase succeeds is the relation `Covers` between the outputs and the amounts in this order, which is
monotone in the amounts. The later phases do not run out of inputs. With assets monotonicity is false (`C114_assets_false`: small
holdings of a token are drawn and then all improved to the UTxOs the main amount needs), and for one fixed stream it is false
(`C114_one_draw_false`).

C87: ledger, store and submitted transactions as one state; invariant: what is available is unspent on the ledger and by no
submitted transaction, and the ledger accepts each of those. A payment keeps it by C71/C73 (fee and balance of the
transaction) and C84 (what was chosen is no longer available); an arrival keeps it because inputs are disjoint. The ledger's
rules are those for inputs, fee and balance; minimum values, validity intervals and signatures are not among them. False
if outputs of submitted transactions are handed over again.

### cardano-utils and command line tools (C53, C54, C61–C63, C88–C90, C105)
Hex decoding modelled exactly, blake2b a parameter. C54: duplicate fingerprints overwrite each other, a negative
quantity becomes zero, fractions are cut without notice, and if `AssetName::to_bytes` is the CBOR serialisation the
round trip renames every asset.
C61: the serialisation is modelled byte by byte and bounded by the assumed constants, by induction on inputs, outputs and
witnesses: the fee suffices exactly when the bytes are at most those counted, so for all outputs up to 147 bytes; false for
outputs with two long-named assets, and the size is wrong after a protocol magic. C62: reading by equivalence with a
relational hex specification, quorum by counting, addresses by injectivity of the CBOR heads; false for repeated
keys, for a quorum above the number of keys, and for networks that agree modulo 16. C63: direct; false for every output with assets.
C88: bech32 and the digits of pointers written out; the checksum is linear, so a mistake within six groups of five bits has the remainder of a nonzero
word of 30 bits moved by a power of x, which is not zero; regrouping 8 to 5 bits through the list of bits. C89: case analysis
of the run; key derivation, hashes, the backend and its JSON are parameters; false, one `unwrap` panics. C105: the derived readers are
proved equal to a description of the documents they accept, and the writer reads back. C90: induction on
events, and an invariant between the lines and the node's chain; false after a rollback, which is not printed.

## Not modelled
Logging/tracing, the remaining serde types (see C79 for those modelled), the encodings of ledger types, async executor
scheduling below the interleaving of steps, the network protocol, the transaction builder behind `cml_fee_estimator` (only its interface, C78).
