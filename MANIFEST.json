{
 "claims": [
  {
   "property": "C01",
   "status": "proved",
   "theorems": [
    "Verif.Props.C01_refines",
    "Verif.Props.C01_reads"
   ],
   "note": "Fewer than 2^60 bytes and sequence numbers below 2^60 (see C57)."
  },
  {
   "property": "C02",
   "status": "proved",
   "theorems": [
    "Verif.Props.C02_numbers",
    "Verif.Props.C02_put"
   ],
   "note": ""
  },
  {
   "property": "C03",
   "status": "proved",
   "theorems": [
    "Verif.Props.C03_rejected",
    "Verif.Props.C03_invisible"
   ],
   "note": ""
  },
  {
   "property": "C04",
   "status": "proved",
   "theorems": [
    "Verif.Props.C04_iterates",
    "Verif.Props.C04_interleaved",
    "Verif.Props.C04_no_skip"
   ],
   "note": ""
  },
  {
   "property": "C05",
   "status": "proved",
   "theorems": [
    "Verif.Props.C05_reopen",
    "Verif.Props.C05_readonly"
   ],
   "note": ""
  },
  {
   "property": "C06",
   "status": "proved",
   "theorems": [
    "Verif.Props.C06_recovers",
    "Verif.Props.C06_answers",
    "Verif.Props.C06_acknowledged"
   ],
   "note": "Crash = death of the process: stores reach the files in program order, 8-byte words of index entries are atomic, data bytes in flight are arbitrary. Power loss with pages written back in any order is C76. Less than 2^59 bytes."
  },
  {
   "property": "C07",
   "status": "proved",
   "theorems": [
    "Verif.Props.C07_padded",
    "Verif.Props.C07_arbitrary"
   ],
   "note": ""
  },
  {
   "property": "C08",
   "status": "proved",
   "theorems": [
    "Verif.Props.C08_refines",
    "Verif.Props.C08_one_log",
    "Verif.Props.C08_blocks_disjoint",
    "Verif.Props.C08_settled",
    "Verif.Props.C08_seen_again",
    "Verif.Props.C08_acknowledged_seen",
    "Verif.Props.C08_len_grows",
    "Verif.Props.C08_counted_readable",
    "Verif.Props.C08_no_deadlock",
    "Verif.Props.C08_len_covers_reads_false"
   ],
   "note": "Steps are lock sections and atomic accesses, sequentially consistent; with sys = true the system may refuse to extend or to map a file. Also shown: a length may lag behind reads (C08_len_covers_reads_false)."
  },
  {
   "property": "C09",
   "status": "proved",
   "theorems": [
    "Verif.Props.C09_appended",
    "Verif.Props.C09_lookup",
    "Verif.Props.C09_lookup_one"
   ],
   "note": ""
  },
  {
   "property": "C10",
   "status": "partial",
   "theorems": [
    "Verif.Props.C10_append_after_drop_false",
    "Verif.Props.C10_lost_record_false",
    "Verif.Props.C10_memory_partial",
    "Verif.Props.C10_disk_partial"
   ],
   "note": "False on disk: dropping a clone cuts the files under the mappings of the others (C10_append_after_drop_false, C10_lost_record_false). Proved for memory mode, and on disk when no append follows a drop of a clone."
  },
  {
   "property": "C11",
   "status": "partial",
   "theorems": [
    "Verif.Props.C11_consistent_partial",
    "Verif.Props.C11_recovers_partial",
    "Verif.Props.C11_data_flush_false",
    "Verif.Props.C11_index_flush_false",
    "Verif.Props.C11_failed_batch_appears_false",
    "Verif.Props.C11_protect_false"
   ],
   "note": "False when a flush of the data, a flush of the index or the protect call fails (C11_*_false). Proved for failures before any byte is written, and for any failure when the user appends nothing more before closing (or dying) and reopening, with exact reads in between unless the protect call failed (C11_recovers_partial)."
  },
  {
   "property": "C12",
   "status": "proved",
   "theorems": [
    "Verif.Props.C12_refines",
    "Verif.Props.C12_latest_wins",
    "Verif.Props.C12_iter"
   ],
   "note": "Any lawful encoding; CBOR of u64 shown lawful. Maps opened read-only are C66."
  },
  {
   "property": "C13",
   "status": "proved",
   "theorems": [
    "Verif.Props.C13_resume",
    "Verif.Props.C13_unknown"
   ],
   "note": ""
  },
  {
   "property": "C14",
   "status": "proved",
   "theorems": [
    "Verif.Props.C14_keys_designate",
    "Verif.Props.C14_get",
    "Verif.Props.C14_iter",
    "Verif.Props.C14_recovers",
    "Verif.Props.C14_latest_after_crash_false"
   ],
   "note": "Process death; the key index (sled) comes back as some earlier version of itself. Also shown: the newest value of a key may be hidden after a crash (C14_latest_after_crash_false)."
  },
  {
   "property": "C15",
   "status": "proved",
   "theorems": [
    "Verif.Props.C15_refines",
    "Verif.Props.C15_links",
    "Verif.Props.C15_kept_reference_false",
    "Verif.Props.C15_same_identifier_false"
   ],
   "note": "Refinement of a small specification over every history, without panic. The code panics if a caller keeps a reference to a removed block and the block is inserted again, or if an identifier comes with two numbers (_false theorems)."
  },
  {
   "property": "C16",
   "status": "proved",
   "theorems": [
    "Verif.Props.C16_inserted",
    "Verif.Props.C16_idempotent"
   ],
   "note": ""
  },
  {
   "property": "C17",
   "status": "proved",
   "theorems": [
    "Verif.Props.C17_selected",
    "Verif.Props.C17_depth",
    "Verif.Props.C17_kept_reference_false"
   ],
   "note": "For callers that keep no reference to removed blocks; otherwise a removed block can be selected (C17_kept_reference_false)."
  },
  {
   "property": "C18",
   "status": "proved",
   "theorems": [
    "Verif.Props.C18_discarded",
    "Verif.Props.C18_kept"
   ],
   "note": ""
  },
  {
   "property": "C19",
   "status": "proved",
   "theorems": [
    "Verif.Props.C19_preferred",
    "Verif.Props.C19_longest"
   ],
   "note": ""
  },
  {
   "property": "C20",
   "status": "partial",
   "theorems": [
    "Verif.Props.C20_iteration_partial",
    "Verif.Props.C20_every_block_false"
   ],
   "note": "The code visits one block per block number (C20_every_block_false); proved: stored blocks in ascending order, one for every number, all if numbers are distinct."
  },
  {
   "property": "C21",
   "status": "proved",
   "theorems": [
    "Verif.Props.C21_blocks",
    "Verif.Props.C21_links",
    "Verif.Props.C21_same"
   ],
   "note": ""
  },
  {
   "property": "C22",
   "status": "proved",
   "theorems": [
    "Verif.Props.C22_order",
    "Verif.Props.C22_injective"
   ],
   "note": ""
  },
  {
   "property": "C23",
   "status": "proved",
   "theorems": [
    "Verif.Props.C23_released",
    "Verif.Props.C23_crash",
    "Verif.Props.C23_linear",
    "Verif.Props.C23_depth",
    "Verif.Props.C23_deep_fork_false",
    "Verif.Props.C23_crash_at_first_block_false"
   ],
   "note": "Beyond linear chains: every tree of blocks with forks of at most the depth, with restarts and (without start position) crashes. With longer forks the source switches branch silently; a crash at the first block blocks a consumer with a start position (_false theorems)."
  },
  {
   "property": "C24",
   "status": "partial",
   "theorems": [
    "Verif.Props.C24_repeat",
    "Verif.Props.C24_rejected_partial",
    "Verif.Props.C24_same_again_partial",
    "Verif.Props.C24_first_block_false",
    "Verif.Props.C24_no_position_false"
   ],
   "note": "Proved for every reachable state and for positions other than \"none\"; false for \"none\" when the parent is stored, and for the start position of the consumer at the first block (_false theorems)."
  },
  {
   "property": "C25",
   "status": "partial",
   "theorems": [
    "Verif.Props.C25_valid_partial",
    "Verif.Props.C25_queue",
    "Verif.Props.C25_answers",
    "Verif.Props.C25_deep_fork_false",
    "Verif.Props.C25_late_block_false",
    "Verif.Props.C25_restart_false",
    "Verif.Props.C25_no_position_false"
   ],
   "note": "Proved for forks that begin at most depth + 1 blocks below the highest block, and restarts at quiet moments; false otherwise (_false theorems: silent switch, panic, lost queue, panic without position)."
  },
  {
   "property": "C26",
   "status": "partial",
   "theorems": [
    "Verif.Props.C26_stream",
    "Verif.Props.C26_nothing",
    "Verif.Props.C26_progress",
    "Verif.Props.C26_pull_returns",
    "Verif.Props.C26_blocks",
    "Verif.Props.C26_origin",
    "Verif.Props.C26_no_match",
    "Verif.Props.C26_ill_formed",
    "Verif.Props.C26_genesis_partial",
    "Verif.Props.C26_broken",
    "Verif.Props.C26_connection",
    "Verif.Props.C26_buffered",
    "Verif.Props.C26_kept",
    "Verif.Props.C26_genesis_tip_false",
    "Verif.Props.C26_equal_slots_false",
    "Verif.Props.C26_error_false",
    "Verif.Props.C26_unreadable",
    "Verif.Props.C26_stopped"
   ],
   "note": "Proved for every schedule of pulls and handler, for chains with distinct points and requested blocks of different slots. False if the genesis block is the tip, for two requested blocks with one slot, and for blocks whose epoch cannot be computed (_false theorems); an undecodable block stops the handler for good (C26_stopped). The node is a parameter."
  },
  {
   "property": "C27",
   "status": "proved",
   "theorems": [
    "Verif.Props.C27_before_era",
    "Verif.Props.C27_recompose",
    "Verif.Props.C27_epoch_monotone",
    "Verif.Props.C27_timestamp",
    "Verif.Props.C27_timestamp_monotone",
    "Verif.Props.C27_release",
    "Verif.Props.C27_presets",
    "Verif.Props.C27_byron",
    "Verif.Props.C27_epoch_seconds_unit_slots",
    "Verif.Props.C27_epoch_seconds_false"
   ],
   "note": "The code uses the epoch length in seconds as a number of slots (C27_epoch_seconds_false)."
  },
  {
   "property": "C28",
   "status": "proved",
   "theorems": [
    "Verif.Props.C28_checked_add",
    "Verif.Props.C28_checked_next",
    "Verif.Props.C28_saturating",
    "Verif.Props.C28_order"
   ],
   "note": ""
  },
  {
   "property": "C29",
   "status": "proved",
   "theorems": [
    "Verif.Props.C29_parse_exact",
    "Verif.Props.C29_round_trip",
    "Verif.Props.C29_json",
    "Verif.Props.C29_json_str",
    "Verif.Props.C29_output_index_rejects_strings"
   ],
   "note": "Rust u64 parser modelled from its documented behaviour."
  },
  {
   "property": "C30",
   "status": "proved",
   "theorems": [
    "Verif.Props.C30_arithmetic",
    "Verif.Props.C30_order"
   ],
   "note": "BigDecimal modelled as (digits, scale)."
  },
  {
   "property": "C31",
   "status": "partial",
   "theorems": [
    "Verif.Props.C31_exact",
    "Verif.Props.C31_inverse",
    "Verif.Props.C31_units",
    "Verif.Props.C31_bridge",
    "Verif.Props.C31_monotone",
    "Verif.Props.C31_algo_false"
   ],
   "note": "Exact, invertible, monotone for ada, ether and the bridge rule. C31_algo_false: the algo conversion yields a value typed with the wrong unit."
  },
  {
   "property": "C32",
   "status": "proved",
   "theorems": [
    "Verif.Props.C32_parse_sound",
    "Verif.Props.C32_parse_complete",
    "Verif.Props.C32_underscores",
    "Verif.Props.C32_negative",
    "Verif.Props.C32_truncate",
    "Verif.Props.C32_truncate_negative_false",
    "Verif.Props.C32_deserialize_unchecked"
   ],
   "note": "C32_truncate_negative_false and C32_deserialize_unchecked record behaviour outside the statement."
  },
  {
   "property": "C33",
   "status": "proved",
   "theorems": [
    "Verif.Props.C33_net_sum",
    "Verif.Props.C33_negative_amount",
    "Verif.Props.C33_values",
    "Verif.Props.C33_equal",
    "Verif.Props.C33_text",
    "Verif.Props.C33_negative_text"
   ],
   "note": "For non-negative amounts as the property says; C33_negative_amount and C33_negative_text show the hypothesis is needed; C33_text needs scales that fit the exponent of the text."
  },
  {
   "property": "C34",
   "status": "proved",
   "theorems": [
    "Verif.Props.C34_contents",
    "Verif.Props.C34_rejected_unchanged",
    "Verif.Props.C34_spec_reading"
   ],
   "note": "Any UTxOs, repeated asset identifiers included."
  },
  {
   "property": "C35",
   "status": "partial",
   "theorems": [
    "Verif.Props.C35_listing",
    "Verif.Props.C35_balance_exact",
    "Verif.Props.C35_balances_partial",
    "Verif.Props.C35_duplicate_assets_false"
   ],
   "note": "Count, listing and presence are proved for every UTxO (C35_listing). The balance is right for a token no UTxO names twice (C35_balances_partial); otherwise removed UTxOs leave a surplus (C35_duplicate_assets_false), which C35_balance_exact says exactly."
  },
  {
   "property": "C36",
   "status": "partial",
   "theorems": [
    "Verif.Props.C36_ordered_exact",
    "Verif.Props.C36_complete",
    "Verif.Props.C36_ordered_partial",
    "Verif.Props.C36_duplicate_assets_false",
    "Verif.Props.C36_reverse_ties_false"
   ],
   "note": "Nothing is ever missing (C36_complete). Exactly once and in order for a token no UTxO names twice (C36_ordered_partial); otherwise removed UTxOs can stay in the listing (C36_duplicate_assets_false). C36_ordered_exact says what the listings show for every history."
  },
  {
   "property": "C37",
   "status": "proved",
   "theorems": [
    "Verif.Props.C37_isolated"
   ],
   "note": "Value semantics of imbl maps is trusted (see DESIGN.md)."
  },
  {
   "property": "C38",
   "status": "proved",
   "theorems": [
    "Verif.Props.C38_covers"
   ],
   "note": ""
  },
  {
   "property": "C39",
   "status": "proved",
   "theorems": [
    "Verif.Props.C39_set_available",
    "Verif.Props.C39_refused",
    "Verif.Props.C39_books"
   ],
   "note": ""
  },
  {
   "property": "C40",
   "status": "proved",
   "theorems": [
    "Verif.Props.C40_complete",
    "Verif.Props.C40_short_fails",
    "Verif.Props.C40_failure_keeps"
   ],
   "note": ""
  },
  {
   "property": "C41",
   "status": "proved",
   "theorems": [
    "Verif.Props.C41_takes_largest"
   ],
   "note": ""
  },
  {
   "property": "C42",
   "status": "partial",
   "theorems": [
    "Verif.Props.C42_available",
    "Verif.Props.C42_books_partial",
    "Verif.Props.C42_same_output_false"
   ],
   "note": "Proved for every random stream; the balances only if no output is listed twice (C42_same_output_false: their inputs are counted twice)."
  },
  {
   "property": "C43",
   "status": "partial",
   "theorems": [
    "Verif.Props.C43_main_partial",
    "Verif.Props.C43_assets_partial",
    "Verif.Props.C43_kept_partial",
    "Verif.Props.C43_fee_false",
    "Verif.Props.C43_assets_false",
    "Verif.Props.C43_fingerprint_false"
   ],
   "note": "The outputs are covered; the fee is not (C43_fee_false); assets only when identifiers have the form policy:name and no exchange of the improvement phase can lose the asset: UTxOs with different quantities of it have the same main amount (C43_assets_partial), or the one with less of it is never nearer to twice the payment (C43_kept_partial); false otherwise (_false theorems)."
  },
  {
   "property": "C44",
   "status": "partial",
   "theorems": [
    "Verif.Props.C44_longer_partial",
    "Verif.Props.C44_same_length_partial",
    "Verif.Props.C44_no_panic",
    "Verif.Props.C44_shorter_false",
    "Verif.Props.C44_longer_false",
    "Verif.Props.C44_again_false"
   ],
   "note": "False: a shorter list panics, a longer one is not offered completely, inputs used before are not offered again (_false theorems). Proved for lists of the same length, and no panic while indices are in range."
  },
  {
   "property": "C45",
   "status": "proved",
   "theorems": [
    "Verif.Props.C45_success",
    "Verif.Props.C45_failure"
   ],
   "note": ""
  },
  {
   "property": "C46",
   "status": "partial",
   "theorems": [
    "Verif.Props.C46_success_partial",
    "Verif.Props.C46_failure",
    "Verif.Props.C46_nonnegative_change_false"
   ],
   "note": "Everything but the sign of the change; C46_nonnegative_change_false: the change amount can be negative, exactly when the excess is below the fee of the change output."
  },
  {
   "property": "C47",
   "status": "proved",
   "theorems": [
    "Verif.Props.C47_balanced",
    "Verif.Props.C47_utxos_balanced",
    "Verif.Props.C47_negative_fee"
   ],
   "note": "C47_negative_fee shows the sign condition is needed."
  },
  {
   "property": "C48",
   "status": "proved",
   "theorems": [
    "Verif.Props.C48_setup_totals"
   ],
   "note": ""
  },
  {
   "property": "C49",
   "status": "partial",
   "theorems": [
    "Verif.Props.C49_main",
    "Verif.Props.C49_assets_partial",
    "Verif.Props.C49_assets_false",
    "Verif.Props.C49_assets_exact"
   ],
   "note": "Main token conserved unconditionally (C49_main). Assets conserved when half of the configured minimum exceeds the fee of an output (C49_assets_partial); false otherwise: splitting a change worth no more than the fee of an output destroys half of its asset (C49_assets_false). C49_assets_exact covers every configuration: what is due comes back, or exactly its rounded half is lost, under a condition stated; no asset is ever created."
  },
  {
   "property": "C50",
   "status": "partial",
   "theorems": [
    "Verif.Props.C50_fee_partial",
    "Verif.Props.C50_deficit",
    "Verif.Props.C50_dust_false",
    "Verif.Props.C50_exact_false"
   ],
   "note": "Proved for estimators charging constants when no available UTxO is worth less than its cost and no asset amount is met exactly; false otherwise (C50_dust_false, C50_exact_false). With cheap UTxOs the fee lacks no more than what the chosen ones lack of their own cost (C50_deficit)."
  },
  {
   "property": "C51",
   "status": "partial",
   "theorems": [
    "Verif.Props.C51_selection",
    "Verif.Props.C51_failure_partial",
    "Verif.Props.C51_failure_false"
   ],
   "note": "Selection discipline proved for every success, and failures other than \"Unbalanced ada\" leave the UTxOs alone; after that failure UTxOs are lost (C51_failure_false)."
  },
  {
   "property": "C52",
   "status": "partial",
   "theorems": [
    "Verif.Props.C52_additive",
    "Verif.Props.C52_totals",
    "Verif.Props.C52_order",
    "Verif.Props.C52_min_value_pure",
    "Verif.Props.C52_network",
    "Verif.Props.C52_public",
    "Verif.Props.C52_magic_false",
    "Verif.Props.C52_magic_fee"
   ],
   "note": "Fee and size are additive for any sequence of parts, and equal the network formula; the size forgets everything counted so far when a protocol magic is announced (C52_magic_false)."
  },
  {
   "property": "C53",
   "status": "proved",
   "theorems": [
    "Verif.Props.C53_defined",
    "Verif.Props.C53_hashes",
    "Verif.Props.C53_case",
    "Verif.Props.C53_injective",
    "Verif.Props.C53_shape",
    "Verif.Props.C53_blake2b"
   ],
   "note": "For every string: defined exactly for a 56-digit policy and an even-length hexadecimal name, independent of letter case, hash of policy bytes then name bytes, padded to 64 characters, injective up to hash collisions and letter case. Stated for every hash with 20 bytes of output, and in C53_blake2b for Blake2b written out from RFC 7693 (the CIP-14 vectors are reproduced)."
  },
  {
   "property": "C54",
   "status": "partial",
   "theorems": [
    "Verif.Props.C54_tokens",
    "Verif.Props.C54_round_trip_names",
    "Verif.Props.C54_round_trip_partial",
    "Verif.Props.C54_cbor_names_false",
    "Verif.Props.C54_output_partial",
    "Verif.Props.C54_output_faithful_partial",
    "Verif.Props.C54_duplicate_false",
    "Verif.Props.C54_negative_quantity_false",
    "Verif.Props.C54_output_round_trip_partial",
    "Verif.Props.C54_input_round_trip_partial"
   ],
   "note": "Proved for values without fingerprint collisions and if the library method AssetName::to_bytes returns the raw name: same coin and same quantity for every asset, through outputs and spent outputs too. If that method is the CBOR serialisation, as for other types of the library, the round trip renames every asset (C54_cbor_names_false). An output built from two assets with the same fingerprint keeps only the last quantity (C54_duplicate_false). Every output that is built is faithful for its last assets (C54_output_faithful_partial), but a negative quantity becomes zero instead of an error (C54_negative_quantity_false)."
  },
  {
   "property": "C55",
   "status": "proved",
   "theorems": [
    "Verif.Props.C55_serde_round_trip"
   ],
   "note": ""
  },
  {
   "property": "C56",
   "status": "proved",
   "theorems": [
    "Verif.Props.C56_asset_names"
   ],
   "note": ""
  },
  {
   "property": "C57",
   "status": "partial",
   "theorems": [
    "Verif.Props.C57_past_the_end_false",
    "Verif.Props.C57_past_the_end_partial",
    "Verif.Props.C57_every_number"
   ],
   "note": "C57_past_the_end_false: numbers from 2^60 wrap around (or panic with overflow checks). C57_every_number says what every number answers; the property itself is proved below 2^60."
  },
  {
   "property": "C58",
   "status": "partial",
   "theorems": [
    "Verif.Props.C58_refines",
    "Verif.Props.C58_alone",
    "Verif.Props.C58_map_atomic",
    "Verif.Props.C58_log_atomic",
    "Verif.Props.C58_reads",
    "Verif.Props.C58_not_lost",
    "Verif.Props.C58_last_write",
    "Verif.Props.C58_settled",
    "Verif.Props.C58_latest_partial",
    "Verif.Props.C58_latest_false"
   ],
   "note": "C58_latest_false: two appends under one key can be recorded in the other order than stored, and then get answers the older one for good. C58_latest_partial: appends under the key do not overlap. All other parts are proved, at the granularity of lock sections and atomic accesses, also if the system may refuse to extend or to map the files of the log (sys = true)."
  },
  {
   "property": "C59",
   "status": "partial",
   "theorems": [
    "Verif.Props.C59_failure_partial",
    "Verif.Props.C59_failure_false"
   ],
   "note": "C59_failure_false: inputs taken before the failure are lost."
  },
  {
   "property": "C60",
   "status": "partial",
   "theorems": [
    "Verif.Props.C60_answers_partial",
    "Verif.Props.C60_free_inputs_false",
    "Verif.Props.C60_unknown_asset_false"
   ],
   "note": "Proved when inputs cost something, accumulators are positive, the asset identifiers are known and sizes are far from the limit; false for free inputs (C60_free_inputs_false) and for assets only fixed inputs carry (C60_unknown_asset_false)."
  },
  {
   "property": "C61",
   "status": "partial",
   "theorems": [
    "Verif.Props.C61_fee_partial",
    "Verif.Props.C61_one_asset",
    "Verif.Props.C61_exact",
    "Verif.Props.C61_size_partial",
    "Verif.Props.C61_two_assets_false",
    "Verif.Props.C61_magic_size_false"
   ],
   "note": "Proved for the fee of every plan transaction whose outputs have at most 147 bytes (always so with at most one asset), with or without protocol magic, with the exact condition on any transaction (C61_exact), and for the size without protocol magic. False with two assets in an output (C61_two_assets_false); the reported size is far too small after a protocol magic (C61_magic_size_false)."
  },
  {
   "property": "C62",
   "status": "partial",
   "theorems": [
    "Verif.Props.C62_read",
    "Verif.Props.C62_script",
    "Verif.Props.C62_quorum_partial",
    "Verif.Props.C62_same_key_false",
    "Verif.Props.C62_locked_false",
    "Verif.Props.C62_address",
    "Verif.Props.C62_spends",
    "Verif.Props.C62_network_false"
   ],
   "note": "Reading and the script rule hold for every plan; the quorum claim holds if the keys differ. False when a key is repeated (C62_same_key_false), a quorum above the number of keys is accepted and locks funds (C62_locked_false), networks 0 and 16 share addresses (C62_network_false)."
  },
  {
   "property": "C63",
   "status": "partial",
   "theorems": [
    "Verif.Props.C63_pure_partial",
    "Verif.Props.C63_assets_false"
   ],
   "note": "Proved for outputs without assets; false for every output with assets (C63_assets_false): the minimum is computed for the output without them."
  },
  {
   "property": "C64",
   "status": "partial",
   "theorems": [
    "Verif.Props.C64_networks",
    "Verif.Props.C64_distinct",
    "Verif.Props.C64_network_id_false",
    "Verif.Props.C64_network_id_partial",
    "Verif.Props.C64_facts",
    "Verif.Props.C64_first_slot",
    "Verif.Props.C64_start_point",
    "Verif.Props.C64_relays",
    "Verif.Props.C64_event",
    "Verif.Props.C64_epochs_monotone",
    "Verif.Props.C64_no_epoch"
   ],
   "note": "All proved except that the network identifier tells the main network from test networks: proved for the others (C64_network_id_partial), false for one, the sancho configuration carries the identifier of the main network (C64_network_id_false)."
  },
  {
   "property": "C65",
   "status": "partial",
   "theorems": [
    "Verif.Props.C65_since_read",
    "Verif.Props.C65_since_panic_false",
    "Verif.Props.C65_consecutive",
    "Verif.Props.C65_from_genesis",
    "Verif.Props.C65_end_partial",
    "Verif.Props.C65_goes_on",
    "Verif.Props.C65_fork_false"
   ],
   "note": "Reading and the absence of gaps are proved for every schedule. False: an option without comma panics instead of an error (C65_since_panic_false); after a fork of the printed block the tool ends as if it had printed everything (C65_fork_false). The end is at the tip if the last printed block is still on the chain (C65_end_partial)."
  },
  {
   "property": "C66",
   "status": "partial",
   "theorems": [
    "Verif.Props.C66_refused",
    "Verif.Props.C66_recovers_partial",
    "Verif.Props.C66_index_failure_false",
    "Verif.Props.C66_readonly",
    "Verif.Props.C66_unreadable"
   ],
   "note": "Proved for every history with refusals to extend or map files, for read-only maps and for unreadable records; for any failures of the log files and of the key index, recovery of the acknowledged values and keys is proved for users who reopen after an error of the log (C66_recovers_partial). False when the key index refuses the key after the log took the record (C66_index_failure_false)."
  },
  {
   "property": "C67",
   "status": "partial",
   "theorems": [
    "Verif.Props.C67_shape",
    "Verif.Props.C67_amounts_partial",
    "Verif.Props.C67_whole",
    "Verif.Props.C67_minimum_false",
    "Verif.Props.C67_empty_false"
   ],
   "note": "Shape, bounds and wholeness are proved for every run that answers. False: a split change can hold less than the minimum of an output (C67_minimum_false), a change can hold an asset with quantity zero (C67_empty_false)."
  },
  {
   "property": "C68",
   "status": "partial",
   "theorems": [
    "Verif.Props.C68_succeeds_partial",
    "Verif.Props.C68_covered_false",
    "Verif.Props.C68_outputs_false",
    "Verif.Props.C68_bundles_false",
    "Verif.Props.C68_exact_false"
   ],
   "note": "Proved for every request that has something to select and an output, with enough in UTxOs of at most one asset and amounts not met exactly. False: covered by the fixed inputs (C68_covered_false), no fixed outputs (C68_outputs_false), asset only in UTxOs with several assets (C68_bundles_false), amount of an asset met exactly (C68_exact_false)."
  },
  {
   "property": "C69",
   "status": "partial",
   "theorems": [
    "Verif.Props.C69_succeeds_partial",
    "Verif.Props.C69_shared_false",
    "Verif.Props.C69_covered_false",
    "Verif.Props.C69_bundles_false"
   ],
   "note": "Proved under the stated sufficient condition. False for the plain sum: outputs that share an input (C69_shared_false), payments the fixed inputs cover (C69_covered_false), several assets in one UTxO (C69_bundles_false)."
  },
  {
   "property": "C70",
   "status": "proved",
   "theorems": [
    "Verif.Props.C70_better"
   ],
   "note": "For every stream of random numbers."
  },
  {
   "property": "C71",
   "status": "partial",
   "theorems": [
    "Verif.Props.C71_accepted_partial",
    "Verif.Props.C71_exact_false"
   ],
   "note": "Proved when no asset is met exactly, every UTxO is worth its own cost and outputs have at most 147 bytes. False when an asset is met exactly (C71_exact_false); for the other two conditions see C50_dust_false and C61_two_assets_false."
  },
  {
   "property": "C72",
   "status": "partial",
   "theorems": [
    "Verif.Props.C72_size_partial",
    "Verif.Props.C72_needed_false"
   ],
   "note": "Proved when k of the chosen UTxOs suffice and fit. False for requests that need too many UTxOs: the answer is above the limit (C72_needed_false)."
  },
  {
   "property": "C73",
   "status": "partial",
   "theorems": [
    "Verif.Props.C73_fee_change_partial",
    "Verif.Props.C73_single_change_partial"
   ],
   "note": "Proved for outputs and change of at most 147 bytes, which at most one asset never exceeds; C61 shows that two assets can exceed the estimate."
  },
  {
   "property": "C74",
   "status": "partial",
   "theorems": [
    "Verif.Props.C74_affordable",
    "Verif.Props.C74_only_affordable",
    "Verif.Props.C74_accepted_partial",
    "Verif.Props.C74_change_false"
   ],
   "note": "Answering, books and fee hold for every affordable request. The change can be negative when what is left is less than the fee of the change output (C74_change_false); acceptance by the ledger is proved for answers a transaction can be made from, with outputs of at most 147 bytes."
  },
  {
   "property": "C75",
   "status": "partial",
   "theorems": [
    "Verif.Props.C75_unreleased_partial",
    "Verif.Props.C75_released_stuck",
    "Verif.Props.C75_resume_false",
    "Verif.Props.C75_again_false"
   ],
   "note": "Proved if no block was released between the moment the disk holds and the loss. False otherwise: if a block on disk is confirmed, every later pull fails for good (C75_released_stuck, C75_resume_false); if none is, a block can be received again (C75_again_false)."
  },
  {
   "property": "C76",
   "status": "partial",
   "theorems": [
    "Verif.Props.C76_acknowledged",
    "Verif.Props.C76_one_page_partial",
    "Verif.Props.C76_answers_partial",
    "Verif.Props.C76_gap_false",
    "Verif.Props.C76_lost_false"
   ],
   "note": "Acknowledged records survive every power failure, and what is found of the batch in flight is right, empty or absent (C76_acknowledged). A prefix of the batch, and everything after, is proved when its index entries lie in one page of 4096 bytes; with several pages it is false: gaps (C76_gap_false), and a record acknowledged after such a gap can be lost (C76_lost_false)."
  },
  {
   "property": "C77",
   "status": "partial",
   "theorems": [
    "Verif.Props.C77_asset_exact",
    "Verif.Props.C77_asset_partial",
    "Verif.Props.C77_main",
    "Verif.Props.C77_share_false"
   ],
   "note": "C77_asset_exact says for every configuration which of four outcomes the change of an asset has. The statement itself is proved for configurations whose minimum pays for an output with half of it (otherwise half of the asset is lost, C49_assets_false). A share of one accumulator as an upper bound is false (C77_share_false)."
  },
  {
   "property": "C78",
   "status": "partial",
   "theorems": [
    "Verif.Props.C78_largest_first",
    "Verif.Props.C78_single_change",
    "Verif.Props.C78_thermostat_partial",
    "Verif.Props.C78_accepted",
    "Verif.Props.C78_answered",
    "Verif.Props.C78_thermostat_false"
   ],
   "note": "Proved for largest-first, the single-change balancer and the thermostat without assets. False for the thermostat with assets (C78_thermostat_false): the bytes of the assets are not in the fee."
  },
  {
   "property": "C79",
   "status": "partial",
   "theorems": [
    "Verif.Props.C79_accepts_pointer",
    "Verif.Props.C79_accepts_asset",
    "Verif.Props.C79_accepts_output",
    "Verif.Props.C79_accepts_utxo",
    "Verif.Props.C79_accepts_transaction",
    "Verif.Props.C79_accepts_block",
    "Verif.Props.C79_accepts_log_config",
    "Verif.Props.C79_accepts_point",
    "Verif.Props.C79_accepts_rule",
    "Verif.Props.C79_text",
    "Verif.Props.C79_trailing",
    "Verif.Props.C79_equal_keys",
    "Verif.Props.C79_transaction_partial",
    "Verif.Props.C79_utxo_partial",
    "Verif.Props.C79_output",
    "Verif.Props.C79_block",
    "Verif.Props.C79_store",
    "Verif.Props.C79_tip",
    "Verif.Props.C79_point",
    "Verif.Props.C79_rule",
    "Verif.Props.C79_log_config",
    "Verif.Props.C79_order",
    "Verif.Props.C79_unknown_refused",
    "Verif.Props.C79_unknown_ignored",
    "Verif.Props.C79_omitted",
    "Verif.Props.C79_transaction_false"
   ],
   "note": "Proved for metadata within the nesting depth the reader accepts (126 levels, 124 inside the outputs of a transaction); deeper metadata are written and then refused (C79_transaction_false)."
  },
  {
   "property": "C80",
   "status": "partial",
   "theorems": [
    "Verif.Props.C80_plan",
    "Verif.Props.C80_plan_file",
    "Verif.Props.C80_network",
    "Verif.Props.C80_public",
    "Verif.Props.C80_costs_partial",
    "Verif.Props.C80_public_costs",
    "Verif.Props.C80_network_false",
    "Verif.Props.C80_thermostat",
    "Verif.Props.C80_thermostat_false",
    "Verif.Props.C80_era",
    "Verif.Props.C80_era_false",
    "Verif.Props.C80_era_partial",
    "Verif.Props.C80_rule"
   ],
   "note": "Which documents are accepted and what is read from them is exact. That an accepted configuration can be used without a panic is false for networks, thermostat and eras (C80_network_false, C80_thermostat_false, C80_era_false), proved for networks with numbers for amounts (C80_costs_partial), eras with positive epoch length (C80_era_partial), and the thermostat with positive accumulators in C60."
  },
  {
   "property": "C81",
   "status": "partial",
   "theorems": [
    "Verif.Props.C81_released",
    "Verif.Props.C81_never_undone",
    "Verif.Props.C81_answers",
    "Verif.Props.C81_catches_up_count_partial",
    "Verif.Props.C81_progress",
    "Verif.Props.C81_returns",
    "Verif.Props.C81_catches_up_partial",
    "Verif.Props.C81_no_position_false",
    "Verif.Props.C81_genesis_false",
    "Verif.Props.C81_skipped_block_false"
   ],
   "note": "Safety (C81_released, C81_never_undone) and progress are proved for all schedules; catching up, after restarts and crashes too, is proved for a start position on the chain or after the first received block (C81_catches_up_partial) and false otherwise (C81_no_position_false, C81_genesis_false). Assumes blocks can be converted (C81_skipped_block_false shows the gap otherwise) and, for crashes, a consumer that began without a position (see C23)."
  },
  {
   "property": "C82",
   "status": "partial",
   "theorems": [
    "Verif.Props.C82_chain",
    "Verif.Props.C82_stable",
    "Verif.Props.C82_progress",
    "Verif.Props.C82_returns",
    "Verif.Props.C82_catches_up_count_partial",
    "Verif.Props.C82_catches_up_partial",
    "Verif.Props.C82_early_fork_false",
    "Verif.Props.C82_return_false",
    "Verif.Props.C82_restart_false",
    "Verif.Props.C82_skipped_block_false"
   ],
   "note": "Safety (C82_chain, C82_stable) and progress are proved for all schedules with restarts at quiet moments; catching up is proved once d blocks have been received or if the chain only grows, to a chain longer than those before (C82_catches_up_partial). False otherwise: C82_early_fork_false, C82_return_false, C82_restart_false, C82_skipped_block_false."
  },
  {
   "property": "C83",
   "status": "proved",
   "theorems": [
    "Verif.Props.C83_recovers",
    "Verif.Props.C83_calls",
    "Verif.Props.C83_kept",
    "Verif.Props.C83_keys_designate",
    "Verif.Props.C83_get",
    "Verif.Props.C83_iter",
    "Verif.Props.C83_found",
    "Verif.Props.C83_append",
    "Verif.Props.C83_key_after_power_false"
   ],
   "note": "Any threads, reopenings, process deaths and power failures; the key index (sled) comes back as some earlier version of itself. The last sentence of the statement is witnessed by C83_key_after_power_false."
  },
  {
   "property": "C84",
   "status": "partial",
   "theorems": [
    "Verif.Props.C84_never_twice",
    "Verif.Props.C84_available_partial",
    "Verif.Props.C84_available_within",
    "Verif.Props.C84_inputs_partial",
    "Verif.Props.C84_thermostat_inputs_partial",
    "Verif.Props.C84_random_never_twice",
    "Verif.Props.C84_lost_false",
    "Verif.Props.C84_fixed_false",
    "Verif.Props.C84_random_available_partial",
    "Verif.Props.C84_random_lost_false"
   ],
   "note": "No UTxO is chosen twice over any history (proved in full for all three algorithms). Exact availability and distinct inputs are proved outside the cases where the code is wrong: C84_lost_false, C84_random_lost_false, C84_fixed_false."
  },
  {
   "property": "C85",
   "status": "proved",
   "theorems": [
    "Verif.Props.C85_stream",
    "Verif.Props.C85_nothing",
    "Verif.Props.C85_progress",
    "Verif.Props.C85_cleared",
    "Verif.Props.C85_stop",
    "Verif.Props.C85_stopped",
    "Verif.Props.C85_connection_false"
   ],
   "note": "Holds for every schedule. C85_connection_false refutes the comment of clear_buffers (the connection is dropped at the next block), which is not part of the claim."
  },
  {
   "property": "C86",
   "status": "proved",
   "theorems": [
    "Verif.Props.C86_refines",
    "Verif.Props.C86_reopens",
    "Verif.Props.C86_reopens_after_power",
    "Verif.Props.C86_kept",
    "Verif.Props.C86_nothing_else"
   ],
   "note": "Process deaths and power failures; power failures when the index entries of the batch in flight lie in one page, see C76 for larger batches. With sys = true the system may refuse to extend or to map a file while threads share the database."
  },
  {
   "property": "C87",
   "status": "proved",
   "theorems": [
    "Verif.Props.C87_accepted",
    "Verif.Props.C87_apart",
    "Verif.Props.C87_any_order",
    "Verif.Props.C87_affordable",
    "Verif.Props.C87_again_false"
   ],
   "note": "Ledger rules: inputs, fee, balance. The thermostat only under the conditions of C49/C71 and random-improve only without repeated outputs (C42), as the statement says."
  },
  {
   "property": "C88",
   "status": "proved",
   "theorems": [
    "Verif.Props.C88_round_trip",
    "Verif.Props.C88_injective",
    "Verif.Props.C88_mistake",
    "Verif.Props.C88_prefix_false",
    "Verif.Props.C88_bytes",
    "Verif.Props.C88_whole",
    "Verif.Props.C88_pointer_bytes_false",
    "Verif.Props.C88_output"
   ],
   "note": "Base, pointer, enterprise and reward addresses; Byron addresses are not modelled. C88_prefix_false shows that the reader ignores the prefix, which the statement says; C88_pointer_bytes_false that a pointer can be written in several ways, which it says too."
  },
  {
   "property": "C89",
   "status": "partial",
   "theorems": [
    "Verif.Props.C89_address",
    "Verif.Props.C89_verdict",
    "Verif.Props.C89_distinct",
    "Verif.Props.C89_no_panic_partial",
    "Verif.Props.C89_panic_false"
   ],
   "note": "Proved but for panics: C89_panic_false, the tool panics when the body of a successful answer breaks off; C89_no_panic_partial says that this is the only case."
  },
  {
   "property": "C90",
   "status": "partial",
   "theorems": [
    "Verif.Props.C90_line",
    "Verif.Props.C90_lines",
    "Verif.Props.C90_chain",
    "Verif.Props.C90_chain_partial",
    "Verif.Props.C90_rollback_false"
   ],
   "note": "Proved but for the last sentence: C90_rollback_false, rollbacks are not printed, so after one the lines show abandoned blocks until the next block; C90_chain_partial says exactly what they show then."
  },
  {
   "property": "C91",
   "status": "partial",
   "theorems": [
    "Verif.Props.C91_files",
    "Verif.Props.C91_mappings_partial",
    "Verif.Props.C91_extensions",
    "Verif.Props.C91_memory",
    "Verif.Props.C91_mappings_false"
   ],
   "note": "Proved on disk. In memory the number of mappings is not bounded (C91_mappings_false): every stored batch is a mapping of its own (C91_memory), since get_new_mmap_size rounds up and rearrange_mmaps merges for files only."
  },
  {
   "property": "C92",
   "status": "proved",
   "theorems": [
    "Verif.Props.C92_values",
    "Verif.Props.C92_outputs_equal",
    "Verif.Props.C92_outputs_ordered",
    "Verif.Props.C92_outputs_respect",
    "Verif.Props.C92_assets",
    "Verif.Props.C92_pointers"
   ],
   "note": "The text BigDecimal hands to the hasher is the contract of bigdecimal 0.4 (trusted base); the order of String is that of its characters."
  },
  {
   "property": "C93",
   "status": "partial",
   "theorems": [
    "Verif.Props.C93_exact",
    "Verif.Props.C93_refuses_torn",
    "Verif.Props.C93_refuses_partial",
    "Verif.Props.C93_total_partial",
    "Verif.Props.C93_reads",
    "Verif.Props.C93_panic_false",
    "Verif.Props.C93_wrap_false",
    "Verif.Props.C93_outside_false",
    "Verif.Props.C93_stuck_false",
    "Verif.Props.C93_append",
    "Verif.Props.C93_alias_false",
    "Verif.Props.C93_revive_false"
   ],
   "note": "C93_exact says what opening and every read and iterator step answer for arbitrary file contents. Not true of the code, hence partial: only the last entry is checked on opening (C93_outside_false), its end may overflow (C93_panic_false with overflow checks, C93_wrap_false without), and an entry that names too many bytes keeps an iterator at its place for ever (C93_stuck_false). Records appended to such a database are read back and leave what was read before as it was (C93_append); but an entry behind the data then shows bytes of the new records (C93_alias_false), and entries left behind the end of the index come back when the files are opened again (C93_revive_false)."
  },
  {
   "property": "C94",
   "status": "partial",
   "theorems": [
    "Verif.Props.C94_same_number",
    "Verif.Props.C94_root_panics",
    "Verif.Props.C94_disk_false",
    "Verif.Props.C94_unopenable_false",
    "Verif.Props.C94_listed_false"
   ],
   "note": "Proved for a block with the number of the stored one, up to what is on disk. The rest is not true of the code: the other block is written to disk before the check (C94_disk_false); with another number it replaces the stored one and is listed twice (C94_listed_false), or the insertion panics (C94_root_panics) and the store cannot be opened again (C94_unopenable_false)."
  },
  {
   "property": "C95",
   "status": "partial",
   "theorems": [
    "Verif.Props.C95_exact",
    "Verif.Props.C95_first",
    "Verif.Props.C95_count",
    "Verif.Props.C95_kept",
    "Verif.Props.C95_heard_false",
    "Verif.Props.C95_pace_false"
   ],
   "note": "Proved for what the handler sends (C95_exact, C95_first, C95_count). An announcement to a receiver that is gone counts as made, so the consumer may miss it (C95_heard_false); a pace that reaches before the range of the clock makes the handler panic at its start (C95_pace_false)."
  },
  {
   "property": "C96",
   "status": "partial",
   "theorems": [
    "Verif.Props.C96_exact",
    "Verif.Props.C96_order",
    "Verif.Props.C96_slots",
    "Verif.Props.C96_total_false"
   ],
   "note": "Proved below 2^63 (C96_exact says exactly when); from there on the conversion panics (C96_total_false)."
  },
  {
   "property": "C97",
   "status": "partial",
   "theorems": [
    "Verif.Props.C97_exact",
    "Verif.Props.C97_inside",
    "Verif.Props.C97_cut",
    "Verif.Props.C97_nested",
    "Verif.Props.C97_database",
    "Verif.Props.C97_wrap_false",
    "Verif.Props.C97_wrap_exact"
   ],
   "note": "Exact for every range (C97_exact) but one: a range that starts after usize::MAX wraps around to the whole view, or panics with overflow checks (C97_wrap_exact, C97_wrap_false). It never reaches outside the view (C97_inside)."
  },
  {
   "property": "C98",
   "status": "partial",
   "theorems": [
    "Verif.Props.C98_released_partial",
    "Verif.Props.C98_plain",
    "Verif.Props.C98_followed",
    "Verif.Props.C98_skip_false",
    "Verif.Props.C98_restart_false"
   ],
   "note": "While one chain is delivered, blocks come in order and only those d blocks before a boundary block can be missing (C98_released_partial). They can be: C98_skip_false; and after a restart more (C98_restart_false). The fork handling source follows such a chain to its end (C98_followed). Changes of the chain are not treated with boundary blocks."
  },
  {
   "property": "C99",
   "status": "proved",
   "theorems": [
    "Verif.Props.C99_close",
    "Verif.Props.C99_exact",
    "Verif.Props.C99_whole",
    "Verif.Props.C99_truncate",
    "Verif.Props.C99_exact_false",
    "Verif.Props.C99_truncate_false",
    "Verif.Props.C99_thermostat",
    "Verif.Props.C99_assets"
   ],
   "note": "Division of bigdecimal 0.4.2 is written out and trusted, since the crate is not part of the repository. C99_exact_false and C99_truncate_false: quotients are not exact in general, and for amounts that are not whole truncation can give the next whole number."
  },
  {
   "property": "C100",
   "status": "proved",
   "theorems": [
    "Verif.Props.C100_domains",
    "Verif.Props.C100_isolated",
    "Verif.Props.C100_unreadable",
    "Verif.Props.C100_lossy_false"
   ],
   "note": "For encodings that read back what they write, any interleaving of requests to any number of domains, one multiverse open in each. C100_lossy_false: a block that cannot be read back is inserted without an error, and the domain does not open again. Several multiverses in the same domain are treated by C109."
  },
  {
   "property": "C101",
   "status": "proved",
   "theorems": [
    "Verif.Props.C101_fewest",
    "Verif.Props.C101_bound",
    "Verif.Props.C101_assets_false"
   ],
   "note": "For estimators with a constant fee for an input, as the linear estimator has. C101_assets_false: with assets the choice is not always the smallest."
  },
  {
   "property": "C102",
   "status": "partial",
   "theorems": [
    "Verif.Props.C102_assets",
    "Verif.Props.C102_main",
    "Verif.Props.C102_plain",
    "Verif.Props.C102_consolidated",
    "Verif.Props.C102_config_false",
    "Verif.Props.C102_main_false"
   ],
   "note": "Proved for every run that answers, with the number of accumulators for ada, which the code uses for assets too: the number configured for assets is ignored (C102_config_false). UTxOs of ada are not consolidated by a request with assets, although the comment in the code says so (C102_main_false)."
  },
  {
   "property": "C103",
   "status": "proved",
   "theorems": [
    "Verif.Props.C103_call",
    "Verif.Props.C103_like_new",
    "Verif.Props.C103_offer"
   ],
   "note": "C103_call: a payment with an object in any state is the payment the other thermostat theorems are about."
  },
  {
   "property": "C104",
   "status": "proved",
   "theorems": [
    "Verif.Props.C104_largest",
    "Verif.Props.C104_plain",
    "Verif.Props.C104_thermostat_plain",
    "Verif.Props.C104_thermostat",
    "Verif.Props.C104_ties_false",
    "Verif.Props.C104_thermostat_ties_false",
    "Verif.Props.C104_keys_false",
    "Verif.Props.C104_random"
   ],
   "note": "Without the conditions it is false: ties that hold something else change the number of inputs (C104_ties_false, C104_thermostat_ties_false), and with two assets the order of a hash map changes the values of the changes (C104_keys_false)."
  },
  {
   "property": "C105",
   "status": "proved",
   "theorems": [
    "Verif.Props.C105_verdict",
    "Verif.Props.C105_question",
    "Verif.Props.C105_questions_differ"
   ],
   "note": "miniserde is assumed to write and read JSON as described in Verif/Cardano/Carp.lean."
  },
  {
   "property": "C106",
   "status": "proved",
   "theorems": [
    "Verif.Props.C106_reason",
    "Verif.Props.C106_put",
    "Verif.Props.C106_goes_on"
   ],
   "note": "For the only handle (C10 for dropped clones). That an append is acknowledged does not say that its record is read back after a failure: C11."
  },
  {
   "property": "C107",
   "status": "partial",
   "theorems": [
    "Verif.Props.C107_shows_partial",
    "Verif.Props.C107_grows",
    "Verif.Props.C107_opens_partial",
    "Verif.Props.C107_harmless",
    "Verif.Props.C107_hangs_false",
    "Verif.Props.C107_fault_false",
    "Verif.Props.C107_damaged_false"
   ],
   "note": "That the opening always ends with a handle is false: a record completed while the search for the end runs can make it loop for ever (C107_hangs_false) or call a sound index damaged (C107_damaged_false), and a writer that closes cuts the index file under the mapping of the search, a bus error (C107_fault_false). Everything about an opening that ends is proved."
  },
  {
   "property": "C108",
   "status": "partial",
   "theorems": [
    "Verif.Props.C108_cut",
    "Verif.Props.C108_cut_closed",
    "Verif.Props.C108_kept_false",
    "Verif.Props.C108_overwritten_false",
    "Verif.Props.C108_numbers",
    "Verif.Props.C108_given_twice",
    "Verif.Props.C108_mixed_false",
    "Verif.Props.C108_fault_false"
   ],
   "note": "False: C108_kept_false (an idle second handle cuts off acknowledged records when it is closed), C108_overwritten_false (both handles give out number 0 and one record replaces the other), C108_mixed_false (a read answers a record that nobody appended), C108_fault_false (an append through one handle cuts the files under a long record of the other; reading it is a bus error). C108_cut and C108_cut_closed say exactly what is left when the second handle appends nothing; when both append, each gives out numbers by its own count, whatever the other does (C108_numbers), so the same numbers are given twice (C108_given_twice); which bytes are then read is only shown by the witnesses."
  },
  {
   "property": "C109",
   "status": "partial",
   "theorems": [
    "Verif.Props.C109_views_partial",
    "Verif.Props.C109_one_writer",
    "Verif.Props.C109_panic_false",
    "Verif.Props.C109_tip_false"
   ],
   "note": "Proved for all interleavings in which no multiverse is given again a block that it has after another one removed it (C109_views_partial), which always holds with one writer (C109_one_writer). False otherwise: the insertion panics (C109_panic_false) or makes a block with a child a tip (C109_tip_false). Calls are taken one after the other."
  },
  {
   "property": "C110",
   "status": "partial",
   "theorems": [
    "Verif.Props.C110_readonly",
    "Verif.Props.C110_prudent_partial",
    "Verif.Props.C110_reads",
    "Verif.Props.C110_lost_false",
    "Verif.Props.C110_fault_false"
   ],
   "note": "Openings for reading change nothing (C110_readonly) and no opening disturbs a read (C110_reads). Openings for writing: proved when nothing is appended after them before the next reopening (C110_prudent_partial); otherwise false: C110_lost_false (an acknowledged value is gone after the next opening), C110_fault_false (the append kills the process). That sled refuses a directory that is open elsewhere is assumed; the attempt is taken between two calls of the open map."
  },
  {
   "property": "C111",
   "status": "proved",
   "theorems": [
    "Verif.Props.C111_fee",
    "Verif.Props.C111_no_address",
    "Verif.Props.C111_linear",
    "Verif.Props.C111_exact_false"
   ],
   "note": "C111_fee for every estimator with constant costs that are not negative, C111_no_address, and C111_linear with a bound for the estimator of the library. Together with C50 the fee lies between the minimum and that bound. That the fee is exactly the minimum is refuted by C111_exact_false."
  },
  {
   "property": "C112",
   "status": "proved",
   "theorems": [
    "Verif.Props.C112_few",
    "Verif.Props.C112_fewest_false"
   ],
   "note": "C112_few for every draw, estimator and list of outputs (also listed twice). Token identifiers must be of the form policy:name. That it is the fewest possible is refuted by C112_fewest_false."
  },
  {
   "property": "C113",
   "status": "partial",
   "theorems": [
    "Verif.Props.C113_any_choice",
    "Verif.Props.C113_more",
    "Verif.Props.C113_more_assets",
    "Verif.Props.C113_dust_false",
    "Verif.Props.C113_thermostat_false"
   ],
   "note": "Proved for largest-first: without assets for every set of UTxOs (C113_any_choice, C113_more), with assets if every UTxO is worth its cost (C113_more_assets). False otherwise (C113_dust_false), and false for the thermostat (C113_thermostat_false). For random-improve see C114."
  },
  {
   "property": "C114",
   "status": "partial",
   "theorems": [
    "Verif.Props.C114_run",
    "Verif.Props.C114_order",
    "Verif.Props.C114_exact",
    "Verif.Props.C114_more",
    "Verif.Props.C114_one_draw_false",
    "Verif.Props.C114_assets_false"
   ],
   "note": "C114_run, C114_order, C114_exact and C114_more for payments without assets, every draw, every estimator that answers. With assets the claim about further UTxOs is refuted by C114_assets_false, for one and the same random numbers by C114_one_draw_false."
  },
  {
   "property": "C115",
   "status": "partial",
   "theorems": [
    "Verif.Props.C115_history",
    "Verif.Props.C115_again",
    "Verif.Props.C115_remove_false",
    "Verif.Props.C115_back",
    "Verif.Props.C115_asks_again",
    "Verif.Props.C115_skips_false",
    "Verif.Props.C115_insert_skips_false",
    "Verif.Props.C115_restart_partial",
    "Verif.Props.C115_fork_asks_again",
    "Verif.Props.C115_fork_panics_false",
    "Verif.Props.C115_fork_restart_false",
    "Verif.Props.C115_fork_heals_partial"
   ],
   "note": "C115_history, C115_again, C115_back and C115_asks_again in full. That a removal that fails has no effect is refuted by C115_remove_false; that a consumer that pulls on misses nothing by C115_skips_false and C115_insert_skips_false. With a restart on each error it is proved for consumers that began without position (C115_restart_partial). Of the fork handling source it is proved for insertions that fail (C115_fork_asks_again) and false for removals that fail, with restarts (C115_fork_restart_false) and without if two fail in a row (C115_fork_panics_false); without restarts it is proved if insertions fail and if removals fail, but not in two pulls with new blocks in a row (C115_fork_heals_partial)."
  },
  {
   "property": "C116",
   "status": "partial",
   "theorems": [
    "Verif.Props.C116_exact",
    "Verif.Props.C116_order_partial",
    "Verif.Props.C116_reopened",
    "Verif.Props.C116_history_partial",
    "Verif.Props.C116_order_false"
   ],
   "note": "C116_exact says for every order what is shown: a block is linked to its parent exactly if the parent was there when it came first. So the order does not matter if parents come before their children (C116_order_partial), with removals in between if also no block comes again after its removal (C116_history_partial), and it does not matter after opening again, if everything is saved and parents have smaller numbers (C116_reopened). A block that comes before its parent stays apart from it while the multiverse is open: the parent counts as a tip and no ancestor can be selected (C116_order_false)."
  },
  {
   "property": "C117",
   "status": "partial",
   "theorems": [
    "Verif.Props.C117_kept",
    "Verif.Props.C117_after_crashes",
    "Verif.Props.C117_few",
    "Verif.Props.C117_crashes",
    "Verif.Props.C117_at_least",
    "Verif.Props.C117_fork_kept",
    "Verif.Props.C117_fork_queue",
    "Verif.Props.C117_crashes_false"
   ],
   "note": "Proved without crashes (C117_kept, C117_few), after the first new block that follows crashes (C117_after_crashes), with one block more per crash in between (C117_crashes) and nothing missing (C117_at_least), and for the fork handling source under the conditions of C25 (C117_fork_kept, C117_fork_queue). A bound that does not depend on the number of crashes is refuted: a process that dies with every new block removes nothing, although its consumer gets on (C117_crashes_false)."
  },
  {
   "property": "C118",
   "status": "proved",
   "theorems": [
    "Verif.Props.C118_asks",
    "Verif.Props.C118_crashes",
    "Verif.Props.C118_linear",
    "Verif.Props.C118_fork_asks"
   ],
   "note": "Exact for the multiverse source (C118_asks, C118_linear) for runs without crashes; with crashes C118_crashes. For the fork handling source under the conditions of C25 (C118_fork_asks)."
  },
  {
   "property": "C119",
   "status": "partial",
   "theorems": [
    "Verif.Props.C119_random",
    "Verif.Props.C119_less",
    "Verif.Props.C119_less_assets",
    "Verif.Props.C119_thermostat_partial",
    "Verif.Props.C119_dust_false",
    "Verif.Props.C119_thermostat_false",
    "Verif.Props.C119_exact_false"
   ],
   "note": "Proved for largest-first: requests without assets (C119_less), with assets if every UTxO is worth its cost (C119_less_assets); for the thermostat without assets when the fixed inputs do not cover the payment (C119_thermostat_partial); for random-improve without assets, draw by draw (C119_random); random-improve with assets is not settled. False otherwise: C119_dust_false, C119_thermostat_false (fixed inputs cover the smaller payment), C119_exact_false (an asset is met exactly)."
  },
  {
   "property": "C120",
   "status": "partial",
   "theorems": [
    "Verif.Props.C120_same",
    "Verif.Props.C120_token_partial",
    "Verif.Props.C120_undo",
    "Verif.Props.C120_names_false",
    "Verif.Props.C120_duplicates_false"
   ],
   "note": "Proved for every query but those about one token (C120_same, C120_undo), and for balance and ordered listings of a token that no UTxO names twice (C120_token_partial). False for UTxOs that name a token twice (C120_duplicates_false) and for the names of an asset, which the first UTxO sets for good (C120_names_false)."
  },
  {
   "property": "C121",
   "status": "partial",
   "theorems": [
    "Verif.Props.C121_taken_back",
    "Verif.Props.C121_put_back_partial",
    "Verif.Props.C121_put_back_false"
   ],
   "note": "Taking back a new block holds after every history and whatever references are kept (C121_taken_back; a block is not its own parent). Putting a removed block back is proved for tips that hung on their parent, or whose parent is not stored, and that are saved exactly if a block of their number is saved now (C121_put_back_partial). False for a block with a child: the child stays apart (C121_put_back_false)."
  }
 ]
}