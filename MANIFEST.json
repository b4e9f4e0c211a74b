{
 "claims": [
  {
   "property": "C01",
   "status": "proved",
   "theorems": [
    "Verif.IntCodec.C01_int_roundtrip",
    "Verif.IntCodec.C01_int_encoding_meaning"
   ],
   "note": "all integers"
  },
  {
   "property": "C02",
   "status": "proved",
   "theorems": [
    "Verif.IntCodec.C02_int_encoding_shortest",
    "Verif.IntCodec.C02_int_encoding_canonical",
    "Verif.IntCodec.C02_int_encoding_injective"
   ],
   "note": "all integers"
  },
  {
   "property": "C03",
   "status": "proved",
   "theorems": [
    "Verif.Address.C03_parse_exact",
    "Verif.Address.C03_print_parse",
    "Verif.Address.C03_go_agrees",
    "Verif.Address.C03_go_lenient",
    "Verif.Address.C03_go_lenient_value"
   ],
   "note": "all strings; the Go parser is more lenient, stated in C03_go_lenient and C03_go_lenient_value"
  },
  {
   "property": "C04",
   "status": "proved",
   "theorems": [
    "Verif.Address.C04_bytes_roundtrip",
    "Verif.Address.C04_bytes_decode",
    "Verif.Address.C04_bytes_injective",
    "Verif.Address.C04_from_int"
   ],
   "note": ""
  },
  {
   "property": "C05",
   "status": "proved",
   "theorems": [
    "Verif.Keys.C05_slot_injective",
    "Verif.Keys.C05_root_containers",
    "Verif.Keys.C05_raw_subdb_alias",
    "Verif.Keys.C05_go_agrees"
   ],
   "note": "components below 2^53 bytes; C05_raw_subdb_alias records that raw sub databases are outside the guarantee"
  },
  {
   "property": "C06",
   "status": "proved",
   "theorems": [
    "Verif.Container.C06_dictdb_is_map",
    "Verif.Container.C06_dictdb_fresh",
    "Verif.Container.C06_depth_mismatch",
    "Verif.Container.C09_key_type_alias"
   ],
   "note": "hash assumed injective; empty text/bytes are not stored (part of the specification)"
  },
  {
   "property": "C07",
   "status": "proved",
   "theorems": [
    "Verif.Container.C07_arraydb_is_list",
    "Verif.Container.C07_arraydb_fresh",
    "Verif.Container.C07_iteration",
    "Verif.Container.C07_contains",
    "Verif.Container.C07_empty_text_not_found"
   ],
   "note": "hash assumed injective; membership of the empty text is a recorded deviation"
  },
  {
   "property": "C08",
   "status": "proved",
   "theorems": [
    "Verif.Container.C08_vardb_is_variable",
    "Verif.Container.C08_vardb_fresh",
    "Verif.Container.C08_empty_bytes_lost"
   ],
   "note": ""
  },
  {
   "property": "C09",
   "status": "proved",
   "theorems": [
    "Verif.Container.C09_isolation",
    "Verif.Container.C09_subdb_array_alias",
    "Verif.Container.C09_key_type_alias"
   ],
   "note": "containers on the SCORE database; sub-database arrays can alias (witness)"
  },
  {
   "property": "C10",
   "status": "proved",
   "theorems": [
    "Verif.PyExec.C10_used_le_limit",
    "Verif.PyExec.C10_charge_all_or_nothing",
    "Verif.PyExec.havahCosts_sane"
   ],
   "note": "for every contract, history, pipeline depth and schedule; price tables in which replacing and deleting are not charged (proved for the HAVAH defaults). Steps used may be negative (Demo)."
  },
  {
   "property": "C11",
   "status": "proved",
   "theorems": [
    "Verif.PyExec.C11_pipeline_is_synchronous",
    "Verif.PyExec.C11_depth_and_schedule_irrelevant",
    "Verif.PyExec.C11_reads_see_writes"
   ],
   "note": "refinement of a direct semantics (Verif/PyExec/Spec.lean); same price table hypothesis; counterexamples for other tables in Demo."
  },
  {
   "property": "C12",
   "status": "proved",
   "theorems": [
    "Verif.Typed.C12_python_roundtrip",
    "Verif.Typed.C12_python_to_go",
    "Verif.Typed.C12_go_to_python",
    "Verif.Typed.C12_same_wire",
    "Verif.Typed.C12_go_roundtrip",
    "Verif.Typed.C12_encode_exact",
    "Verif.Typed.C12_injective"
   ],
   "note": "Values of any nesting; both languages and both directions; tuples come back as lists. The byte-level serializer (msgpack) is not modelled."
  },
  {
   "property": "C13",
   "status": "proved",
   "theorems": [
    "Verif.PyExec.C13_no_write_from_readonly",
    "Verif.PyExec.C13_query_changes_nothing",
    "Verif.PyExec.C13_right_restored"
   ],
   "note": "all contracts and price tables, also if the executor dies. The executor lets a read-only method of an INVOKE frame set the fee proportion (Demo); the service puts such methods in query mode."
  },
  {
   "property": "C14",
   "status": "proved",
   "theorems": [
    "Verif.Api.C14_declare_exact",
    "Verif.Api.C14_layout",
    "Verif.Api.C14_counts",
    "Verif.Api.C14_no_argument_lost",
    "Verif.Api.C14_too_many_indexed",
    "Verif.Api.C14_rejections",
    "Verif.Api.C14_reserved",
    "Verif.Api.C14_size",
    "Verif.Api.C14_same_signature",
    "Verif.Api.C14_accepted",
    "Verif.Api.C14_signature_injective",
    "Verif.Api.C14_recorded",
    "Verif.Api.C14_unknown_keyword_dropped",
    "Verif.Api.C14_negative_indexed_dropped"
   ],
   "note": "Exact set of accepted declarations and calls and the exact message; the service accepts and records it iff the declared index count is not negative. Findings: keyword arguments that name no parameter are silently dropped when a default is left open; a negative index count is accepted and all such events are dropped by the service."
  },
  {
   "property": "C15",
   "status": "proved",
   "theorems": [
    "Verif.Bloom.C15_contain_iff",
    "Verif.Bloom.C15_py_no_false_negatives",
    "Verif.Bloom.C15_py_union",
    "Verif.Bloom.C15_py_union_extend",
    "Verif.Bloom.C15_py_empty",
    "Verif.Bloom.C15_py_go_same",
    "Verif.Bloom.C15_receipt_exact",
    "Verif.Bloom.C15_block_session_exact",
    "Verif.Bloom.C15_subscription_exact",
    "Verif.Bloom.C15_size",
    "Verif.Bloom.C15_log_bits"
   ],
   "note": "Python filter and Go LogsBloom set the same bits; no false negatives, union exact, and the bloom prefilters of receipts, blocks and websocket subscriptions never drop a matching event (delivered events are exactly the wanted ones). SHA3 is an arbitrary function."
  },
  {
   "property": "C16",
   "status": "proved",
   "theorems": [
    "Verif.Batch.C16_refines",
    "Verif.Batch.C16_rollback",
    "Verif.Batch.C16_commit",
    "Verif.Batch.C16_digest_ambiguous"
   ],
   "note": "Refinement of a stack of full snapshots, for every history. Finding: the digest input does not escape its separator, so different change sets can have equal digests."
  },
  {
   "property": "C17",
   "status": "proved",
   "theorems": [
    "Verif.Package.C17_imports",
    "Verif.Package.C17_names",
    "Verif.Package.C17_all_sources",
    "Verif.Package.C17_runs_while_checking",
    "Verif.Package.C17_other_files_ignored",
    "Verif.Package.C17_many_constants_bypass",
    "Verif.Package.C17_init_runs_unchecked"
   ],
   "note": "Sound for compiled code whose constants need no prefix. Findings: a module with more than 256 constants can import anything; __init__.py is run before it is checked; compiled and native modules are not checked."
  },
  {
   "property": "C18",
   "status": "proved",
   "theorems": [
    "Verif.Api.Params.C18_call_exact",
    "Verif.Api.Params.C18_received",
    "Verif.Api.Params.C18_internal_exact",
    "Verif.Api.Params.C18_result_exact",
    "Verif.Api.Params.C18_null_replaces_default",
    "Verif.Api.Params.C18_unknown_names_ignored"
   ],
   "note": "Findings: null given from outside replaces a default other than None (calls from contracts are refused); unknown names are ignored in calls by name from contracts."
  },
  {
   "property": "C19",
   "status": "proved",
   "theorems": [
    "Verif.Codes.C19_revert",
    "Verif.Codes.C19_preserved",
    "Verif.Codes.C19_seen_by_caller",
    "Verif.Codes.C19_always_receipt",
    "Verif.Codes.C19_failure_reported",
    "Verif.Codes.C19_system_codes",
    "Verif.Codes.C19_custom_critical",
    "Verif.Codes.C19_custom_success"
   ],
   "note": "From the exception to the receipt, through any number of calls. Finding: a contract that overrides the code of its exception can make the node take it for a critical internal error, or for success."
  },
  {
   "property": "C20",
   "status": "proved",
   "theorems": [
    "Verif.Api.Dispatch.C20_only_external",
    "Verif.Api.Dispatch.C20_value",
    "Verif.Api.Dispatch.C20_user_call_restricted",
    "Verif.Api.Dispatch.C20_user_call_exact",
    "Verif.Api.Dispatch.C20_contract_call_exact",
    "Verif.Api.Dispatch.C20_query_exact",
    "Verif.Api.Dispatch.C20_transfer_exact",
    "Verif.Api.Dispatch.C20_deploy",
    "Verif.Api.Dispatch.C20_isolated_unusable",
    "Verif.Api.Dispatch.C20_negative_value_passed",
    "Verif.Api.Dispatch.C20_alias_confuses_flags"
   ],
   "note": "Soundness for every class body, exact behaviour for classes without aliases. Findings: @isolated can never be used; a contract can pass a negative value to any external method without moving coins; aliases can make the service use the flags of another definition."
  },
  {
   "property": "C21",
   "status": "proved",
   "theorems": [
    "Verif.Api.C21_accept_exact",
    "Verif.Api.C21_code",
    "Verif.Api.C21_field_code",
    "Verif.Api.C21_code_injective",
    "Verif.Api.C21_go_reads",
    "Verif.Api.C21_deep_list_misread",
    "Verif.Api.C21_deep_list_accepted"
   ],
   "note": "Exact accept set, exact code, injectivity on (depth, element), service reads the same name for depth <= 15; finding: a list nested 16 deep is accepted by the executor and misread by the service."
  },
  {
   "property": "C22",
   "status": "proved",
   "theorems": [
    "Verif.Havah.C22_balance_nonneg",
    "Verif.Havah.C22_supply_is_sum",
    "Verif.Havah.C22_transfer_exact",
    "Verif.Havah.C22_transfer_iff",
    "Verif.Havah.C22_issue_exact",
    "Verif.Havah.C22_burn_exact",
    "Verif.Havah.C22_call_supply",
    "Verif.Havah.C22_block_supply"
   ],
   "note": "Every reachable chain (any interleaving of calls and blocks): balances never negative and sum up to the total supply; exact effect of transfer, issue, burn; only burning and the term issue change the supply. Assumes no call is made by the public treasury address (nobody holds its key)."
  },
  {
   "property": "C23",
   "status": "proved",
   "theorems": [
    "Verif.Havah.C23_solvent",
    "Verif.Havah.C23_liabilities_nonneg",
    "Verif.Havah.C23_claim_pays_exactly",
    "Verif.Havah.C23_claim_never_fails",
    "Verif.Havah.C23_term_end_can_pay"
   ],
   "note": "Solvency over every reachable chain and every set of planets; claims never fail for lack of coins, pay exactly what is taken off the rewards; the term end can always pay."
  },
  {
   "property": "C24",
   "status": "proved",
   "theorems": [
    "Verif.Havah.C24_report_exact",
    "Verif.Havah.C24_once_per_term"
   ],
   "note": "Two successful reports of a planet are always in different terms, whatever happens in between; exact effect of a report."
  },
  {
   "property": "C25",
   "status": "proved",
   "theorems": [
    "Verif.Havah.C25_shares_and_rest",
    "Verif.Havah.C25_no_share_after_issue",
    "Verif.Havah.C25_report_succeeds"
   ],
   "note": "Shares plus rest equal the term reward; rest never negative; an eligible report never fails."
  },
  {
   "property": "C26",
   "status": "proved",
   "theorems": [
    "Verif.Havah.C26_rate_valid",
    "Verif.Havah.C26_set_rate",
    "Verif.Havah.C26_claim_exact",
    "Verif.Havah.C26_claimable_bounds",
    "Verif.Havah.C26_second_claim",
    "Verif.Havah.C26_monotone_in_rate",
    "Verif.Havah.C26_claimable_monotone",
    "Verif.Havah.C26_private_company_waits"
   ],
   "note": "Exact effect of claim calls including repeated ids; bounds; second claim pays nothing; monotone in the rate; the stored rate is always valid. The statement was amended: lowering the rate locks again."
  },
  {
   "property": "C27",
   "status": "proved",
   "theorems": [
    "Verif.Havah.C27_count",
    "Verif.Havah.C27_register",
    "Verif.Havah.C27_unregister",
    "Verif.Havah.C27_set_owner"
   ],
   "note": "Registry count, limit, exact conditions and effects of register/unregister/setOwner."
  },
  {
   "property": "C28",
   "status": "proved",
   "theorems": [
    "Verif.Havah.C28_schedule_shape",
    "Verif.Havah.C28_configuration_fixed",
    "Verif.Havah.C28_amount",
    "Verif.Havah.C28_block_issue",
    "Verif.Havah.C28_supply_cap"
   ],
   "note": "Issue amount of every term and supply cap over every reachable chain."
  },
  {
   "property": "C29",
   "status": "proved",
   "theorems": [
    "Verif.Havah.C29_subsidy_bounds",
    "Verif.Havah.C29_report_pays_subsidy",
    "Verif.Havah.C29_refill"
   ],
   "note": "Subsidy bounds per report and refill bounds per term."
  },
  {
   "property": "C30",
   "status": "proved",
   "theorems": [
    "Verif.Havah.C30_company_split",
    "Verif.Havah.C30_term_boundary",
    "Verif.Havah.C30_fee_split"
   ],
   "note": "Company split per report, fee split at each term boundary with all balances exact."
  },
  {
   "property": "C31",
   "status": "proved",
   "theorems": [
    "Verif.Havah.C31_managers_are_history",
    "Verif.Havah.C31_no_duplicates",
    "Verif.Havah.C31_refusals"
   ],
   "note": "Managers are exactly those added and not removed in the history; no duplicates; refusals."
  },
  {
   "property": "C32",
   "status": "proved",
   "theorems": [
    "Verif.Havah.Val.C32_node_unique",
    "Verif.Havah.Val.C32_node_never_reassigned",
    "Verif.Havah.Val.C32_lists_partition",
    "Verif.Havah.Val.C32_disqualified_forever",
    "Verif.Havah.Val.C32_self_enable_limit",
    "Verif.Havah.Val.C32_permissions"
   ],
   "note": "All histories of API calls, blocks and governance actions from any genesis."
  },
  {
   "property": "C33",
   "status": "proved",
   "theorems": [
    "Verif.Havah.Val.C33_penalty_iff",
    "Verif.Havah.Val.C33_penalty_only_enabled",
    "Verif.Havah.Val.C33_main_never_disabled",
    "Verif.Havah.Val.C33_self_pardon"
   ],
   "note": "C33_self_pardon is a finding: an enabled owner may reset its own miss counter with enableValidator at no cost, so penalties can be avoided."
  },
  {
   "property": "C34",
   "status": "proved",
   "theorems": [
    "Verif.Havah.Val.C34_choice",
    "Verif.Havah.Val.C34_replacement",
    "Verif.Havah.Val.C34_block",
    "Verif.Havah.Val.C34_order",
    "Verif.Havah.Val.C34_order_single",
    "Verif.Havah.Val.C34_term_start",
    "Verif.Havah.Val.C34_members",
    "Verif.Havah.Val.C34_unowned_validator_blocks_term",
    "Verif.Havah.Val.Demo.C34_order_not_deterministic",
    "Verif.Havah.Val.Demo.C34_disabled_stays_active",
    "Verif.Havah.Val.Demo.C34_missing_key_blocks_term",
    "Verif.Havah.Val.Demo.C34_unregister_empties"
   ],
   "note": "The originally expected claim that positions are deterministic is false of the code (Go map iteration); C34_order proves equality of members and of the rest of the state, C34_order_single full determinism with one removal, and the Demo theorems state the counterexamples."
  },
  {
   "property": "C35",
   "status": "proved",
   "theorems": [
    "Verif.Havah.C35_proposer_agrees",
    "Verif.Havah.C35_proposal_accepted",
    "Verif.Havah.C35_zero_issue_stalls"
   ],
   "note": "Proposer and validators agree on every chain with positive configured issue; the proposed amount is accepted; with zero configured issue they disagree (proved negative result)."
  },
  {
   "property": "C36",
   "status": "proved",
   "theorems": [
    "Verif.Havah.C36_only_allowed",
    "Verif.Havah.C36_others_change_nothing",
    "Verif.Havah.C36_failed_call",
    "Verif.Havah.C36_no_governance_no_change",
    "Verif.Havah.C36_reward_protected"
   ],
   "note": "Successful calls are by allowed callers; all others change nothing; histories without governance calls leave the configuration unchanged; rewards are protected. Validator calls are part of C32-C34."
  },
  {
   "property": "C37",
   "status": "proved",
   "theorems": [
    "Verif.Havah.C37_unregister",
    "Verif.Havah.C37_withdraw",
    "Verif.Havah.C37_withdraw_once",
    "Verif.Havah.C37_lost_otherwise_unchanged"
   ],
   "note": "Exact effect of unregister and withdraw; nothing else changes lost coins. The statement was amended: undistributed remainders are carried over to the next term, not lost."
  },
  {
   "property": "C38",
   "status": "proved",
   "theorems": [
    "Verif.IntCodec.C38_go_python_agree",
    "Verif.IntCodec.C38_go_roundtrip",
    "Verif.IntCodec.C38_go_int64_encoders",
    "Verif.IntCodec.C38_go_size_encoder",
    "Verif.IntCodec.C38_go_int64_decoder",
    "Verif.IntCodec.C38_go_uint64_decoder",
    "Verif.IntCodec.C38_parse_exact",
    "Verif.IntCodec.C38_format_canonical",
    "Verif.IntCodec.C38_text_roundtrip",
    "Verif.IntCodec.C38_format_int64",
    "Verif.IntCodec.C38_parse_fixed_hex",
    "Verif.IntCodec.C38_parse_fixed_decimal",
    "Verif.IntCodec.C38_plus_changes_base",
    "Verif.IntCodec.C38_leading_zero_differs"
   ],
   "note": "Findings: a plus sign in front changes the base of numbers with a leading zero; a leading zero means octal for fixed-size fields but decimal for big integers."
  },
  {
   "property": "C39",
   "status": "proved",
   "theorems": [
    "Verif.Rlp.C39_roundtrip",
    "Verif.Rlp.C39_roundtrip_stream",
    "Verif.Rlp.C39_injective",
    "Verif.Rlp.C39_wire_format",
    "Verif.Rlp.C39_truncated",
    "Verif.Rlp.C39_stream",
    "Verif.Rlp.C39_decoded_is_typed",
    "Verif.Rlp.C39_loops_finish",
    "Verif.Rlp.C39_added_fields",
    "Verif.Rlp.C39_removed_fields",
    "Verif.Rlp.C39_map_order",
    "Verif.Rlp.C39_skip",
    "Verif.Rlp.C39_raw",
    "Verif.Rlp.C39_clean_decoder",
    "Verif.Rlp.C39_clean_decoder_struct",
    "Verif.Rlp.C39_long_string_not_read_back",
    "Verif.Rlp.C39_not_canonical",
    "Verif.Rlp.C39_null_shifts_fields",
    "Verif.Rlp.C39_poisoned_decoder",
    "Verif.Rlp.C39_raw_limit",
    "Verif.Rlp.C39_scalars_exact"
   ],
   "note": "Findings: byte strings over a million bytes written to a stream cannot be read back; several messages decode to the same value; a null inside a pointed-to struct shifts the fields read after it, and at top level leaves the pooled decoder unusable for the next message."
  },
  {
   "property": "C40",
   "status": "proved",
   "theorems": [
    "Verif.Trie.C40_history",
    "Verif.Trie.C40_root_canonical",
    "Verif.Trie.C40_empty",
    "Verif.Trie.C40_root_binds",
    "Verif.Trie.C40_empty_value_lost",
    "Verif.Trie.C40_delete_error_lost"
   ],
   "note": "Hypotheses: 32-byte hashes, non-empty values, and no database entry is overwritten with different bytes (C47_overwrite_is_collision: that takes a collision). Findings: empty values, errors lost below extensions."
  },
  {
   "property": "C41",
   "status": "proved",
   "theorems": [
    "Verif.Consensus.VoteSet.C41_decided_iff",
    "Verif.Consensus.VoteSet.C41_quorum_iff",
    "Verif.Consensus.VoteSet.C41_add",
    "Verif.Consensus.VoteSet.C41_late",
    "Verif.Consensus.VoteSet.C41_stable",
    "Verif.Consensus.VoteSet.C41_two_decisions",
    "Verif.Consensus.VoteSet.C41_one_decision",
    "Verif.Consensus.VoteSet.C41_votes_for_decision",
    "Verif.Consensus.VoteSet.C41_over_set",
    "Verif.Consensus.VoteSet.C41_mask",
    "Verif.Consensus.VoteSet.C41_verify_sound",
    "Verif.Consensus.VoteSet.C41_verify_complete",
    "Verif.Consensus.VoteSet.C41_median"
   ],
   "note": "The round decision and its digest are parameters."
  },
  {
   "property": "C42",
   "status": "proved",
   "theorems": [
    "Verif.Consensus.C42_cut",
    "Verif.Consensus.C42_transfer",
    "Verif.Consensus.C42_read",
    "Verif.Consensus.C42_id_binds",
    "Verif.Consensus.C42_full_last_part",
    "Verif.Consensus.C42_crafted_part_panics",
    "Verif.Consensus.C42_own_mask",
    "Verif.Consensus.C42_part_bytes",
    "Verif.Consensus.C42_app_data"
   ],
   "note": "Hypotheses: 32-byte hashes, at most 65535 parts, no hash collision among the strings named, last part not full. Findings: no proofs when the last part is full; a crafted id makes AddPart panic; own mask wrong for multiples of 64 parts."
  },
  {
   "property": "C43",
   "status": "proved",
   "theorems": [
    "Verif.Consensus.BitArray.C43_contents",
    "Verif.Consensus.BitArray.C43_no_panic",
    "Verif.Consensus.BitArray.C43_pick",
    "Verif.Consensus.BitArray.C43_equal",
    "Verif.Consensus.BitArray.C43_flip",
    "Verif.Consensus.BitArray.C43_flip_drops_last_word",
    "Verif.Consensus.BitArray.C43_verified_copy_panics"
   ],
   "note": "Findings: Flip clears the last 64 bits when the size is a multiple of 64; Verify accepts negative sizes, on which Copy panics."
  },
  {
   "property": "C44",
   "status": "proved",
   "theorems": [
    "Verif.Mta.C44_add",
    "Verif.Mta.C44_witness",
    "Verif.Mta.C44_witness_panics",
    "Verif.Mta.C44_flush_panics",
    "Verif.Mta.C44_sound",
    "Verif.Mta.C44_hashes",
    "Verif.Mta.C44_recover"
   ],
   "note": "Any hash function with 32-byte results that is injective on the strings written to the bucket. Findings: WitnessFor panics for items below a missing root, Flush panics unless the number of items is one less than a power of 2."
  },
  {
   "property": "C45",
   "status": "proved",
   "theorems": [
    "Verif.Service.C45_pay",
    "Verif.Service.C45_pay_nothing",
    "Verif.Service.C45_canPay",
    "Verif.Service.C45_add",
    "Verif.Service.C45_withdraw",
    "Verif.Service.C45_add_withdraw",
    "Verif.Service.C45_conserve",
    "Verif.Service.C45_restart",
    "Verif.Service.C45_one_deposit_per_id",
    "Verif.Service.C45_empty_deposit",
    "Verif.Service.C45_reserve",
    "Verif.Service.C45_usable"
   ],
   "note": "Sound deposit lists (non-negative fields, at most one entry per id) are an invariant from the empty list."
  },
  {
   "property": "C46",
   "status": "proved",
   "theorems": [
    "Verif.Package.Extract.C46_contained",
    "Verif.Package.Extract.C46_complete",
    "Verif.Package.Extract.C46_size",
    "Verif.Package.Extract.C46_escape",
    "Verif.Package.Extract.C46_negative_size"
   ],
   "note": "Findings: names with .. components are written outside of the target directory; a negative declared size defeats the total limit."
  },
  {
   "property": "C47",
   "status": "proved",
   "theorems": [
    "Verif.Trie.C47_keys_are_hashes",
    "Verif.Trie.C47_overwrite_is_collision",
    "Verif.Trie.C47_flush_reopen",
    "Verif.Trie.C47_interrupted_flush",
    "Verif.Trie.C40_history"
   ],
   "note": "Crashes are also operations of the histories of C40_history."
  },
  {
   "property": "C48",
   "status": "proved",
   "theorems": [
    "Verif.Trie.C48_complete",
    "Verif.Trie.C48_sound",
    "Verif.Trie.C48_valueless_proof_panics",
    "Verif.Trie.C48_trailing_items_accepted"
   ],
   "note": "Soundness up to a collision between an item of the proof and a node of the trie. Findings: a proof of a valueless branch panics when checked; trailing items may be accepted."
  },
  {
   "property": "C49",
   "status": "proved",
   "theorems": [
    "Verif.Trie.C49_filter"
   ],
   "note": ""
  },
  {
   "property": "C51",
   "status": "proved",
   "theorems": [
    "Verif.Service.C51_pay",
    "Verif.Service.C51_single",
    "Verif.Service.C51_nested",
    "Verif.Service.C51_delegate",
    "Verif.Service.C51_receipt",
    "Verif.Service.C51_receipt_order"
   ],
   "note": "Calls use at least the steps of the calls they made (RunValid)."
  },
  {
   "property": "C52",
   "status": "proved",
   "theorems": [
    "Verif.Service.C52_handlers",
    "Verif.Service.C52_tx",
    "Verif.Service.C52_block",
    "Verif.Service.C52_executes",
    "Verif.Service.C52_outcome",
    "Verif.Service.C52_afforded",
    "Verif.Service.C52_havah"
   ],
   "note": "Without LegacyFeeCharge and with FixLostFeeByDeposit, which C52_havah shows for every Havah revision; examples show what is lost otherwise. Coins moved by contracts are arbitrary sequences of transfer, addDeposit, withdraw inside nested calls; system contracts that mint are not transactions here (see C24 ff.)."
  },
  {
   "property": "C53",
   "status": "proved",
   "theorems": [
    "Verif.Consensus.Engine.C53_no_equivocation",
    "Verif.Consensus.Engine.C53_sent_votes_are_on_disk",
    "Verif.Consensus.Engine.C53_position_covers_votes"
   ],
   "note": "One height, any set of faulty validators, any crashes (any unsynced suffix of each log may be lost). WAL writes do not fail."
  },
  {
   "property": "C54",
   "status": "proved",
   "theorems": [
    "Verif.Consensus.Engine.C54_agreement",
    "Verif.Consensus.Engine.C54_certificates_agree",
    "Verif.Consensus.Engine.C54_finalized_is_decided",
    "Verif.Consensus.Engine.C54_finalized_is_complete",
    "Verif.Consensus.Engine.C54_lock_rule",
    "Verif.Consensus.Engine.C54_precommit_needs_polka",
    "Verif.Consensus.Engine.C54_example"
   ],
   "note": "One height, fewer than a third of the validators faulty, asynchronous network, crashes and restarts as long as the lock log holds the round of the lock of the restarting node (C55 shows why)."
  },
  {
   "property": "C55",
   "status": "proved",
   "theorems": [
    "Verif.Consensus.Engine.C55_restart_can_break_agreement"
   ],
   "note": "Finding: without the condition on restarts in C54 agreement fails: 4 validators, 1 faulty, one restart."
  },
  {
   "property": "C56",
   "status": "proved",
   "theorems": [
    "Verif.Consensus.Engine.C56_finalized_was_checked",
    "Verif.Consensus.Engine.C56_voted_was_checked",
    "Verif.Consensus.Engine.C56_example"
   ],
   "note": "Fewer than a third faulty, any crashes and restarts."
  },
  {
   "property": "C57",
   "status": "proved",
   "theorems": [
    "Verif.Locator.C57_no_replay",
    "Verif.Locator.C57_no_replay_fixed",
    "Verif.Locator.C57_check_sound",
    "Verif.Locator.C57_check_complete",
    "Verif.Locator.C57_lookup",
    "Verif.Locator.C57_durable",
    "Verif.Locator.C57_example"
   ],
   "note": "Normal transactions; time stamps and both ends of the accepted range never go back (so with a fixed threshold); a background write fails only while no commit waits. Crashes and restarts anywhere."
  },
  {
   "property": "C58",
   "status": "proved",
   "theorems": [
    "Verif.Locator.C58_lowered_threshold_replays",
    "Verif.Locator.C58_failed_write_replays",
    "Verif.Locator.C58_edge_not_found",
    "Verif.Locator.C58_open_blocks"
   ],
   "note": "Findings: executions in which every block passes the check and a transaction is on the chain twice."
  },
  {
   "property": "C59",
   "status": "proved",
   "theorems": [
    "Verif.Wal.C59_synced_survive",
    "Verif.Wal.C59_forever",
    "Verif.Wal.C59_closed",
    "Verif.Wal.C59_start_keeps",
    "Verif.Wal.C59_example"
   ],
   "note": "A crash keeps of every file a prefix with the synced bytes. For histories with several crashes each crash but the last is assumed not to end at one of the two bad places of C60."
  },
  {
   "property": "C60",
   "status": "proved",
   "theorems": [
    "Verif.Wal.C60_housekeeping",
    "Verif.Wal.C60_repair_removes_synced",
    "Verif.Wal.C60_header_only_loses",
    "Verif.Wal.C60_rotated_loses",
    "Verif.Wal.C60_zeros_are_a_record"
   ],
   "note": "The last four are findings: crash points after which the repair of the log loses synced records."
  },
  {
   "property": "C61",
   "status": "proved",
   "theorems": [
    "Verif.Virtual.C61_receipt",
    "Verif.Virtual.C61_world",
    "Verif.Virtual.C61_realize",
    "Verif.Virtual.C61_never_blocked",
    "Verif.Virtual.C61_completes",
    "Verif.Virtual.C61_world_read_lock_races"
   ],
   "note": "For transactions that keep to their locks and do not lock the world for reading only (none in the code does). The last theorem is the counterexample that shows the proviso is needed."
  },
  {
   "property": "C62",
   "status": "proved",
   "theorems": [
    "Verif.Virtual.C62_no_error",
    "Verif.Virtual.C62_sequential",
    "Verif.Virtual.C62_lost"
   ],
   "note": "A finding: the condition in Report is the wrong way round."
  },
  {
   "property": "C63",
   "status": "proved",
   "theorems": [
    "Verif.Tx.C63_value",
    "Verif.Tx.C63_json",
    "Verif.Tx.C63_fields",
    "Verif.Tx.C63_decimal",
    "Verif.Tx.C63_number",
    "Verif.Tx.C63_not_signed"
   ],
   "note": "Exact in both directions; the last theorem lists what can be changed without touching the signature (a finding). The hash itself (SHA3) and the signature are not modelled."
  },
  {
   "property": "C64",
   "status": "proved",
   "theorems": [
    "Verif.Tx.Admit.C64_handler",
    "Verif.Tx.Admit.C64_unknown_admitted",
    "Verif.Tx.Admit.C64_block_stuck",
    "Verif.Tx.Admit.C64_block_runs",
    "Verif.Tx.Admit.C64_funds"
   ],
   "note": "A finding: a block with a transaction of an unknown dataType passes the validation and cannot be executed."
  },
  {
   "property": "C65",
   "status": "proved",
   "theorems": [
    "Verif.Call.C65_calls",
    "Verif.Call.C65_failed",
    "Verif.Call.C65_readonly",
    "Verif.Call.C65_enters_readonly",
    "Verif.Call.C65_steps"
   ],
   "note": "Execution ids, custom logs, fee payers (C51) and the count of inter-calls are not modelled; that system contracts do not write in methods they declare read-only is assumed."
  },
  {
   "property": "C66",
   "status": "proved",
   "theorems": [
    "Verif.BlockTime.C66_time",
    "Verif.BlockTime.C66_accepted",
    "Verif.BlockTime.C66_increasing",
    "Verif.BlockTime.C66_order",
    "Verif.BlockTime.C66_tx",
    "Verif.BlockTime.C66_bound_needed"
   ],
   "note": "Signatures are modelled by the index of the signer they recover to; the timestamper of upgraded chains is not modelled."
  },
  {
   "property": "C67",
   "status": "proved",
   "theorems": [
    "Verif.TxPool.C67_refines",
    "Verif.TxPool.C67_order",
    "Verif.TxPool.C67_capacity",
    "Verif.TxPool.C67_candidate",
    "Verif.TxPool.C67_dropped",
    "Verif.TxPool.C67_filter",
    "Verif.TxPool.C67_blocked",
    "Verif.TxPool.C67_pool_bloom"
   ],
   "note": "Monitors, logging and the clock are not modelled; PreValidate, the time range and HasRecent are parameters (see C57, C64, C66); that PreValidate changes nothing when it fails is a hypothesis (PreClean), which holds of the code."
  },
  {
   "property": "C68",
   "status": "proved",
   "theorems": [
    "Verif.Waiters.C68_not_forgotten",
    "Verif.Waiters.C68_once",
    "Verif.Waiters.C68_answered",
    "Verif.Waiters.C68_answered_drop",
    "Verif.Waiters.C68_not_found",
    "Verif.Waiters.C68_not_found_later",
    "Verif.Waiters.C68_stale_drop"
   ],
   "note": "Safety under all interleavings; that threads go on is not part of the claim. What CheckTXForAdd rejects is not modelled (C31), so the model accepts more; transactions and receipts of a finalized block can be read; HasLocator tells exactly what was committed."
  },
  {
   "property": "C69",
   "status": "proved",
   "theorems": [
    "Verif.Sync.C69_complete",
    "Verif.Sync.C69_whole",
    "Verif.Sync.C69_only_requested",
    "Verif.Sync.C69_keeps",
    "Verif.Sync.C69_accepts",
    "Verif.Sync.C69_bounded",
    "Verif.Sync.C69_layer",
    "Verif.Sync.C69_buffered",
    "Verif.Sync.C69_trie",
    "Verif.Sync.C69_trusts",
    "Verif.Sync.C69_crash"
   ],
   "note": "Requesters are a parameter, with the hypotheses World (requesters of one key in one bucket do the same; no data contains its own hash); C69_trie instantiates them with the trie of C40 and shows World from the absence of collisions with its nodes. Database errors are not modelled. C69_trusts and C69_crash are findings: a builder trusts a root it finds, and after a crash without buffer or within Flush the next synchronization is done at once although nodes are missing."
  },
  {
   "property": "C70",
   "status": "proved",
   "theorems": [
    "Verif.WorldState.C70_history",
    "Verif.WorldState.C70_snapshot",
    "Verif.WorldState.C70_restore",
    "Verif.WorldState.C70_empty",
    "Verif.WorldState.C70_equal_ignores",
    "Verif.WorldState.C70_version_lost"
   ],
   "note": "Validators, extension and BTP state, object graphs of Java contracts and database errors are not modelled; account ids are identified with their hashed keys; maps are walked in any order; the trie may return any object of the value it has. Hypotheses: a deployment id determines content type, engine and parameters (deployhandler.go:352-356). C70_equal_ignores and C70_version_lost are findings."
  },
  {
   "property": "C71",
   "status": "proved",
   "theorems": [
    "Verif.Deploy.C71_history",
    "Verif.Deploy.C71_installing",
    "Verif.Deploy.C71_not_callable",
    "Verif.Deploy.C71_owner",
    "Verif.Deploy.C71_types",
    "Verif.Deploy.C71_index",
    "Verif.Deploy.C71_ids",
    "Verif.Deploy.C71_address",
    "Verif.Deploy.C71_address_sign",
    "Verif.Deploy.C71_reused"
   ],
   "note": "GetAPI, the engine, steps and configuration (whitelist, audit, enabled types) are inputs; accounts are those C70 shows; acceptScore and rejectScore are from the basic platform. C71_index assumes that deployment ids are not repeated; C71_reused shows why. C71_address assumes nonces 0 <= n < 2^255; C71_address_sign shows that negative nonces collide."
  },
  {
   "property": "C72",
   "status": "proved",
   "theorems": [
    "Verif.BtpMerkle.C72_root",
    "Verif.BtpMerkle.C72_proof",
    "Verif.BtpMerkle.C72_sound",
    "Verif.BtpMerkle.C72_binding",
    "Verif.BtpMerkle.C72_signed",
    "Verif.BtpMerkle.C72_accepted",
    "Verif.BtpMerkle.C72_count"
   ],
   "note": "The hash function is any function to 32 bytes: soundness says \"or here are two different strings, hashed in these computations, with the same hash\". Recovery of addresses from signatures is an input. The verifier of Merkle proofs is on other chains: `climb` is its specification. C72_count is a finding: a verifier has to check the length of the path against the number of leaves."
  },
  {
   "property": "C73",
   "status": "proved",
   "theorems": [
    "Verif.Btp.C73_never_fails",
    "Verif.Btp.C73_order",
    "Verif.Btp.C73_map",
    "Verif.Btp.C73_client",
    "Verif.Btp.C73_messages",
    "Verif.Btp.C73_opened",
    "Verif.Btp.C73_keys",
    "Verif.Btp.C73_current",
    "Verif.Btp.C73_stale"
   ],
   "note": "Calls run in any nesting of frames that may fail; blocks with any calls and any order in which the Go maps are walked. Modules (algorithms, hashes, addresses of keys) are inputs. C73_current assumes that no block makes a network type with other validators than at its beginning and ends with those of its beginning; C73_stale (a finding) shows that this is needed."
  },
  {
   "property": "C74",
   "status": "proved",
   "theorems": [
    "Verif.Dropped.contains_exact",
    "Verif.Dropped.contains_nil",
    "Verif.Dropped.reported_was_added",
    "Verif.Dropped.recorded",
    "Verif.Dropped.retained",
    "Verif.Dropped.forgotten_why",
    "Verif.Dropped.len_exact",
    "Verif.Dropped.slots_bound",
    "Verif.Dropped.len_bound",
    "Verif.Dropped.check_ok_iff",
    "Verif.Dropped.let_in_iff",
    "Verif.Dropped.dropped_stays_out",
    "Verif.Dropped.refused_was_dropped",
    "Verif.Dropped.commit_once",
    "Verif.Dropped.commit_success"
   ],
   "note": "Heap model (linked list and map of slots by reference). int64 as unbounded integers; the answer of the locator manager is an input (its correctness is C57). dropped_stays_out needs that the window did not move backwards and that the drops of a time slot fit: examples show both conditions are needed."
  },
  {
   "property": "C75",
   "status": "proved",
   "theorems": [
    "Verif.Lzw.roundtrip",
    "Verif.Lzw.compress_nil_iff",
    "Verif.Lzw.compress_injective",
    "Verif.Lzw.roundtrip_pieces",
    "Verif.Lzw.decompress_total"
   ],
   "note": "Bit buffers, hash table with linear probing, code widths, clear code and the arrays of the reader are modelled for MSB order and literal width 8 (the only use). The output array of the reader is two lists; the model panics if they would meet."
  },
  {
   "property": "C76",
   "status": "proved",
   "theorems": [
    "Verif.VList.answers",
    "Verif.VList.snapshot_frozen",
    "Verif.VList.states_apart",
    "Verif.VList.snapshot_is_state",
    "Verif.VList.state_coherent",
    "Verif.VList.snapshot_coherent",
    "Verif.VList.reload"
   ],
   "note": "Memory is modelled: list objects, slices with spare capacity written in place by append, lazily made address maps, cached bytes and hashes, states and snapshots sharing objects. Calls are atomic. Lists given to ValidatorSnapshotFromSlice are assumed to have no duplicates (Set checks this itself; a demo shows what happens otherwise)."
  },
  {
   "property": "C77",
   "status": "proved",
   "theorems": [
    "Verif.BTree.import_parent",
    "Verif.BTree.propose_parent",
    "Verif.BTree.finalize_iff",
    "Verif.BTree.finalized_linked",
    "Verif.BTree.callback_once",
    "Verif.BTree.cancel_iff",
    "Verif.BTree.candidate_fits",
    "Verif.BTree.results_held",
    "Verif.BTree.no_leak",
    "Verif.BTree.task_released",
    "Verif.BTree.crash_cause",
    "Verif.BTree.no_crash",
    "Verif.BTree.import_done"
   ],
   "note": "Pointers are modelled: a heap of nodes, the map by ID, reference counts. Operations are atomic (they run under the lock of the manager). Assumed: Dup/Dispose only on candidates not yet disposed, no cycle of block IDs, Finalize meets no database error. Finding: a report for an open task whose parent block was pruned (Finalize) or released (Dispose) dereferences nil (demo); the theorem says that this is the only way to crash."
  },
  {
   "property": "C78",
   "status": "proved",
   "theorems": [
    "Verif.Trans.holders_counted",
    "Verif.Trans.family",
    "Verif.Trans.arrived_shape",
    "Verif.Trans.told_all",
    "Verif.Trans.silent",
    "Verif.Trans.stopped_iff",
    "Verif.Trans.stopped_quiet",
    "Verif.Trans.report_owed",
    "Verif.Trans.transit_served",
    "Verif.Trans.propose_served",
    "Verif.Trans.patch_served",
    "Verif.Trans.sync_served",
    "Verif.Trans.dup_served",
    "Verif.Trans.dispose_one",
    "Verif.Trans.crash_iff"
   ],
   "note": "Pointers are modelled: heaps of executions and of handles. Operations are atomic (they run under the lock of the manager) and the callbacks of a handle do not come back into this code (they only queue work). Equal of the service manager is any Boolean function, its answers are arguments. The method cancel of a handle is called by dispose only; called alone it would leave an execution that others can still join and that never reports."
  },
  {
   "property": "C79",
   "status": "proved",
   "theorems": [
    "Verif.LayerDB.refines",
    "Verif.LayerDB.read_write",
    "Verif.LayerDB.write_held",
    "Verif.LayerDB.flush_ok",
    "Verif.LayerDB.flush_fail",
    "Verif.LayerDB.flush_drop",
    "Verif.LayerDB.direct_stays",
    "Verif.LayerDB.view_is",
    "Verif.LayerDB.not_a_prefix"
   ],
   "note": "The linked list and the maps of elements are modelled (a heap of elements). Operations are atomic (locks). A write to the database below succeeds or changes nothing; how many succeed in a Flush is an argument. not_a_prefix records that a failed flush can leave the disk in a state that is not that of any first part of the writes."
  },
  {
   "property": "C80",
   "status": "proved",
   "theorems": [
    "Verif.NetQueue.refines",
    "Verif.NetQueue.sizes",
    "Verif.NetQueue.push_iff",
    "Verif.NetQueue.pop_nil_iff",
    "Verif.NetQueue.no_lost_wakeup",
    "Verif.NetQueue.fifo",
    "Verif.NetQueue.fifo_run",
    "Verif.NetQueue.priority_order",
    "Verif.NetQueue.fair",
    "Verif.NetQueue.full_turn"
   ],
   "note": "The ring buffers with their indices are modelled, a panic (index, division by zero) is an outcome that refines excludes. Push and Pop are atomic (lock); SetWeight is taken as atomic though it does not lock (no caller). no_lost_wakeup holds for any number of consumers that call Pop at least once after each receive. fair is for a stretch without SetWeight."
  },
  {
   "property": "C81",
   "status": "proved",
   "theorems": [
    "Verif.FastSync.no_crash",
    "Verif.FastSync.in_order",
    "Verif.FastSync.end_last",
    "Verif.FastSync.silence",
    "Verif.FastSync.no_stall",
    "Verif.FastSync.end_ok",
    "Verif.FastSync.end_fail",
    "Verif.FastSync.lost_nowhere",
    "Verif.FastSync.lost_forever",
    "Verif.FastSync.found_lost"
   ],
   "note": "Each event is atomic (the lock of the client). The property as a user wants it does not hold: Reject (client.go:88-101) drops the height the rejected peer was fetching, and the request can never get beyond it (found_lost is a run, lost_forever that it is for ever); no_stall therefore has the hypothesis that no height was dropped that way. It also allows a peer whose first send failed for good: its fetcher stays there without a timer until the peer leaves (client.go:253-266, 294-300)."
  },
  {
   "property": "C82",
   "status": "proved",
   "theorems": [
    "Verif.Streams.places",
    "Verif.Streams.in_order",
    "Verif.Streams.complete",
    "Verif.Streams.kept",
    "Verif.Streams.refused",
    "Verif.Streams.taken_stays",
    "Verif.Streams.one_way",
    "Verif.Streams.first_try",
    "Verif.Streams.second_try",
    "Verif.Streams.progress",
    "Verif.Streams.found_swallowed"
   ],
   "note": "Each operation is atomic (the lock of the reactor); the connection keeps the order and may lose any message. The property as a user wants it (nothing is lost while the connection stays) does not hold: an acknowledgement without data that carries the next number is taken in the place of a lost message, which is then never delivered (found_swallowed, taken_stays). complete and one_way say when nothing is missing. progress is possibility (from every state the oldest kept message can be got rid of, by events that need no new message), not a bound on time."
  },
  {
   "property": "C83",
   "status": "proved",
   "theorems": [
    "Verif.Dsign.conflict_iff",
    "Verif.Dsign.log_total",
    "Verif.Dsign.log_true",
    "Verif.Dsign.log_caught",
    "Verif.Dsign.history_keeps",
    "Verif.Dsign.history_get",
    "Verif.Dsign.push_ok",
    "Verif.Dsign.execute_iff",
    "Verif.Dsign.honest_safe",
    "Verif.Dsign.punished_validator",
    "Verif.Dsign.found_networks",
    "Verif.Dsign.found_again",
    "Verif.Caches.Rand.Inv.put"
   ],
   "note": "honest_safe is for a signer who signs one thing for each place on all networks together: the property a validator of two networks relies on does not hold (found_networks). log_caught has the hypothesis that all messages fit in the log; a log that is too small forgets (Demo). Hashes of validator lists are any function (injective where it says so); messages are decoded and their signatures good."
  },
  {
   "property": "C84",
   "status": "proved",
   "theorems": [
    "Verif.Dsign.Pool.candidates_iff",
    "Verif.Dsign.Pool.candidates_once",
    "Verif.Dsign.Pool.add_refused",
    "Verif.Dsign.Pool.branch_child",
    "Verif.Dsign.Pool.too_early",
    "Verif.Dsign.Pool.found_block_fails"
   ],
   "note": "Each operation is atomic; keys are the height and the signer. first is the highest first height that was set. candidates_iff is exact; a committed report is not proposed on any branch any more. The property that a proposed report can be executed does not hold: too_early, found_block_fails."
  },
  {
   "property": "C85",
   "status": "proved",
   "theorems": [
    "Verif.Packets.put_says",
    "Verif.Packets.was_put",
    "Verif.Packets.recent_stays",
    "Verif.Packets.bounded",
    "Verif.Packets.no_repeat",
    "Verif.Packets.stamp_total",
    "Verif.Packets.stamp_was_put",
    "Verif.Packets.stamp_stays",
    "Verif.Packets.stamp_window"
   ],
   "note": "Each operation is atomic; packets are their hashes. The clock does not go back, seconds are from 1 on, and a removal is of at least one second (all as in peer.go)."
  },
  {
   "property": "C86",
   "status": "proved",
   "theorems": [
    "Verif.Caches.lru_total",
    "Verif.Caches.lru_last",
    "Verif.Caches.lru_fits",
    "Verif.Caches.lru_order",
    "Verif.Caches.lru_stays",
    "Verif.Caches.lru_stale",
    "Verif.Caches.bpm_get",
    "Verif.Caches.bpm_put",
    "Verif.Caches.bpm_panic"
   ],
   "note": "Elements of container/list are numbers; costs are not negative and do not change while a value is in the cache (messages are not changed). A value that is too costly is not stored, and the old value of its key stays (lru_stale). Decoding of parts and hashing are given functions; a part that decodes to an empty proof panics (bpm_panic), and the checks of a received message let it through."
  },
  {
   "property": "C87",
   "status": "proved",
   "theorems": [
    "Verif.Votes.votes_back",
    "Verif.Votes.verify_safe",
    "Verif.Votes.commit_back",
    "Verif.Votes.commit_one",
    "Verif.Votes.commit_votes"
   ],
   "note": "Ids, signatures and hashes are numbers; a part of a proof is its index and signature; the digest is assumed to tell decisions apart, and the address of a signature is a given function. For up to 32768 kinds of votes (an index is an int16). Codecs are not modelled."
  },
  {
   "property": "C88",
   "status": "proved",
   "theorems": [
    "Verif.Regulator.reg_sum",
    "Verif.Regulator.reg_max",
    "Verif.Regulator.reg_few",
    "Verif.Regulator.reg_stuck",
    "Verif.Regulator.reg_timeout",
    "Verif.Regulator.reg_set",
    "Verif.Regulator.reg_zero"
   ],
   "note": "Integers do not overflow; each operation is atomic; the clock is not before the proposal (for reg_timeout). window is the last thirty of the executions with more than ten transactions, after the entry a regulator is made with."
  },
  {
   "property": "C89",
   "status": "proved",
   "theorems": [
    "Verif.NodeCache.index_inj",
    "Verif.NodeCache.index_level",
    "Verif.NodeCache.cache_sound",
    "Verif.NodeCache.cache_complete"
   ],
   "note": "Writing to the file does not fail; nibbles are below 16 and hashes have 32 bytes; each operation is atomic (they are under a lock)."
  },
  {
   "property": "C90",
   "status": "proved",
   "theorems": [
    "Verif.NodeCache.full_safe",
    "Verif.NodeCache.full_panic",
    "Verif.NodeCache.full_shallow",
    "Verif.NodeCache.full_deep",
    "Verif.NodeCache.full_few",
    "Verif.NodeCache.full_recent"
   ],
   "note": "Nibbles are below 16 and hashes have 32 bytes; each operation is atomic (they are under a lock); full_safe is for the migration from a branch cache without five levels of which some are in the file (the options of the node give 5+0 and 5+1); full_panic is that case."
  }
 ]
}