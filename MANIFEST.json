{
 "claims": [
  {
   "property": "C01",
   "status": "proved",
   "theorems": [
    "Mondis.Props.C01_int64_append",
    "Mondis.Props.C01_int64_roundtrip",
    "Mondis.Props.C01_int64_order",
    "Mondis.Props.C01_int64_decode_exact"
   ],
   "note": ""
  },
  {
   "property": "C02",
   "status": "proved",
   "theorems": [
    "Mondis.Props.C02_uint64_roundtrip",
    "Mondis.Props.C02_uint64Desc_roundtrip",
    "Mondis.Props.C02_int64Desc_roundtrip",
    "Mondis.Props.C02_uint8_roundtrip",
    "Mondis.Props.C02_uint64_order",
    "Mondis.Props.C02_uint64Desc_order",
    "Mondis.Props.C02_int64Desc_order",
    "Mondis.Props.C02_uint8_order",
    "Mondis.Props.C02_short_input",
    "Mondis.Props.C02_append"
   ],
   "note": ""
  },
  {
   "property": "C03",
   "status": "proved",
   "theorems": [
    "Mondis.Props.C03_bytes_roundtrip",
    "Mondis.Props.C03_bytes_append"
   ],
   "note": ""
  },
  {
   "property": "C04",
   "status": "proved",
   "theorems": [
    "Mondis.Props.C04_bytes_order",
    "Mondis.Props.C04_bytes_self_delimiting",
    "Mondis.Props.C04_bytes_prefix_free"
   ],
   "note": ""
  },
  {
   "property": "C05",
   "status": "proved",
   "theorems": [
    "Mondis.Props.C05_bytesDesc_order",
    "Mondis.Props.C05_bytesDesc_roundtrip",
    "Mondis.Props.C05_bytesDesc_append",
    "Mondis.Props.C05_fast_reverse_eq_safe"
   ],
   "note": ""
  },
  {
   "property": "C06",
   "status": "proved",
   "theorems": [
    "Mondis.Props.C06_bytes_canonical",
    "Mondis.Props.C06_bytesDesc_canonical",
    "Mondis.Props.C06_decode_total",
    "Mondis.Props.C06_encoded_length"
   ],
   "note": ""
  },
  {
   "property": "C07",
   "status": "proved",
   "theorems": [
    "Mondis.Props.C07_float_order",
    "Mondis.Props.C07_float_roundtrip",
    "Mondis.Props.C07_negzero_decodes_to_zero",
    "Mondis.Props.C07_float_roundtrip_false"
   ],
   "note": ""
  },
  {
   "property": "C08",
   "status": "proved",
   "theorems": [
    "Mondis.Props.C08_uvarint_roundtrip",
    "Mondis.Props.C08_varint_roundtrip",
    "Mondis.Props.C08_bytes_roundtrip"
   ],
   "note": ""
  },
  {
   "property": "C09",
   "status": "proved",
   "theorems": [
    "Mondis.Props.C09_decode_panics",
    "Mondis.Props.C09_no_panic",
    "Mondis.Props.C09_panics_iff"
   ],
   "note": ""
  },
  {
   "property": "C10",
   "status": "proved",
   "theorems": [
    "Mondis.Props.C10_human_roundtrip",
    "Mondis.Props.C10_human_nil",
    "Mondis.Props.C10_binary_roundtrip",
    "Mondis.Props.C10_binary_exact"
   ],
   "note": ""
  },
  {
   "property": "C11",
   "status": "proved",
   "theorems": [
    "Mondis.Props.C11_next_immediate_successor",
    "Mondis.Props.C11_cmp_hasPrefix"
   ],
   "note": ""
  },
  {
   "property": "C12",
   "status": "proved",
   "theorems": [
    "Mondis.Props.C12_prefixNext_upper",
    "Mondis.Props.C12_prefixNext_exact",
    "Mondis.Props.C12_upper_false",
    "Mondis.Props.C12_exact_false"
   ],
   "note": ""
  },
  {
   "property": "C13",
   "status": "proved",
   "theorems": [
    "Mondis.Props.C13_isPoint_iff",
    "Mondis.Props.C13_point_next_single",
    "Mondis.Props.C13_point_single_false"
   ],
   "note": ""
  },
  {
   "property": "C14",
   "status": "proved",
   "theorems": [
    "Mondis.Props.C14_history",
    "Mondis.Props.C14_get_after_set",
    "Mondis.Props.C14_get_after_delete"
   ],
   "note": ""
  },
  {
   "property": "C15",
   "status": "proved",
   "theorems": [
    "Mondis.Props.C15_roundtrip",
    "Mondis.Props.C15_size_exact",
    "Mondis.Props.C15_unmarshal_merges",
    "Mondis.Props.C15_no_panic",
    "Mondis.Props.C15_panic"
   ],
   "note": "The unrestricted robustness clause is refuted (C15_panic); the restricted one is proved for all inputs it ranges over."
  },
  {
   "property": "C16",
   "status": "proved",
   "theorems": [
    "Mondis.Props.C16_client_scan",
    "Mondis.Props.C16_scan_forward",
    "Mondis.Props.C16_low_offset_false"
   ],
   "note": ""
  },
  {
   "property": "C17",
   "status": "proved",
   "theorems": [
    "Mondis.Props.C17_client_paging",
    "Mondis.Props.C17_paging"
   ],
   "note": ""
  },
  {
   "property": "C18",
   "status": "proved",
   "theorems": [
    "Mondis.Props.C18_scan_reverse",
    "Mondis.Props.C18_scan_reverse_all",
    "Mondis.Props.C18_prefix_without_offset"
   ],
   "note": ""
  },
  {
   "property": "C19",
   "status": "proved",
   "theorems": [
    "Mondis.Props.C19_all_or_nothing",
    "Mondis.Props.C19_later_set_fails",
    "Mondis.Props.C19_two_sets_fail"
   ],
   "note": ""
  },
  {
   "property": "C20",
   "status": "proved",
   "theorems": [
    "Mondis.Props.C20_client_transaction",
    "Mondis.Props.C20_read_own_writes",
    "Mondis.Props.C20_exists_agrees",
    "Mondis.Props.C20_scan_own_writes",
    "Mondis.Props.C20_commit_visibility"
   ],
   "note": ""
  },
  {
   "property": "C21",
   "status": "proved",
   "theorems": [
    "Mondis.Props.C21_client_view",
    "Mondis.Props.C21_readonly_never_mutates"
   ],
   "note": ""
  },
  {
   "property": "C22",
   "status": "proved",
   "theorems": [
    "Mondis.Props.C22_scans_accumulate",
    "Mondis.Props.C22_independent_false"
   ],
   "note": ""
  },
  {
   "property": "C23",
   "status": "proved",
   "theorems": [
    "Mondis.Props.C23_leveldb_scan",
    "Mondis.Props.C23_same_scan",
    "Mondis.Props.C23_low_offset_false",
    "Mondis.Props.C23_same_operations"
   ],
   "note": ""
  },
  {
   "property": "C24",
   "status": "proved",
   "theorems": [
    "Mondis.Props.C24_badger_batch_in_order",
    "Mondis.Props.C24_badger_discard",
    "Mondis.Props.C24_badger_discard_prefix",
    "Mondis.Props.C24_badger_discard_false",
    "Mondis.Props.C24_leveldb_batch"
   ],
   "note": ""
  },
  {
   "property": "C25",
   "status": "proved",
   "theorems": [
    "Mondis.Props.C25_update_all_or_nothing",
    "Mondis.Props.C25_update_succeeds_iff",
    "Mondis.Props.C25_update_leaves_view",
    "Mondis.Props.C25_cancel_iff_commit_failed",
    "Mondis.Props.C25_callback_iff_committed",
    "Mondis.Props.C25_tryCommit_bounded",
    "Mondis.Props.C25_hands_back_last",
    "Mondis.Props.C25_tryCommit_no_loss",
    "Mondis.Props.C25_chooseTime"
   ],
   "note": ""
  },
  {
   "property": "C26",
   "status": "proved",
   "theorems": [
    "Mondis.Props.C26_C29_history",
    "Mondis.Props.C26_get_after_write",
    "Mondis.Props.C26_inc",
    "Mondis.Props.structures_exact",
    "Mondis.Props.structures_follow"
   ],
   "note": ""
  },
  {
   "property": "C27",
   "status": "proved",
   "theorems": [
    "Mondis.Props.C26_C29_history",
    "Mondis.Props.structures_exact",
    "Mondis.Props.structures_follow"
   ],
   "note": ""
  },
  {
   "property": "C28",
   "status": "proved",
   "theorems": [
    "Mondis.Props.C28_hlen_exact",
    "Mondis.Props.C26_C29_history"
   ],
   "note": ""
  },
  {
   "property": "C29",
   "status": "proved",
   "theorems": [
    "Mondis.Props.C26_C29_history",
    "Mondis.Props.C26_C29_history"
   ],
   "note": ""
  },
  {
   "property": "C30",
   "status": "proved",
   "theorems": [
    "Mondis.Props.C30_other_prefix",
    "Mondis.Props.C30_prefixes_disjoint",
    "Mondis.Props.C30_no_interference"
   ],
   "note": ""
  },
  {
   "property": "C31",
   "status": "proved",
   "theorems": [
    "Mondis.Props.C31_hclear_no_residue",
    "Mondis.Props.C31_lclear_no_residue"
   ],
   "note": ""
  },
  {
   "property": "C32",
   "status": "proved",
   "theorems": [
    "Mondis.Props.C32_empty_value_dropped",
    "Mondis.Props.C32_value_readable",
    "Mondis.Props.C32_readable_false"
   ],
   "note": ""
  },
  {
   "property": "C33",
   "status": "proved",
   "theorems": [
    "Mondis.Props.C33_unique"
   ],
   "note": ""
  },
  {
   "property": "C34",
   "status": "proved",
   "theorems": [
    "Mondis.Props.C34_increasing",
    "Mondis.Props.C34_reopen"
   ],
   "note": ""
  },
  {
   "property": "C35",
   "status": "proved",
   "theorems": [
    "Mondis.Props.C35_within_lease",
    "Mondis.Props.C35_beyond_lease_false",
    "Mondis.Props.C35_negative_false"
   ],
   "note": ""
  },
  {
   "property": "C36",
   "status": "proved",
   "theorems": [
    "Mondis.Props.C36_reuse_bounded",
    "Mondis.Props.C36_putback_first"
   ],
   "note": ""
  },
  {
   "property": "C37",
   "status": "proved",
   "theorems": [
    "Mondis.Props.C37_unique",
    "Mondis.Props.C37_release_keeps_db",
    "Mondis.Props.C37_release_forgets",
    "Mondis.Props.C37_release_false"
   ],
   "note": ""
  },
  {
   "property": "C38",
   "status": "proved",
   "theorems": [
    "Mondis.Props.C38_release_false",
    "Mondis.Props.C38_nothing_to_release",
    "Mondis.Props.C33_unique"
   ],
   "note": ""
  },
  {
   "property": "C39",
   "status": "proved",
   "theorems": [
    "Mondis.Props.C39_clear_string",
    "Mondis.Props.C39_clear_hash_false"
   ],
   "note": ""
  },
  {
   "property": "C40",
   "status": "proved",
   "theorems": [
    "Mondis.Props.C40_keys_disjoint",
    "Mondis.Props.C40_keys_well_defined",
    "Mondis.Props.C40_document_order",
    "Mondis.Props.C40_document_prefix",
    "Mondis.Props.C40_document_decode",
    "Mondis.Props.C40_indexName_decode"
   ],
   "note": ""
  },
  {
   "property": "C41",
   "status": "proved",
   "theorems": [
    "Mondis.Props.C41_transaction",
    "Mondis.Props.C41_history",
    "Mondis.Props.C41_auto"
   ],
   "note": ""
  },
  {
   "property": "C42",
   "status": "proved",
   "theorems": [
    "Mondis.Props.DmlT.C42_missing",
    "Mondis.Props.DmlT.C42_missing_auto",
    "Mondis.Props.DmlT.C42_others"
   ],
   "note": ""
  },
  {
   "property": "C43",
   "status": "proved",
   "theorems": [
    "Mondis.Props.C43_range",
    "Mondis.Props.C43_empty_false",
    "Mondis.Props.C43_in_history",
    "Mondis.Props.C43_nothing"
   ],
   "note": ""
  },
  {
   "property": "C44",
   "status": "proved",
   "theorems": [
    "Mondis.Props.C44_document_deleteAll",
    "Mondis.Props.C44_false"
   ],
   "note": ""
  },
  {
   "property": "C45",
   "status": "proved",
   "theorems": [
    "Mondis.Props.C45_list",
    "Mondis.Props.C45_one_to_one",
    "Mondis.Props.C45_create",
    "Mondis.Props.C45_drop",
    "Mondis.Props.C45_memory_open",
    "Mondis.Props.C45_memory_create",
    "Mondis.Props.C45_memory_drop",
    "Mondis.Props.C45_name_reuse_false",
    "Mondis.Props.C45_long_name_false",
    "Mondis.Props.C45_memory_false"
   ],
   "note": ""
  },
  {
   "property": "C46",
   "status": "proved",
   "theorems": [
    "Mondis.Props.C46_stable_distinct"
   ],
   "note": "Storage assumptions: a transaction reads an earlier version of the store and is refused if the name it found missing has been stored since; lease renewals as in C37 (no wrap-around of the 64-bit counter). The store must hold no collection names at the start that were not made this way."
  },
  {
   "property": "C47",
   "status": "proved",
   "theorems": [
    "Mondis.Props.C47_consecutive",
    "Mondis.Props.C47_increasing",
    "Mondis.Props.C47_never_twice"
   ],
   "note": ""
  },
  {
   "property": "C48",
   "status": "proved",
   "theorems": [
    "Mondis.Props.C48_history",
    "Mondis.Props.C48_history_calm",
    "Mondis.Props.C48_concurrent",
    "Mondis.Props.C48_create_database",
    "Mondis.Props.C48_missing_database",
    "Mondis.Props.C48_collections",
    "Mondis.Props.C48_drop_database",
    "Mondis.Props.C48_listings"
   ],
   "note": "Names must be valid UTF-8 (otherwise JSON silently changes them). Go values are encoded by encoding/json, represented by a contract with a concrete inhabitant."
  },
  {
   "property": "C49",
   "status": "proved",
   "theorems": [
    "Mondis.Props.C49_fifo",
    "Mondis.Props.C49_index",
    "Mondis.Props.C49_index_outside_false",
    "Mondis.Props.C49_history_newest_first"
   ],
   "note": ""
  },
  {
   "property": "C50",
   "status": "proved",
   "theorems": [
    "Mondis.Props.Sch.C50_window",
    "Mondis.Props.Sch.C50_accepts",
    "Mondis.Props.Sch.C50_databases"
   ],
   "note": ""
  },
  {
   "property": "C51",
   "status": "proved",
   "theorems": [
    "Mondis.Props.DmlT.C51_commit",
    "Mondis.Props.DmlT.C51_auto_false",
    "Mondis.Props.Sch.C51_exact",
    "Mondis.Props.Sch.C51_nil"
   ],
   "note": ""
  },
  {
   "property": "C52",
   "status": "proved",
   "theorems": [
    "Mondis.Props.Sch.C52_released",
    "Mondis.Props.Sch.C52_conflict_false"
   ],
   "note": ""
  },
  {
   "property": "C53",
   "status": "proved",
   "theorems": [
    "Mondis.Props.C53_converges",
    "Mondis.Props.C53_no_error",
    "Mondis.Props.C53_monotone"
   ],
   "note": ""
  },
  {
   "property": "C54",
   "status": "proved",
   "theorems": [
    "Mondis.Props.C54_progress",
    "Mondis.Props.C54_same_name_never",
    "Mondis.Props.C54_index_never"
   ],
   "note": ""
  },
  {
   "property": "C55",
   "status": "proved",
   "theorems": [
    "Mondis.Props.C55_history",
    "Mondis.Props.C55_ids_distinct",
    "Mondis.Props.C55_create",
    "Mondis.Props.C55_atomic",
    "Mondis.Props.C55_before_init",
    "Mondis.Props.C55_no_ddl"
   ],
   "note": ""
  },
  {
   "property": "C56",
   "status": "proved",
   "theorems": [
    "Mondis.Props.DmlT.C56_commit",
    "Mondis.Props.DmlT.C56_read_only",
    "Mondis.Props.DmlT.C56_once",
    "Mondis.Props.DmlT.C56_ids"
   ],
   "note": ""
  },
  {
   "property": "C57",
   "status": "proved",
   "theorems": [
    "Mondis.Props.C57_diffs"
   ],
   "note": ""
  },
  {
   "property": "C58",
   "status": "proved",
   "theorems": [
    "Mondis.Props.C58_two_deletes",
    "Mondis.Props.C58_delete_lost"
   ],
   "note": ""
  },
  {
   "property": "C59",
   "status": "proved",
   "theorems": [
    "Mondis.Props.C59_ttl",
    "Mondis.Props.C59_tag_without_ttl_unreadable",
    "Mondis.Props.C59_ttl_readable"
   ],
   "note": ""
  },
  {
   "property": "C60",
   "status": "proved",
   "theorems": [
    "Mondis.Props.C60_serializable",
    "Mondis.Props.C60_inc_no_lost_update"
   ],
   "note": ""
  },
  {
   "property": "C61",
   "status": "proved",
   "theorems": [
    "Mondis.Props.C61_empty_key_sticks"
   ],
   "note": ""
  },
  {
   "property": "C62",
   "status": "proved",
   "theorems": [
    "Mondis.Props.C62_insert",
    "Mondis.Props.C62_ids_distinct",
    "Mondis.Props.C62_managed_false"
   ],
   "note": ""
  },
  {
   "property": "C63",
   "status": "proved",
   "theorems": [
    "Mondis.Props.DmlT.C63_read_only"
   ],
   "note": ""
  },
  {
   "property": "C65",
   "status": "proved",
   "theorems": [
    "Mondis.Props.C65_single",
    "Mondis.Props.C65_opening",
    "Mondis.Props.C65_continued"
   ],
   "note": ""
  },
  {
   "property": "C64",
   "status": "proved",
   "theorems": [
    "Mondis.Props.DmlT.C64_auto",
    "Mondis.Props.DmlT.C64_in_txn",
    "Mondis.Props.DmlT.C64_auto_unchecked_false"
   ],
   "note": ""
  },
  {
   "property": "C66",
   "status": "proved",
   "theorems": [
    "Mondis.Props.C66_ready",
    "Mondis.Props.C66_never_stuck",
    "Mondis.Props.C66_restart",
    "Mondis.Props.C66_init_again"
   ],
   "note": ""
  },
  {
   "property": "C67",
   "status": "proved",
   "theorems": [
    "Mondis.Props.C67_increasing"
   ],
   "note": ""
  },
  {
   "property": "C68",
   "status": "proved",
   "theorems": [
    "Mondis.Props.C68_exact",
    "Mondis.Props.C68_no_panic",
    "Mondis.Props.C68_lock_free"
   ],
   "note": ""
  },
  {
   "property": "C69",
   "status": "proved",
   "theorems": [
    "Mondis.Props.C69_end_to_end",
    "Mondis.Props.C69_at_once"
   ],
   "note": ""
  },
  {
   "property": "C70",
   "status": "proved",
   "theorems": [
    "Mondis.Props.C70_unique",
    "Mondis.Props.C70_failed",
    "Mondis.Props.C70_committed"
   ],
   "note": ""
  },
  {
   "property": "C71",
   "status": "proved",
   "theorems": [
    "Mondis.Props.C71_isolated",
    "Mondis.Props.C71_repeatable",
    "Mondis.Props.C71_only_commit",
    "Mondis.Props.C71_commit"
   ],
   "note": ""
  },
  {
   "property": "C72",
   "status": "proved",
   "theorems": [
    "Mondis.Props.C72_refines"
   ],
   "note": ""
  },
  {
   "property": "C73",
   "status": "proved",
   "theorems": [
    "Mondis.Props.C73_snapshot",
    "Mondis.Props.C73_serializable",
    "Mondis.Props.C73_readers"
   ],
   "note": ""
  },
  {
   "property": "C74",
   "status": "proved",
   "theorems": [
    "Mondis.Props.C74_update_panics",
    "Mondis.Props.C74_view_panics",
    "Mondis.Props.C74_commit_panics",
    "Mondis.Props.C74_unanswered_errs",
    "Mondis.Props.C74_refused_errs"
   ],
   "note": ""
  },
  {
   "property": "C75",
   "status": "proved",
   "theorems": [
    "Mondis.DocDB.C75_snapshot",
    "Mondis.DocDB.C75_serializable",
    "Mondis.DocDB.C75_readers",
    "Mondis.DocDB.C75_ids",
    "Mondis.DocDB.C75_names",
    "Mondis.DocDB.C75_handles",
    "Mondis.DocDB.C75_proper",
    "Mondis.DocDB.C75_closed",
    "Mondis.DocDB.C75_alone"
   ],
   "note": ""
  },
  {
   "property": "C76",
   "status": "proved",
   "theorems": [
    "Mondis.DocDB.C76_one_to_one",
    "Mondis.DocDB.C76_ids",
    "Mondis.DocDB.C76_create",
    "Mondis.DocDB.C76_drop",
    "Mondis.DocDB.C76_moment",
    "Mondis.DocDB.C76_refused",
    "Mondis.DocDB.C76_absent",
    "Mondis.DocDB.C76_calls",
    "Mondis.DocDB.C76_opened",
    "Mondis.DocDB.C76_listed"
   ],
   "note": ""
  },
  {
   "property": "C77",
   "status": "proved",
   "theorems": [
    "Mondis.Props.C77_find",
    "Mondis.Props.C77_lists",
    "Mondis.Props.C77_refines",
    "Mondis.Props.C77_no_index"
   ],
   "note": ""
  },
  {
   "property": "C78",
   "status": "proved",
   "theorems": [
    "Mondis.Props.C78_turn",
    "Mondis.Props.C78_last",
    "Mondis.Props.C78_never_done",
    "Mondis.Props.C78_refused",
    "Mondis.Props.C78_refused_unread"
   ],
   "note": ""
  },
  {
   "property": "C79",
   "status": "proved",
   "theorems": [
    "Mondis.DocDB.C79_again",
    "Mondis.DocDB.C79_collection",
    "Mondis.DocDB.C79_insert",
    "Mondis.DocDB.C79_story",
    "Mondis.DocDB.C79_createIndex",
    "Mondis.DocDB.C79_dropIndex",
    "Mondis.DocDB.C79_newDB"
   ],
   "note": ""
  },
  {
   "property": "C80",
   "status": "proved",
   "theorems": [
    "Mondis.Registry.C80_map",
    "Mondis.Registry.C80_dropped",
    "Mondis.Registry.C80_unique",
    "Mondis.Registry.C80_one_process",
    "Mondis.Registry.C80_release_false"
   ],
   "note": ""
  },
  {
   "property": "C81",
   "status": "proved",
   "theorems": [
    "Mondis.Share.C81_concurrent",
    "Mondis.Share.C81_snapshot",
    "Mondis.Share.C81_queue",
    "Mondis.Share.C81_enumeration_false"
   ],
   "note": ""
  },
  {
   "property": "C82",
   "status": "proved",
   "theorems": [
    "Mondis.Props.C82_concurrent",
    "Mondis.Props.C82_take_once",
    "Mondis.Props.C82_deletes_false",
    "Mondis.Props.C82_scans_false"
   ],
   "note": ""
  },
  {
   "property": "C83",
   "status": "proved",
   "theorems": [
    "Mondis.Props.C83_apart",
    "Mondis.Props.C83_worker_hangs",
    "Mondis.Props.C83_never_returns",
    "Mondis.Props.C83_draws_shared",
    "Mondis.Props.C83_second_init",
    "Mondis.Props.C83_first_schemas",
    "Mondis.Props.C83_ids_repeat"
   ],
   "note": ""
  },
  {
   "property": "C84",
   "status": "proved",
   "theorems": [
    "Mondis.Props.C84_history",
    "Mondis.Props.C84_turn_seen",
    "Mondis.Props.C84_init_seen",
    "Mondis.Props.C84_ids_distinct",
    "Mondis.Props.C84_increasing",
    "Mondis.Props.C84_diffs",
    "Mondis.Props.C84_restart",
    "Mondis.Props.C84_ready",
    "Mondis.Props.C84_progress",
    "Mondis.Props.C84_alone"
   ],
   "note": ""
  },
  {
   "property": "C85",
   "status": "proved",
   "theorems": [
    "Mondis.Props.C85_history",
    "Mondis.Props.C85_diffs",
    "Mondis.Props.C85_ids_distinct",
    "Mondis.Props.C85_drawn",
    "Mondis.Props.C85_overlap",
    "Mondis.Props.C85_free",
    "Mondis.Props.C85_same_name_never",
    "Mondis.Props.C85_progress",
    "Mondis.Props.C85_alone",
    "Mondis.Props.C85_taken_accepted"
   ],
   "note": ""
  },
  {
   "property": "C86",
   "status": "proved",
   "theorems": [
    "Mondis.Props.C86_refines",
    "Mondis.Props.C86_unique",
    "Mondis.Props.C86_failed",
    "Mondis.Props.C86_converges",
    "Mondis.Props.C86_no_error",
    "Mondis.Props.C86_monotone",
    "Mondis.Props.C86_check",
    "Mondis.Props.C86_no_panic",
    "Mondis.Props.C86_isolated",
    "Mondis.Props.C86_only_commit",
    "Mondis.Props.C86_at_once",
    "Mondis.Props.C86_alone",
    "Mondis.Props.C86_undisturbed",
    "Mondis.Props.C86_turn_undisturbed",
    "Mondis.Props.C86_snapshot",
    "Mondis.Props.C86_serializable",
    "Mondis.Props.C86_readers"
   ],
   "note": ""
  },
  {
   "property": "C87",
   "status": "proved",
   "theorems": [
    "Mondis.Props.C87_history",
    "Mondis.Props.C87_as_badger",
    "Mondis.Props.C87_transactions",
    "Mondis.Props.C87_update_fails",
    "Mondis.Props.C87_transactions_differ",
    "Mondis.Props.C87_malformed"
   ],
   "note": ""
  },
  {
   "property": "C88",
   "status": "proved",
   "theorems": [
    "Mondis.Wait.C88_history",
    "Mondis.Wait.C88_told",
    "Mondis.Wait.C88_never",
    "Mondis.Wait.C88_ends",
    "Mondis.Wait.C88_served"
   ],
   "note": ""
  },
  {
   "property": "C89",
   "status": "proved",
   "theorems": [
    "Mondis.Loop.C89_history",
    "Mondis.Loop.C89_asleep",
    "Mondis.Loop.C89_wakes",
    "Mondis.Loop.C89_serves",
    "Mondis.Loop.C89_failed",
    "Mondis.Loop.C89_spins"
   ],
   "note": ""
  }
 ]
}