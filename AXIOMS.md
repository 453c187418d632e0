# Axioms of the theorems in MANIFEST.json

Written by `tools/axioms.py` from `#print axioms`.

* Classical.choice, Quot.sound, propext: 320 theorems
* Quot.sound, propext: 21 theorems
* propext: 7 theorems
* none: 1 theorems

| theorem | axioms |
|---|---|
| `Mondis.Props.C01_int64_append` | Quot.sound, propext |
| `Mondis.Props.C01_int64_roundtrip` | Quot.sound, propext |
| `Mondis.Props.C01_int64_order` | Classical.choice, Quot.sound, propext |
| `Mondis.Props.C01_int64_decode_exact` | Quot.sound, propext |
| `Mondis.Props.C02_uint64_roundtrip` | Quot.sound, propext |
| `Mondis.Props.C02_uint64Desc_roundtrip` | Classical.choice, Quot.sound, propext |
| `Mondis.Props.C02_int64Desc_roundtrip` | Classical.choice, Quot.sound, propext |
| `Mondis.Props.C02_uint8_roundtrip` | Classical.choice, Quot.sound, propext |
| `Mondis.Props.C02_uint64_order` | Classical.choice, Quot.sound, propext |
| `Mondis.Props.C02_uint64Desc_order` | Classical.choice, Quot.sound, propext |
| `Mondis.Props.C02_int64Desc_order` | Classical.choice, Quot.sound, propext |
| `Mondis.Props.C02_uint8_order` | Classical.choice, Quot.sound, propext |
| `Mondis.Props.C02_short_input` | Quot.sound, propext |
| `Mondis.Props.C02_append` | Quot.sound, propext |
| `Mondis.Props.C03_bytes_roundtrip` | Classical.choice, Quot.sound, propext |
| `Mondis.Props.C03_bytes_append` | propext |
| `Mondis.Props.C04_bytes_order` | Classical.choice, Quot.sound, propext |
| `Mondis.Props.C04_bytes_self_delimiting` | Classical.choice, Quot.sound, propext |
| `Mondis.Props.C04_bytes_prefix_free` | Classical.choice, Quot.sound, propext |
| `Mondis.Props.C05_bytesDesc_order` | Classical.choice, Quot.sound, propext |
| `Mondis.Props.C05_bytesDesc_roundtrip` | Classical.choice, Quot.sound, propext |
| `Mondis.Props.C05_bytesDesc_append` | Classical.choice, Quot.sound, propext |
| `Mondis.Props.C05_fast_reverse_eq_safe` | Classical.choice, Quot.sound, propext |
| `Mondis.Props.C06_bytes_canonical` | Classical.choice, Quot.sound, propext |
| `Mondis.Props.C06_bytesDesc_canonical` | Classical.choice, Quot.sound, propext |
| `Mondis.Props.C06_decode_total` | Quot.sound, propext |
| `Mondis.Props.C06_encoded_length` | Quot.sound, propext |
| `Mondis.Props.C07_float_order` | Classical.choice, Quot.sound, propext |
| `Mondis.Props.C07_float_roundtrip` | Classical.choice, Quot.sound, propext |
| `Mondis.Props.C07_negzero_decodes_to_zero` | Classical.choice, Quot.sound, propext |
| `Mondis.Props.C07_float_roundtrip_false` | Quot.sound, propext |
| `Mondis.Props.C08_uvarint_roundtrip` | Classical.choice, Quot.sound, propext |
| `Mondis.Props.C08_varint_roundtrip` | Classical.choice, Quot.sound, propext |
| `Mondis.Props.C08_bytes_roundtrip` | Classical.choice, Quot.sound, propext |
| `Mondis.Props.C09_decode_panics` | Quot.sound, propext |
| `Mondis.Props.C09_no_panic` | Quot.sound, propext |
| `Mondis.Props.C09_panics_iff` | Classical.choice, Quot.sound, propext |
| `Mondis.Props.C10_human_roundtrip` | Classical.choice, Quot.sound, propext |
| `Mondis.Props.C10_human_nil` | propext |
| `Mondis.Props.C10_binary_roundtrip` | Quot.sound, propext |
| `Mondis.Props.C10_binary_exact` | Quot.sound, propext |
| `Mondis.Props.C11_next_immediate_successor` | propext |
| `Mondis.Props.C11_cmp_hasPrefix` | propext |
| `Mondis.Props.C12_prefixNext_upper` | Classical.choice, Quot.sound, propext |
| `Mondis.Props.C12_prefixNext_exact` | Classical.choice, Quot.sound, propext |
| `Mondis.Props.C12_upper_false` | Quot.sound, propext |
| `Mondis.Props.C12_exact_false` | Classical.choice, Quot.sound, propext |
| `Mondis.Props.C13_isPoint_iff` | Classical.choice, Quot.sound, propext |
| `Mondis.Props.C13_point_next_single` | Classical.choice, Quot.sound, propext |
| `Mondis.Props.C13_point_single_false` | propext |
| `Mondis.Props.C14_history` | Classical.choice, Quot.sound, propext |
| `Mondis.Props.C14_get_after_set` | Classical.choice, Quot.sound, propext |
| `Mondis.Props.C14_get_after_delete` | Classical.choice, Quot.sound, propext |
| `Mondis.Props.C15_roundtrip` | Classical.choice, Quot.sound, propext |
| `Mondis.Props.C15_size_exact` | Quot.sound, propext |
| `Mondis.Props.C15_unmarshal_merges` | Classical.choice, Quot.sound, propext |
| `Mondis.Props.C15_no_panic` | Classical.choice, Quot.sound, propext |
| `Mondis.Props.C15_panic` | none |
| `Mondis.Props.C16_client_scan` | Classical.choice, Quot.sound, propext |
| `Mondis.Props.C16_scan_forward` | Classical.choice, Quot.sound, propext |
| `Mondis.Props.C16_low_offset_false` | Classical.choice, Quot.sound, propext |
| `Mondis.Props.C17_client_paging` | Classical.choice, Quot.sound, propext |
| `Mondis.Props.C17_paging` | Classical.choice, Quot.sound, propext |
| `Mondis.Props.C18_scan_reverse` | Classical.choice, Quot.sound, propext |
| `Mondis.Props.C18_scan_reverse_all` | Quot.sound, propext |
| `Mondis.Props.C18_prefix_without_offset` | Classical.choice, Quot.sound, propext |
| `Mondis.Props.C19_all_or_nothing` | Classical.choice, Quot.sound, propext |
| `Mondis.Props.C19_later_set_fails` | Classical.choice, Quot.sound, propext |
| `Mondis.Props.C19_two_sets_fail` | Classical.choice, Quot.sound, propext |
| `Mondis.Props.C20_client_transaction` | Classical.choice, Quot.sound, propext |
| `Mondis.Props.C20_read_own_writes` | Classical.choice, Quot.sound, propext |
| `Mondis.Props.C20_exists_agrees` | propext |
| `Mondis.Props.C20_scan_own_writes` | Classical.choice, Quot.sound, propext |
| `Mondis.Props.C20_commit_visibility` | Classical.choice, Quot.sound, propext |
| `Mondis.Props.C21_client_view` | Classical.choice, Quot.sound, propext |
| `Mondis.Props.C21_readonly_never_mutates` | Classical.choice, Quot.sound, propext |
| `Mondis.Props.C22_scans_accumulate` | Classical.choice, Quot.sound, propext |
| `Mondis.Props.C22_independent_false` | Classical.choice, Quot.sound, propext |
| `Mondis.Props.C23_leveldb_scan` | Classical.choice, Quot.sound, propext |
| `Mondis.Props.C23_same_scan` | Classical.choice, Quot.sound, propext |
| `Mondis.Props.C23_low_offset_false` | Classical.choice, Quot.sound, propext |
| `Mondis.Props.C23_same_operations` | Classical.choice, Quot.sound, propext |
| `Mondis.Props.C24_badger_batch_in_order` | Classical.choice, Quot.sound, propext |
| `Mondis.Props.C24_badger_discard` | Classical.choice, Quot.sound, propext |
| `Mondis.Props.C24_badger_discard_prefix` | Classical.choice, Quot.sound, propext |
| `Mondis.Props.C24_badger_discard_false` | Classical.choice, Quot.sound, propext |
| `Mondis.Props.C24_leveldb_batch` | Classical.choice, Quot.sound, propext |
| `Mondis.Props.C25_update_all_or_nothing` | Classical.choice, Quot.sound, propext |
| `Mondis.Props.C25_update_succeeds_iff` | Classical.choice, Quot.sound, propext |
| `Mondis.Props.C25_update_leaves_view` | Classical.choice, Quot.sound, propext |
| `Mondis.Props.C25_cancel_iff_commit_failed` | Classical.choice, Quot.sound, propext |
| `Mondis.Props.C25_callback_iff_committed` | Classical.choice, Quot.sound, propext |
| `Mondis.Props.C25_tryCommit_bounded` | Classical.choice, Quot.sound, propext |
| `Mondis.Props.C25_hands_back_last` | Classical.choice, Quot.sound, propext |
| `Mondis.Props.C25_tryCommit_no_loss` | Classical.choice, Quot.sound, propext |
| `Mondis.Props.C25_chooseTime` | Classical.choice, Quot.sound, propext |
| `Mondis.Props.C26_C29_history` | Classical.choice, Quot.sound, propext |
| `Mondis.Props.C26_get_after_write` | Classical.choice, Quot.sound, propext |
| `Mondis.Props.C26_inc` | Classical.choice, Quot.sound, propext |
| `Mondis.Props.structures_exact` | Classical.choice, Quot.sound, propext |
| `Mondis.Props.structures_follow` | Classical.choice, Quot.sound, propext |
| `Mondis.Props.C28_hlen_exact` | Classical.choice, Quot.sound, propext |
| `Mondis.Props.C30_other_prefix` | Classical.choice, Quot.sound, propext |
| `Mondis.Props.C30_prefixes_disjoint` | Classical.choice, Quot.sound, propext |
| `Mondis.Props.C30_no_interference` | Classical.choice, Quot.sound, propext |
| `Mondis.Props.C31_hclear_no_residue` | Classical.choice, Quot.sound, propext |
| `Mondis.Props.C31_lclear_no_residue` | Classical.choice, Quot.sound, propext |
| `Mondis.Props.C32_empty_value_dropped` | Classical.choice, Quot.sound, propext |
| `Mondis.Props.C32_value_readable` | Classical.choice, Quot.sound, propext |
| `Mondis.Props.C32_readable_false` | Classical.choice, Quot.sound, propext |
| `Mondis.Props.C33_unique` | Classical.choice, Quot.sound, propext |
| `Mondis.Props.C34_increasing` | Classical.choice, Quot.sound, propext |
| `Mondis.Props.C34_reopen` | Classical.choice, Quot.sound, propext |
| `Mondis.Props.C35_within_lease` | Classical.choice, Quot.sound, propext |
| `Mondis.Props.C35_beyond_lease_false` | Classical.choice, Quot.sound, propext |
| `Mondis.Props.C35_negative_false` | Classical.choice, Quot.sound, propext |
| `Mondis.Props.C36_reuse_bounded` | Classical.choice, Quot.sound, propext |
| `Mondis.Props.C36_putback_first` | Classical.choice, Quot.sound, propext |
| `Mondis.Props.C37_unique` | Classical.choice, Quot.sound, propext |
| `Mondis.Props.C37_release_keeps_db` | Classical.choice, Quot.sound, propext |
| `Mondis.Props.C37_release_forgets` | Classical.choice, Quot.sound, propext |
| `Mondis.Props.C37_release_false` | Classical.choice, Quot.sound, propext |
| `Mondis.Props.C38_release_false` | Classical.choice, Quot.sound, propext |
| `Mondis.Props.C38_nothing_to_release` | Classical.choice, Quot.sound, propext |
| `Mondis.Props.C39_clear_string` | Classical.choice, Quot.sound, propext |
| `Mondis.Props.C39_clear_hash_false` | Classical.choice, Quot.sound, propext |
| `Mondis.Props.C40_keys_disjoint` | Classical.choice, Quot.sound, propext |
| `Mondis.Props.C40_keys_well_defined` | Classical.choice, Quot.sound, propext |
| `Mondis.Props.C40_document_order` | Classical.choice, Quot.sound, propext |
| `Mondis.Props.C40_document_prefix` | Classical.choice, Quot.sound, propext |
| `Mondis.Props.C40_document_decode` | Quot.sound, propext |
| `Mondis.Props.C40_indexName_decode` | Classical.choice, Quot.sound, propext |
| `Mondis.Props.C41_transaction` | Classical.choice, Quot.sound, propext |
| `Mondis.Props.C41_history` | Classical.choice, Quot.sound, propext |
| `Mondis.Props.C41_auto` | Classical.choice, Quot.sound, propext |
| `Mondis.Props.DmlT.C42_missing` | Classical.choice, Quot.sound, propext |
| `Mondis.Props.DmlT.C42_missing_auto` | Classical.choice, Quot.sound, propext |
| `Mondis.Props.DmlT.C42_others` | Classical.choice, Quot.sound, propext |
| `Mondis.Props.C43_range` | Classical.choice, Quot.sound, propext |
| `Mondis.Props.C43_empty_false` | Classical.choice, Quot.sound, propext |
| `Mondis.Props.C43_in_history` | Classical.choice, Quot.sound, propext |
| `Mondis.Props.C43_nothing` | Classical.choice, Quot.sound, propext |
| `Mondis.Props.C44_document_deleteAll` | Classical.choice, Quot.sound, propext |
| `Mondis.Props.C44_false` | Classical.choice, Quot.sound, propext |
| `Mondis.Props.C45_list` | Classical.choice, Quot.sound, propext |
| `Mondis.Props.C45_one_to_one` | Classical.choice, Quot.sound, propext |
| `Mondis.Props.C45_create` | Classical.choice, Quot.sound, propext |
| `Mondis.Props.C45_drop` | Classical.choice, Quot.sound, propext |
| `Mondis.Props.C45_memory_open` | Classical.choice, Quot.sound, propext |
| `Mondis.Props.C45_memory_create` | Classical.choice, Quot.sound, propext |
| `Mondis.Props.C45_memory_drop` | Classical.choice, Quot.sound, propext |
| `Mondis.Props.C45_name_reuse_false` | Classical.choice, Quot.sound, propext |
| `Mondis.Props.C45_long_name_false` | Classical.choice, Quot.sound, propext |
| `Mondis.Props.C45_memory_false` | Classical.choice, Quot.sound, propext |
| `Mondis.Props.C46_stable_distinct` | Classical.choice, Quot.sound, propext |
| `Mondis.Props.C47_consecutive` | Classical.choice, Quot.sound, propext |
| `Mondis.Props.C47_increasing` | Quot.sound, propext |
| `Mondis.Props.C47_never_twice` | Classical.choice, Quot.sound, propext |
| `Mondis.Props.C48_history` | Classical.choice, Quot.sound, propext |
| `Mondis.Props.C48_history_calm` | Classical.choice, Quot.sound, propext |
| `Mondis.Props.C48_concurrent` | Classical.choice, Quot.sound, propext |
| `Mondis.Props.C48_create_database` | Classical.choice, Quot.sound, propext |
| `Mondis.Props.C48_missing_database` | Classical.choice, Quot.sound, propext |
| `Mondis.Props.C48_collections` | Classical.choice, Quot.sound, propext |
| `Mondis.Props.C48_drop_database` | Classical.choice, Quot.sound, propext |
| `Mondis.Props.C48_listings` | Classical.choice, Quot.sound, propext |
| `Mondis.Props.C49_fifo` | Classical.choice, Quot.sound, propext |
| `Mondis.Props.C49_index` | Classical.choice, Quot.sound, propext |
| `Mondis.Props.C49_index_outside_false` | Classical.choice, Quot.sound, propext |
| `Mondis.Props.C49_history_newest_first` | Classical.choice, Quot.sound, propext |
| `Mondis.Props.Sch.C50_window` | Classical.choice, Quot.sound, propext |
| `Mondis.Props.Sch.C50_accepts` | Classical.choice, Quot.sound, propext |
| `Mondis.Props.Sch.C50_databases` | Classical.choice, Quot.sound, propext |
| `Mondis.Props.DmlT.C51_commit` | Classical.choice, Quot.sound, propext |
| `Mondis.Props.DmlT.C51_auto_false` | Classical.choice, Quot.sound, propext |
| `Mondis.Props.Sch.C51_exact` | Classical.choice, Quot.sound, propext |
| `Mondis.Props.Sch.C51_nil` | propext |
| `Mondis.Props.Sch.C52_released` | Classical.choice, Quot.sound, propext |
| `Mondis.Props.Sch.C52_conflict_false` | Classical.choice, Quot.sound, propext |
| `Mondis.Props.C53_converges` | Classical.choice, Quot.sound, propext |
| `Mondis.Props.C53_no_error` | Classical.choice, Quot.sound, propext |
| `Mondis.Props.C53_monotone` | Classical.choice, Quot.sound, propext |
| `Mondis.Props.C54_progress` | Classical.choice, Quot.sound, propext |
| `Mondis.Props.C54_same_name_never` | Classical.choice, Quot.sound, propext |
| `Mondis.Props.C54_index_never` | Classical.choice, Quot.sound, propext |
| `Mondis.Props.C55_history` | Classical.choice, Quot.sound, propext |
| `Mondis.Props.C55_ids_distinct` | Classical.choice, Quot.sound, propext |
| `Mondis.Props.C55_create` | Classical.choice, Quot.sound, propext |
| `Mondis.Props.C55_atomic` | Classical.choice, Quot.sound, propext |
| `Mondis.Props.C55_before_init` | Classical.choice, Quot.sound, propext |
| `Mondis.Props.C55_no_ddl` | Classical.choice, Quot.sound, propext |
| `Mondis.Props.DmlT.C56_commit` | Classical.choice, Quot.sound, propext |
| `Mondis.Props.DmlT.C56_read_only` | Classical.choice, Quot.sound, propext |
| `Mondis.Props.DmlT.C56_once` | Classical.choice, Quot.sound, propext |
| `Mondis.Props.DmlT.C56_ids` | Classical.choice, Quot.sound, propext |
| `Mondis.Props.C57_diffs` | Classical.choice, Quot.sound, propext |
| `Mondis.Props.C58_two_deletes` | Classical.choice, Quot.sound, propext |
| `Mondis.Props.C58_delete_lost` | Classical.choice, Quot.sound, propext |
| `Mondis.Props.C59_ttl` | Quot.sound, propext |
| `Mondis.Props.C59_tag_without_ttl_unreadable` | Classical.choice, Quot.sound, propext |
| `Mondis.Props.C59_ttl_readable` | Classical.choice, Quot.sound, propext |
| `Mondis.Props.C60_serializable` | Classical.choice, Quot.sound, propext |
| `Mondis.Props.C60_inc_no_lost_update` | Classical.choice, Quot.sound, propext |
| `Mondis.Props.C61_empty_key_sticks` | Classical.choice, Quot.sound, propext |
| `Mondis.Props.C62_insert` | Classical.choice, Quot.sound, propext |
| `Mondis.Props.C62_ids_distinct` | Classical.choice, Quot.sound, propext |
| `Mondis.Props.C62_managed_false` | Classical.choice, Quot.sound, propext |
| `Mondis.Props.DmlT.C63_read_only` | Classical.choice, Quot.sound, propext |
| `Mondis.Props.C65_single` | Classical.choice, Quot.sound, propext |
| `Mondis.Props.C65_opening` | Classical.choice, Quot.sound, propext |
| `Mondis.Props.C65_continued` | Classical.choice, Quot.sound, propext |
| `Mondis.Props.DmlT.C64_auto` | Classical.choice, Quot.sound, propext |
| `Mondis.Props.DmlT.C64_in_txn` | Classical.choice, Quot.sound, propext |
| `Mondis.Props.DmlT.C64_auto_unchecked_false` | Classical.choice, Quot.sound, propext |
| `Mondis.Props.C66_ready` | Classical.choice, Quot.sound, propext |
| `Mondis.Props.C66_never_stuck` | Classical.choice, Quot.sound, propext |
| `Mondis.Props.C66_restart` | Classical.choice, Quot.sound, propext |
| `Mondis.Props.C66_init_again` | Classical.choice, Quot.sound, propext |
| `Mondis.Props.C67_increasing` | Classical.choice, Quot.sound, propext |
| `Mondis.Props.C68_exact` | Classical.choice, Quot.sound, propext |
| `Mondis.Props.C68_no_panic` | Classical.choice, Quot.sound, propext |
| `Mondis.Props.C68_lock_free` | Classical.choice, Quot.sound, propext |
| `Mondis.Props.C69_end_to_end` | Classical.choice, Quot.sound, propext |
| `Mondis.Props.C69_at_once` | Classical.choice, Quot.sound, propext |
| `Mondis.Props.C70_unique` | Classical.choice, Quot.sound, propext |
| `Mondis.Props.C70_failed` | Classical.choice, Quot.sound, propext |
| `Mondis.Props.C70_committed` | Classical.choice, Quot.sound, propext |
| `Mondis.Props.C71_isolated` | Classical.choice, Quot.sound, propext |
| `Mondis.Props.C71_repeatable` | Classical.choice, Quot.sound, propext |
| `Mondis.Props.C71_only_commit` | Classical.choice, Quot.sound, propext |
| `Mondis.Props.C71_commit` | Classical.choice, Quot.sound, propext |
| `Mondis.Props.C72_refines` | Classical.choice, Quot.sound, propext |
| `Mondis.Props.C73_snapshot` | Classical.choice, Quot.sound, propext |
| `Mondis.Props.C73_serializable` | Classical.choice, Quot.sound, propext |
| `Mondis.Props.C73_readers` | Classical.choice, Quot.sound, propext |
| `Mondis.Props.C74_update_panics` | Classical.choice, Quot.sound, propext |
| `Mondis.Props.C74_view_panics` | Classical.choice, Quot.sound, propext |
| `Mondis.Props.C74_commit_panics` | Classical.choice, Quot.sound, propext |
| `Mondis.Props.C74_unanswered_errs` | Classical.choice, Quot.sound, propext |
| `Mondis.Props.C74_refused_errs` | Classical.choice, Quot.sound, propext |
| `Mondis.DocDB.C75_snapshot` | Classical.choice, Quot.sound, propext |
| `Mondis.DocDB.C75_serializable` | Classical.choice, Quot.sound, propext |
| `Mondis.DocDB.C75_readers` | Classical.choice, Quot.sound, propext |
| `Mondis.DocDB.C75_ids` | Classical.choice, Quot.sound, propext |
| `Mondis.DocDB.C75_names` | Classical.choice, Quot.sound, propext |
| `Mondis.DocDB.C75_handles` | Classical.choice, Quot.sound, propext |
| `Mondis.DocDB.C75_proper` | Classical.choice, Quot.sound, propext |
| `Mondis.DocDB.C75_closed` | Classical.choice, Quot.sound, propext |
| `Mondis.DocDB.C75_alone` | Classical.choice, Quot.sound, propext |
| `Mondis.DocDB.C76_one_to_one` | Classical.choice, Quot.sound, propext |
| `Mondis.DocDB.C76_ids` | Classical.choice, Quot.sound, propext |
| `Mondis.DocDB.C76_create` | Classical.choice, Quot.sound, propext |
| `Mondis.DocDB.C76_drop` | Classical.choice, Quot.sound, propext |
| `Mondis.DocDB.C76_moment` | Classical.choice, Quot.sound, propext |
| `Mondis.DocDB.C76_refused` | Classical.choice, Quot.sound, propext |
| `Mondis.DocDB.C76_absent` | Classical.choice, Quot.sound, propext |
| `Mondis.DocDB.C76_calls` | Classical.choice, Quot.sound, propext |
| `Mondis.DocDB.C76_opened` | Classical.choice, Quot.sound, propext |
| `Mondis.DocDB.C76_listed` | Classical.choice, Quot.sound, propext |
| `Mondis.Props.C77_find` | Quot.sound, propext |
| `Mondis.Props.C77_lists` | Quot.sound, propext |
| `Mondis.Props.C77_refines` | Classical.choice, Quot.sound, propext |
| `Mondis.Props.C77_no_index` | Classical.choice, Quot.sound, propext |
| `Mondis.Props.C78_turn` | Classical.choice, Quot.sound, propext |
| `Mondis.Props.C78_last` | Classical.choice, Quot.sound, propext |
| `Mondis.Props.C78_never_done` | Classical.choice, Quot.sound, propext |
| `Mondis.Props.C78_refused` | Classical.choice, Quot.sound, propext |
| `Mondis.Props.C78_refused_unread` | Classical.choice, Quot.sound, propext |
| `Mondis.DocDB.C79_again` | Classical.choice, Quot.sound, propext |
| `Mondis.DocDB.C79_collection` | Classical.choice, Quot.sound, propext |
| `Mondis.DocDB.C79_insert` | Classical.choice, Quot.sound, propext |
| `Mondis.DocDB.C79_story` | Classical.choice, Quot.sound, propext |
| `Mondis.DocDB.C79_createIndex` | Classical.choice, Quot.sound, propext |
| `Mondis.DocDB.C79_dropIndex` | Classical.choice, Quot.sound, propext |
| `Mondis.DocDB.C79_newDB` | Classical.choice, Quot.sound, propext |
| `Mondis.Registry.C80_map` | Classical.choice, Quot.sound, propext |
| `Mondis.Registry.C80_dropped` | Classical.choice, Quot.sound, propext |
| `Mondis.Registry.C80_unique` | Classical.choice, Quot.sound, propext |
| `Mondis.Registry.C80_one_process` | Classical.choice, Quot.sound, propext |
| `Mondis.Registry.C80_release_false` | Classical.choice, Quot.sound, propext |
| `Mondis.Share.C81_concurrent` | Classical.choice, Quot.sound, propext |
| `Mondis.Share.C81_snapshot` | Classical.choice, Quot.sound, propext |
| `Mondis.Share.C81_queue` | Classical.choice, Quot.sound, propext |
| `Mondis.Share.C81_enumeration_false` | Classical.choice, Quot.sound, propext |
| `Mondis.Props.C82_concurrent` | Classical.choice, Quot.sound, propext |
| `Mondis.Props.C82_take_once` | Classical.choice, Quot.sound, propext |
| `Mondis.Props.C82_deletes_false` | Classical.choice, Quot.sound, propext |
| `Mondis.Props.C82_scans_false` | Classical.choice, Quot.sound, propext |
| `Mondis.Props.C83_apart` | Classical.choice, Quot.sound, propext |
| `Mondis.Props.C83_worker_hangs` | Classical.choice, Quot.sound, propext |
| `Mondis.Props.C83_never_returns` | Classical.choice, Quot.sound, propext |
| `Mondis.Props.C83_draws_shared` | Classical.choice, Quot.sound, propext |
| `Mondis.Props.C83_second_init` | Classical.choice, Quot.sound, propext |
| `Mondis.Props.C83_first_schemas` | Classical.choice, Quot.sound, propext |
| `Mondis.Props.C83_ids_repeat` | Classical.choice, Quot.sound, propext |
| `Mondis.Props.C84_history` | Classical.choice, Quot.sound, propext |
| `Mondis.Props.C84_turn_seen` | Classical.choice, Quot.sound, propext |
| `Mondis.Props.C84_init_seen` | Classical.choice, Quot.sound, propext |
| `Mondis.Props.C84_ids_distinct` | Classical.choice, Quot.sound, propext |
| `Mondis.Props.C84_increasing` | Classical.choice, Quot.sound, propext |
| `Mondis.Props.C84_diffs` | Classical.choice, Quot.sound, propext |
| `Mondis.Props.C84_restart` | Classical.choice, Quot.sound, propext |
| `Mondis.Props.C84_ready` | Classical.choice, Quot.sound, propext |
| `Mondis.Props.C84_progress` | Classical.choice, Quot.sound, propext |
| `Mondis.Props.C84_alone` | Classical.choice, Quot.sound, propext |
| `Mondis.Props.C85_history` | Classical.choice, Quot.sound, propext |
| `Mondis.Props.C85_diffs` | Classical.choice, Quot.sound, propext |
| `Mondis.Props.C85_ids_distinct` | Classical.choice, Quot.sound, propext |
| `Mondis.Props.C85_drawn` | Classical.choice, Quot.sound, propext |
| `Mondis.Props.C85_overlap` | Classical.choice, Quot.sound, propext |
| `Mondis.Props.C85_free` | Classical.choice, Quot.sound, propext |
| `Mondis.Props.C85_same_name_never` | Classical.choice, Quot.sound, propext |
| `Mondis.Props.C85_progress` | Classical.choice, Quot.sound, propext |
| `Mondis.Props.C85_alone` | Classical.choice, Quot.sound, propext |
| `Mondis.Props.C85_taken_accepted` | Classical.choice, Quot.sound, propext |
| `Mondis.Props.C86_refines` | Classical.choice, Quot.sound, propext |
| `Mondis.Props.C86_unique` | Classical.choice, Quot.sound, propext |
| `Mondis.Props.C86_failed` | Classical.choice, Quot.sound, propext |
| `Mondis.Props.C86_converges` | Classical.choice, Quot.sound, propext |
| `Mondis.Props.C86_no_error` | Classical.choice, Quot.sound, propext |
| `Mondis.Props.C86_monotone` | Classical.choice, Quot.sound, propext |
| `Mondis.Props.C86_check` | Classical.choice, Quot.sound, propext |
| `Mondis.Props.C86_no_panic` | Classical.choice, Quot.sound, propext |
| `Mondis.Props.C86_isolated` | Classical.choice, Quot.sound, propext |
| `Mondis.Props.C86_only_commit` | Classical.choice, Quot.sound, propext |
| `Mondis.Props.C86_at_once` | Classical.choice, Quot.sound, propext |
| `Mondis.Props.C86_alone` | Classical.choice, Quot.sound, propext |
| `Mondis.Props.C86_undisturbed` | Classical.choice, Quot.sound, propext |
| `Mondis.Props.C86_turn_undisturbed` | Classical.choice, Quot.sound, propext |
| `Mondis.Props.C86_snapshot` | Classical.choice, Quot.sound, propext |
| `Mondis.Props.C86_serializable` | Classical.choice, Quot.sound, propext |
| `Mondis.Props.C86_readers` | Classical.choice, Quot.sound, propext |
| `Mondis.Props.C87_history` | Classical.choice, Quot.sound, propext |
| `Mondis.Props.C87_as_badger` | Classical.choice, Quot.sound, propext |
| `Mondis.Props.C87_transactions` | Classical.choice, Quot.sound, propext |
| `Mondis.Props.C87_update_fails` | Classical.choice, Quot.sound, propext |
| `Mondis.Props.C87_transactions_differ` | Classical.choice, Quot.sound, propext |
| `Mondis.Props.C87_malformed` | Classical.choice, Quot.sound, propext |
| `Mondis.Wait.C88_history` | Classical.choice, Quot.sound, propext |
| `Mondis.Wait.C88_told` | Classical.choice, Quot.sound, propext |
| `Mondis.Wait.C88_never` | Classical.choice, Quot.sound, propext |
| `Mondis.Wait.C88_ends` | Classical.choice, Quot.sound, propext |
| `Mondis.Wait.C88_served` | Classical.choice, Quot.sound, propext |
| `Mondis.Loop.C89_history` | Classical.choice, Quot.sound, propext |
| `Mondis.Loop.C89_asleep` | Classical.choice, Quot.sound, propext |
| `Mondis.Loop.C89_wakes` | Classical.choice, Quot.sound, propext |
| `Mondis.Loop.C89_serves` | Classical.choice, Quot.sound, propext |
| `Mondis.Loop.C89_failed` | Classical.choice, Quot.sound, propext |
| `Mondis.Loop.C89_spins` | Classical.choice, Quot.sound, propext |
