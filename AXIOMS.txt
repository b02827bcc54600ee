C01 Mmkv.C01_encrypted_process: propext, Classical.choice, Quot.sound
C01 Mmkv.C01_latest_write_wins: propext, Classical.choice, Quot.sound
C01 Mmkv.C01_fresh: propext, Classical.choice, Quot.sound
C01 Mmkv.C01_process: propext, Classical.choice, Quot.sound
C02 Mmkv.C02_reopen: propext, Classical.choice, Quot.sound
C02 Mmkv.C02_encrypted_reopen: propext, Classical.choice, Quot.sound
C02 Mmkv.C02_bytes_roundtrip: propext, Classical.choice, Quot.sound
C02 Mmkv.C02_put_get: propext, Classical.choice, Quot.sound
C03 Mmkv.C03_wrong_type: propext, Classical.choice, Quot.sound
C03 Mmkv.C03_tokens: none
C04 Mmkv.C04_reopen: propext, Classical.choice, Quot.sound
C04 Mmkv.C04_encrypted_reopen: propext, Classical.choice, Quot.sound
C04 Mmkv.C04_delete_removes: propext, Classical.choice, Quot.sound
C04 Mmkv.C04_delete_absent: propext
C05 Mmkv.C05_reopen: propext, Classical.choice, Quot.sound
C05 Mmkv.C05_encrypted_reopen: propext, Classical.choice, Quot.sound
C05 Mmkv.C05_other_keys: propext, Classical.choice, Quot.sound
C06 Mmkv.C06_close_reopen: propext, Classical.choice, Quot.sound
C06 Mmkv.C06_from_any_file: propext, Classical.choice, Quot.sound
C06 Mmkv.C06_encrypted_process: propext, Classical.choice, Quot.sound
C06 Mmkv.C06_process: propext, Classical.choice, Quot.sound
C07 Mmkv.C07_saved_or_destroyed: propext, Classical.choice, Quot.sound
C07 Mmkv.C07_refuted_append: propext, Classical.choice, Quot.sound
C07 Mmkv.C07_refuted: propext, Classical.choice, Quot.sound
C07 Mmkv.C07_partial: propext, Classical.choice, Quot.sound
C07 Mmkv.C07_encrypted_saved_or_destroyed: propext, Classical.choice, Quot.sound
C07 Mmkv.C07_encrypted_refuted: propext, Classical.choice, Quot.sound
C07 Mmkv.C07_encrypted_partial: propext, Classical.choice, Quot.sound
C08 Mmkv.Inst.C08_calls: propext, Classical.choice, Quot.sound
C08 Mmkv.Looper.C08_once_in_order: propext, Quot.sound
C09 Mmkv.Inst.C09_calls: propext, Classical.choice, Quot.sound
C09 Mmkv.Inst.C09_clear: propext, Classical.choice, Quot.sound
C09 Mmkv.Looper.C09_close_waits: propext, Quot.sound
C10 Mmkv.C10_crash_prefix: propext, Classical.choice, Quot.sound
C10 Mmkv.C10_one_session: propext, Classical.choice, Quot.sound
C10 Mmkv.C10_encrypted_process: propext, Classical.choice, Quot.sound
C10 Mmkv.C10_process: propext, Classical.choice, Quot.sound
C11 Mmkv.C11_effects_are_the_write: propext, Classical.choice, Quot.sound
C11 Mmkv.C11_old_records_untouched: propext, Classical.choice, Quot.sound
C11 Mmkv.C11_partial: propext, Classical.choice, Quot.sound
C11 Mmkv.C11_refuted: propext, Classical.choice, Quot.sound
C11 Mmkv.C11_refuted_wrong_value: propext, Classical.choice, Quot.sound
C11 Mmkv.C11_encrypted_old_records_untouched: propext, Classical.choice, Quot.sound
C11 Mmkv.C11_encrypted_partial: propext, Classical.choice, Quot.sound
C11 Mmkv.C11_encrypted_refuted: propext, Classical.choice, Quot.sound
C12 Mmkv.C12_refuted: propext, Classical.choice, Quot.sound
C12 Mmkv.C12_partial: propext, Classical.choice, Quot.sound
C12 Mmkv.C12_refuted_resurrected: propext, Classical.choice, Quot.sound
C12 Mmkv.C12_encrypted_refuted: propext, Classical.choice, Quot.sound
C12 Mmkv.C12_encrypted_partial: propext, Classical.choice, Quot.sound
C13 Mmkv.C13_compaction_preserves: propext, Classical.choice, Quot.sound
C13 Mmkv.C13_encrypted: propext, Classical.choice, Quot.sound
C14 Mmkv.C14_one_record_per_key: propext, Classical.choice, Quot.sound
C14 Mmkv.C14_encrypted: propext, Classical.choice, Quot.sound
C15 Mmkv.C15_well_formed: propext, Classical.choice, Quot.sound
C15 Mmkv.C15_session: propext, Classical.choice, Quot.sound
C15 Mmkv.C15_encrypted: propext, Classical.choice, Quot.sound
C16 Mmkv.C16_encrypted_one_page: propext, Classical.choice, Quot.sound
C16 Mmkv.C16_whole_pages: propext, Classical.choice, Quot.sound
C16 Mmkv.C16_one_page: propext, Classical.choice, Quot.sound
C16 Mmkv.C16_session: propext, Quot.sound
C16 Mmkv.C16_encrypted: propext, Classical.choice, Quot.sound
C17 Mmkv.C17_growth_partial: propext, Classical.choice, Quot.sound
C17 Mmkv.C17_refuted: propext, Classical.choice, Quot.sound
C17 Mmkv.C17_encrypted_partial: propext, Classical.choice, Quot.sound
C18 Mmkv.C18_roundtrip: propext, Classical.choice, Quot.sound
C18 Mmkv.C18_limit: propext, Classical.choice, Quot.sound
C19 Mmkv.C19_one_byte: propext, Classical.choice, Quot.sound
C19 Mmkv.C19_burst: propext, Classical.choice, Quot.sound
C19 Mmkv.C19_odd: propext, Classical.choice, Quot.sound
C19 Mmkv.C19_two_bits: propext, Classical.choice, Quot.sound
C19 Mmkv.C19_limits: propext, Quot.sound
C20 Mmkv.C20_encrypted_undamaged: propext, Classical.choice, Quot.sound
C20 Mmkv.C20_encrypted: propext, Classical.choice, Quot.sound
C20 Mmkv.C20_undamaged: propext, Classical.choice, Quot.sound
C20 Mmkv.C20_contained: propext, Classical.choice, Quot.sound
C20 Mmkv.C20_contained_burst: propext, Classical.choice, Quot.sound
C21 Mmkv.C21_encrypted_opens_exactly_partial: propext, Classical.choice, Quot.sound
C21 Mmkv.C21_refuted: propext, Classical.choice, Quot.sound
C21 Mmkv.C21_opens_exactly_partial: propext, Classical.choice, Quot.sound
C22 Mmkv.C22_open_close: propext
C22 Mmkv.C22_open_twice: propext, Classical.choice, Quot.sound
C22 Mmkv.C22_reopens: propext
C22 Mmkv.C22_fresh_empty: propext, Classical.choice, Quot.sound
C23 Mmkv.C23_survives: propext, Classical.choice, Quot.sound
C23 Mmkv.C23_close_reopen: propext, Classical.choice, Quot.sound
C23 Mmkv.C23_record: propext, Classical.choice, Quot.sound
C24 Mmkv.C24_refuted_at_every_compaction: propext, Classical.choice, Quot.sound
C24 Mmkv.C24_refuted: propext, Classical.choice, Quot.sound
C24 Mmkv.C24_partial: propext, Classical.choice, Quot.sound
C25 Mmkv.C25_wrong_key_or_nonce: propext, Classical.choice, Quot.sound
C26 Mmkv.C26_process: propext, Classical.choice, Quot.sound
C26 Mmkv.C26_encrypted_process: propext, Classical.choice, Quot.sound
C26 Mmkv.C26_clear: propext, Classical.choice, Quot.sound
C26 Mmkv.C26_clear_reopen: propext, Classical.choice, Quot.sound
C26 Mmkv.C26_encrypted_reopen: propext, Classical.choice, Quot.sound
C27 Mmkv.C27_shared: propext, Classical.choice, Quot.sound
C27 Mmkv.C27_put_visible: propext, Classical.choice, Quot.sound
C28 Mmkv.C28_independent: propext, Classical.choice, Quot.sound
C29 Mmkv.C29_encrypted_partial: propext, Classical.choice, Quot.sound
C29 Mmkv.C29_partial: propext, Classical.choice, Quot.sound
C29 Mmkv.C29_refuted_always: propext, Classical.choice, Quot.sound
C29 Mmkv.C29_refuted: propext, Classical.choice, Quot.sound
C30 Mmkv.C30_encrypted_partial: propext, Classical.choice, Quot.sound
C30 Mmkv.C30_partial: propext, Classical.choice, Quot.sound
C30 Mmkv.C30_refuted: propext, Classical.choice, Quot.sound
C31 Mmkv.C31_encrypted_refuted: propext, Classical.choice, Quot.sound
C31 Mmkv.C31_refuted_any: propext, Quot.sound
C31 Mmkv.C31_refuted: propext, Quot.sound
C31 Mmkv.C31_partial: propext, Classical.choice, Quot.sound
C32 Mmkv.C32_encrypted_reopen: propext, Classical.choice, Quot.sound
C32 Mmkv.C32_reopen: propext, Classical.choice, Quot.sound
C32 Mmkv.C32_accepts: propext, Classical.choice, Quot.sound
C32 Mmkv.C32_separate: propext, Classical.choice, Quot.sound
C32 Mmkv.C32_custom: propext, Classical.choice, Quot.sound
C33 Mmkv.C33_arrays: propext, Classical.choice, Quot.sound
C33 Mmkv.C33_typed: propext, Classical.choice, Quot.sound
C33 Mmkv.C33_string: propext, Classical.choice, Quot.sound
C34 Mmkv.C34_refuted: propext, Classical.choice, Quot.sound
C34 Mmkv.C34_refuted_delete: propext, Classical.choice, Quot.sound
C34 Mmkv.C34_refuted_end_to_end: propext, Classical.choice, Quot.sound
C34 Mmkv.C34_partial: propext, Quot.sound
C35 Mmkv.C35_refuted: propext, Classical.choice, Quot.sound
C35 Mmkv.C35_refuted_end_to_end: propext, Classical.choice, Quot.sound
C35 Mmkv.C35_refuted_poisoned: propext, Classical.choice, Quot.sound
C35 Mmkv.C35_get_partial: propext, Classical.choice, Quot.sound
C35 Mmkv.C35_put_partial: propext, Classical.choice, Quot.sound
C36 Mmkv.Ffi.C36_freed_exactly_once: propext, Classical.choice, Quot.sound
C36 Mmkv.Ffi.C36_leaves_no_trace: propext, Classical.choice, Quot.sound
C36 Mmkv.Ffi.C36_call_returns: propext
C36 Mmkv.Ffi.C36_logger: propext, Classical.choice, Quot.sound
C37 Mmkv.C37_bindings: propext, Classical.choice, Quot.sound
C37 Mmkv.Log.C37_level_filter: propext, Classical.choice, Quot.sound
C37 Mmkv.Log.C37_codes: propext, Classical.choice, Quot.sound
C37 Mmkv.NLog.C37_native: propext, Classical.choice, Quot.sound
C37 Mmkv.NLog.C37_native_exact: propext, Classical.choice, Quot.sound
C38 Mmkv.Log.C38_switch: propext, Classical.choice, Quot.sound
C38 Mmkv.Log.C38_messages: propext, Classical.choice, Quot.sound
C39 Mmkv.C39_kotlin: propext, Classical.choice, Quot.sound
C39 Mmkv.C39_swift_partial: propext, Classical.choice, Quot.sound
C39 Mmkv.C39_refuted: propext, Classical.choice, Quot.sound
C40 Mmkv.C40_default: propext, Classical.choice, Quot.sound
C40 Mmkv.C40_any_error: propext, Classical.choice, Quot.sound
C40 Mmkv.C40_nothing_else: propext, Classical.choice, Quot.sound
C41 Mmkv.C41_no_deadlock: propext, Classical.choice, Quot.sound
C41 Mmkv.C41_calls_return: propext, Classical.choice, Quot.sound
C42 Mmkv.C42_process_close_ends: propext, Classical.choice, Quot.sound
C42 Mmkv.Looper.C42_closing_finishes: propext, Quot.sound
C42 Mmkv.Looper.C42_ends_normally: propext, Quot.sound
C43 Mmkv.C43_refuted: none
C43 Mmkv.C43_partial: propext, Classical.choice, Quot.sound
C44 Mmkv.C44_reopen: propext, Classical.choice, Quot.sound
C44 Mmkv.C44_encrypted_reopen: propext, Classical.choice, Quot.sound
C44 Mmkv.C44_commute: propext, Classical.choice, Quot.sound
C44 Mmkv.C44_repeat: propext, Classical.choice, Quot.sound
C44 Mmkv.C44_repeat_reopen: propext, Classical.choice, Quot.sound
C44 Mmkv.C44_encrypted_repeat_reopen: propext, Classical.choice, Quot.sound
C45 Mmkv.Inst.C45_calls: propext, Classical.choice, Quot.sound
C45 Mmkv.Looper.C45_no_lost_wakeup: propext, Quot.sound
C46 Mmkv.C46_at_rest: propext, Classical.choice, Quot.sound
C46 Mmkv.C46_with_past: propext, Classical.choice, Quot.sound
C46 Mmkv.C46_encrypted: propext, Classical.choice, Quot.sound
C47 Mmkv.C47_page_size_change: propext, Classical.choice, Quot.sound
C47 Mmkv.C47_encrypted: propext, Classical.choice, Quot.sound
C48 Mmkv.C48_partial: propext, Classical.choice, Quot.sound
C48 Mmkv.C48_refuted: propext, Classical.choice, Quot.sound
C48 Mmkv.C48_refuted_end_to_end: propext, Classical.choice, Quot.sound
C49 Mmkv.C49_keys: propext, Classical.choice, Quot.sound
C49 Mmkv.C49_documented_length_panics: propext, Classical.choice, Quot.sound
C50 Mmkv.C50_refuted: propext, Classical.choice, Quot.sound
C50 Mmkv.C50_partial: propext, Classical.choice, Quot.sound
C51 Mmkv.Log.C51_partial: propext, Classical.choice, Quot.sound
C51 Mmkv.Log.C51_refuted: propext, Quot.sound
C52 Mmkv.C52_cut_at_nul: propext, Classical.choice, Quot.sound
C52 Mmkv.C52_partial: propext, Classical.choice, Quot.sound
C52 Mmkv.C52_value: propext, Classical.choice, Quot.sound
C52 Mmkv.C52_refuted: propext, Classical.choice, Quot.sound
C53 Mmkv.C53_encrypted_partial: propext, Classical.choice, Quot.sound
C53 Mmkv.C53_exactly: propext, Classical.choice, Quot.sound
C53 Mmkv.C53_refuted: propext, Classical.choice, Quot.sound
C53 Mmkv.C53_partial: propext, Classical.choice, Quot.sound
C53 Mmkv.C53_life_partial: propext, Classical.choice, Quot.sound
C54 Mmkv.C54_bounded: propext, Classical.choice, Quot.sound
C54 Mmkv.C54_encrypted: propext, Classical.choice, Quot.sound
C55 Mmkv.C55_growth_partial: propext, Classical.choice, Quot.sound
C55 Mmkv.C55_refuted: propext, Classical.choice, Quot.sound
C55 Mmkv.C55_encrypted_partial: propext, Classical.choice, Quot.sound
C56 Mmkv.C56_refuted: propext, Quot.sound
C56 Mmkv.C56_refuted_header: propext, Classical.choice, Quot.sound
C56 Mmkv.C56_refuted_write: propext, Classical.choice, Quot.sound
C56 Mmkv.C56_partial: propext, Classical.choice, Quot.sound
C56 Mmkv.C56_refuted_end_to_end: propext, Classical.choice, Quot.sound
C56 Mmkv.C56_with_past_partial: propext, Classical.choice, Quot.sound
C56 Mmkv.C56_encrypted_partial: propext, Classical.choice, Quot.sound
C57 Mmkv.C57_encrypted_partial: propext, Classical.choice, Quot.sound
C57 Mmkv.C57_closed_partial: propext, Classical.choice, Quot.sound
C57 Mmkv.C57_refuted: propext, Classical.choice, Quot.sound
C57 Mmkv.C57_refuted_encrypted: propext, Classical.choice, Quot.sound
C58 Mmkv.C58_encrypted_partial: propext, Classical.choice, Quot.sound
C58 Mmkv.C58_partial: propext, Classical.choice, Quot.sound
C58 Mmkv.C58_refuted: propext, Classical.choice, Quot.sound
C59 Mmkv.C59_partial: propext, Classical.choice, Quot.sound
C59 Mmkv.C59_refuted: propext, Classical.choice, Quot.sound
C60 Mmkv.C60_refuted: propext, Classical.choice, Quot.sound
C60 Mmkv.C60_partial: propext, Classical.choice, Quot.sound
C60 Mmkv.C60_encrypted_partial: propext, Classical.choice, Quot.sound
C60 Mmkv.C60_refuted_executions: propext, Classical.choice, Quot.sound
C61 Mmkv.C61_uninterrupted: propext, Quot.sound
C61 Mmkv.C61_killed_open: propext
C61 Mmkv.C61_killed_opens: propext, Classical.choice, Quot.sound
C61 Mmkv.C61_data_kept: propext, Classical.choice, Quot.sound
C61 Mmkv.C61_no_data: propext, Classical.choice, Quot.sound
C61 Mmkv.C61_killed_clear: propext, Classical.choice, Quot.sound
C62 Mmkv.C62_refuted: propext, Classical.choice, Quot.sound
C62 Mmkv.C62_refuted_clear: propext, Classical.choice, Quot.sound
C62 Mmkv.C62_partial: propext, Classical.choice, Quot.sound
C63 Mmkv.C63_partial: propext, Classical.choice, Quot.sound
C63 Mmkv.C63_partial_new_keys: propext, Classical.choice, Quot.sound
C63 Mmkv.C63_refuted: propext, Classical.choice, Quot.sound
C63 Mmkv.C63_refuted_encrypted: propext, Classical.choice, Quot.sound
C64 Mmkv.C64_with_past_partial: propext, Classical.choice, Quot.sound
C64 Mmkv.C64_encrypted_partial: propext, Classical.choice, Quot.sound
C64 Mmkv.C64_refuted: propext, Classical.choice, Quot.sound
C64 Mmkv.C64_partial: propext, Classical.choice, Quot.sound
C64 Mmkv.C64_get: propext, Classical.choice, Quot.sound
C65 Mmkv.C65_logging_changes_nothing: propext, Quot.sound
C65 Mmkv.C65_partial: propext, Classical.choice, Quot.sound
C65 Mmkv.C65_refuted: propext, Classical.choice, Quot.sound
C65 Mmkv.C65_refuted_open: propext, Quot.sound
C65 Mmkv.C65_open_unchanged: propext, Quot.sound
C65 Mmkv.C65_refuted_open_damaged: propext, Quot.sound
C65 Mmkv.C65_open_error_level: propext, Classical.choice, Quot.sound
C66 Mmkv.NLog.C66_destroy_last: propext, Quot.sound
C66 Mmkv.NLog.C66_replaced_destroyed: propext, Quot.sound
C66 Mmkv.NLog.C66_comes_to_rest: propext, Quot.sound
C67 Mmkv.C67_with_past: propext, Classical.choice, Quot.sound
C67 Mmkv.C67_encrypted_with_past: propext, Classical.choice, Quot.sound
C67 Mmkv.C67_bounded_latency: propext, Classical.choice, Quot.sound
C67 Mmkv.C67_waiting_bound: propext, Classical.choice, Quot.sound
C67 Mmkv.C67_never_stuck: propext, Classical.choice, Quot.sound
C67 Mmkv.C67_encrypted: propext, Classical.choice, Quot.sound
C68 Mmkv.C68_clean_close_saves: propext, Classical.choice, Quot.sound
C68 Mmkv.C68_any_file: propext, Classical.choice, Quot.sound
C68 Mmkv.C68_encrypted: propext, Classical.choice, Quot.sound
C69 Mmkv.C69_partial_clear_renews: propext, Classical.choice, Quot.sound
C69 Mmkv.C69_partial_kept: propext, Classical.choice, Quot.sound
C69 Mmkv.C69_partial_next_session: propext, Classical.choice, Quot.sound
C69 Mmkv.C69_partial_encLeft: propext, Classical.choice, Quot.sound
C69 Mmkv.C69_refuted: propext, Classical.choice, Quot.sound
C70 Mmkv.C70_saved_with_past: propext, Classical.choice, Quot.sound
C70 Mmkv.C70_saved_encrypted: propext, Classical.choice, Quot.sound
C70 Mmkv.C70_linearizable: propext, Classical.choice, Quot.sound
C70 Mmkv.C70_linearizable_map: propext, Classical.choice, Quot.sound
C70 Mmkv.C70_order_of_the_file: propext, Classical.choice, Quot.sound
C70 Mmkv.C70_saved: propext, Classical.choice, Quot.sound
C71 Mmkv.C71_buffered_durable: propext, Classical.choice, Quot.sound
C71 Mmkv.C71_encrypted: propext, Classical.choice, Quot.sound
C72 Mmkv.C72_switched_on: propext, Classical.choice, Quot.sound
C72 Mmkv.C72_switched_off: propext, Classical.choice, Quot.sound
C72 Mmkv.C72_records_not_empty: propext, Classical.choice, Quot.sound
C73 Mmkv.C73_refuted_writes_lost: propext, Classical.choice, Quot.sound
C73 Mmkv.C73_refuted_unseen: propext, Quot.sound
C73 Mmkv.C73_partial: propext, Classical.choice, Quot.sound
C74 Mmkv.C74_linearizable: propext, Classical.choice, Quot.sound
C74 Mmkv.C74_linearizable_maps: propext, Classical.choice, Quot.sound
C75 Mmkv.C75_back: propext, Classical.choice, Quot.sound
C75 Mmkv.C75_no_panic: propext, Classical.choice, Quot.sound
C75 Mmkv.C75_exact: propext, Classical.choice, Quot.sound
C75 Mmkv.C75_keys: propext, Classical.choice, Quot.sound
C75 Mmkv.C75_lossy: propext, Classical.choice, Quot.sound
C75 Mmkv.C75_partial: propext, Classical.choice, Quot.sound
C75 Mmkv.C75_delete: propext, Classical.choice, Quot.sound
C75 Mmkv.C75_other_keys: propext, Classical.choice, Quot.sound
C75 Mmkv.C75_refuted: propext, Classical.choice, Quot.sound
C75 Mmkv.C75_refuted_value: propext, Classical.choice, Quot.sound
C76 Mmkv.ALog.C76_partial: propext, Classical.choice, Quot.sound
C76 Mmkv.ALog.C76_limit: propext, Classical.choice, Quot.sound
C76 Mmkv.ALog.C76_refuted: propext, Classical.choice, Quot.sound
C77 Mmkv.ALog.C77_refuted: propext, Classical.choice, Quot.sound
C77 Mmkv.ALog.C77_partial: propext, Classical.choice, Quot.sound
C78 Mmkv.CLog.C78_calls: propext, Quot.sound
C78 Mmkv.CLog.C78_levels: propext, Classical.choice, Quot.sound
C78 Mmkv.CLog.C78_balance_get: propext, Classical.choice, Quot.sound
C78 Mmkv.CLog.C78_balance_unit: propext, Classical.choice, Quot.sound
C78 Mmkv.CLog.C78_count: propext, Classical.choice, Quot.sound
C78 Mmkv.CLog.C78_program: propext, Classical.choice, Quot.sound
C78 Mmkv.CLog.C78_silent: propext, Classical.choice, Quot.sound
C79 Mmkv.CLog.C79_refuted: propext, Classical.choice, Quot.sound
C79 Mmkv.CLog.C79_partial: propext, Classical.choice, Quot.sound
C80 Mmkv.C80_at_rest_with_past: propext, Classical.choice, Quot.sound
C80 Mmkv.C80_at_rest_encrypted: propext, Classical.choice, Quot.sound
C80 Mmkv.C80_checksum: propext, Classical.choice, Quot.sound
C80 Mmkv.C80_message: propext, Classical.choice, Quot.sound
C80 Mmkv.C80_record: propext, Classical.choice, Quot.sound
C80 Mmkv.C80_written: propext, Classical.choice, Quot.sound
C80 Mmkv.C80_read: propext, Classical.choice, Quot.sound
C80 Mmkv.C80_file: propext, Classical.choice, Quot.sound
C80 Mmkv.C80_at_rest: propext, Classical.choice, Quot.sound
C80 Mmkv.C80_encrypted: propext, Classical.choice, Quot.sound
C80 Mmkv.C80_read_encrypted: propext, Classical.choice, Quot.sound
C80 Mmkv.C80_unambiguous: propext, Classical.choice, Quot.sound
C81 Mmkv.C81_encrypted_partial: propext, Classical.choice, Quot.sound
C81 Mmkv.C81_refuted: propext, Quot.sound
C81 Mmkv.C81_refuted_later: propext, Quot.sound
C81 Mmkv.C81_refuted_close: propext, Classical.choice, Quot.sound
C81 Mmkv.C81_partial: propext, Classical.choice, Quot.sound
C82 Mmkv.Threads.C82_no_wait: propext, Classical.choice, Quot.sound
C82 Mmkv.Threads.C82_steps: propext, Classical.choice, Quot.sound
C82 Mmkv.Threads.C82_no_file_access: propext, Classical.choice, Quot.sound
C82 Mmkv.Threads.C82_clear_waits: propext, Classical.choice, Quot.sound
C83 Mmkv.C83_refuted: propext, Classical.choice, Quot.sound
C83 Mmkv.C83_refuted_clear: propext, Quot.sound
C83 Mmkv.C83_refuted_end_to_end: propext, Classical.choice, Quot.sound
C83 Mmkv.C83_put: propext, Quot.sound
C83 Mmkv.C83_noticed: propext, Classical.choice, Quot.sound
C83 Mmkv.C83_swift_code: propext, Classical.choice, Quot.sound
C83 Mmkv.C83_partial: propext, Classical.choice, Quot.sound
C84 Mmkv.SLog.C84_lifetime: propext, Quot.sound
C84 Mmkv.SLog.C84_delivery: propext, Quot.sound
C84 Mmkv.SLog.C84_complete: propext, Classical.choice, Quot.sound
C84 Mmkv.SLog.C84_released: propext, Quot.sound
C84 Mmkv.SLog.C84_drains: propext, Quot.sound
C85 Mmkv.SLog.C85_refuted: propext
C85 Mmkv.SLog.C85_partial: propext, Quot.sound
C86 Mmkv.C86_partial: propext, Classical.choice, Quot.sound
C86 Mmkv.C86_any_error_partial: propext, Classical.choice, Quot.sound
C86 Mmkv.C86_refuted: propext, Classical.choice, Quot.sound
C87 Mmkv.C87_encrypted_linearizable: propext, Classical.choice, Quot.sound
C87 Mmkv.C87_encrypted_saved: propext, Classical.choice, Quot.sound
C87 Mmkv.C87_linearizable: propext, Classical.choice, Quot.sound
C87 Mmkv.C87_saved: propext, Classical.choice, Quot.sound
C88 Mmkv.C88_partial: propext, Classical.choice, Quot.sound
C88 Mmkv.C88_at_rest_partial: propext, Classical.choice, Quot.sound
C88 Mmkv.C88_refuted: propext, Classical.choice, Quot.sound
C88 Mmkv.C88_refuted_failed: propext, Classical.choice, Quot.sound
C89 Mmkv.C89_amortized_partial: propext, Classical.choice, Quot.sound
C89 Mmkv.C89_amortized_encrypted_partial: propext, Classical.choice, Quot.sound
C89 Mmkv.C89_refuted: propext, Classical.choice, Quot.sound
C90 Mmkv.C90_partial: propext, Classical.choice, Quot.sound
C90 Mmkv.C90_saved_partial: propext, Classical.choice, Quot.sound
C90 Mmkv.C90_encrypted_partial: propext, Classical.choice, Quot.sound
C90 Mmkv.C90_encrypted_saved_partial: propext, Classical.choice, Quot.sound
C90 Mmkv.C90_refuted: propext, Classical.choice, Quot.sound
C90 Mmkv.C90_refuted_saved: propext, Classical.choice, Quot.sound
C91 Mmkv.C91_partial: propext, Classical.choice, Quot.sound
C91 Mmkv.C91_saved_partial: propext, Classical.choice, Quot.sound
C91 Mmkv.C91_refuted: propext, Classical.choice, Quot.sound
C91 Mmkv.C91_refuted_loses: propext, Classical.choice, Quot.sound
C91 Mmkv.C91_encrypted_saved_partial: propext, Classical.choice, Quot.sound
C91 Mmkv.C91_encrypted_refuted: propext, Classical.choice, Quot.sound
C92 Mmkv.C92_open_partial: propext, Classical.choice, Quot.sound
C92 Mmkv.C92_partial: propext, Classical.choice, Quot.sound
C92 Mmkv.C92_shipped_partial: propext, Classical.choice, Quot.sound
C92 Mmkv.C92_every_build_partial: propext, Classical.choice, Quot.sound
C92 Mmkv.C92_encrypted_partial: propext, Classical.choice, Quot.sound
C92 Mmkv.C92_refuted: propext, Classical.choice, Quot.sound
C92 Mmkv.C92_refuted_builds: propext, Classical.choice, Quot.sound
C92 Mmkv.C92_debug_release_partial: propext, Classical.choice, Quot.sound
C92 Mmkv.C92_shipped_release_partial: propext, Classical.choice, Quot.sound
C92 Mmkv.C92_refuted_lost: propext, Classical.choice, Quot.sound
C92 Mmkv.C92_refuted_ends: propext, Classical.choice, Quot.sound
C93 Mmkv.C93_refuted: propext, Classical.choice, Quot.sound
C93 Mmkv.C93_refuted_encrypted: propext, Classical.choice, Quot.sound
C93 Mmkv.C93_refuted_tail: propext, Classical.choice, Quot.sound
C93 Mmkv.C93_refuted_compacted: propext, Classical.choice, Quot.sound
C93 Mmkv.C93_partial: propext, Classical.choice, Quot.sound
C94 Mmkv.C94_partial: propext, Classical.choice, Quot.sound
C94 Mmkv.C94_partial_fits: propext, Classical.choice, Quot.sound
C94 Mmkv.C94_refuted: propext, Classical.choice, Quot.sound
C94 Mmkv.C94_encrypted_partial: propext, Classical.choice, Quot.sound
C95 Mmkv.C95_sizes_only: propext, Classical.choice, Quot.sound
C95 Mmkv.C95_sizes_only_encrypted: propext, Classical.choice, Quot.sound
C95 Mmkv.C95_repeats_show: propext, Classical.choice, Quot.sound
C96 Mmkv.C96_partial: propext, Classical.choice, Quot.sound
C96 Mmkv.C96_no_failure_no_difference: propext, Classical.choice, Quot.sound
C96 Mmkv.C96_adds: propext, Classical.choice, Quot.sound
C96 Mmkv.C96_encrypted_partial: propext, Classical.choice, Quot.sound
C96 Mmkv.C96_refuted: propext, Classical.choice, Quot.sound
C97 Mmkv.C97_as_if_it_never_moved: propext, Classical.choice, Quot.sound
C97 Mmkv.C97_partial: propext, Classical.choice, Quot.sound
C97 Mmkv.C97_refuted_new: propext, Classical.choice, Quot.sound
C97 Mmkv.C97_refuted_kept: propext, Quot.sound
C97 Mmkv.C97_refuted_new_execution: propext, Classical.choice, Quot.sound
C97 Mmkv.C97_refuted_clear: propext, Classical.choice, Quot.sound
C97 Mmkv.C97_refuted_panic: propext, Classical.choice, Quot.sound
C98 Mmkv.C98_refuted: propext, Classical.choice, Quot.sound
C98 Mmkv.C98_parent_partial: propext, Classical.choice, Quot.sound
C98 Mmkv.C98_refuted_drop: propext, Classical.choice, Quot.sound
C98 Mmkv.C98_refuted_clear: propext, Classical.choice, Quot.sound
C98 Mmkv.C98_partial: propext, Classical.choice, Quot.sound
C99 Mmkv.C99_balance: propext, Classical.choice, Quot.sound
C99 Mmkv.C99_midway: propext, Classical.choice, Quot.sound
C99 Mmkv.C99_bound: propext, Classical.choice, Quot.sound
C99 Mmkv.C99_at_rest: propext, Classical.choice, Quot.sound
C99 Mmkv.C99_all_back: propext, Classical.choice, Quot.sound
C100 Mmkv.ALog.C100_refuted: propext, Classical.choice, Quot.sound
C100 Mmkv.ALog.C100_refuted_example: propext, Classical.choice, Quot.sound
C100 Mmkv.ALog.C100_partial: propext, Classical.choice, Quot.sound
C101 Mmkv.C101_mix_refuted: propext, Classical.choice, Quot.sound
C101 Mmkv.C101_partial: propext, Classical.choice, Quot.sound
C101 Mmkv.C101_one_log_partial: propext, Classical.choice, Quot.sound
C101 Mmkv.C101_values_partial: propext, Classical.choice, Quot.sound
C101 Mmkv.C101_drop_refuted: propext, Classical.choice, Quot.sound
C101 Mmkv.C101_refuted: propext, Classical.choice, Quot.sound
C102 Mmkv.C102_restarts: propext, Classical.choice, Quot.sound
C102 Mmkv.C102_encrypted: propext, Classical.choice, Quot.sound
C102 Mmkv.C102_kill_inside_append: propext, Classical.choice, Quot.sound
C102 Mmkv.C102_kill_inside_append_encrypted: propext, Classical.choice, Quot.sound
C102 Mmkv.C102_closed: propext, Classical.choice, Quot.sound
C102 Mmkv.C102_encrypted_closed: propext, Classical.choice, Quot.sound
C103 Mmkv.LogText.C103_partial_history: propext, Classical.choice, Quot.sound
C103 Mmkv.LogText.C103_given_away: propext, Classical.choice, Quot.sound
C103 Mmkv.LogText.C103_refuted: propext, Classical.choice, Quot.sound
C103 Mmkv.LogText.C103_given_away_again: propext, Classical.choice, Quot.sound
C103 Mmkv.LogText.C103_partial_strings: propext, Classical.choice, Quot.sound
C103 Mmkv.LogText.C103_partial_level: propext, Classical.choice, Quot.sound
C104 Mmkv.CoreText.C104_log_sizes_only: propext, Classical.choice, Quot.sound
C104 Mmkv.CoreText.C104_log_sizes_only_encrypted: propext, Classical.choice, Quot.sound
C105 Mmkv.KText.C105_partial_values: propext, Classical.choice, Quot.sound
C105 Mmkv.KText.C105_partial_values_encrypted: propext, Classical.choice, Quot.sound
C105 Mmkv.KText.C105_partial_values_texts: propext, Classical.choice, Quot.sound
C105 Mmkv.KText.C105_partial_values_texts_encrypted: propext, Classical.choice, Quot.sound
C105 Mmkv.KText.C105_keys_given_away: propext, Classical.choice, Quot.sound
C105 Mmkv.KText.C105_refuted: propext, Classical.choice, Quot.sound
