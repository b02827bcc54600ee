{
 "claims": [
  {
   "property": "C01",
   "status": "proved",
   "theorems": [
    "Mmkv.C01_encrypted_process",
    "Mmkv.C01_latest_write_wins",
    "Mmkv.C01_fresh",
    "Mmkv.C01_process"
   ],
   "note": ""
  },
  {
   "property": "C02",
   "status": "proved",
   "theorems": [
    "Mmkv.C02_reopen",
    "Mmkv.C02_encrypted_reopen",
    "Mmkv.C02_bytes_roundtrip",
    "Mmkv.C02_put_get"
   ],
   "note": ""
  },
  {
   "property": "C03",
   "status": "proved",
   "theorems": [
    "Mmkv.C03_wrong_type",
    "Mmkv.C03_tokens"
   ],
   "note": ""
  },
  {
   "property": "C04",
   "status": "proved",
   "theorems": [
    "Mmkv.C04_reopen",
    "Mmkv.C04_encrypted_reopen",
    "Mmkv.C04_delete_removes",
    "Mmkv.C04_delete_absent"
   ],
   "note": ""
  },
  {
   "property": "C05",
   "status": "proved",
   "theorems": [
    "Mmkv.C05_reopen",
    "Mmkv.C05_encrypted_reopen",
    "Mmkv.C05_other_keys"
   ],
   "note": ""
  },
  {
   "property": "C06",
   "status": "proved",
   "theorems": [
    "Mmkv.C06_close_reopen",
    "Mmkv.C06_from_any_file",
    "Mmkv.C06_encrypted_process",
    "Mmkv.C06_process"
   ],
   "note": ""
  },
  {
   "property": "C07",
   "status": "partial",
   "theorems": [
    "Mmkv.C07_saved_or_destroyed",
    "Mmkv.C07_refuted_append",
    "Mmkv.C07_refuted",
    "Mmkv.C07_partial",
    "Mmkv.C07_encrypted_saved_or_destroyed",
    "Mmkv.C07_encrypted_refuted",
    "Mmkv.C07_encrypted_partial"
   ],
   "note": "False of the code as stated: C07_refuted/C07_refuted_append give a put that returns Ok and is lost (and makes the directory unopenable) when the record needs more than one extra page; C07_saved_or_destroyed settles every case and C07_partial proves the property for records up to one page. Encrypted stores: C07_encrypted_saved_or_destroyed, C07_encrypted_refuted, C07_encrypted_partial."
  },
  {
   "property": "C08",
   "status": "proved",
   "theorems": [
    "Mmkv.Inst.C08_calls",
    "Mmkv.Looper.C08_once_in_order"
   ],
   "note": ""
  },
  {
   "property": "C09",
   "status": "proved",
   "theorems": [
    "Mmkv.Inst.C09_calls",
    "Mmkv.Inst.C09_clear",
    "Mmkv.Looper.C09_close_waits"
   ],
   "note": ""
  },
  {
   "property": "C10",
   "status": "proved",
   "theorems": [
    "Mmkv.C10_crash_prefix",
    "Mmkv.C10_one_session",
    "Mmkv.C10_encrypted_process",
    "Mmkv.C10_process"
   ],
   "note": ""
  },
  {
   "property": "C11",
   "status": "partial",
   "theorems": [
    "Mmkv.C11_effects_are_the_write",
    "Mmkv.C11_old_records_untouched",
    "Mmkv.C11_partial",
    "Mmkv.C11_refuted",
    "Mmkv.C11_refuted_wrong_value",
    "Mmkv.C11_encrypted_old_records_untouched",
    "Mmkv.C11_encrypted_partial",
    "Mmkv.C11_encrypted_refuted"
   ],
   "note": "False of the code as stated (the length header is written before the data): C11_refuted, C11_refuted_wrong_value. C11_partial and C11_old_records_untouched prove what does hold at every crash point inside an append. The same four statements for encrypted stores: C11_encrypted_partial, C11_encrypted_old_records_untouched, C11_encrypted_refuted."
  },
  {
   "property": "C12",
   "status": "partial",
   "theorems": [
    "Mmkv.C12_refuted",
    "Mmkv.C12_partial",
    "Mmkv.C12_refuted_resurrected",
    "Mmkv.C12_encrypted_refuted",
    "Mmkv.C12_encrypted_partial"
   ],
   "note": "False of the code as stated (the header is reset before the rewrite): C12_refuted, C12_refuted_resurrected. C12_partial proves what does hold. Encrypted stores: C12_encrypted_refuted, C12_encrypted_partial."
  },
  {
   "property": "C13",
   "status": "proved",
   "theorems": [
    "Mmkv.C13_compaction_preserves",
    "Mmkv.C13_encrypted"
   ],
   "note": ""
  },
  {
   "property": "C14",
   "status": "proved",
   "theorems": [
    "Mmkv.C14_one_record_per_key",
    "Mmkv.C14_encrypted"
   ],
   "note": ""
  },
  {
   "property": "C15",
   "status": "proved",
   "theorems": [
    "Mmkv.C15_well_formed",
    "Mmkv.C15_session",
    "Mmkv.C15_encrypted"
   ],
   "note": ""
  },
  {
   "property": "C16",
   "status": "proved",
   "theorems": [
    "Mmkv.C16_encrypted_one_page",
    "Mmkv.C16_whole_pages",
    "Mmkv.C16_one_page",
    "Mmkv.C16_session",
    "Mmkv.C16_encrypted"
   ],
   "note": ""
  },
  {
   "property": "C17",
   "status": "partial",
   "theorems": [
    "Mmkv.C17_growth_partial",
    "Mmkv.C17_refuted",
    "Mmkv.C17_encrypted_partial"
   ],
   "note": "False of the code as stated (stale max_len in the rewrite loop): C17_refuted. C17_growth_partial gives the bound that holds. Encrypted stores: C17_encrypted_partial."
  },
  {
   "property": "C18",
   "status": "proved",
   "theorems": [
    "Mmkv.C18_roundtrip",
    "Mmkv.C18_limit"
   ],
   "note": ""
  },
  {
   "property": "C19",
   "status": "proved",
   "theorems": [
    "Mmkv.C19_one_byte",
    "Mmkv.C19_burst",
    "Mmkv.C19_odd",
    "Mmkv.C19_two_bits",
    "Mmkv.C19_limits"
   ],
   "note": ""
  },
  {
   "property": "C20",
   "status": "proved",
   "theorems": [
    "Mmkv.C20_encrypted_undamaged",
    "Mmkv.C20_encrypted",
    "Mmkv.C20_undamaged",
    "Mmkv.C20_contained",
    "Mmkv.C20_contained_burst"
   ],
   "note": ""
  },
  {
   "property": "C21",
   "status": "partial",
   "theorems": [
    "Mmkv.C21_encrypted_opens_exactly_partial",
    "Mmkv.C21_refuted",
    "Mmkv.C21_opens_exactly_partial"
   ],
   "note": "False of the code as stated: C21_refuted. C21_opens_exactly_partial characterises exactly the files that open, C21_encrypted_opens_exactly_partial exactly the directories with encryption that do."
  },
  {
   "property": "C22",
   "status": "proved",
   "theorems": [
    "Mmkv.C22_open_close",
    "Mmkv.C22_open_twice",
    "Mmkv.C22_reopens",
    "Mmkv.C22_fresh_empty"
   ],
   "note": ""
  },
  {
   "property": "C23",
   "status": "proved",
   "theorems": [
    "Mmkv.C23_survives",
    "Mmkv.C23_close_reopen",
    "Mmkv.C23_record"
   ],
   "note": ""
  },
  {
   "property": "C24",
   "status": "partial",
   "theorems": [
    "Mmkv.C24_refuted_at_every_compaction",
    "Mmkv.C24_refuted",
    "Mmkv.C24_partial"
   ],
   "note": "False of the code as stated: every compaction re-encrypts different records from counter 0 under the same nonce (C24_refuted_at_every_compaction, C24_refuted for every cipher). C24_partial: without a compaction no reuse."
  },
  {
   "property": "C25",
   "status": "proved",
   "theorems": [
    "Mmkv.C25_wrong_key_or_nonce"
   ],
   "note": ""
  },
  {
   "property": "C26",
   "status": "proved",
   "theorems": [
    "Mmkv.C26_process",
    "Mmkv.C26_encrypted_process",
    "Mmkv.C26_clear",
    "Mmkv.C26_clear_reopen",
    "Mmkv.C26_encrypted_reopen"
   ],
   "note": ""
  },
  {
   "property": "C27",
   "status": "proved",
   "theorems": [
    "Mmkv.C27_shared",
    "Mmkv.C27_put_visible"
   ],
   "note": ""
  },
  {
   "property": "C28",
   "status": "proved",
   "theorems": [
    "Mmkv.C28_independent"
   ],
   "note": ""
  },
  {
   "property": "C29",
   "status": "partial",
   "theorems": [
    "Mmkv.C29_encrypted_partial",
    "Mmkv.C29_partial",
    "Mmkv.C29_refuted_always",
    "Mmkv.C29_refuted"
   ],
   "note": "False of the code as stated (the registry is keyed by the raw string): C29_refuted, C29_refuted_always. C29_partial: true when the stores made with other spellings have finished closing. C29_encrypted_partial: the same with encryption."
  },
  {
   "property": "C30",
   "status": "partial",
   "theorems": [
    "Mmkv.C30_encrypted_partial",
    "Mmkv.C30_partial",
    "Mmkv.C30_refuted"
   ],
   "note": "False of the code as stated (Drop takes the directory out of the registry and releases the lock before the store is waited for): C30_refuted. C30_partial: true when the drop has finished. C30_encrypted_partial: the same with encryption."
  },
  {
   "property": "C31",
   "status": "partial",
   "theorems": [
    "Mmkv.C31_encrypted_refuted",
    "Mmkv.C31_refuted_any",
    "Mmkv.C31_refuted",
    "Mmkv.C31_partial"
   ],
   "note": "False of the code as stated (a panic in new poisons the registry lock): C31_refuted. C31_partial: handles that already exist are unaffected. C31_refuted_any: whatever the `new` panicked for; C31_encrypted_refuted: in particular a malformed key."
  },
  {
   "property": "C32",
   "status": "proved",
   "theorems": [
    "Mmkv.C32_encrypted_reopen",
    "Mmkv.C32_reopen",
    "Mmkv.C32_accepts",
    "Mmkv.C32_separate",
    "Mmkv.C32_custom"
   ],
   "note": ""
  },
  {
   "property": "C33",
   "status": "proved",
   "theorems": [
    "Mmkv.C33_arrays",
    "Mmkv.C33_typed",
    "Mmkv.C33_string"
   ],
   "note": ""
  },
  {
   "property": "C34",
   "status": "partial",
   "theorems": [
    "Mmkv.C34_refuted",
    "Mmkv.C34_refuted_delete",
    "Mmkv.C34_refuted_end_to_end",
    "Mmkv.C34_partial"
   ],
   "note": "False of the code as stated: put updates the map before posting the job, so a put that returns Err (dead IO thread) is visible to get (C34_refuted, C34_refuted_delete, C34_refuted_end_to_end). C34_partial: errors found before the map is touched (closed instance, poisoned lock) have no effect."
  },
  {
   "property": "C35",
   "status": "partial",
   "theorems": [
    "Mmkv.C35_refuted",
    "Mmkv.C35_refuted_end_to_end",
    "Mmkv.C35_refuted_poisoned",
    "Mmkv.C35_get_partial",
    "Mmkv.C35_put_partial"
   ],
   "note": "False of the code as stated: C35_refuted, C35_refuted_end_to_end, C35_refuted_poisoned give calls that abort. C35_get_partial, C35_put_partial: every error that does cross carries its documented code."
  },
  {
   "property": "C36",
   "status": "proved",
   "theorems": [
    "Mmkv.Ffi.C36_freed_exactly_once",
    "Mmkv.Ffi.C36_leaves_no_trace",
    "Mmkv.Ffi.C36_call_returns",
    "Mmkv.Ffi.C36_logger"
   ],
   "note": ""
  },
  {
   "property": "C37",
   "status": "proved",
   "theorems": [
    "Mmkv.C37_bindings",
    "Mmkv.Log.C37_level_filter",
    "Mmkv.Log.C37_codes",
    "Mmkv.NLog.C37_native",
    "Mmkv.NLog.C37_native_exact"
   ],
   "note": ""
  },
  {
   "property": "C38",
   "status": "proved",
   "theorems": [
    "Mmkv.Log.C38_switch",
    "Mmkv.Log.C38_messages"
   ],
   "note": ""
  },
  {
   "property": "C39",
   "status": "partial",
   "theorems": [
    "Mmkv.C39_kotlin",
    "Mmkv.C39_swift_partial",
    "Mmkv.C39_refuted"
   ],
   "note": "False of the code as stated: the Swift binding crashes on every empty array (C39_refuted). C39_kotlin proves it for Kotlin, C39_swift_partial for Swift with non-empty arrays."
  },
  {
   "property": "C40",
   "status": "proved",
   "theorems": [
    "Mmkv.C40_default",
    "Mmkv.C40_any_error",
    "Mmkv.C40_nothing_else"
   ],
   "note": ""
  },
  {
   "property": "C41",
   "status": "proved",
   "theorems": [
    "Mmkv.C41_no_deadlock",
    "Mmkv.C41_calls_return"
   ],
   "note": ""
  },
  {
   "property": "C42",
   "status": "proved",
   "theorems": [
    "Mmkv.C42_process_close_ends",
    "Mmkv.Looper.C42_closing_finishes",
    "Mmkv.Looper.C42_ends_normally"
   ],
   "note": ""
  },
  {
   "property": "C43",
   "status": "partial",
   "theorems": [
    "Mmkv.C43_refuted",
    "Mmkv.C43_partial"
   ],
   "note": "False of the code as stated: with a usize that has not 8 bytes every open panics (C43_refuted). C43_partial: 8 bytes open."
  },
  {
   "property": "C44",
   "status": "proved",
   "theorems": [
    "Mmkv.C44_reopen",
    "Mmkv.C44_encrypted_reopen",
    "Mmkv.C44_commute",
    "Mmkv.C44_repeat",
    "Mmkv.C44_repeat_reopen",
    "Mmkv.C44_encrypted_repeat_reopen"
   ],
   "note": ""
  },
  {
   "property": "C45",
   "status": "proved",
   "theorems": [
    "Mmkv.Inst.C45_calls",
    "Mmkv.Looper.C45_no_lost_wakeup"
   ],
   "note": ""
  },
  {
   "property": "C46",
   "status": "proved",
   "theorems": [
    "Mmkv.C46_at_rest",
    "Mmkv.C46_with_past",
    "Mmkv.C46_encrypted"
   ],
   "note": ""
  },
  {
   "property": "C47",
   "status": "proved",
   "theorems": [
    "Mmkv.C47_page_size_change",
    "Mmkv.C47_encrypted"
   ],
   "note": ""
  },
  {
   "property": "C48",
   "status": "partial",
   "theorems": [
    "Mmkv.C48_partial",
    "Mmkv.C48_refuted",
    "Mmkv.C48_refuted_end_to_end"
   ],
   "note": "False of the code as stated when the foreign session compacts (C48_refuted, C48_refuted_end_to_end); C48_partial proves it for sessions that only append."
  },
  {
   "property": "C49",
   "status": "proved",
   "theorems": [
    "Mmkv.C49_keys",
    "Mmkv.C49_documented_length_panics"
   ],
   "note": ""
  },
  {
   "property": "C50",
   "status": "partial",
   "theorems": [
    "Mmkv.C50_refuted",
    "Mmkv.C50_partial"
   ],
   "note": "False of the code as stated: C50_refuted; C50_partial proves it below the counter limit."
  },
  {
   "property": "C51",
   "status": "partial",
   "theorems": [
    "Mmkv.Log.C51_partial",
    "Mmkv.Log.C51_refuted"
   ],
   "note": "False of the code as stated: C51_refuted (the log thread dies, every later delivery panics). C51_partial: with loggers that do not panic no call does."
  },
  {
   "property": "C52",
   "status": "partial",
   "theorems": [
    "Mmkv.C52_cut_at_nul",
    "Mmkv.C52_partial",
    "Mmkv.C52_value",
    "Mmkv.C52_refuted"
   ],
   "note": "False of the code as stated: a NUL character cuts a key or string (C52_refuted; C52_cut_at_nul says exactly what arrives). C52_partial: strings without NUL, and only those, arrive unchanged."
  },
  {
   "property": "C53",
   "status": "partial",
   "theorems": [
    "Mmkv.C53_encrypted_partial",
    "Mmkv.C53_exactly",
    "Mmkv.C53_refuted",
    "Mmkv.C53_partial",
    "Mmkv.C53_life_partial"
   ],
   "note": "False of the code as stated: C53_refuted. C53_partial: true for every store whose entries were written at their types. C53_encrypted_partial: an encrypted directory used with one key only."
  },
  {
   "property": "C54",
   "status": "proved",
   "theorems": [
    "Mmkv.C54_bounded",
    "Mmkv.C54_encrypted"
   ],
   "note": ""
  },
  {
   "property": "C55",
   "status": "partial",
   "theorems": [
    "Mmkv.C55_growth_partial",
    "Mmkv.C55_refuted",
    "Mmkv.C55_encrypted_partial"
   ],
   "note": "False of the code as stated (need_trim is forgotten on close): C55_refuted, for every number of sessions. C55_growth_partial: the file grows by at most a bound per session, whatever the calls and however the sessions end; C54 is the bound for one session. C55_encrypted_partial: the same with encryption."
  },
  {
   "property": "C56",
   "status": "partial",
   "theorems": [
    "Mmkv.C56_refuted",
    "Mmkv.C56_refuted_header",
    "Mmkv.C56_refuted_write",
    "Mmkv.C56_partial",
    "Mmkv.C56_refuted_end_to_end",
    "Mmkv.C56_with_past_partial",
    "Mmkv.C56_encrypted_partial"
   ],
   "note": "False of the code as stated: MemoryMap's destructor reads the header and unwraps msync while a panic unwinds, which aborts. C56_refuted (every file of 1-7 bytes), C56_refuted_header, C56_refuted_write, C56_refuted_end_to_end. C56_partial: on a fresh directory with records up to a page nothing panics or aborts. C56_with_past_partial, C56_encrypted_partial: the same for directories with any number of earlier sessions, plain or encrypted with one key."
  },
  {
   "property": "C57",
   "status": "partial",
   "theorems": [
    "Mmkv.C57_encrypted_partial",
    "Mmkv.C57_closed_partial",
    "Mmkv.C57_refuted",
    "Mmkv.C57_refuted_encrypted"
   ],
   "note": "False of the code as stated: no sync after a write, so pages may reach the disk in any order (C57_refuted); the nonce file is never synced (C57_refuted_encrypted). C57_closed_partial: a power failure after clean close of a plain store loses nothing. C57_encrypted_partial: the same for an encrypted store if the failure spares the nonce file."
  },
  {
   "property": "C58",
   "status": "partial",
   "theorems": [
    "Mmkv.C58_encrypted_partial",
    "Mmkv.C58_partial",
    "Mmkv.C58_refuted"
   ],
   "note": "False of the code as stated: compaction empties the file before it needs more room (C58_refuted). C58_partial: for histories that only add new keys, on any disk limit the file always opens and shows a growing prefix of the calls. Sparse files, where a full disk shows as SIGBUS at the store, are the subject of C91 (Model/Blocks). C58_encrypted_partial: the same with encryption and any past."
  },
  {
   "property": "C59",
   "status": "partial",
   "theorems": [
    "Mmkv.C59_partial",
    "Mmkv.C59_refuted"
   ],
   "note": "False of the code as stated: after a failed clear_data the next one returns Ok and brings the old data back (C59_refuted). C59_partial: true whenever get does not already answer InstanceClosed, whatever failed before."
  },
  {
   "property": "C60",
   "status": "partial",
   "theorems": [
    "Mmkv.C60_refuted",
    "Mmkv.C60_partial",
    "Mmkv.C60_encrypted_partial",
    "Mmkv.C60_refuted_executions"
   ],
   "note": "False of the code as stated: while a handle of the directory is in use the key is ignored (C60_refuted, for every reachable state and any key; C60_refuted_executions also for clear_data through such a handle). C60_partial, C60_encrypted_partial: true when no handle of the directory is left."
  },
  {
   "property": "C61",
   "status": "proved",
   "theorems": [
    "Mmkv.C61_uninterrupted",
    "Mmkv.C61_killed_open",
    "Mmkv.C61_killed_opens",
    "Mmkv.C61_data_kept",
    "Mmkv.C61_no_data",
    "Mmkv.C61_killed_clear"
   ],
   "note": ""
  },
  {
   "property": "C62",
   "status": "partial",
   "theorems": [
    "Mmkv.C62_refuted",
    "Mmkv.C62_refuted_clear",
    "Mmkv.C62_partial"
   ],
   "note": "False of the code as stated: an error reading the nonce file deletes it and with it all data (C62_refuted, for every cipher and directory); an error removing the data file is dropped and clear_data returns Ok with the data still there (C62_refuted_clear). C62_partial: every other failing call of new panics and leaves a directory that opens as before."
  },
  {
   "property": "C63",
   "status": "partial",
   "theorems": [
    "Mmkv.C63_partial",
    "Mmkv.C63_partial_new_keys",
    "Mmkv.C63_refuted",
    "Mmkv.C63_refuted_encrypted"
   ],
   "note": "False of the code as stated: a delete of a key another process wrote returns Ok and does nothing, and a put that makes a process compact a file grown by another process beyond its own mapping is acknowledged and lost to a panic (C63_refuted); with encryption even plain additions are lost, under a reused nonce (C63_refuted_encrypted). C63_partial: with a plain store, unless a background thread panics, the file shows every put and every delete of a key the deleting process sees, for any number of processes and histories. C63_partial_new_keys: processes that only add keys never fail. Missing: clear_data, which unlinks the shared file (C73)."
  },
  {
   "property": "C64",
   "status": "partial",
   "theorems": [
    "Mmkv.C64_with_past_partial",
    "Mmkv.C64_encrypted_partial",
    "Mmkv.C64_refuted",
    "Mmkv.C64_partial",
    "Mmkv.C64_get"
   ],
   "note": "False of the code as stated: put runs the user's code with the write guard held, so its panic poisons the lock and every later call fails (C64_refuted, for every state and every later history). C64_partial: the data are intact - exactly the calls that returned Ok are there after close and reopen. C64_get: user code inside get harms nothing. C64_with_past_partial, C64_encrypted_partial: the same on used and on encrypted directories."
  },
  {
   "property": "C65",
   "status": "partial",
   "theorems": [
    "Mmkv.C65_logging_changes_nothing",
    "Mmkv.C65_partial",
    "Mmkv.C65_refuted",
    "Mmkv.C65_refuted_open",
    "Mmkv.C65_open_unchanged",
    "Mmkv.C65_refuted_open_damaged",
    "Mmkv.C65_open_error_level"
   ],
   "note": "True (byte for byte) while the logger lives or is filtered out; with a logger that is dead from the start, or dies while keys are only added, a prefix of the calls is in the file. Refuted in general: `C65_refuted` (data lost), `C65_refuted_open` (no file opens), `C65_refuted_open_damaged`; `C65_open_error_level`: at level Error every undamaged file opens. Missing: the general claim, which is false."
  },
  {
   "property": "C66",
   "status": "proved",
   "theorems": [
    "Mmkv.NLog.C66_destroy_last",
    "Mmkv.NLog.C66_replaced_destroyed",
    "Mmkv.NLog.C66_comes_to_rest"
   ],
   "note": "The callback itself is not modelled (it does not unwind into Rust); the last logger set is never destroyed, since the log thread lives until the process ends."
  },
  {
   "property": "C67",
   "status": "proved",
   "theorems": [
    "Mmkv.C67_with_past",
    "Mmkv.C67_encrypted_with_past",
    "Mmkv.C67_bounded_latency",
    "Mmkv.C67_waiting_bound",
    "Mmkv.C67_never_stuck",
    "Mmkv.C67_encrypted"
   ],
   "note": "Steps of the thread are: receive, swap, apply one record, notice an empty buffer. Records of at most a page and fewer than 2^64 bytes in all, as for C06; for the encrypted store one session on a fresh directory."
  },
  {
   "property": "C68",
   "status": "proved",
   "theorems": [
    "Mmkv.C68_clean_close_saves",
    "Mmkv.C68_any_file",
    "Mmkv.C68_encrypted"
   ],
   "note": "A close that returns is `closedOk`: the join of the thread in the drop of the last handle did not see a panic. Encrypted: one key, fewer than 2^32-1 calls. Unlimited disk (C56 has the other case)."
  },
  {
   "property": "C69",
   "status": "partial",
   "theorems": [
    "Mmkv.C69_partial_clear_renews",
    "Mmkv.C69_partial_kept",
    "Mmkv.C69_partial_next_session",
    "Mmkv.C69_partial_encLeft",
    "Mmkv.C69_refuted"
   ],
   "note": "Missing is exactly the kill between the removal of the data file and that of the nonce file, where the claim is false for every cipher (C69_refuted). That the generator yields a nonce not used before is a matter of OsRng and not claimed: the theorems say which draw is used."
  },
  {
   "property": "C70",
   "status": "proved",
   "theorems": [
    "Mmkv.C70_saved_with_past",
    "Mmkv.C70_saved_encrypted",
    "Mmkv.C70_linearizable",
    "Mmkv.C70_linearizable_map",
    "Mmkv.C70_order_of_the_file",
    "Mmkv.C70_saved"
   ],
   "note": "The sequential object of C70_linearizable may fail and panic as the code does (poisoned lock, stopped thread); C70_linearizable_map is the statement with a plain map for histories without failure. C70_saved is for a plain directory that starts empty and records of less than 4 GiB. The RwLock is std's, trusted. C70_saved_with_past and C70_saved_encrypted: any history of earlier sessions, plain or encrypted, records of at most a page."
  },
  {
   "property": "C71",
   "status": "proved",
   "theorems": [
    "Mmkv.C71_buffered_durable",
    "Mmkv.C71_encrypted"
   ],
   "note": "Death inside a background write is C11, C12 and C61, where the claim is false (torn records); records over one page are C07. The encrypted version is for one key throughout and fewer than 2^32 - 1 mutating calls (C50)."
  },
  {
   "property": "C72",
   "status": "proved",
   "theorems": [
    "Mmkv.C72_switched_on",
    "Mmkv.C72_switched_off",
    "Mmkv.C72_records_not_empty"
   ],
   "note": "Writing through the other build can compact the file and destroy what it cannot read, as with a wrong key (C48). The plain build's clear_data leaves the nonce file of the encrypted build behind."
  },
  {
   "property": "C73",
   "status": "partial",
   "theorems": [
    "Mmkv.C73_refuted_writes_lost",
    "Mmkv.C73_refuted_unseen",
    "Mmkv.C73_partial"
   ],
   "note": "False of the code: a process that had the directory open keeps the old data (C73_refuted_unseen) and loses all its later writes, which make no difference to any other process or file (C73_refuted_writes_lost). C73_partial: when clear_data returns Ok, the clearing process is on the file its directory leads to, empty if nobody created it anew, and a process opening at that moment sees the same. Missing: the processes that had the directory open before (refuted)."
  },
  {
   "property": "C74",
   "status": "proved",
   "theorems": [
    "Mmkv.C74_linearizable",
    "Mmkv.C74_linearizable_maps"
   ],
   "note": "Handles are kept (dropping and reopening: C87) until the end of the process (dropping the last one while another thread opens the directory is C30), and distinct strings name distinct directories (else C29)."
  },
  {
   "property": "C75",
   "status": "partial",
   "theorems": [
    "Mmkv.C75_back",
    "Mmkv.C75_no_panic",
    "Mmkv.C75_exact",
    "Mmkv.C75_keys",
    "Mmkv.C75_lossy",
    "Mmkv.C75_partial",
    "Mmkv.C75_delete",
    "Mmkv.C75_other_keys",
    "Mmkv.C75_refuted",
    "Mmkv.C75_refuted_value"
   ],
   "note": "False as stated (C75_refuted, C75_refuted_value); C75_exact says exactly which strings cross, C75_lossy what arrives instead of the others, C75_partial the round trip for those that cross. The Java machine and the crates jni and cesu8 are modelled from their documentation, they are not in the repository."
  },
  {
   "property": "C76",
   "status": "partial",
   "theorems": [
    "Mmkv.ALog.C76_partial",
    "Mmkv.ALog.C76_limit",
    "Mmkv.ALog.C76_refuted"
   ],
   "note": "False as stated (C76_refuted, C76_limit: capacity/2 messages, then the process aborts). C76_partial: all that is claimed, while twice the number of messages is within the capacity. The Java machine and the crate jni are modelled from their documentation."
  },
  {
   "property": "C77",
   "status": "partial",
   "theorems": [
    "Mmkv.ALog.C77_refuted",
    "Mmkv.ALog.C77_partial"
   ],
   "note": "The half about messages logged before is false (C77_refuted); C77_partial proves the half about messages logged after."
  },
  {
   "property": "C78",
   "status": "proved",
   "theorems": [
    "Mmkv.CLog.C78_calls",
    "Mmkv.CLog.C78_levels",
    "Mmkv.CLog.C78_balance_get",
    "Mmkv.CLog.C78_balance_unit",
    "Mmkv.CLog.C78_count",
    "Mmkv.CLog.C78_program",
    "Mmkv.CLog.C78_silent"
   ],
   "note": "For the C interface. The core's own messages enter as arbitrary log calls. C78_balance_get / C78_balance_unit: freeing a result makes exactly one message less than the call that made it."
  },
  {
   "property": "C79",
   "status": "partial",
   "theorems": [
    "Mmkv.CLog.C79_refuted",
    "Mmkv.CLog.C79_partial"
   ],
   "note": "False at levels that let the messages of the callback's calls through (C79_refuted, for every such callback); true otherwise (C79_partial)."
  },
  {
   "property": "C80",
   "status": "proved",
   "theorems": [
    "Mmkv.C80_at_rest_with_past",
    "Mmkv.C80_at_rest_encrypted",
    "Mmkv.C80_checksum",
    "Mmkv.C80_message",
    "Mmkv.C80_record",
    "Mmkv.C80_written",
    "Mmkv.C80_read",
    "Mmkv.C80_file",
    "Mmkv.C80_at_rest",
    "Mmkv.C80_encrypted",
    "Mmkv.C80_read_encrypted",
    "Mmkv.C80_unambiguous"
   ],
   "note": "Protobuf groups (deprecated) are outside the format and rejected by both sides. Records up to the 4 GiB a length field can express."
  },
  {
   "property": "C81",
   "status": "partial",
   "theorems": [
    "Mmkv.C81_encrypted_partial",
    "Mmkv.C81_refuted",
    "Mmkv.C81_refuted_later",
    "Mmkv.C81_refuted_close",
    "Mmkv.C81_partial"
   ],
   "note": "False of the program: C81_refuted, C81_refuted_later, C81_refuted_close. Proved where no `new` panics and records fit a page. C81_encrypted_partial: the same with encryption."
  },
  {
   "property": "C82",
   "status": "proved",
   "theorems": [
    "Mmkv.Threads.C82_no_wait",
    "Mmkv.Threads.C82_steps",
    "Mmkv.Threads.C82_no_file_access",
    "Mmkv.Threads.C82_clear_waits"
   ],
   "note": "The lock is the standard library's RwLock: any admission order, no spurious blocking."
  },
  {
   "property": "C83",
   "status": "partial",
   "theorems": [
    "Mmkv.C83_refuted",
    "Mmkv.C83_refuted_clear",
    "Mmkv.C83_refuted_end_to_end",
    "Mmkv.C83_put",
    "Mmkv.C83_noticed",
    "Mmkv.C83_swift_code",
    "Mmkv.C83_partial"
   ],
   "note": "False of the program: C83_refuted, C83_refuted_clear, C83_refuted_end_to_end. Proved: nothing fails unnoticed, putX throws what it declares, and with a living background thread no call fails at all."
  },
  {
   "property": "C84",
   "status": "proved",
   "theorems": [
    "Mmkv.SLog.C84_lifetime",
    "Mmkv.SLog.C84_delivery",
    "Mmkv.SLog.C84_complete",
    "Mmkv.SLog.C84_released",
    "Mmkv.SLog.C84_drains"
   ],
   "note": "For all histories in which each setLogger makes a wrapper of its own (the binding does). Reference counting and the main queue are modelled; Swift's runtime is not."
  },
  {
   "property": "C85",
   "status": "partial",
   "theorems": [
    "Mmkv.SLog.C85_refuted",
    "Mmkv.SLog.C85_partial"
   ],
   "note": "False of the program: C85_refuted. C85_partial: every call that carries a message of the library is made on the main thread; the farewell is the only other call, and the last one."
  },
  {
   "property": "C86",
   "status": "partial",
   "theorems": [
    "Mmkv.C86_partial",
    "Mmkv.C86_any_error_partial",
    "Mmkv.C86_refuted"
   ],
   "note": "False of the program for stored empty arrays: C86_refuted (same cause as C39). C86_partial: every other stored value, absent key and type mismatch; C86_any_error_partial: all errors of the core and panics. Keys without NUL (C52)."
  },
  {
   "property": "C87",
   "status": "proved",
   "theorems": [
    "Mmkv.C87_encrypted_linearizable",
    "Mmkv.C87_encrypted_saved",
    "Mmkv.C87_linearizable",
    "Mmkv.C87_saved"
   ],
   "note": "Plain and encrypted stores (with encryption each directory's nonce is drawn, stored, read and removed as in the code, whatever OsRng yields; one key per directory; at most 2^32-2 steps). Records that fit a page; opens of a directory apart from drops of its handles (else: C30), each directory spelled one way (else: C29)."
  },
  {
   "property": "C88",
   "status": "partial",
   "theorems": [
    "Mmkv.C88_partial",
    "Mmkv.C88_at_rest_partial",
    "Mmkv.C88_refuted",
    "Mmkv.C88_refuted_failed"
   ],
   "note": "False of the program: C88_refuted (N puts of one key leave N records in memory), C88_refuted_failed (N failing puts too, for good). Proved: the map has one entry per live key and waiting records are bounded by the calls made (C88_partial, any store and history); nothing waits when the background thread is idle (C88_at_rest_partial)."
  },
  {
   "property": "C89",
   "status": "partial",
   "theorems": [
    "Mmkv.C89_amortized_partial",
    "Mmkv.C89_amortized_encrypted_partial",
    "Mmkv.C89_refuted"
   ],
   "note": "False of the program: C89_refuted (every page size from 64 bytes: a state in which each further 13-byte put rewrites the whole page, any number of times). Proved: amortized bound in terms of the space the live entries leave free, plain (any file of whole records) and encrypted (C89_amortized_partial, C89_amortized_encrypted_partial); sessions with clear_data are not covered by the amortized bound."
  },
  {
   "property": "C90",
   "status": "partial",
   "theorems": [
    "Mmkv.C90_partial",
    "Mmkv.C90_saved_partial",
    "Mmkv.C90_encrypted_partial",
    "Mmkv.C90_encrypted_saved_partial",
    "Mmkv.C90_refuted",
    "Mmkv.C90_refuted_saved"
   ],
   "note": "False of the program: C90_refuted (a put that returned Ok is not read by the next object) and C90_refuted_saved (7 then 8 put, all finalized, the file says 7). Proved when no constructor overlaps the finalizer of an object of the same directory unless another object of it is in use, without and with encryption: C90_partial, C90_saved_partial, C90_encrypted_partial, C90_encrypted_saved_partial (records that fit a page, one spelling per directory)."
  },
  {
   "property": "C91",
   "status": "partial",
   "theorems": [
    "Mmkv.C91_partial",
    "Mmkv.C91_saved_partial",
    "Mmkv.C91_refuted",
    "Mmkv.C91_refuted_loses",
    "Mmkv.C91_encrypted_saved_partial",
    "Mmkv.C91_encrypted_refuted"
   ],
   "note": "False of the program: C91_refuted (in every state in which the next record needs a new page and the disk has no block, the process is killed; a file exactly full can then never be opened again) and C91_refuted_loses (end to end: a saved key is lost in a compaction). Proved: killed only when the file is longer than the space there is for it, over all histories (C91_partial), and what a kill inside an append leaves (C91_saved_partial: the old records untouched, the map before or after, or a new record with a wrong length field or an accidental checksum). The same with encryption: C91_encrypted_saved_partial, C91_encrypted_refuted."
  },
  {
   "property": "C92",
   "status": "partial",
   "theorems": [
    "Mmkv.C92_open_partial",
    "Mmkv.C92_partial",
    "Mmkv.C92_shipped_partial",
    "Mmkv.C92_every_build_partial",
    "Mmkv.C92_encrypted_partial",
    "Mmkv.C92_refuted",
    "Mmkv.C92_refuted_builds",
    "Mmkv.C92_debug_release_partial",
    "Mmkv.C92_shipped_release_partial",
    "Mmkv.C92_refuted_lost",
    "Mmkv.C92_refuted_ends"
   ],
   "note": "False of the program: C92_refuted (for every such header: debug panics, release opens it as empty), C92_refuted_lost (end to end: a put that returned Ok, was written and could be read is gone after a reopen), C92_refuted_ends (a failed growth of the file ends the process in the shipped builds and only kills the thread elsewhere). Proved: all builds agree with the model `run` of the other theorems, step by step and panics included, as long as file and records are below 4 GiB (C92_partial, C92_encrypted_partial, C92_shipped_partial up to the first panic, C92_open_partial), and unconditionally for records that fit a page (C92_every_build_partial)."
  },
  {
   "property": "C93",
   "status": "partial",
   "theorems": [
    "Mmkv.C93_refuted",
    "Mmkv.C93_refuted_encrypted",
    "Mmkv.C93_refuted_tail",
    "Mmkv.C93_refuted_compacted",
    "Mmkv.C93_partial"
   ],
   "note": "False of the program: C93_refuted (for every schedule and every earlier life of the directory: as long as the session's records fit the file, the closed file contains every value found at its start or put in it, whatever was deleted or overwritten), C93_refuted_encrypted (the same for a holder of the key), C93_refuted_tail (no write changes bytes behind the end of the records), C93_refuted_compacted (a deleted value survives the compaction its deletion caused). Proved: C93_partial (after clear_data the store is identical to one opened on a new directory, so nothing later depends on the past; what the file system does with the blocks of the unlinked file is not modelled)."
  },
  {
   "property": "C94",
   "status": "partial",
   "theorems": [
    "Mmkv.C94_partial",
    "Mmkv.C94_partial_fits",
    "Mmkv.C94_refuted",
    "Mmkv.C94_encrypted_partial"
   ],
   "note": "False of the program: C94_refuted (every call returns Ok, the background thread rests when the copy is begun, one put is compacted meanwhile: the copy opens and lacks an untouched key). Proved: C94_partial (for every codec, file, history without clear_data, and moments of reading after a first one between two writes: as long as the length header is not below the one read, the copy shows what the file showed at that moment), C94_partial_fits (in every life of a directory, when the records of the session fit the file, the copy shows a first part of the calls made so far, all of them if the thread was at rest). Missing: a header read between the two stores of an append (as a crash there, C11). C94_encrypted_partial: the same with encryption (a copy of the nonce file next to it) and any past."
  },
  {
   "property": "C95",
   "status": "proved",
   "theorems": [
    "Mmkv.C95_sizes_only",
    "Mmkv.C95_sizes_only_encrypted",
    "Mmkv.C95_repeats_show"
   ],
   "note": "C95_sizes_only for plain, C95_sizes_only_encrypted for encrypted stores (second history under any other key and nonces); both for any number of sessions from a fresh directory, ended cleanly or by the death of the process between steps, when every record fits a page. C95_repeats_show: which calls use the same key is visible."
  },
  {
   "property": "C96",
   "status": "partial",
   "theorems": [
    "Mmkv.C96_partial",
    "Mmkv.C96_no_failure_no_difference",
    "Mmkv.C96_adds",
    "Mmkv.C96_encrypted_partial",
    "Mmkv.C96_refuted"
   ],
   "note": "False for a growth inside a compaction (C96_refuted, each system call). C96_adds: full claim for sessions that only add. C96_partial / C96_encrypted_partial: any history; after a failed compaction the directory opens and shows a proper part of the entries there would have been. C96_no_failure_no_difference ties the failing writer to the ordinary one. One failure per session; the background thread dies of it."
  },
  {
   "property": "C97",
   "status": "partial",
   "theorems": [
    "Mmkv.C97_as_if_it_never_moved",
    "Mmkv.C97_partial",
    "Mmkv.C97_refuted_new",
    "Mmkv.C97_refuted_kept",
    "Mmkv.C97_refuted_new_execution",
    "Mmkv.C97_refuted_clear",
    "Mmkv.C97_refuted_panic"
   ],
   "note": "False when a relative string is looked up after a chdir: C97_refuted_new (always), C97_refuted_clear, C97_refuted_kept, C97_refuted_panic. C97_as_if_it_never_moved and C97_partial: absolute strings, or no new/clear_data from another place, any chdirs. The path operations of one new see one working directory."
  },
  {
   "property": "C98",
   "status": "partial",
   "theorems": [
    "Mmkv.C98_refuted",
    "Mmkv.C98_parent_partial",
    "Mmkv.C98_refuted_drop",
    "Mmkv.C98_refuted_clear",
    "Mmkv.C98_partial"
   ],
   "note": "False of inherited handles: C98_refuted, C98_refuted_drop, C98_refuted_clear (all stores, all continuations of the child). C98_parent_partial, C98_partial: what holds. Assumed: at the fork no call is under way on the data file; the parent does not write meanwhile."
  },
  {
   "property": "C99",
   "status": "proved",
   "theorems": [
    "Mmkv.C99_balance",
    "Mmkv.C99_midway",
    "Mmkv.C99_bound",
    "Mmkv.C99_at_rest",
    "Mmkv.C99_all_back"
   ],
   "note": "C99_balance, C99_midway, C99_bound, C99_at_rest, C99_all_back. That the last drop waits for the thread is src/core/io_looper.rs:98-101 (C42_process_close_ends: it ends). Not counted: the nonce file, opened and closed inside one call; heap memory."
  },
  {
   "property": "C100",
   "status": "partial",
   "theorems": [
    "Mmkv.ALog.C100_refuted",
    "Mmkv.ALog.C100_refuted_example",
    "Mmkv.ALog.C100_partial"
   ],
   "note": "False: C100_refuted, C100_refuted_example. C100_partial: nothing is disturbed as long as no logger has thrown. That a panic in an extern \"C\" function aborts is a fact of the language, not of the model: the model shows the panic."
  },
  {
   "property": "C101",
   "status": "partial",
   "theorems": [
    "Mmkv.C101_mix_refuted",
    "Mmkv.C101_partial",
    "Mmkv.C101_one_log_partial",
    "Mmkv.C101_values_partial",
    "Mmkv.C101_drop_refuted",
    "Mmkv.C101_refuted"
   ],
   "note": "False: C101_refuted, C101_drop_refuted, C101_mix_refuted. Proved: C101_partial (unless a record is forged - the assumption is made of the file at hand, since no lawful cipher can reject all ciphertexts not seen - what is shown is a mix of the logs seen, position by position), C101_one_log_partial, C101_values_partial. The hypothesis that an empty ciphertext does not authenticate holds of any AEAD with a tag."
  },
  {
   "property": "C102",
   "status": "proved",
   "theorems": [
    "Mmkv.C102_restarts",
    "Mmkv.C102_encrypted",
    "Mmkv.C102_kill_inside_append",
    "Mmkv.C102_kill_inside_append_encrypted",
    "Mmkv.C102_closed",
    "Mmkv.C102_encrypted_closed"
   ],
   "note": "C102_restarts, C102_encrypted; C102_closed and C102_encrypted_closed for a directory whose handles every run drops. In each run the conditions of C87 (no new of a directory overlaps the drop of its last handle: C30; one spelling per directory: C29; records fit a page: C07). A kill may fall inside a new or a clear_data, after any of its system calls. It may also fall inside a background write, if it leaves the records before it, those after it, or those before it and one record that is refused (wrong checksum; ciphertext accepted at no position). C102_kill_inside_append, C102_kill_inside_append_encrypted: every death inside an append whose header and length field are stored or untouched leaves that; what else a kill can leave is refuted in C11 and C12."
  },
  {
   "property": "C103",
   "status": "partial",
   "theorems": [
    "Mmkv.LogText.C103_partial_history",
    "Mmkv.LogText.C103_given_away",
    "Mmkv.LogText.C103_refuted",
    "Mmkv.LogText.C103_given_away_again",
    "Mmkv.LogText.C103_partial_strings",
    "Mmkv.LogText.C103_partial_level"
   ],
   "note": "False: C103_given_away (the log of a get determines the number, bool or array it found), C103_refuted, C103_given_away_again (free_buffer prints it once more), for any formatting of floats that tells two of them apart. Proved: C103_partial_strings and, for whole histories of a store, C103_partial_history (strings: nothing but their length shows, at any level); C103_partial_level (at Debug or lower calls that succeed log nothing). The texts of the core's messages are C104's; those of the Kotlin interface are C105's."
  },
  {
   "property": "C104",
   "status": "proved",
   "theorems": [
    "Mmkv.CoreText.C104_log_sizes_only",
    "Mmkv.CoreText.C104_log_sizes_only_encrypted"
   ],
   "note": "C104_log_sizes_only for plain, C104_log_sizes_only_encrypted for encrypted stores (the other history under any other key and nonces): levels and texts of every message of a session from its opening on, after any number of sessions from a fresh directory ended cleanly or by the death of the process between steps, when every record fits a page; none is at the level Error. talk_logs: a concrete log; sizes_show: lengths and repetitions do show. Texts are without the log tag, which is fixed by the place that logs, and without durations and the reason of a decoding error (no such error is logged here). writeL_room, openStoreL_room: exactly the log calls Model/Logged lets through or panics at, in number and level. Dropping a handle that is not the last and making a further one (src/mmkv.rs:49-53, 73, 86-89: a count, fixed texts) are not events of the model."
  },
  {
   "property": "C105",
   "status": "partial",
   "theorems": [
    "Mmkv.KText.C105_partial_values",
    "Mmkv.KText.C105_partial_values_encrypted",
    "Mmkv.KText.C105_partial_values_texts",
    "Mmkv.KText.C105_partial_values_texts_encrypted",
    "Mmkv.KText.C105_keys_given_away",
    "Mmkv.KText.C105_refuted"
   ],
   "note": "False for keys: C105_keys_given_away (whatever a call returns, its message determines the key), C105_refuted (a session on an encrypted store at the default level: every put, read and delete names its key in clear text). Proved for values: C105_partial_values for plain, C105_partial_values_encrypted for encrypted stores: all messages, of core and interface, and all exceptions of the last session of any history are the same for other values of the same length at the same types; for reads of strings on the condition that they find text, or fail, alike (bytes put as a string elsewhere need not be text; at the other types this is proved); C105_partial_values_texts, C105_partial_values_texts_encrypted: without it, if earlier sessions put only texts as strings, as every interface does. chat_seen: a concrete log. A call that panics logs nothing of its own."
  }
 ]
}