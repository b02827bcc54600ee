{"id": "C01", "title": "Latest write wins, for every reader", "statement": "While every put, delete and clear_data so far returned Ok, a get of key k through any handle of a directory returns exactly what a plain in-memory map would hold for k after the same calls in the order they took effect: the value of the last put of k, or KeyNotFound if k was never put, or was deleted or cleared since. How far the background IO thread has got makes no difference.", "quantifier": "all sequences of put/get/delete/clear_data over all keys and values, all interleavings with background IO progress and file compaction", "why_tests_cant": "A test fixes a handful of keys and one schedule of the IO thread; the claim is about every history and every amount of background progress.", "anchors": [{"file": "src/mmkv.rs", "symbols": ["MMKV::put", "MMKV::get", "MMKV::delete", "MMKV::clear_data"]}, {"file": "src/core/mmkv_impl.rs", "symbols": ["MmkvImpl::put", "MmkvImpl::get", "MmkvImpl::delete", "MmkvImpl::clear_data"]}]}
{"id": "C02", "title": "Typed values read back exactly", "statement": "For every built-in type (i32, i64, f32, f64, bool, string, byte array, i32/i64/f32/f64 array), put(k, v) followed by get::<T>(k) returns Ok(v), bit for bit (including NaN payloads, negative numbers, empty strings and empty arrays), and still does after the value has been through the file.", "quantifier": "all values of all eleven built-in types, all keys", "why_tests_cant": "The value domains are infinite or astronomically large; tests use a few literals.", "anchors": [{"file": "src/core/buffer.rs", "symbols": ["ToBytes", "FromBytes", "Buffer::new", "Buffer::parse", "impl_to_bytes_for_number", "impl_from_buffer_for_number", "impl_from_buffer_for_typed_array"]}]}
{"id": "C03", "title": "Reading at the wrong type is refused", "statement": "get::<U>(k) on a key last put at built-in type T with U different from T returns Err(TypeMissMatch), never a reinterpretation of the bytes, and leaves the stored value readable at T. Strings put from &str and String are the same type.", "quantifier": "all pairs of distinct built-in types, all keys and values", "why_tests_cant": "Tests try a few pairs with one value each.", "anchors": [{"file": "src/core/buffer.rs", "symbols": ["Buffer::check_buffer_type", "InnerTypes", "ProvideTypeToken"]}]}
{"id": "C04", "title": "Delete removes the key", "statement": "After delete(k) returns Ok, get of k at any type returns KeyNotFound until the next put of k, both in this process and after close and reopen; deleting a key that is not present returns Ok, changes nothing and writes nothing to the file.", "quantifier": "all histories, all keys, all types", "why_tests_cant": "The tombstone has to survive every later compaction, expansion and reopen.", "anchors": [{"file": "src/core/mmkv_impl.rs", "symbols": ["MmkvImpl::delete"]}, {"file": "src/core/buffer.rs", "symbols": ["Buffer::deleted_buffer", "Buffer::is_deleting"]}, {"file": "src/core/iter.rs", "symbols": ["Iter::into_map"]}]}
{"id": "C05", "title": "Keys do not interfere", "statement": "put, delete and get of key k never change what get returns for any other key, in memory or after reopen.", "quantifier": "all pairs of different keys, all histories", "why_tests_cant": "Needs every pair of keys and every place a compaction may move records.", "anchors": [{"file": "src/core/mmkv_impl.rs", "symbols": ["MmkvImpl::put", "MmkvImpl::delete"]}, {"file": "src/core/writer.rs", "symbols": ["IOWriter::write"]}]}
{"id": "C06", "title": "Everything acknowledged survives close and reopen (records up to one page)", "statement": "If every record written (key, type and value with framing) is at most one page long, then after any history of successful put/delete calls followed by dropping the last handle, opening the same directory again yields exactly the same key-value map.", "quantifier": "all histories whose records each fit in one page, all interleavings with the IO thread, all HashMap iteration orders during compaction, starting from any file that opens", "why_tests_cant": "The number of expansions, compactions and reopens is unbounded and the compaction order is random.", "anchors": [{"file": "src/core/writer.rs", "symbols": ["IOWriter::write", "IOWriter::expand"]}, {"file": "src/core/iter.rs", "symbols": ["Iter::into_map"]}, {"file": "src/core/mmkv_impl.rs", "symbols": ["MmkvImpl::new"]}, {"file": "src/core/io_looper.rs", "symbols": ["IOLooper::drop"]}]}
{"id": "C07", "title": "Values of any size survive close and reopen", "statement": "A put that returned Ok is readable after close and reopen whatever the size of the value.", "quantifier": "all values of any length, all file fill levels", "why_tests_cant": "A test picks small values; the failure depends on the relation between value size, free space and page size.", "anchors": [{"file": "src/core/writer.rs", "symbols": ["IOWriter::write", "IOWriter::expand"]}, {"file": "src/core/config.rs", "symbols": ["Config::expand"]}, {"file": "src/core/memory_map.rs", "symbols": ["MemoryMap::append"]}]}
{"id": "C08", "title": "Background writes run once each, in call order", "statement": "The background thread performs the write of every put, delete and clear exactly once and in the order the calls took effect, whatever the interleaving of the producers' queue push and wake-up signal with the thread's receive and queue swap.", "quantifier": "all interleavings of any number of producers with the consumer thread, unbounded queues", "why_tests_cant": "Schedules cannot be enumerated by tests; the double-buffer swap can merge or split batches arbitrarily.", "anchors": [{"file": "src/core/io_looper.rs", "symbols": ["IOLooper::post", "Executor::new", "IOLooper::quit", "IOLooper::drop"]}]}
{"id": "C09", "title": "Closing waits for every pending write", "statement": "When the drop of the last handle (or clear_data) returns, every acknowledged put and delete has been executed by the background thread; none is left queued.", "quantifier": "all queue contents and schedules at the moment of closing", "why_tests_cant": "The race between the last wake-up signal, channel disconnect and the final queue swap needs every schedule.", "anchors": [{"file": "src/core/io_looper.rs", "symbols": ["IOLooper::drop", "IOLooper::quit", "Executor::new"]}]}
{"id": "C10", "title": "Killing the process between background writes loses only a suffix", "statement": "If the process dies when the background thread is between two writes, reopening yields exactly the map obtained by applying some prefix of the put, delete and clear_data calls made so far, in order - never a mixture, never a reordering.", "quantifier": "all histories and all crash points between background writes", "why_tests_cant": "Every crash point of every history.", "anchors": [{"file": "src/core/writer.rs", "symbols": ["IOWriter::write"]}, {"file": "src/core/iter.rs", "symbols": ["Iter::into_map"]}, {"file": "src/core/io_looper.rs", "symbols": ["Executor::new"]}]}
{"id": "C11", "title": "Killing the process inside an append is recoverable", "statement": "If the process dies at any instant while one record is being appended, reopening succeeds and yields the map before or after that append.", "quantifier": "all crash points between individual stores of an append, all records, all file states", "why_tests_cant": "A unit test cannot stop the process between two stores of a memcpy into a mapping.", "anchors": [{"file": "src/core/memory_map.rs", "symbols": ["MemoryMap::append"]}, {"file": "src/core/crc.rs", "symbols": ["CrcEncoderDecoder::decode_bytes"]}, {"file": "src/core/mmkv_impl.rs", "symbols": ["MmkvImpl::new"]}]}
{"id": "C12", "title": "Killing the process inside a compaction loses nothing", "statement": "If the process dies at any instant while the file is being compacted, reopening yields every key that was persisted before the compaction started.", "quantifier": "all crash points inside a compaction, all maps and iteration orders", "why_tests_cant": "Same: crash points inside the rewrite loop.", "anchors": [{"file": "src/core/writer.rs", "symbols": ["IOWriter::write"]}, {"file": "src/core/memory_map.rs", "symbols": ["MemoryMap::reset"]}]}
{"id": "C13", "title": "Compaction preserves content in any order", "statement": "When an append does not fit and the file is rewritten, the map read back from the file is exactly the map before plus the new mutation, for every order in which the hash map yields its values.", "quantifier": "all file contents, all mutations, all permutations of the live entries", "why_tests_cant": "Rust's HashMap order is random; tests see one order per run.", "anchors": [{"file": "src/core/writer.rs", "symbols": ["IOWriter::write"]}, {"file": "src/core/iter.rs", "symbols": ["Iter::into_map"]}]}
{"id": "C14", "title": "Compaction leaves one record per live key", "statement": "After a compaction the file content holds exactly one record for each live key and nothing else: no tombstones, no superseded values, no undecodable records.", "quantifier": "all file contents, all mutations, all permutations", "why_tests_cant": "Needs every history leading to a compaction.", "anchors": [{"file": "src/core/writer.rs", "symbols": ["IOWriter::write"]}]}
{"id": "C15", "title": "The file stays well-formed", "statement": "At every moment between background writes the length header equals the total size of the records behind it, the content ends inside the file, and the file consists of whole records decodable from the start.", "quantifier": "all histories (records at most one page), all iteration orders", "why_tests_cant": "An invariant over unbounded histories.", "anchors": [{"file": "src/core/memory_map.rs", "symbols": ["MemoryMap::append", "MemoryMap::write_offset", "MemoryMap::reset"]}, {"file": "src/core/writer.rs", "symbols": ["IOWriter::write"]}]}
{"id": "C16", "title": "File growth is page-wise and never shrinks", "statement": "A background write never shrinks the file, grows it only by whole pages, leaves its size unchanged whenever the record fits, and grows it by exactly one page when an append needs more room and no compaction is due.", "quantifier": "all histories and records", "why_tests_cant": "Unbounded histories.", "anchors": [{"file": "src/core/config.rs", "symbols": ["Config::expand", "Config::new"]}, {"file": "src/core/writer.rs", "symbols": ["IOWriter::write", "IOWriter::expand"]}]}
{"id": "C17", "title": "File size stays proportional to content after a compaction", "statement": "After any background write the file is at most one page larger than what its content needs or than it was before.", "quantifier": "all live maps, all iteration orders", "why_tests_cant": "The over-allocation appears only when a compaction itself has to grow the file part-way through.", "anchors": [{"file": "src/core/writer.rs", "symbols": ["IOWriter::write"]}]}
{"id": "C18", "title": "Records decode to what was encoded", "statement": "Every record below 4 GiB, read back from the file at its own offset with any bytes following it, decodes to exactly the key, type and value written and reports exactly its own length.", "quantifier": "all keys, type tokens (including negative ones), values, and trailing bytes", "why_tests_cant": "Infinite input space; protobuf default-field elision and 10-byte negative varints are corner cases.", "anchors": [{"file": "src/core/buffer.rs", "symbols": ["Buffer::to_bytes", "Buffer::from_encoded_bytes"]}, {"file": "src/core/crc.rs", "symbols": ["CrcEncoderDecoder"]}, {"file": "src/protos/kv.proto", "symbols": ["KV"]}]}
{"id": "C19", "title": "A corrupted byte inside a record is detected", "statement": "If any single byte of a record's body or of its checksum is changed to any other value (more generally, any corruption confined to 8 consecutive bits), the record is rejected on reading: no wrong value is ever returned for it.", "quantifier": "all records, all positions, all replacement bytes / error bursts", "why_tests_cant": "Bodies have unbounded length; tests flip a few bits.", "anchors": [{"file": "src/core/crc.rs", "symbols": ["CrcEncoderDecoder::decode_bytes", "CRC8"]}]}
{"id": "C20", "title": "Corruption is contained to its record", "statement": "If one record's body or checksum is corrupted in one byte, the directory still opens, every other record has its usual effect in order, and the corrupted record has none.", "quantifier": "all files, all records in them, all positions in the record, all replacement bytes", "why_tests_cant": "All files times all corruption positions.", "anchors": [{"file": "src/core/iter.rs", "symbols": ["Iter::into_map", "Iter::next"]}, {"file": "src/core/crc.rs", "symbols": ["CrcEncoderDecoder::decode_bytes"]}]}
{"id": "C21", "title": "Opening never crashes on a damaged file", "statement": "Whatever bytes the data file holds, opening the directory returns an instance (possibly with less data) rather than panicking.", "quantifier": "all file contents", "why_tests_cant": "All byte strings.", "anchors": [{"file": "src/core/mmkv_impl.rs", "symbols": ["MmkvImpl::new"]}, {"file": "src/core/memory_map.rs", "symbols": ["MemoryMap::write_offset", "MemoryMap::read"]}, {"file": "src/core/crc.rs", "symbols": ["CrcEncoderDecoder::decode_bytes"]}]}
{"id": "C22", "title": "Opening and closing changes nothing", "statement": "Opening a directory whose file is non-empty and closing it again without mutations leaves the file byte-for-byte unchanged; opening an empty or missing file creates one page of zeros that reads as the empty map. Opening twice in a row yields the same map.", "quantifier": "all files that open", "why_tests_cant": "All files.", "anchors": [{"file": "src/core/config.rs", "symbols": ["Config::new"]}, {"file": "src/core/mmkv_impl.rs", "symbols": ["MmkvImpl::new"]}]}
{"id": "C23", "title": "Encrypted stores behave like plain ones", "statement": "With encryption enabled and the same key and nonce file, every record decrypts to what was written at its position, and close/reopen preserves the map under the same conditions as the plain store, as long as fewer than 2^32-1 mutating calls are made over the life of the directory.", "quantifier": "all keys, values, histories, iteration orders, any authenticated cipher with decrypt(encrypt(x)) = x", "why_tests_cant": "Unbounded histories; the counter must stay in step between writer and reader over reopen and compaction.", "anchors": [{"file": "src/core/encrypt.rs", "symbols": ["Encryptor", "StreamWrapper::encrypt", "StreamWrapper::decrypt"]}, {"file": "src/core/writer.rs", "symbols": ["IOWriter::write"]}, {"file": "src/core/iter.rs", "symbols": ["Iter"]}]}
{"id": "C24", "title": "Encryption never reuses a nonce", "statement": "Under one key, no two different plaintext records are ever encrypted with the same nonce and counter.", "quantifier": "all histories of puts, deletes and compactions", "why_tests_cant": "Depends on what happens to the counter at a compaction in the middle of a long history.", "anchors": [{"file": "src/core/writer.rs", "symbols": ["IOWriter::write"]}, {"file": "src/core/encrypt.rs", "symbols": ["StreamWrapper::encrypt"]}]}
{"id": "C25", "title": "A wrong key or a lost nonce file shows nothing and destroys nothing", "statement": "Opening an encrypted store with a key or nonce under which no record authenticates yields an empty store without panicking, leaves the file unchanged, and reopening with the right key and nonce yields the original map.", "quantifier": "all stores, all keys/nonces under which the records do not authenticate", "why_tests_cant": "All stores and keys.", "anchors": [{"file": "src/core/encrypt.rs", "symbols": ["Encryptor::init", "StreamWrapper::new_with_nonce", "StreamWrapper::new", "Decoder for Encryptor"]}]}
{"id": "C26", "title": "clear_data empties the store for every handle and leaves it usable", "statement": "As long as no call has failed: after clear_data returns Ok every handle of the directory sees no key; later puts through any handle work, and after reopen exactly the mutations made after the clear are visible.", "quantifier": "all histories before and after, all handles, all IO progress at the time of the call", "why_tests_cant": "Handles, pending background writes and the file replacement interleave.", "anchors": [{"file": "src/mmkv.rs", "symbols": ["MMKV::clear_data"]}, {"file": "src/core/mmkv_impl.rs", "symbols": ["MmkvImpl::clear_data"]}, {"file": "src/core/writer.rs", "symbols": ["IOWriter::remove_file"]}, {"file": "src/core/io_looper.rs", "symbols": ["IOLooper::quit"]}]}
{"id": "C27", "title": "Handles on the same directory share one store", "statement": "At any time all live handles created with the same directory string refer to the same store: a put through one is visible to a get through any other, under every interleaving of new and drop in other threads.", "quantifier": "all interleavings of new, drop (with its separate reference-count release) and operations over any number of handles", "why_tests_cant": "The registry holds weak references and the reference count is read before it is decremented; only every schedule settles it.", "anchors": [{"file": "src/mmkv.rs", "symbols": ["MMKV::new", "Drop for MMKV", "INSTANCE_MAP"]}]}
{"id": "C28", "title": "Different directories are independent", "statement": "Operations on a handle of one directory never change what any handle of another directory (with a different data file) reads, nor that directory's file.", "quantifier": "all histories over any number of directories", "why_tests_cant": "All histories.", "anchors": [{"file": "src/mmkv.rs", "symbols": ["MMKV::new", "INSTANCE_MAP"]}]}
{"id": "C29", "title": "Two spellings of one directory share the store", "statement": "Handles created with two strings that name the same directory see each other's writes.", "quantifier": "all pairs of spellings of one directory", "why_tests_cant": "Only some spellings collide with the registry key.", "anchors": [{"file": "src/mmkv.rs", "symbols": ["MMKV::new", "INSTANCE_MAP"]}]}
{"id": "C30", "title": "Closing in one thread and opening in another loses nothing", "statement": "If a thread drops the last handle while another thread opens the same directory, the new handle sees every write acknowledged before the drop started.", "quantifier": "all interleavings of drop and new", "why_tests_cant": "The window is between releasing the registry lock and joining the IO thread.", "anchors": [{"file": "src/mmkv.rs", "symbols": ["Drop for MMKV", "MMKV::new"]}, {"file": "src/core/io_looper.rs", "symbols": ["IOLooper::drop"]}]}
{"id": "C31", "title": "A failed open does not affect other directories", "statement": "If new panics for one directory (not a directory, read-only, damaged file), handles of other directories can still be created and dropped.", "quantifier": "all sequences of new calls, successful and failing", "why_tests_cant": "Lock poisoning depends on where in the critical section the panic happens.", "anchors": [{"file": "src/mmkv.rs", "symbols": ["MMKV::new", "MMKV::resolve_file_path", "Drop for MMKV", "INSTANCE_MAP"]}]}
{"id": "C32", "title": "Custom type tokens never collide with built-in ones", "statement": "TypeToken::new accepts exactly the i32 values outside 0..=100, so a value of a custom type is never readable as a built-in type, never mistaken for a deletion, and round-trips through put/get/reopen whenever its own to_bytes/from_bytes do.", "quantifier": "all i32 tokens, all custom serializers", "why_tests_cant": "All 2^32 tokens and arbitrary user code for serialization.", "anchors": [{"file": "src/core/buffer.rs", "symbols": ["TypeToken::new", "InnerTypes::reserved", "Buffer::is_deleting"]}]}
{"id": "C33", "title": "Array reads accept exactly whole arrays", "statement": "Reading bytes as a typed array succeeds exactly when their length is a multiple of the element size, returns length/size elements that re-serialize to the same bytes, and is DataInvalid otherwise; reading as a string succeeds exactly on valid UTF-8.", "quantifier": "all byte strings", "why_tests_cant": "All byte strings.", "anchors": [{"file": "src/core/buffer.rs", "symbols": ["impl_from_buffer_for_typed_array", "FromBytes for String"]}]}
{"id": "C34", "title": "A put that returns an error has no effect", "statement": "If put returns Err, get behaves as if the put had not been called.", "quantifier": "all states including after the background thread died", "why_tests_cant": "Needs the background thread to have died at an arbitrary earlier point.", "anchors": [{"file": "src/core/mmkv_impl.rs", "symbols": ["MmkvImpl::put"]}, {"file": "src/core/io_looper.rs", "symbols": ["IOLooper::post"]}]}
{"id": "C35", "title": "Every error crosses the C interface as a code", "statement": "Every error a put, get or delete can return is delivered to a C caller as an error object with its documented code; the call itself never aborts.", "quantifier": "all error values", "why_tests_cant": "The failing values only occur after background failures tests do not provoke.", "anchors": [{"file": "src/ffi/ffi_buffer.rs", "symbols": ["TryFrom<Error> for InternalError"]}, {"file": "src/ffi/mod.rs", "symbols": ["map_error"]}]}
{"id": "C36", "title": "C results are freed exactly once, with nothing left over", "statement": "For every C API call, passing its result to free_buffer once releases exactly the allocations the call handed out - each once, each with the type it was allocated with - for results holding data, errors with and without a reason, or nothing.", "quantifier": "all calls, value types, value contents, error values", "why_tests_cant": "Memory is owned through four levels of raw pointers; tests under no leak checker see nothing.", "anchors": [{"file": "src/ffi/mod.rs", "symbols": ["free_buffer", "impl_get", "impl_put"]}, {"file": "src/ffi/ffi_buffer.rs", "symbols": ["Releasable", "Leakable", "RawBuffer::drop_data", "RawBuffer::drop_error", "InternalError::release"]}]}
{"id": "C37", "title": "Log level filter", "statement": "After set_log_level(l), a message of level m is delivered if and only if m is at least as severe as l allows (Off delivers nothing, Verbose everything), to the logger method of its own level; the integer codes 0..5 of the C and JNI interfaces name exactly the six levels and everything else is rejected.", "quantifier": "all levels, all integers, all histories of level changes", "why_tests_cant": "All integers and histories.", "anchors": [{"file": "src/log/logger.rs", "symbols": ["log", "set_log_level", "LogWriter::redirect"]}, {"file": "src/log/mod.rs", "symbols": ["LogLevel", "TryFrom<i32> for LogLevel"]}]}
{"id": "C38", "title": "Switching loggers is ordered with messages", "statement": "Messages logged before set_logger go to the old logger and messages logged after it to the new one, each exactly once and in order, although both are delivered by a background thread.", "quantifier": "all sequences of log and set_logger calls, all schedules of the log thread", "why_tests_cant": "All schedules.", "anchors": [{"file": "src/log/logger.rs", "symbols": ["set_logger", "LogWrapper::format_log", "LogWriter::write"]}, {"file": "src/core/io_looper.rs", "symbols": ["IOLooper::post", "Executor::new"]}]}
{"id": "C39", "title": "Arrays round-trip through the Swift and Kotlin bindings", "statement": "An array of any length (including zero) put through the Swift or Kotlin binding is read back equal by the same binding.", "quantifier": "all arrays of all element types", "why_tests_cant": "All lengths; the failing length is zero.", "anchors": [{"file": "ios/MMKV/Sources/MMKV/FFI.swift", "symbols": ["readArray"]}, {"file": "ios/MMKV/Sources/MMKV/ResultWrapper.swift", "symbols": ["unwrapResult"]}, {"file": "src/jni/mod.rs", "symbols": ["jarray_to_native", "native_to_jarray"]}]}
{"id": "C40", "title": "Kotlin get with default", "statement": "getX(key, default) of the Kotlin binding returns the stored value if the key currently holds a value of that type and the default in every other case; getX(key) throws KeyNotFoundException in exactly those other cases.", "quantifier": "all store states, keys, types and defaults", "why_tests_cant": "All states.", "anchors": [{"file": "src/jni/mod.rs", "symbols": ["impl_java_get"]}, {"file": "android/library/src/main/java/net/yangkx/mmkv/MMKV.kt", "symbols": ["getInt"]}]}
{"id": "C41", "title": "No call deadlocks", "statement": "Whatever put, get, delete, clear_data, new and drop calls run in any number of threads, as long as some call has not returned some thread or background thread can take a step; in particular waiting for the background thread inside clear_data or drop never waits for a lock the background thread needs.", "quantifier": "all interleavings of all API calls", "why_tests_cant": "Deadlocks show up only under particular schedules.", "anchors": [{"file": "src/mmkv.rs", "symbols": ["MMKV::new", "Drop for MMKV", "MMKV::clear_data"]}, {"file": "src/core/io_looper.rs", "symbols": ["IOLooper::quit", "IOLooper::post", "Executor::new"]}]}
{"id": "C42", "title": "Closing always finishes", "statement": "Once the channel is closed (drop or quit), the background thread stops after finitely many of its own steps, at most a number determined by the queued jobs and signals, having run every job.", "quantifier": "all queue and channel contents, all schedules", "why_tests_cant": "Termination is a claim about all schedules.", "anchors": [{"file": "src/core/io_looper.rs", "symbols": ["Executor::new", "IOLooper::drop", "IOLooper::quit"]}]}
{"id": "C43", "title": "The store works on 32-bit targets", "statement": "On a target whose usize is 4 bytes (the shipped armeabi-v7a library) opening a directory works as on 64-bit.", "quantifier": "both pointer widths, all files", "why_tests_cant": "Tests run on the developer's 64-bit machine only.", "anchors": [{"file": "src/core/memory_map.rs", "symbols": ["MemoryMap::write_offset", "MemoryMap::append", "LEN_OFFSET"]}]}
{"id": "C44", "title": "Writes to different keys commute", "statement": "Two adjacent mutations of different keys can be swapped without changing what any get returns, in memory or after reopen; repeating a put of the same value or a delete changes nothing observable.", "quantifier": "all histories, all pairs of mutations of different keys", "why_tests_cant": "All histories.", "anchors": [{"file": "src/core/mmkv_impl.rs", "symbols": ["MmkvImpl::put", "MmkvImpl::delete"]}, {"file": "src/core/iter.rs", "symbols": ["Iter::into_map"]}]}
{"id": "C45", "title": "No lost wake-up", "statement": "A put or delete that has returned Ok is written to the file by the background thread on its own: whatever the interleaving, as long as acknowledged work is pending the thread can take a step, and when it comes to rest nothing acknowledged is left - no later call is needed to push it out.", "quantifier": "all interleavings of any number of producers with the consumer thread", "why_tests_cant": "A lost wake-up needs one particular interleaving of push, signal, receive and swap.", "anchors": [{"file": "src/core/io_looper.rs", "symbols": ["IOLooper::post", "Executor::new"]}]}
{"id": "C46", "title": "A store at rest is on disk", "statement": "When no call is under way and the background thread waits for work, the data file on disk, opened by anyone, shows exactly the map that get shows (records up to one page).", "quantifier": "all histories, all schedules, all iteration orders", "why_tests_cant": "All histories and schedules.", "anchors": [{"file": "src/core/io_looper.rs", "symbols": ["Executor::new"]}, {"file": "src/core/writer.rs", "symbols": ["IOWriter::write"]}, {"file": "src/core/mmkv_impl.rs", "symbols": ["MmkvImpl::put"]}]}
{"id": "C47", "title": "The page size may change between sessions", "statement": "A directory written with one page size can be opened, extended and read with another (as happens between Android devices with 4 KiB and 16 KiB pages): nothing is lost, as long as the records of each session fit its page.", "quantifier": "all pairs of page sizes, all histories of both sessions", "why_tests_cant": "Devices and histories cannot be enumerated.", "anchors": [{"file": "src/mmkv.rs", "symbols": ["MMKV::new", "page_size"]}, {"file": "src/core/config.rs", "symbols": ["Config::new", "Config::expand"]}, {"file": "src/core/writer.rs", "symbols": ["IOWriter::write"]}]}
{"id": "C48", "title": "Writing with the wrong key does not destroy the data of the right key", "statement": "After a session that opened an encrypted store with a wrong key and wrote through it, opening with the right key still shows everything it showed before.", "quantifier": "all stores, wrong keys and histories of writes", "why_tests_cant": "Whether the old records survive depends on when the file overflows and is compacted.", "anchors": [{"file": "src/core/encrypt.rs", "symbols": ["Encryptor::init", "Decoder for Encryptor"]}, {"file": "src/core/writer.rs", "symbols": ["IOWriter::write"]}]}
{"id": "C49", "title": "Exactly the documented keys are accepted", "statement": "With encryption, new on a fresh directory succeeds exactly for keys made of 32 hexadecimal digits (16 bytes) and panics for every other string.", "quantifier": "all strings", "why_tests_cant": "All strings.", "anchors": [{"file": "src/core/encrypt.rs", "symbols": ["Encryptor::init"]}, {"file": "src/mmkv.rs", "symbols": ["MMKV::new"]}]}
{"id": "C50", "title": "An encrypted store never runs out of counters", "statement": "However many records an encrypted data file holds, a further put or delete is written.", "quantifier": "all numbers of records", "why_tests_cant": "The limit is at 2^32-1 records.", "anchors": [{"file": "src/core/encrypt.rs", "symbols": ["StreamWrapper::encrypt"]}, {"file": "src/core/writer.rs", "symbols": ["IOWriter::write"]}]}
{"id": "C51", "title": "A logger that panics does not disturb the library", "statement": "If a user's logger panics while handling a message, later logging calls and store calls behave as if it had returned normally.", "quantifier": "all loggers, all histories of log and set_logger calls, all schedules of the log thread", "why_tests_cant": "Which call meets the dead log thread depends on the schedule.", "anchors": [{"file": "src/log/mod.rs", "symbols": ["set_logger", "LogWrapper"]}, {"file": "src/log/logger.rs", "symbols": ["Logger"]}, {"file": "src/core/io_looper.rs", "symbols": ["IOLooper::post", "Executor::new"]}]}
{"id": "C52", "title": "Strings arrive unchanged through the C interface", "statement": "A key or string value passed through the C interface (as the Swift binding does) reaches the store exactly as the caller had it: different keys stay different keys, a string put is the string read.", "quantifier": "all strings", "why_tests_cant": "All strings.", "anchors": [{"file": "src/ffi/mod.rs", "symbols": ["impl_put", "impl_get", "put_str", "delete"]}, {"file": "ios/MMKV/Sources/MMKV/MMKV.swift", "symbols": ["MMKV"]}]}
{"id": "C53", "title": "get never panics", "statement": "Whatever data file was opened and whatever calls were made, get at a built-in type returns Ok or Err; it never panics.", "quantifier": "all data files that open, all histories, all keys and types", "why_tests_cant": "All files and histories.", "anchors": [{"file": "src/core/buffer.rs", "symbols": ["impl_from_buffer_for_number", "FromBytes", "Buffer::parse"]}, {"file": "src/mmkv.rs", "symbols": ["MMKV::get"]}]}
{"id": "C54", "title": "Overwriting does not grow the file without bound (one session)", "statement": "While a directory is open, however many puts and deletes are made, the file never gets larger than its initial size or a bound determined by what it held at the start and the largest live content (total record size of the keys present, and their number) seen so far: superseded values do not accumulate.", "quantifier": "all histories of any length, all schedules and iteration orders, all data files of whole records (records up to one page)", "why_tests_cant": "The claim is about histories of unbounded length.", "anchors": [{"file": "src/core/writer.rs", "symbols": ["IOWriter::write", "IOWriter::expand"]}, {"file": "src/core/mmkv_impl.rs", "symbols": ["MmkvImpl::put", "MmkvImpl::delete"]}]}
{"id": "C55", "title": "Overwriting does not grow the file without bound (many sessions)", "statement": "The same across any number of sessions: if the live content stays bounded, so does the file.", "quantifier": "all numbers of sessions and all histories", "why_tests_cant": "The claim is about histories of unbounded length.", "anchors": [{"file": "src/core/writer.rs", "symbols": ["IOWriter::new", "IOWriter::write"]}, {"file": "src/core/mmkv_impl.rs", "symbols": ["MmkvImpl::new"]}]}
{"id": "C56", "title": "Nothing the library meets ends the process", "statement": "Whatever the data file holds and whatever is put, the worst that happens is an error or a panic the caller (or the background thread) can contain; the library never aborts the whole process.", "quantifier": "all data files, all puts, all schedules", "why_tests_cant": "The double panic needs a particular file or record size and depends on what the system has mapped behind the file.", "anchors": [{"file": "src/core/memory_map.rs", "symbols": ["MemoryMap", "Drop"]}, {"file": "src/core/writer.rs", "symbols": ["IOWriter::write"]}, {"file": "src/core/mmkv_impl.rs", "symbols": ["MmkvImpl::new"]}]}
{"id": "C57", "title": "What was saved survives a power failure", "statement": "After put has returned and the background thread has written the record (or at least after the store has been closed), a power failure does not lose it and never leaves a directory that cannot be opened.", "quantifier": "all histories, all points of failure, all subsets of pages written back", "why_tests_cant": "Which pages reach the disk is up to the operating system; no test can cut the power at every point.", "anchors": [{"file": "src/core/config.rs", "symbols": ["Config::expand", "Config::new"]}, {"file": "src/core/memory_map.rs", "symbols": ["MemoryMap::append"]}, {"file": "src/core/encrypt.rs", "symbols": ["StreamWrapper"]}]}
{"id": "C58", "title": "A full disk loses nothing already saved", "statement": "When the disk runs full (the file cannot be extended), everything written to the file before stays readable: the directory opens again and shows a state the store really was in, with at least the calls that had been written.", "quantifier": "all disk limits, all histories, all schedules", "why_tests_cant": "The failure can hit any write of any history.", "anchors": [{"file": "src/core/config.rs", "symbols": ["Config::expand"]}, {"file": "src/core/writer.rs", "symbols": ["IOWriter::write", "IOWriter::expand"]}]}
{"id": "C59", "title": "clear_data returning Ok empties the store", "statement": "When clear_data returns Ok, the store is empty at that moment and, with no later put, the directory is empty when opened again; also when earlier calls failed.", "quantifier": "all histories including failing calls and a dead background thread, all schedules", "why_tests_cant": "Failures can precede the call in any history.", "anchors": [{"file": "src/mmkv.rs", "symbols": ["MMKV::clear_data"]}, {"file": "src/core/mmkv_impl.rs", "symbols": ["MmkvImpl::clear_data"]}, {"file": "src/core/io_looper.rs", "symbols": ["IOLooper::quit"]}]}
{"id": "C60", "title": "The key given to new decides access", "statement": "With encryption, new(dir, key) gives access to what was stored under that key only: with another key it shows none of it, with a malformed key it fails.", "quantifier": "all keys, all states of the process (other handles of the directory in use or not), all schedules", "why_tests_cant": "Whether the key is looked at depends on which other handles exist at that moment.", "anchors": [{"file": "src/mmkv.rs", "symbols": ["MMKV::new", "MMKV::clear_data"]}, {"file": "src/core/encrypt.rs", "symbols": ["Encryptor::init"]}]}
{"id": "C61", "title": "Killing the process inside new or clear_data is harmless", "statement": "However often the process dies inside new (or inside the removal and re-creation of clear_data), at whatever system call, the directory stays usable: the next new opens it exactly as it would have without those calls, or, in clear_data, empty.", "quantifier": "all points of death, any number of such calls with any keys, all contents of the directory", "why_tests_cant": "The points of death lie between any two system calls and inside the writing of the nonce.", "anchors": [{"file": "src/core/config.rs", "symbols": ["Config::new"]}, {"file": "src/core/encrypt.rs", "symbols": ["StreamWrapper::init", "StreamWrapper::new", "StreamWrapper::new_with_nonce"]}, {"file": "src/core/mmkv_impl.rs", "symbols": ["MmkvImpl::clear_data"]}]}
{"id": "C62", "title": "A system call that fails loses nothing and is reported", "statement": "When a system call inside new or clear_data fails, the caller learns of it (an error or a panic) and the data are still there for the next new.", "quantifier": "every system call of new and clear_data, all contents of the directory", "why_tests_cant": "Each call can fail in every state of the directory.", "anchors": [{"file": "src/core/config.rs", "symbols": ["Config::new", "Config::remove_file"]}, {"file": "src/core/encrypt.rs", "symbols": ["StreamWrapper::new_with_nonce"]}, {"file": "src/core/mmkv_impl.rs", "symbols": ["MmkvImpl::clear_data"]}]}
{"id": "C63", "title": "Processes that take turns lose nothing", "statement": "README: several processes may use one directory as long as no writes compete. When each call of one process, with its background write, is over before another process begins a call or opens the directory, no acknowledged put or delete of any of them is lost.", "quantifier": "any number of processes, all their calls in turn, all hash map orders", "why_tests_cant": "The interleaving of processes and the state each of them holds in memory are unbounded.", "anchors": [{"file": "README.md", "symbols": ["cross-process note"]}, {"file": "src/core/writer.rs", "symbols": ["IOWriter::write", "IOWriter::expand"]}, {"file": "src/core/memory_map.rs", "symbols": ["MemoryMap::append", "RawMmap"]}, {"file": "src/core/mmkv_impl.rs", "symbols": ["MmkvImpl::delete"]}, {"file": "src/core/encrypt.rs", "symbols": ["Encryptor::encrypt"]}]}
{"id": "C64", "title": "A panic in a user's own type affects only its own call", "statement": "If the type_token, to_bytes or from_bytes of a user-defined type panics inside put or get (for instance because the token is a reserved one), only that call fails: every other call, before or after, on any handle, behaves as if it had not been made.", "quantifier": "all store states and histories, all user types, any position of the panic", "why_tests_cant": "The panic can come at any point of any history and its consequences last.", "anchors": [{"file": "src/mmkv.rs", "symbols": ["MMKV::put", "MMKV::get"]}, {"file": "src/core/buffer.rs", "symbols": ["Buffer::new", "Buffer::parse", "TypeToken::new"]}]}
{"id": "C65", "title": "The logger cannot harm the data", "statement": "Whatever a user's logger does when it is called - return or panic - and whatever the log level, calls to the store behave as they would without logging: files open, what put and delete were told is written, and what was written stays.", "quantifier": "all log levels, all times at which the logger panics, all histories of calls, all files", "why_tests_cant": "The log calls sit between the steps of a compaction and of an expansion; only an enumeration of the points where the logger can fail shows what each leaves behind.", "anchors": [{"file": "src/log/logger.rs", "symbols": ["format_log", "log", "set_logger"]}, {"file": "src/core/writer.rs", "symbols": ["IOWriter::write"]}, {"file": "src/core/config.rs", "symbols": ["Config::expand"]}, {"file": "src/core/mmkv_impl.rs", "symbols": ["MmkvImpl::new"]}]}
{"id": "C66", "title": "A native logger is destroyed exactly once, after its last use", "statement": "A logger set through the C interface (set_logger, as used by Swift) gets its destroy function called exactly once if another logger is set after it (and never otherwise), on the log thread, after its last callback; no callback comes after destroy; replacing a logger neither blocks nor panics.", "quantifier": "all histories of set_logger, set_log_level and log calls from any threads, all interleavings with the log thread", "why_tests_cant": "Use after free and double free depend on the interleaving, and destroying a logger itself logs to the thread that destroys it.", "anchors": [{"file": "src/ffi/mod.rs", "symbols": ["NativeLogger", "NativeLogger::drop", "NativeLogger::call_target", "set_logger"]}, {"file": "src/log/logger.rs", "symbols": ["set_logger", "LogWriter::redirect"]}, {"file": "src/core/io_looper.rs", "symbols": ["IOLooper::post", "Executor::new"]}, {"file": "ios/MMKV/Sources/MMKV/Logger.swift", "symbols": ["LogWrapper.toNativeLogger"]}]}
{"id": "C67", "title": "A write reaches the file within a bounded number of steps", "statement": "put and delete return before their record is in the file. When they have returned and w mutations are waiting, then after w + 3 steps of the background thread - whatever other calls do meanwhile - all of them are in the file: a process killed then leaves a directory that reopens showing all of them, then some first part of the later calls. While anything is waiting and no call is under way, the background thread can make a step.", "quantifier": "all earlier sessions, all histories of calls, all interleavings with the background thread and with later calls (clear_data and close included)", "why_tests_cant": "A lost wake-up or a starved queue shows only under particular interleavings, and a continuous stream of new calls could postpone an old one for ever.", "anchors": [{"file": "src/core/io_looper.rs", "symbols": ["IOLooper::post", "Executor::new"]}, {"file": "src/core/mmkv_impl.rs", "symbols": ["MmkvImpl::put", "MmkvImpl::delete"]}, {"file": "src/core/writer.rs", "symbols": ["IOWriter::write"]}]}
{"id": "C68", "title": "If nothing was reported, everything was saved", "statement": "If every call of every session returned Ok and every close of the last handle returned, then reopening the directory, with any page size, shows exactly the effect of all the calls in order - whatever the sizes of keys and values (each record below 4 GiB), also far above a page, and whatever clear_data calls are among them. So data can be lost only with a report: an error from a later call, or a panic of the close.", "quantifier": "all numbers of sessions, all histories of put, delete and clear_data with records of any size below 4 GiB, all interleavings with the background thread, all page sizes, plain and encrypted store; also any file to start from", "why_tests_cant": "Whether a record fits depends on everything written before it; the background thread can die at any record, and a test sees one history.", "anchors": [{"file": "src/core/mmkv_impl.rs", "symbols": ["MmkvImpl::put", "MmkvImpl::delete", "MmkvImpl::clear_data"]}, {"file": "src/core/io_looper.rs", "symbols": ["IOLooper::post", "IOLooper::quit", "Drop for IOLooper"]}, {"file": "src/core/writer.rs", "symbols": ["IOWriter::write"]}, {"file": "src/mmkv.rs", "symbols": ["Drop for MMKV"]}]}
{"id": "C69", "title": "clear_data starts a new nonce", "statement": "What is written to an encrypted store after a clear_data - by the same process or a later one, also when the process was killed anywhere during the clear_data - is encrypted under a nonce drawn from the random generator since that clear_data began removing the files; and as long as nothing is cleared, sessions go on using the same nonce (else they could not read their data).", "quantifier": "all ciphers, keys and random nonces, all contents of the directory to start from, all histories of calls and interleavings with the background thread, all crash points", "why_tests_cant": "The two files are removed one after the other by the background thread and the nonce is drawn by whichever process opens the directory next; a kill between two system calls is not something a test schedules.", "anchors": [{"file": "src/core/mmkv_impl.rs", "symbols": ["MmkvImpl::clear_data", "MmkvImpl::new"]}, {"file": "src/core/encrypt.rs", "symbols": ["Encryptor::init", "StreamWrapper::init", "StreamWrapper::new"]}, {"file": "src/mmkv.rs", "symbols": ["MMKV::clear_data"]}]}
{"id": "C70", "title": "Concurrent calls are linearizable", "statement": "Whatever threads call put, get, delete and clear_data on a directory at the same time, their results are those of the same calls made one at a time on a plain map, in some order that agrees with real time (a call that returned before another began comes before it); calls that fail (a panic, the errors that follow it, a stopped background thread) have a place in this order too, from which on every call sees the failure; and it is in this very order that the mutations are handed to the file, so that when none failed, after a clean close of an unencrypted directory that was empty before, the next open shows the map this order ends with.", "quantifier": "all numbers of threads, all calls, values and read types, all interleavings of the threads with each other and with the background thread, including failing calls and calls that never return", "why_tests_cant": "The number of interleavings is unbounded, and a test can only check a history it happened to produce; there may be many possible orders of which one must fit.", "anchors": [{"file": "src/mmkv.rs", "symbols": ["MMKV::put", "MMKV::get", "MMKV::delete", "MMKV::clear_data"]}, {"file": "src/core/mmkv_impl.rs", "symbols": ["MmkvImpl::put", "MmkvImpl::get", "MmkvImpl::delete", "MmkvImpl::clear_data"]}, {"file": "src/core/io_looper.rs", "symbols": ["IOLooper::post"]}]}
{"id": "C71", "title": "Concurrent calls and crashes: buffered durable linearizability", "statement": "Whatever threads call put, get, delete and clear_data at the same time, and whenever the process is then killed (between two background writes, also in the middle of calls), the next open shows the map that some first part of one linearization of the calls leads to - never an effect without the effects ordered before it - and all of it after a clean close; and so on over any number of sessions, each seeing exactly what the one before left. No call fails on the way.", "quantifier": "all numbers of sessions and threads, all calls with records up to one page, all interleavings of threads and background thread, all points of death between two background writes, plain and encrypted", "why_tests_cant": "It quantifies over interleavings and points of death at once; a test that kills a process cannot know which orders of the calls were possible.", "anchors": [{"file": "src/mmkv.rs", "symbols": ["MMKV::put", "MMKV::get", "MMKV::delete", "MMKV::clear_data", "Drop"]}, {"file": "src/core/mmkv_impl.rs", "symbols": ["MmkvImpl::put", "MmkvImpl::get", "MmkvImpl::delete", "MmkvImpl::clear_data"]}, {"file": "src/core/io_looper.rs", "symbols": ["IOLooper::post"]}, {"file": "src/core/writer.rs", "symbols": ["IOWriter::write"]}]}
{"id": "C72", "title": "Switching the encryption feature on or off over existing data", "statement": "A directory written by a build without encryption opens under a build with encryption, and the other way round (the data file has the same name). The other build shows only what passes its own check - a record that authenticates under the key, or one whose CRC-8 matches - so usually nothing; and as long as nothing is written through it, the data file is left byte for byte as it was, so that switching back shows everything again.", "quantifier": "all directories that open under one build, all keys, all contents of the nonce file, all ciphers, all runs without mutations, all interleavings with the background thread", "why_tests_cant": "It quantifies over every stored file and every read-only history under the other build, including files whose records are misread by chance.", "anchors": [{"file": "src/mmkv.rs", "symbols": ["MMKV::new", "MMKV::resolve_file_path"]}, {"file": "src/core/mmkv_impl.rs", "symbols": ["MmkvImpl::new"]}, {"file": "src/core/crc.rs", "symbols": ["encode_to_bytes", "decode_bytes"]}, {"file": "src/core/encrypt.rs", "symbols": ["encode_to_bytes", "decode_bytes", "init"]}, {"file": "src/core/iter.rs", "symbols": ["next"]}]}
{"id": "C73", "title": "clear_data reaches every process that has the directory open", "statement": "After clear_data returns Ok in one process, no process shows data from before, and what other processes that have the directory open put afterwards (without competing with anybody) is stored: a later session sees it.", "quantifier": "all histories of any number of processes on one file system, with all calls including clear_data, all schedules, all kills", "why_tests_cant": "It quantifies over every interleaving of several processes and over the files the operating system keeps alive without a name.", "anchors": [{"file": "src/mmkv.rs", "symbols": ["MMKV::clear_data"]}, {"file": "src/core/mmkv_impl.rs", "symbols": ["MmkvImpl::clear_data"]}, {"file": "src/core/writer.rs", "symbols": ["remove_file"]}, {"file": "src/core/memory_map.rs", "symbols": ["RawMmap"]}, {"file": "src/core/config.rs", "symbols": ["remove_file"]}]}
{"id": "C74", "title": "A whole process is linearizable", "statement": "Threads that open directories with MMKV::new and call put, get, delete and clear_data on the handles they get observe, over all directories together, what they would observe if all these calls had been made one at a time in some order that agrees with real time: the first new of a directory finds what the disk held, every handle of a directory is the same store, a call on one directory changes no other, and get returns the latest put.", "quantifier": "all numbers of threads and directories, all contents of the data files, all schedules of the threads, of the registry and of the background threads, all failures", "why_tests_cant": "It quantifies over every interleaving of any number of threads, including races between two first openings of a directory, and asks for one order that explains all results at once.", "anchors": [{"file": "src/mmkv.rs", "symbols": ["MMKV::new", "INSTANCE_MAP", "MMKV::put", "MMKV::get", "MMKV::delete", "MMKV::clear_data"]}, {"file": "src/core/mmkv_impl.rs", "symbols": ["MmkvImpl"]}, {"file": "src/core/io_looper.rs", "symbols": ["IOLooper"]}]}
{"id": "C75", "title": "Kotlin strings arrive unchanged", "statement": "A key or a string value passed from Kotlin reaches the store as the same text, and a stored string reaches Kotlin as the same text; different Kotlin keys are different keys.", "quantifier": "all Kotlin strings (any sequence of 16-bit units, paired or unpaired surrogates, NUL, empty), all stored strings, both ways a Java machine writes modified UTF-8, all histories around the call", "why_tests_cant": "Tests pass a few ASCII strings; the conversion goes through modified UTF-8 and three decoders, and fails only on particular combinations of units.", "anchors": [{"file": "src/jni/mod.rs", "symbols": ["env_str", "mmkv_put!", "mmkv_get!", "Java_net_yangkx_mmkv_MMKV_initialize"]}, {"file": "android/library/src/main/java/net/yangkx/mmkv/MMKV.kt", "symbols": ["putString", "getString"]}]}
{"id": "C76", "title": "Kotlin loggers receive every message, however many", "statement": "Through the Kotlin API, every message the level lets through is received by the Kotlin logger exactly once, in the order of the log calls, on the method of its level and with its text; this does not depend on how many messages were logged before.", "quantifier": "all numbers of messages, levels, texts, threads logging at once, all schedules of the log thread, all capacities of the Java machine's table of local references", "why_tests_cant": "Tests log a few dozen messages; the table of local references fills only after hundreds or millions of them, and what happens then depends on the Java machine.", "anchors": [{"file": "src/jni/mod.rs", "symbols": ["AndroidLogger::call_java", "impl_java_put", "Java_net_yangkx_mmkv_MMKV_attachLogger"]}, {"file": "src/log/logger.rs", "symbols": ["format_log", "set_logger"]}, {"file": "android/library/src/main/java/net/yangkx/mmkv/log/Logger.kt", "symbols": ["LoggerWrapper"]}]}
{"id": "C77", "title": "Kotlin setLogger takes effect in order", "statement": "Through the Kotlin API, messages logged before setLogger(l) go to the logger that was installed then, messages logged after it go to l.", "quantifier": "all histories of log calls and setLogger calls, all schedules of the log thread", "why_tests_cant": "The order in which the log thread gets to a message and the caller gets to setLogger is up to the scheduler; tests see one of them.", "anchors": [{"file": "android/library/src/main/java/net/yangkx/mmkv/log/Logger.kt", "symbols": ["LoggerWrapper.setLogger"]}, {"file": "src/jni/mod.rs", "symbols": ["AndroidLogger::call_java"]}, {"file": "src/log/logger.rs", "symbols": ["set_logger"]}]}
{"id": "C78", "title": "Logging does not feed itself", "statement": "Each call of the C interface makes at most five log messages - one Error if the store refused it, first, and otherwise Verbose ones only -, freeing its result makes exactly one less than the call did, handing a message to a native logger makes none, so no more messages are delivered than were logged (plus one per replaced logger), and when the program stops calling the library the log thread comes to rest with everything delivered.", "quantifier": "all C calls, types, outcomes and heaps, all histories of log calls, level changes and set_logger calls, all schedules of the log thread", "why_tests_cant": "The machinery that hands messages to a logger is the one whose use is logged; a test that sees a handful of messages cannot tell that the chain ends for every history.", "anchors": [{"file": "src/ffi/ffi_buffer.rs", "symbols": ["leak", "release", "RawTypedArray::new", "InternalError::new"]}, {"file": "src/ffi/mod.rs", "symbols": ["NativeLogger::call_target", "map_error", "impl_get", "impl_put", "free_buffer"]}, {"file": "src/log/logger.rs", "symbols": ["log", "set_logger"]}]}
{"id": "C79", "title": "A logger may use the library", "statement": "A logger may itself call the library, for example to keep the messages in a store: when the program stops making calls, the log still falls silent.", "quantifier": "all calls the callback makes, by the messages they cause, all levels, histories and schedules", "why_tests_cant": "It depends on the level in force and on what the calls log; tests do not call the library from a logger, and a run that never ends is not a test result.", "anchors": [{"file": "src/ffi/mod.rs", "symbols": ["NativeLogger::call_target", "impl_put", "impl_get"]}, {"file": "src/jni/mod.rs", "symbols": ["impl_java_put", "AndroidLogger::call_java"]}, {"file": "src/log/logger.rs", "symbols": ["log"]}]}
{"id": "C80", "title": "The data file follows its format", "statement": "What the library writes is a documented format: eight bytes of length, then records of four bytes of length, a protobuf message of kv.proto and its CRC-8/AUTOSAR (or, with encryption, the message sealed under key, nonce file and record number); the last record of a key stands for its value. At every moment the data file follows the format and stands for a first part of the calls made; at rest, for all of them. A file that follows the format, whoever wrote it, opens and shows exactly what its records stand for.", "quantifier": "all messages, records and files; all keys, types and values; all histories of sessions, crashes between writes and schedules; all ciphers", "why_tests_cant": "Round-trip tests use the library's own reader on the library's own writer: both could be wrong in the same way, and no test covers every message protobuf allows or every byte string a checksum must be computed for.", "anchors": [{"file": "src/core/crc.rs", "symbols": ["CrcEncoderDecoder"]}, {"file": "src/core/encrypt.rs", "symbols": ["Encryptor"]}, {"file": "src/core/buffer.rs", "symbols": ["Buffer::to_bytes", "Buffer::from_encoded_bytes"]}, {"file": "src/core/memory_map.rs", "symbols": ["MemoryMap"]}, {"file": "src/core/iter.rs", "symbols": ["MemoryMapIterator"]}, {"file": "src/protos/kv.proto", "symbols": ["KV"]}]}
{"id": "C81", "title": "A failed call can be contained", "statement": "Dropping a handle never panics. So a thread in which a call of the library panicked - a `new` on a path that is no directory, say - and that owns other handles can unwind: `catch_unwind` or the join of the thread gets the panic, and the rest of the process goes on.", "quantifier": "all processes: directories, handles, threads, histories, schedules; all points at which a thread lets its handles go, unwinding or not", "why_tests_cant": "A panic in a destructor during unwinding aborts the test process itself, and whether a destructor panics depends on everything the process did before.", "anchors": [{"file": "src/mmkv.rs", "symbols": ["Drop for MMKV", "MMKV::new", "INSTANCE_MAP"]}, {"file": "src/core/io_looper.rs", "symbols": ["Drop for IOLooper"]}]}
{"id": "C82", "title": "put, get and delete never wait for the disk", "statement": "A put, get or delete that was called returns although the background thread makes no step at all - the disk is stuck, the thread dead or descheduled - and reads or writes no file itself. It waits for other calls at most, and only for their memory operations; the exception is clear_data, which waits for the background thread, and whom everybody then waits for.", "quantifier": "all states and interleavings of any number of threads, readers and calls; all behaviours of the background thread", "why_tests_cant": "A test cannot stall the disk at every point, and not observing a delay says nothing about the schedules in which a lock is held across a write.", "anchors": [{"file": "src/mmkv.rs", "symbols": ["MMKV::put", "MMKV::get", "MMKV::delete", "MMKV::clear_data"]}, {"file": "src/core/mmkv_impl.rs", "symbols": ["MmkvImpl"]}, {"file": "src/core/io_looper.rs", "symbols": ["IOLooper::post", "IOLooper::quit"]}]}
{"id": "C83", "title": "A call through a binding reports what happened", "statement": "A putX, delete or clearData of the Kotlin and Swift bindings returns normally if and only if the store did what was asked; otherwise it throws the exception it declares (Kotlin: NativeException for putX and delete) or gives a failure with the documented code (Swift). It does not end the process.", "quantifier": "all keys, types and values, all histories of a store, all errors, all states of a C caller's heap", "why_tests_cant": "Tests of the bindings exercise the success paths; the error paths need a store whose background thread has died, in every state it can be in.", "anchors": [{"file": "src/jni/mod.rs", "symbols": ["Java_net_yangkx_mmkv_MMKV_delete", "impl_java_put", "Java_net_yangkx_mmkv_MMKV_clearData"]}, {"file": "android/library/src/main/java/net/yangkx/mmkv/MMKV.kt", "symbols": ["MMKV"]}, {"file": "ios/MMKV/Sources/MMKV/ResultWrapper.swift", "symbols": ["unwrapResult"]}, {"file": "src/ffi/mod.rs", "symbols": ["clear_data", "delete", "impl_put"]}]}
{"id": "C84", "title": "A logger written in Swift gets its messages, and lives exactly as long as needed", "statement": "Every message the library hands to a logger set with MMKV.setLogger of the Swift binding reaches the method for its level, in order and once; the object that holds the logger is never used after it is gone; it goes only after another logger has been set and after the last of its messages has been delivered, and then it does go (no leak).", "quantifier": "all histories of log calls, level changes and setLogger calls in any threads, all interleavings with the log thread and with a main thread that gets to its queue whenever it likes", "why_tests_cant": "The lifetime is managed by hand (passRetained, takeUnretainedValue, takeRetainedValue) across three threads; a use after free or a leak shows only under a schedule nobody tests.", "anchors": [{"file": "ios/MMKV/Sources/MMKV/Logger.swift", "symbols": ["LogWrapper", "LogWrapper.toNativeLogger", "LogWrapper.log"]}, {"file": "ios/MMKV/Sources/MMKV/MMKV.swift", "symbols": ["setLogger"]}, {"file": "src/ffi/mod.rs", "symbols": ["NativeLogger", "NativeLogger::drop", "set_logger"]}, {"file": "src/log/logger.rs", "symbols": ["set_logger"]}]}
{"id": "C85", "title": "A logger written in Swift is called on the main thread only", "statement": "All calls the Swift binding makes to the user's logger happen on the main thread (the binding dispatches every message there).", "quantifier": "all histories of log calls, level changes and setLogger calls in any threads, all interleavings with the log thread and the main thread", "why_tests_cant": "The thread that drops the last reference depends on the schedule; a test that happens to have a message waiting sees the main thread.", "anchors": [{"file": "ios/MMKV/Sources/MMKV/Logger.swift", "symbols": ["LogWrapper", "LogWrapper.toNativeLogger", "LogWrapper.log"]}, {"file": "src/ffi/mod.rs", "symbols": ["NativeLogger::drop"]}]}
{"id": "C86", "title": "Swift get with default", "statement": "getX(key).unwrap(default) of the Swift binding returns the stored value if the key currently holds a value of that type and the default in every other case; getX(key).unwrapResult() is a failure with the documented code in exactly those other cases.", "quantifier": "all store states, keys, types and defaults", "why_tests_cant": "Every pair of stored type and requested type, every error of the core and every history behind the stored value has its own path through the C result object.", "anchors": [{"file": "ios/MMKV/Sources/MMKV/ResultWrapper.swift", "symbols": ["unwrapResult", "unwrap"]}, {"file": "ios/MMKV/Sources/MMKV/MMKV.swift", "symbols": ["getInt32"]}, {"file": "src/ffi/mod.rs", "symbols": ["impl_get"]}]}
{"id": "C87", "title": "A process that opens, uses, closes and reopens directories behaves like one map per directory", "statement": "Threads may open directories, use and share the handles, drop them and open the directories again, at any time and in any interleaving, as long as no open of a directory overlaps a drop of one of its handles (unless another of its handles is kept) and a directory is always named the same way. Then all results are as if the calls were made one at a time, in an order agreeing with real time, on one map per directory that lives on unchanged while the directory is closed. If the process dies, whoever opens a directory next finds the map after some first part of its mutations, and all of them if its handles had been dropped.", "quantifier": "all numbers of threads, handles and directories, all histories of open/put/get/delete/clear_data/drop, all schedules of the threads and of the background threads, all crash points between background writes", "why_tests_cant": "Closing runs against calls still being written, against other handles of the same directory and against opens of other directories; a test fixes one interleaving of a few of them.", "anchors": [{"file": "src/mmkv.rs", "symbols": ["MMKV::new", "MMKV::drop", "INSTANCE_MAP"]}, {"file": "src/core/mmkv_impl.rs", "symbols": ["MmkvImpl::new"]}, {"file": "src/core/io_looper.rs", "symbols": ["IOLooper::drop", "IOLooper::quit"]}]}
{"id": "C88", "title": "Memory use is bounded by what the store holds", "statement": "The memory a store takes is bounded by its live entries, up to a constant factor: overwritten and deleted values, and calls that failed, leave nothing behind in memory.", "quantifier": "all histories of calls, successful or failing, and all speeds of the background thread", "why_tests_cant": "What piles up depends on how far the background thread has fallen behind over an unbounded history; a test sees one run on an idle machine.", "anchors": [{"file": "src/core/io_looper.rs", "symbols": ["IOLooper::post", "Executor::new"]}, {"file": "src/core/mmkv_impl.rs", "symbols": ["MmkvImpl::put", "MmkvImpl::delete"]}]}
{"id": "C89", "title": "What is written to the file is proportional to what is put", "statement": "The bytes a store writes into its file are at most a fixed multiple of the bytes of the records of the calls made, plus a constant: compaction does not multiply the writes without bound (flash wear).", "quantifier": "all histories of calls, all contents, all page sizes and all speeds of the background thread", "why_tests_cant": "Write amplification depends on how full the file is of live entries; tests check contents, not the number of bytes written, and each sees one fill level.", "anchors": [{"file": "src/core/writer.rs", "symbols": ["IOWriter::write"]}, {"file": "src/core/memory_map.rs", "symbols": ["MemoryMap::append", "MemoryMap::reset"]}, {"file": "src/core/config.rs", "symbols": ["Config::expand"]}]}
{"id": "C90", "title": "A Kotlin program reads what it wrote, whatever the garbage collector does", "statement": "A Kotlin program that makes its calls one at a time - each has returned before the next is made - and lets the garbage collector finalize the MMKV objects it no longer uses gets, from every get, what its puts, deletes and clears made before it lead to; a later process finds what a first part of them leads to, and all of them once the objects have been finalized.", "quantifier": "all programs, all directories and files to start with, all moments at which the finalizer thread runs and all speeds of it and of the background threads, with and without encryption", "why_tests_cant": "When an unreachable object is finalized is up to the virtual machine; a test of a few calls hardly ever has a finalizer running inside the constructor of the next object.", "anchors": [{"file": "android/library/src/main/java/net/yangkx/mmkv/MMKV.kt", "symbols": ["MMKV.nativeObj", "MMKV.finalize"]}, {"file": "src/jni/mod.rs", "symbols": ["Java_net_yangkx_mmkv_MMKV_initialize", "Java_net_yangkx_mmkv_MMKV_close"]}, {"file": "src/mmkv.rs", "symbols": ["MMKV::new", "MMKV::drop", "INSTANCE_MAP"]}, {"file": "src/core/mmkv_impl.rs", "symbols": ["MmkvImpl::new"]}, {"file": "src/core/io_looper.rs", "symbols": ["IOLooper::drop"]}]}
{"id": "C91", "title": "A full disk ends no process and destroys nothing", "statement": "When the disk has no space left, puts and deletes may fail to be saved (and an error may be logged or returned), but the process goes on, and everything saved before is still there when the directory is opened again.", "quantifier": "all histories of calls and background steps, all moments at which the disk runs full, all orders in which a copy touches the pages of the file, all amounts of space", "why_tests_cant": "A test would need a file system of its own that is full at a chosen moment; where the first store into a page without space happens depends on the sizes and order of all records before.", "anchors": [{"file": "src/core/config.rs", "symbols": ["Config::new", "Config::expand"]}, {"file": "src/core/memory_map.rs", "symbols": ["RawMmap::new", "MemoryMap::append", "MemoryMap::reset"]}, {"file": "src/core/writer.rs", "symbols": ["IOWriter::write", "IOWriter::expand"]}]}
{"id": "C92", "title": "The library does the same in every build", "statement": "What a program sees of the library - what opens, what each call returns, what is saved - does not depend on how the library was compiled: a debug build, a release build and the libraries shipped for Android and iOS behave alike.", "quantifier": "all files, all histories of calls and background steps, all failures, all combinations of overflow checks and panic strategy", "why_tests_cant": "Tests run in one build (debug, unwinding); the shipped libraries are compiled without overflow checks and with panics that end the process.", "anchors": [{"file": "src/core/memory_map.rs", "symbols": ["MemoryMap::append", "MemoryMap::write_offset"]}, {"file": "src/core/iter.rs", "symbols": ["Iter::next", "Iter::into_map"]}, {"file": "src/core/writer.rs", "symbols": ["IOWriter::write"]}, {"file": "src/core/crc.rs", "symbols": ["CrcEncoderDecoder::encode_to_bytes", "CrcEncoderDecoder::decode_bytes"]}, {"file": "src/core/encrypt.rs", "symbols": ["Encryptor::decode_bytes"]}, {"file": "src/core/config.rs", "symbols": ["Config::expand"]}, {"file": ".cargo/config.toml", "symbols": ["profile.release"]}]}
{"id": "C93", "title": "A removed value is gone from the disk", "statement": "Once a value has been deleted, overwritten or cleared, the call has returned Ok and the store has been closed, the old value is no longer in the files of the directory: nobody who gets hold of them (and of the key, with encryption) can recover it.", "quantifier": "all histories of calls and background steps, all values, all sizes of the file, with and without encryption", "why_tests_cant": "Tests look at what get returns, not at the bytes of the file; and whether old bytes survive depends on where in the file they happened to be and on when the file was last compacted.", "anchors": [{"file": "src/core/memory_map.rs", "symbols": ["MemoryMap::append", "MemoryMap::reset"]}, {"file": "src/core/writer.rs", "symbols": ["IOWriter::write", "IOWriter::remove_file"]}, {"file": "src/core/mmkv_impl.rs", "symbols": ["MmkvImpl::put", "MmkvImpl::delete", "MmkvImpl::clear_data"]}, {"file": "src/mmkv.rs", "symbols": ["MMKV::clear_data"]}]}
{"id": "C94", "title": "A copy made while the store is in use", "statement": "A copy of the data file, read from front to back by another program (a backup) while the store is in use, opens, and shows what the data file showed when the copy was begun, or at least every value that was there before and is not touched while the copy is made.", "quantifier": "all files, histories of calls and background steps, all moments at which each byte of the file is read, with and without encryption", "why_tests_cant": "It depends on where between the stores of the background thread each byte is read; tests open files nobody is writing to.", "anchors": [{"file": "src/core/memory_map.rs", "symbols": ["MemoryMap::append", "MemoryMap::reset"]}, {"file": "src/core/writer.rs", "symbols": ["IOWriter::write"]}, {"file": "src/core/config.rs", "symbols": ["Config::new", "Config::expand"]}, {"file": "src/core/iter.rs", "symbols": ["MemoryMap::iter", "Iter::next"]}]}
{"id": "C95", "title": "What sizes and places give away", "statement": "The results of the calls, the length of the data file, its header, and where and how much of the file is written depend only on the sizes of keys and values, on the types, on the order in which the hash maps yield them, and on which calls use the same key: not on the contents of keys and values, nor on the encryption key and nonce.", "quantifier": "all histories of sessions and calls, all interleavings with the background thread, all points at which a process dies, all renamings of keys that keep their length, all values of the same length, with and without encryption, all keys and nonces", "why_tests_cant": "It is a statement about pairs of executions, one for every way to change contents; a test runs one of them.", "anchors": [{"file": "src/core/mmkv_impl.rs", "symbols": ["MmkvImpl::put", "MmkvImpl::delete"]}, {"file": "src/core/writer.rs", "symbols": ["IOWriter::write"]}, {"file": "src/core/memory_map.rs", "symbols": ["MemoryMap::append", "MemoryMap::reset"]}, {"file": "src/core/crc.rs", "symbols": ["CrcEncoderDecoder::encode_to_bytes"]}, {"file": "src/core/encrypt.rs", "symbols": ["Encryptor::encode_to_bytes"]}, {"file": "src/core/iter.rs", "symbols": ["MemoryMap::iter"]}]}
{"id": "C96", "title": "A system call that fails while the file grows", "statement": "If any of the system calls made to enlarge the data file fails (asking for its size, fsync, ftruncate, mmap, the msync of the old mapping), the entries saved before are still there when the directory is opened again, whatever is called in between.", "quantifier": "all histories of calls, all interleavings with the background thread, each of the system calls, each growth (also the second and later ones of one compaction), all later calls short of another clear_data, with and without encryption", "why_tests_cant": "A test does not make fsync, ftruncate or mmap fail at a chosen moment of a chosen write, let alone at each of them.", "anchors": [{"file": "src/core/config.rs", "symbols": ["Config::expand", "Config::file_size"]}, {"file": "src/core/writer.rs", "symbols": ["IOWriter::expand", "IOWriter::write"]}, {"file": "src/core/memory_map.rs", "symbols": ["MemoryMap::new", "Drop for MemoryMap", "RawMmap::new"]}]}
{"id": "C97", "title": "A process that changes its working directory", "statement": "A handle made with a relative directory stays with the directory the string named when it was made, whatever the process's working directory becomes: puts, gets and deletes go there, clear_data clears it and nothing else; and MMKV::new with a relative string opens what the string names at that moment.", "quantifier": "all histories of chdir, MMKV::new, calls and drops in any number of threads and directories, absolute and relative strings, all interleavings with the background threads", "why_tests_cant": "The path is resolved at several moments, some of them on the background thread; a test runs in one working directory.", "anchors": [{"file": "src/mmkv.rs", "symbols": ["MMKV::new", "MMKV::clear_data", "resolve_file_path", "INSTANCE_MAP"]}, {"file": "src/core/config.rs", "symbols": ["Config::new", "Config::remove_file"]}, {"file": "src/core/writer.rs", "symbols": ["IOWriter::remove_file"]}]}
{"id": "C98", "title": "Handles in a forked child", "statement": "After fork, the child can go on using the handles it inherited: calls it makes through them return, what they wrote is in the data file once the handle is closed, closing and clear_data return; and nothing the child does through them disturbs the parent's files.", "quantifier": "all histories of the process before the fork, all histories of the child (calls through inherited and new handles, opens, drops, threads of its own), plain and encrypted stores", "why_tests_cant": "The child lacks the background threads of the stores it inherited; a test would have to fork, and would hang or wait for a write that never comes.", "anchors": [{"file": "src/mmkv.rs", "symbols": ["MMKV::put", "MMKV::clear_data", "Drop for MMKV"]}, {"file": "src/core/io_looper.rs", "symbols": ["IOLooper::new", "IOLooper::post", "IOLooper::quit", "Drop for IOLooper", "Executor::new"]}, {"file": "src/core/mmkv_impl.rs", "symbols": ["MmkvImpl::put"]}]}
{"id": "C99", "title": "Descriptors, mappings and threads are given back", "statement": "A store in use costs one descriptor of its data file, one mapping of it and one background thread, however many handles and calls there are; during the open of another store, the end of a clear_data or the growth of a file at most one more of each exists for a moment. When the drop of the last handle (or clear_data) returns they have been given back, each exactly once; so have they after an open that panicked and after a background thread that died. Opening and closing any number of times does not accumulate them.", "quantifier": "all histories of the process: any number of directories, handles and threads, opens that panic, background threads that die, clear_data, growth of files, at every moment including the middle of an event", "why_tests_cant": "A test sees the descriptor table of the few histories it runs; a leak on one path (an open that panics, a clear_data that fails, a race of drop and new) shows only after thousands of repetitions.", "anchors": [{"file": "src/mmkv.rs", "symbols": ["MMKV::new", "MMKV::clear_data", "Drop for MMKV"]}, {"file": "src/core/mmkv_impl.rs", "symbols": ["MmkvImpl::new"]}, {"file": "src/core/config.rs", "symbols": ["Config::new"]}, {"file": "src/core/writer.rs", "symbols": ["IOWriter", "IOWriter::expand"]}, {"file": "src/core/memory_map.rs", "symbols": ["Drop for RawMmap", "RawMmap::new"]}, {"file": "src/core/io_looper.rs", "symbols": ["Executor::new", "IOLooper::quit", "Drop for IOLooper"]}]}
{"id": "C100", "title": "A Kotlin logger that throws does no harm", "statement": "If a logger written in Kotlin throws an exception while it handles a message, later messages still reach the logger in charge (that one or one installed later), and no call of the library fails or ends the process because of it.", "quantifier": "all Kotlin loggers (which messages they throw on), all histories of log calls and setLogger calls, all schedules of the log thread", "why_tests_cant": "The exception is met on the log thread, after the call that logged has returned; what it breaks are later calls, in other threads.", "anchors": [{"file": "src/jni/mod.rs", "symbols": ["AndroidLogger::call_java"]}, {"file": "src/log/logger.rs", "symbols": ["LogWrapper::format_log", "LogWriter"]}, {"file": "src/core/io_looper.rs", "symbols": ["IOLooper::post", "Executor::new"]}, {"file": "android/library/src/main/java/net/yangkx/mmkv/log/Logger.kt", "symbols": ["LoggerWrapper"]}]}
{"id": "C101", "title": "Tampering with an encrypted store, without the key, at most sets it back", "statement": "Someone who can read and replace the data file of an encrypted store, but has no key, can at most make it show a state it was in earlier (or make it refuse to open): it never shows a combination of values it has never held.", "quantifier": "all keys, nonces, histories of an encrypted store, all sets of moments at which its file was seen, all files put together from what was seen", "why_tests_cant": "What is at stake are all the files someone might put together; tests corrupt a few bytes and look at a few of them.", "anchors": [{"file": "src/core/encrypt.rs", "symbols": ["StreamWrapper::encrypt", "StreamWrapper::decrypt", "Encryptor::decode_bytes"]}, {"file": "src/core/iter.rs", "symbols": ["Iter::next", "Iter::into_map"]}]}
{"id": "C102", "title": "An app that is started, killed and started again sees its own past", "statement": "However often an app is started and exits or is killed, with any number of threads, handles and directories in each run: each run is linearizable as a whole, starting from what the run before left; and a run leaves in each directory what it found there followed by some first part of the mutating calls made on it, in that order - all of them, if the handles of the directory had been dropped.", "quantifier": "all numbers of runs, threads, handles, directories and calls, all schedules in each run, all moments of exit or kill: between two background writes, inside a new or a clear_data, or inside an append once its header and length field are stored, all keys, ciphers and random bytes", "why_tests_cant": "The number of histories of several runs with several threads and a kill at any step is beyond any test; what is claimed is that one order explains each of them and that the orders fit together.", "anchors": [{"file": "src/mmkv.rs", "symbols": ["MMKV::new", "MMKV::put", "MMKV::get", "MMKV::delete", "MMKV::clear_data", "Drop for MMKV"]}, {"file": "src/core/mmkv_impl.rs", "symbols": ["MmkvImpl::new", "MmkvImpl::clear_data"]}, {"file": "src/core/io_looper.rs", "symbols": ["IOLooper"]}, {"file": "src/core/memory_map.rs", "symbols": ["MemoryMap"]}, {"file": "src/core/encrypt.rs", "symbols": ["Encryptor::init"]}]}
{"id": "C103", "title": "Values do not get into the log", "statement": "What the library and its C interface log - printed to standard output unless the program installs a logger or lowers the level - tells which keys are used, at which types and sizes, but not what is stored: two programs that differ only in the contents of their values leave the same log.", "quantifier": "all values of all types, keys, heaps, ways to print pointers and floats, log levels, all histories of puts, deletes and reads through the C interface", "why_tests_cant": "A test compares the log of one value with what its author had in mind; that a log does not depend on the value is a statement about all pairs of values.", "anchors": [{"file": "src/ffi/ffi_buffer.rs", "symbols": ["Leakable::leak", "Releasable::release", "RawTypedArray::new", "InternalError::new"]}, {"file": "src/ffi/mod.rs", "symbols": ["impl_get", "impl_put", "delete", "free_buffer", "map_error"]}, {"file": "src/log/logger.rs", "symbols": ["log", "LOG_LEVEL"]}]}
{"id": "C104", "title": "The library's own log tells sizes, not contents", "statement": "The messages the store itself logs - at opening, when the file grows or is compacted, at clear_data, when handles and the background thread go - name no key and no value: two programs that differ only in the contents of their keys, values, encryption keys and nonces (same calls, same sizes, same keys reused) leave the same messages at every level, and a store that only this library has written logs no error.", "quantifier": "all histories of sessions and calls, all interleavings with the background thread, all points at which a process dies, all renamings of keys that keep their length, all values of the same length, with and without encryption, all keys and nonces, all log levels", "why_tests_cant": "It is a statement about pairs of executions, one for every way to change contents; a test reads the log of one of them.", "anchors": [{"file": "src/core/config.rs", "symbols": ["Config::expand"]}, {"file": "src/core/writer.rs", "symbols": ["IOWriter::write"]}, {"file": "src/core/mmkv_impl.rs", "symbols": ["MmkvImpl::new", "MmkvImpl::clear_data"]}, {"file": "src/core/iter.rs", "symbols": ["Iter::next"]}, {"file": "src/core/io_looper.rs", "symbols": ["IOLooper::quit", "Drop for IOLooper"]}, {"file": "src/mmkv.rs", "symbols": ["Drop for MMKV"]}]}
{"id": "C105", "title": "On Android, log and exceptions name no keys and no values", "statement": "The messages a Kotlin app finds in its log, and the texts of the exceptions it catches, give away neither the keys it stores under nor the values: two apps that differ only in keys or values (same calls, same sizes) leave the same log at every level and catch the same exceptions.", "quantifier": "all histories of sessions, all last sessions of puts, reads, deletes and clears through the Kotlin interface at every type, all interleavings with the background thread, all values of the same length, with and without encryption, all keys and nonces, all log levels", "why_tests_cant": "It is a statement about pairs of executions, one for every way to change contents; a test reads the log of one of them.", "anchors": [{"file": "src/jni/mod.rs", "symbols": ["impl_java_put", "impl_java_get", "Java_net_yangkx_mmkv_MMKV_delete"]}]}
