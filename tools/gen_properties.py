#!/usr/bin/env python3
"""Writes /verif/properties.jsonl (one JSON object per line)."""
import json
P=[]
def p(title, statement, quantifier, why, anchors):
    P.append(dict(id="C%02d"%(len(P)+1), title=title, statement=statement,
                  quantifier=quantifier, why_tests_cant=why, anchors=anchors))
M="src/mmkv.rs"; I="src/core/mmkv_impl.rs"; B="src/core/buffer.rs"; W="src/core/writer.rs"
L="src/core/io_looper.rs"; MM="src/core/memory_map.rs"; IT="src/core/iter.rs"; CR="src/core/crc.rs"
EN="src/core/encrypt.rs"; CF="src/core/config.rs"; F="src/ffi/mod.rs"; FB="src/ffi/ffi_buffer.rs"
J="src/jni/mod.rs"; LG="src/log/logger.rs"; LM="src/log/mod.rs"
def a(f,*s): return {"file":f,"symbols":list(s)}

p("Latest write wins, for every reader",
  "While every put, delete and clear_data so far returned Ok, a get of key k through any handle of a directory returns exactly what a plain in-memory map would hold for k after the same calls in the order they took effect: the value of the last put of k, or KeyNotFound if k was never put, or was deleted or cleared since. How far the background IO thread has got makes no difference.",
  "all sequences of put/get/delete/clear_data over all keys and values, all interleavings with background IO progress and file compaction",
  "A test fixes a handful of keys and one schedule of the IO thread; the claim is about every history and every amount of background progress.",
  [a(M,"MMKV::put","MMKV::get","MMKV::delete","MMKV::clear_data"),a(I,"MmkvImpl::put","MmkvImpl::get","MmkvImpl::delete","MmkvImpl::clear_data")])
p("Typed values read back exactly",
  "For every built-in type (i32, i64, f32, f64, bool, string, byte array, i32/i64/f32/f64 array), put(k, v) followed by get::<T>(k) returns Ok(v), bit for bit (including NaN payloads, negative numbers, empty strings and empty arrays), and still does after the value has been through the file.",
  "all values of all eleven built-in types, all keys",
  "The value domains are infinite or astronomically large; tests use a few literals.",
  [a(B,"ToBytes","FromBytes","Buffer::new","Buffer::parse","impl_to_bytes_for_number","impl_from_buffer_for_number","impl_from_buffer_for_typed_array")])
p("Reading at the wrong type is refused",
  "get::<U>(k) on a key last put at built-in type T with U different from T returns Err(TypeMissMatch), never a reinterpretation of the bytes, and leaves the stored value readable at T. Strings put from &str and String are the same type.",
  "all pairs of distinct built-in types, all keys and values",
  "Tests try a few pairs with one value each.",
  [a(B,"Buffer::check_buffer_type","InnerTypes","ProvideTypeToken")])
p("Delete removes the key",
  "After delete(k) returns Ok, get of k at any type returns KeyNotFound until the next put of k, both in this process and after close and reopen; deleting a key that is not present returns Ok, changes nothing and writes nothing to the file.",
  "all histories, all keys, all types",
  "The tombstone has to survive every later compaction, expansion and reopen.",
  [a(I,"MmkvImpl::delete"),a(B,"Buffer::deleted_buffer","Buffer::is_deleting"),a(IT,"Iter::into_map")])
p("Keys do not interfere",
  "put, delete and get of key k never change what get returns for any other key, in memory or after reopen.",
  "all pairs of different keys, all histories",
  "Needs every pair of keys and every place a compaction may move records.",
  [a(I,"MmkvImpl::put","MmkvImpl::delete"),a(W,"IOWriter::write")])
p("Everything acknowledged survives close and reopen (records up to one page)",
  "If every record written (key, type and value with framing) is at most one page long, then after any history of successful put/delete calls followed by dropping the last handle, opening the same directory again yields exactly the same key-value map.",
  "all histories whose records each fit in one page, all interleavings with the IO thread, all HashMap iteration orders during compaction, starting from any file that opens",
  "The number of expansions, compactions and reopens is unbounded and the compaction order is random.",
  [a(W,"IOWriter::write","IOWriter::expand"),a(IT,"Iter::into_map"),a(I,"MmkvImpl::new"),a(L,"IOLooper::drop")])
p("Values of any size survive close and reopen",
  "A put that returned Ok is readable after close and reopen whatever the size of the value.",
  "all values of any length, all file fill levels",
  "A test picks small values; the failure depends on the relation between value size, free space and page size.",
  [a(W,"IOWriter::write","IOWriter::expand"),a(CF,"Config::expand"),a(MM,"MemoryMap::append")])
p("Background writes run once each, in call order",
  "The background thread performs the write of every put, delete and clear exactly once and in the order the calls took effect, whatever the interleaving of the producers' queue push and wake-up signal with the thread's receive and queue swap.",
  "all interleavings of any number of producers with the consumer thread, unbounded queues",
  "Schedules cannot be enumerated by tests; the double-buffer swap can merge or split batches arbitrarily.",
  [a(L,"IOLooper::post","Executor::new","IOLooper::quit","IOLooper::drop")])
p("Closing waits for every pending write",
  "When the drop of the last handle (or clear_data) returns, every acknowledged put and delete has been executed by the background thread; none is left queued.",
  "all queue contents and schedules at the moment of closing",
  "The race between the last wake-up signal, channel disconnect and the final queue swap needs every schedule.",
  [a(L,"IOLooper::drop","IOLooper::quit","Executor::new")])
p("Killing the process between background writes loses only a suffix",
  "If the process dies when the background thread is between two writes, reopening yields exactly the map obtained by applying some prefix of the put, delete and clear_data calls made so far, in order - never a mixture, never a reordering.",
  "all histories and all crash points between background writes",
  "Every crash point of every history.",
  [a(W,"IOWriter::write"),a(IT,"Iter::into_map"),a(L,"Executor::new")])
p("Killing the process inside an append is recoverable",
  "If the process dies at any instant while one record is being appended, reopening succeeds and yields the map before or after that append.",
  "all crash points between individual stores of an append, all records, all file states",
  "A unit test cannot stop the process between two stores of a memcpy into a mapping.",
  [a(MM,"MemoryMap::append"),a(CR,"CrcEncoderDecoder::decode_bytes"),a(I,"MmkvImpl::new")])
p("Killing the process inside a compaction loses nothing",
  "If the process dies at any instant while the file is being compacted, reopening yields every key that was persisted before the compaction started.",
  "all crash points inside a compaction, all maps and iteration orders",
  "Same: crash points inside the rewrite loop.",
  [a(W,"IOWriter::write"),a(MM,"MemoryMap::reset")])
p("Compaction preserves content in any order",
  "When an append does not fit and the file is rewritten, the map read back from the file is exactly the map before plus the new mutation, for every order in which the hash map yields its values.",
  "all file contents, all mutations, all permutations of the live entries",
  "Rust's HashMap order is random; tests see one order per run.",
  [a(W,"IOWriter::write"),a(IT,"Iter::into_map")])
p("Compaction leaves one record per live key",
  "After a compaction the file content holds exactly one record for each live key and nothing else: no tombstones, no superseded values, no undecodable records.",
  "all file contents, all mutations, all permutations",
  "Needs every history leading to a compaction.",
  [a(W,"IOWriter::write")])
p("The file stays well-formed",
  "At every moment between background writes the length header equals the total size of the records behind it, the content ends inside the file, and the file consists of whole records decodable from the start.",
  "all histories (records at most one page), all iteration orders",
  "An invariant over unbounded histories.",
  [a(MM,"MemoryMap::append","MemoryMap::write_offset","MemoryMap::reset"),a(W,"IOWriter::write")])
p("File growth is page-wise and never shrinks",
  "A background write never shrinks the file, grows it only by whole pages, leaves its size unchanged whenever the record fits, and grows it by exactly one page when an append needs more room and no compaction is due.",
  "all histories and records",
  "Unbounded histories.",
  [a(CF,"Config::expand","Config::new"),a(W,"IOWriter::write","IOWriter::expand")])
p("File size stays proportional to content after a compaction",
  "After any background write the file is at most one page larger than what its content needs or than it was before.",
  "all live maps, all iteration orders",
  "The over-allocation appears only when a compaction itself has to grow the file part-way through.",
  [a(W,"IOWriter::write")])
p("Records decode to what was encoded",
  "Every record below 4 GiB, read back from the file at its own offset with any bytes following it, decodes to exactly the key, type and value written and reports exactly its own length.",
  "all keys, type tokens (including negative ones), values, and trailing bytes",
  "Infinite input space; protobuf default-field elision and 10-byte negative varints are corner cases.",
  [a(B,"Buffer::to_bytes","Buffer::from_encoded_bytes"),a(CR,"CrcEncoderDecoder"),a("src/protos/kv.proto","KV")])
p("A corrupted byte inside a record is detected",
  "If any single byte of a record's body or of its checksum is changed to any other value (more generally, any corruption confined to 8 consecutive bits), the record is rejected on reading: no wrong value is ever returned for it.",
  "all records, all positions, all replacement bytes / error bursts",
  "Bodies have unbounded length; tests flip a few bits.",
  [a(CR,"CrcEncoderDecoder::decode_bytes","CRC8")])
p("Corruption is contained to its record",
  "If one record's body or checksum is corrupted in one byte, the directory still opens, every other record has its usual effect in order, and the corrupted record has none.",
  "all files, all records in them, all positions in the record, all replacement bytes",
  "All files times all corruption positions.",
  [a(IT,"Iter::into_map","Iter::next"),a(CR,"CrcEncoderDecoder::decode_bytes")])
p("Opening never crashes on a damaged file",
  "Whatever bytes the data file holds, opening the directory returns an instance (possibly with less data) rather than panicking.",
  "all file contents",
  "All byte strings.",
  [a(I,"MmkvImpl::new"),a(MM,"MemoryMap::write_offset","MemoryMap::read"),a(CR,"CrcEncoderDecoder::decode_bytes")])
p("Opening and closing changes nothing",
  "Opening a directory whose file is non-empty and closing it again without mutations leaves the file byte-for-byte unchanged; opening an empty or missing file creates one page of zeros that reads as the empty map. Opening twice in a row yields the same map.",
  "all files that open",
  "All files.",
  [a(CF,"Config::new"),a(I,"MmkvImpl::new")])
p("Encrypted stores behave like plain ones",
  "With encryption enabled and the same key and nonce file, every record decrypts to what was written at its position, and close/reopen preserves the map under the same conditions as the plain store, as long as fewer than 2^32-1 mutating calls are made over the life of the directory.",
  "all keys, values, histories, iteration orders, any authenticated cipher with decrypt(encrypt(x)) = x",
  "Unbounded histories; the counter must stay in step between writer and reader over reopen and compaction.",
  [a(EN,"Encryptor","StreamWrapper::encrypt","StreamWrapper::decrypt"),a(W,"IOWriter::write"),a(IT,"Iter")])
p("Encryption never reuses a nonce",
  "Under one key, no two different plaintext records are ever encrypted with the same nonce and counter.",
  "all histories of puts, deletes and compactions",
  "Depends on what happens to the counter at a compaction in the middle of a long history.",
  [a(W,"IOWriter::write"),a(EN,"StreamWrapper::encrypt")])
p("A wrong key or a lost nonce file shows nothing and destroys nothing",
  "Opening an encrypted store with a key or nonce under which no record authenticates yields an empty store without panicking, leaves the file unchanged, and reopening with the right key and nonce yields the original map.",
  "all stores, all keys/nonces under which the records do not authenticate",
  "All stores and keys.",
  [a(EN,"Encryptor::init","StreamWrapper::new_with_nonce","StreamWrapper::new","Decoder for Encryptor")])
p("clear_data empties the store for every handle and leaves it usable",
  "As long as no call has failed: after clear_data returns Ok every handle of the directory sees no key; later puts through any handle work, and after reopen exactly the mutations made after the clear are visible.",
  "all histories before and after, all handles, all IO progress at the time of the call",
  "Handles, pending background writes and the file replacement interleave.",
  [a(M,"MMKV::clear_data"),a(I,"MmkvImpl::clear_data"),a(W,"IOWriter::remove_file"),a(L,"IOLooper::quit")])
p("Handles on the same directory share one store",
  "At any time all live handles created with the same directory string refer to the same store: a put through one is visible to a get through any other, under every interleaving of new and drop in other threads.",
  "all interleavings of new, drop (with its separate reference-count release) and operations over any number of handles",
  "The registry holds weak references and the reference count is read before it is decremented; only every schedule settles it.",
  [a(M,"MMKV::new","Drop for MMKV","INSTANCE_MAP")])
p("Different directories are independent",
  "Operations on a handle of one directory never change what any handle of another directory (with a different data file) reads, nor that directory's file.",
  "all histories over any number of directories",
  "All histories.",
  [a(M,"MMKV::new","INSTANCE_MAP")])
p("Two spellings of one directory share the store",
  "Handles created with two strings that name the same directory see each other's writes.",
  "all pairs of spellings of one directory",
  "Only some spellings collide with the registry key.",
  [a(M,"MMKV::new","INSTANCE_MAP")])
p("Closing in one thread and opening in another loses nothing",
  "If a thread drops the last handle while another thread opens the same directory, the new handle sees every write acknowledged before the drop started.",
  "all interleavings of drop and new",
  "The window is between releasing the registry lock and joining the IO thread.",
  [a(M,"Drop for MMKV","MMKV::new"),a(L,"IOLooper::drop")])
p("A failed open does not affect other directories",
  "If new panics for one directory (not a directory, read-only, damaged file), handles of other directories can still be created and dropped.",
  "all sequences of new calls, successful and failing",
  "Lock poisoning depends on where in the critical section the panic happens.",
  [a(M,"MMKV::new","MMKV::resolve_file_path","Drop for MMKV","INSTANCE_MAP")])
p("Custom type tokens never collide with built-in ones",
  "TypeToken::new accepts exactly the i32 values outside 0..=100, so a value of a custom type is never readable as a built-in type, never mistaken for a deletion, and round-trips through put/get/reopen whenever its own to_bytes/from_bytes do.",
  "all i32 tokens, all custom serializers",
  "All 2^32 tokens and arbitrary user code for serialization.",
  [a(B,"TypeToken::new","InnerTypes::reserved","Buffer::is_deleting")])
p("Array reads accept exactly whole arrays",
  "Reading bytes as a typed array succeeds exactly when their length is a multiple of the element size, returns length/size elements that re-serialize to the same bytes, and is DataInvalid otherwise; reading as a string succeeds exactly on valid UTF-8.",
  "all byte strings",
  "All byte strings.",
  [a(B,"impl_from_buffer_for_typed_array","FromBytes for String")])
p("A put that returns an error has no effect",
  "If put returns Err, get behaves as if the put had not been called.",
  "all states including after the background thread died",
  "Needs the background thread to have died at an arbitrary earlier point.",
  [a(I,"MmkvImpl::put"),a(L,"IOLooper::post")])
p("Every error crosses the C interface as a code",
  "Every error a put, get or delete can return is delivered to a C caller as an error object with its documented code; the call itself never aborts.",
  "all error values",
  "The failing values only occur after background failures tests do not provoke.",
  [a(FB,"TryFrom<Error> for InternalError"),a(F,"map_error")])
p("C results are freed exactly once, with nothing left over",
  "For every C API call, passing its result to free_buffer once releases exactly the allocations the call handed out - each once, each with the type it was allocated with - for results holding data, errors with and without a reason, or nothing.",
  "all calls, value types, value contents, error values",
  "Memory is owned through four levels of raw pointers; tests under no leak checker see nothing.",
  [a(F,"free_buffer","impl_get","impl_put"),a(FB,"Releasable","Leakable","RawBuffer::drop_data","RawBuffer::drop_error","InternalError::release")])
p("Log level filter",
  "After set_log_level(l), a message of level m is delivered if and only if m is at least as severe as l allows (Off delivers nothing, Verbose everything), to the logger method of its own level; the integer codes 0..5 of the C and JNI interfaces name exactly the six levels and everything else is rejected.",
  "all levels, all integers, all histories of level changes",
  "All integers and histories.",
  [a(LG,"log","set_log_level","LogWriter::redirect"),a(LM,"LogLevel","TryFrom<i32> for LogLevel")])
p("Switching loggers is ordered with messages",
  "Messages logged before set_logger go to the old logger and messages logged after it to the new one, each exactly once and in order, although both are delivered by a background thread.",
  "all sequences of log and set_logger calls, all schedules of the log thread",
  "All schedules.",
  [a(LG,"set_logger","LogWrapper::format_log","LogWriter::write"),a(L,"IOLooper::post","Executor::new")])
p("Arrays round-trip through the Swift and Kotlin bindings",
  "An array of any length (including zero) put through the Swift or Kotlin binding is read back equal by the same binding.",
  "all arrays of all element types",
  "All lengths; the failing length is zero.",
  [a("ios/MMKV/Sources/MMKV/FFI.swift","readArray"),a("ios/MMKV/Sources/MMKV/ResultWrapper.swift","unwrapResult"),a(J,"jarray_to_native","native_to_jarray")])
p("Kotlin get with default",
  "getX(key, default) of the Kotlin binding returns the stored value if the key currently holds a value of that type and the default in every other case; getX(key) throws KeyNotFoundException in exactly those other cases.",
  "all store states, keys, types and defaults",
  "All states.",
  [a(J,"impl_java_get"),a("android/library/src/main/java/net/yangkx/mmkv/MMKV.kt","getInt")])
p("No call deadlocks",
  "Whatever put, get, delete, clear_data, new and drop calls run in any number of threads, as long as some call has not returned some thread or background thread can take a step; in particular waiting for the background thread inside clear_data or drop never waits for a lock the background thread needs.",
  "all interleavings of all API calls",
  "Deadlocks show up only under particular schedules.",
  [a(M,"MMKV::new","Drop for MMKV","MMKV::clear_data"),a(L,"IOLooper::quit","IOLooper::post","Executor::new")])
p("Closing always finishes",
  "Once the channel is closed (drop or quit), the background thread stops after finitely many of its own steps, at most a number determined by the queued jobs and signals, having run every job.",
  "all queue and channel contents, all schedules",
  "Termination is a claim about all schedules.",
  [a(L,"Executor::new","IOLooper::drop","IOLooper::quit")])
p("The store works on 32-bit targets",
  "On a target whose usize is 4 bytes (the shipped armeabi-v7a library) opening a directory works as on 64-bit.",
  "both pointer widths, all files",
  "Tests run on the developer's 64-bit machine only.",
  [a(MM,"MemoryMap::write_offset","MemoryMap::append","LEN_OFFSET")])
p("Writes to different keys commute",
  "Two adjacent mutations of different keys can be swapped without changing what any get returns, in memory or after reopen; repeating a put of the same value or a delete changes nothing observable.",
  "all histories, all pairs of mutations of different keys",
  "All histories.",
  [a(I,"MmkvImpl::put","MmkvImpl::delete"),a(IT,"Iter::into_map")])
p("No lost wake-up",
  "A put or delete that has returned Ok is written to the file by the background thread on its own: whatever the interleaving, as long as acknowledged work is pending the thread can take a step, and when it comes to rest nothing acknowledged is left - no later call is needed to push it out.",
  "all interleavings of any number of producers with the consumer thread",
  "A lost wake-up needs one particular interleaving of push, signal, receive and swap.",
  [a(L,"IOLooper::post","Executor::new")])
p("A store at rest is on disk",
  "When no call is under way and the background thread waits for work, the data file on disk, opened by anyone, shows exactly the map that get shows (records up to one page).",
  "all histories, all schedules, all iteration orders",
  "All histories and schedules.",
  [a(L,"Executor::new"),a(W,"IOWriter::write"),a(I,"MmkvImpl::put")])
p("The page size may change between sessions",
  "A directory written with one page size can be opened, extended and read with another (as happens between Android devices with 4 KiB and 16 KiB pages): nothing is lost, as long as the records of each session fit its page.",
  "all pairs of page sizes, all histories of both sessions",
  "Devices and histories cannot be enumerated.",
  [a(M,"MMKV::new","page_size"),a(CF,"Config::new","Config::expand"),a(W,"IOWriter::write")])
p("Writing with the wrong key does not destroy the data of the right key",
  "After a session that opened an encrypted store with a wrong key and wrote through it, opening with the right key still shows everything it showed before.",
  "all stores, wrong keys and histories of writes",
  "Whether the old records survive depends on when the file overflows and is compacted.",
  [a(EN,"Encryptor::init","Decoder for Encryptor"),a(W,"IOWriter::write")])
p("Exactly the documented keys are accepted",
  "With encryption, new on a fresh directory succeeds exactly for keys made of 32 hexadecimal digits (16 bytes) and panics for every other string.",
  "all strings",
  "All strings.",
  [a(EN,"Encryptor::init"),a(M,"MMKV::new")])
p("An encrypted store never runs out of counters",
  "However many records an encrypted data file holds, a further put or delete is written.",
  "all numbers of records",
  "The limit is at 2^32-1 records.",
  [a(EN,"StreamWrapper::encrypt"),a(W,"IOWriter::write")])
p("A logger that panics does not disturb the library",
  "If a user's logger panics while handling a message, later logging calls and store calls behave as if it had returned normally.",
  "all loggers, all histories of log and set_logger calls, all schedules of the log thread",
  "Which call meets the dead log thread depends on the schedule.",
  [a(LM,"set_logger","LogWrapper"),a(LG,"Logger"),a(L,"IOLooper::post","Executor::new")])
p("Strings arrive unchanged through the C interface",
  "A key or string value passed through the C interface (as the Swift binding does) reaches the store exactly as the caller had it: different keys stay different keys, a string put is the string read.",
  "all strings",
  "All strings.",
  [a(F,"impl_put","impl_get","put_str","delete"),a("ios/MMKV/Sources/MMKV/MMKV.swift","MMKV")])
p("get never panics",
  "Whatever data file was opened and whatever calls were made, get at a built-in type returns Ok or Err; it never panics.",
  "all data files that open, all histories, all keys and types",
  "All files and histories.",
  [a(B,"impl_from_buffer_for_number","FromBytes","Buffer::parse"),a(M,"MMKV::get")])
p("Overwriting does not grow the file without bound (one session)",
  "While a directory is open, however many puts and deletes are made, the file never gets larger than its initial size or a bound determined by what it held at the start and the largest live content (total record size of the keys present, and their number) seen so far: superseded values do not accumulate.",
  "all histories of any length, all schedules and iteration orders, all data files of whole records (records up to one page)",
  "The claim is about histories of unbounded length.",
  [a(W,"IOWriter::write","IOWriter::expand"),a(I,"MmkvImpl::put","MmkvImpl::delete")])
p("Overwriting does not grow the file without bound (many sessions)",
  "The same across any number of sessions: if the live content stays bounded, so does the file.",
  "all numbers of sessions and all histories",
  "The claim is about histories of unbounded length.",
  [a(W,"IOWriter::new","IOWriter::write"),a(I,"MmkvImpl::new")])
p("Nothing the library meets ends the process",
  "Whatever the data file holds and whatever is put, the worst that happens is an error or a panic the caller (or the background thread) can contain; the library never aborts the whole process.",
  "all data files, all puts, all schedules",
  "The double panic needs a particular file or record size and depends on what the system has mapped behind the file.",
  [a(MM,"MemoryMap","Drop"),a(W,"IOWriter::write"),a(I,"MmkvImpl::new")])
p("What was saved survives a power failure",
  "After put has returned and the background thread has written the record (or at least after the store has been closed), a power failure does not lose it and never leaves a directory that cannot be opened.",
  "all histories, all points of failure, all subsets of pages written back",
  "Which pages reach the disk is up to the operating system; no test can cut the power at every point.",
  [a(CF,"Config::expand","Config::new"),a(MM,"MemoryMap::append"),a(EN,"StreamWrapper")])
p("A full disk loses nothing already saved",
  "When the disk runs full (the file cannot be extended), everything written to the file before stays readable: the directory opens again and shows a state the store really was in, with at least the calls that had been written.",
  "all disk limits, all histories, all schedules",
  "The failure can hit any write of any history.",
  [a(CF,"Config::expand"),a(W,"IOWriter::write","IOWriter::expand")])
p("clear_data returning Ok empties the store",
  "When clear_data returns Ok, the store is empty at that moment and, with no later put, the directory is empty when opened again; also when earlier calls failed.",
  "all histories including failing calls and a dead background thread, all schedules",
  "Failures can precede the call in any history.",
  [a(M,"MMKV::clear_data"),a(I,"MmkvImpl::clear_data"),a(L,"IOLooper::quit")])
p("The key given to new decides access",
  "With encryption, new(dir, key) gives access to what was stored under that key only: with another key it shows none of it, with a malformed key it fails.",
  "all keys, all states of the process (other handles of the directory in use or not), all schedules",
  "Whether the key is looked at depends on which other handles exist at that moment.",
  [a(M,"MMKV::new","MMKV::clear_data"),a(EN,"Encryptor::init")])
p("Killing the process inside new or clear_data is harmless",
  "However often the process dies inside new (or inside the removal and re-creation of clear_data), at whatever system call, the directory stays usable: the next new opens it exactly as it would have without those calls, or, in clear_data, empty.",
  "all points of death, any number of such calls with any keys, all contents of the directory",
  "The points of death lie between any two system calls and inside the writing of the nonce.",
  [a(CF,"Config::new"),a(EN,"StreamWrapper::init","StreamWrapper::new","StreamWrapper::new_with_nonce"),a(I,"MmkvImpl::clear_data")])
p("A system call that fails loses nothing and is reported",
  "When a system call inside new or clear_data fails, the caller learns of it (an error or a panic) and the data are still there for the next new.",
  "every system call of new and clear_data, all contents of the directory",
  "Each call can fail in every state of the directory.",
  [a(CF,"Config::new","Config::remove_file"),a(EN,"StreamWrapper::new_with_nonce"),a(I,"MmkvImpl::clear_data")])
p("Processes that take turns lose nothing",
  "README: several processes may use one directory as long as no writes compete. When each call of one process, with its background write, is over before another process begins a call or opens the directory, no acknowledged put or delete of any of them is lost.",
  "any number of processes, all their calls in turn, all hash map orders",
  "The interleaving of processes and the state each of them holds in memory are unbounded.",
  [a("README.md","cross-process note"),a(W,"IOWriter::write","IOWriter::expand"),a(MM,"MemoryMap::append","RawMmap"),a(I,"MmkvImpl::delete"),a(EN,"Encryptor::encrypt")])
p("A panic in a user's own type affects only its own call",
  "If the type_token, to_bytes or from_bytes of a user-defined type panics inside put or get (for instance because the token is a reserved one), only that call fails: every other call, before or after, on any handle, behaves as if it had not been made.",
  "all store states and histories, all user types, any position of the panic",
  "The panic can come at any point of any history and its consequences last.",
  [a(M,"MMKV::put","MMKV::get"),a(B,"Buffer::new","Buffer::parse","TypeToken::new")])

p("The logger cannot harm the data",
  "Whatever a user's logger does when it is called - return or panic - and whatever the log level, calls to the store behave as they would without logging: files open, what put and delete were told is written, and what was written stays.",
  "all log levels, all times at which the logger panics, all histories of calls, all files",
  "The log calls sit between the steps of a compaction and of an expansion; only an enumeration of the points where the logger can fail shows what each leaves behind.",
  [a(LG,"format_log","log","set_logger"), a(W,"IOWriter::write"), a(CF,"Config::expand"), a(I,"MmkvImpl::new")])

p("A native logger is destroyed exactly once, after its last use",
  "A logger set through the C interface (set_logger, as used by Swift) gets its destroy function called exactly once if another logger is set after it (and never otherwise), on the log thread, after its last callback; no callback comes after destroy; replacing a logger neither blocks nor panics.",
  "all histories of set_logger, set_log_level and log calls from any threads, all interleavings with the log thread",
  "Use after free and double free depend on the interleaving, and destroying a logger itself logs to the thread that destroys it.",
  [a(F,"NativeLogger","NativeLogger::drop","NativeLogger::call_target","set_logger"),a(LG,"set_logger","LogWriter::redirect"),a(L,"IOLooper::post","Executor::new"),a("ios/MMKV/Sources/MMKV/Logger.swift","LogWrapper.toNativeLogger")])

p("A write reaches the file within a bounded number of steps",
  "put and delete return before their record is in the file. When they have returned and w mutations are waiting, then after w + 3 steps of the background thread - whatever other calls do meanwhile - all of them are in the file: a process killed then leaves a directory that reopens showing all of them, then some first part of the later calls. While anything is waiting and no call is under way, the background thread can make a step.",
  "all earlier sessions, all histories of calls, all interleavings with the background thread and with later calls (clear_data and close included)",
  "A lost wake-up or a starved queue shows only under particular interleavings, and a continuous stream of new calls could postpone an old one for ever.",
  [a(L,"IOLooper::post","Executor::new"),a(I,"MmkvImpl::put","MmkvImpl::delete"),a(W,"IOWriter::write")])

p("If nothing was reported, everything was saved",
  "If every call of every session returned Ok and every close of the last handle returned, then reopening the directory, with any page size, shows exactly the effect of all the calls in order - whatever the sizes of keys and values (each record below 4 GiB), also far above a page, and whatever clear_data calls are among them. So data can be lost only with a report: an error from a later call, or a panic of the close.",
  "all numbers of sessions, all histories of put, delete and clear_data with records of any size below 4 GiB, all interleavings with the background thread, all page sizes, plain and encrypted store; also any file to start from",
  "Whether a record fits depends on everything written before it; the background thread can die at any record, and a test sees one history.",
  [a(I,"MmkvImpl::put","MmkvImpl::delete","MmkvImpl::clear_data"),a(L,"IOLooper::post","IOLooper::quit","Drop for IOLooper"),a(W,"IOWriter::write"),a(M,"Drop for MMKV")])

p("clear_data starts a new nonce",
  "What is written to an encrypted store after a clear_data - by the same process or a later one, also when the process was killed anywhere during the clear_data - is encrypted under a nonce drawn from the random generator since that clear_data began removing the files; and as long as nothing is cleared, sessions go on using the same nonce (else they could not read their data).",
  "all ciphers, keys and random nonces, all contents of the directory to start from, all histories of calls and interleavings with the background thread, all crash points",
  "The two files are removed one after the other by the background thread and the nonce is drawn by whichever process opens the directory next; a kill between two system calls is not something a test schedules.",
  [a(I,"MmkvImpl::clear_data","MmkvImpl::new"),a(EN,"Encryptor::init","StreamWrapper::init","StreamWrapper::new"),a(M,"MMKV::clear_data")])

p("Concurrent calls are linearizable",
  "Whatever threads call put, get, delete and clear_data on a directory at the same time, their results are those of the same calls made one at a time on a plain map, in some order that agrees with real time (a call that returned before another began comes before it); calls that fail (a panic, the errors that follow it, a stopped background thread) have a place in this order too, from which on every call sees the failure; and it is in this very order that the mutations are handed to the file, so that when none failed, after a clean close of an unencrypted directory that was empty before, the next open shows the map this order ends with.",
  "all numbers of threads, all calls, values and read types, all interleavings of the threads with each other and with the background thread, including failing calls and calls that never return",
  "The number of interleavings is unbounded, and a test can only check a history it happened to produce; there may be many possible orders of which one must fit.",
  [a(M,"MMKV::put","MMKV::get","MMKV::delete","MMKV::clear_data"),a(I,"MmkvImpl::put","MmkvImpl::get","MmkvImpl::delete","MmkvImpl::clear_data"),a(L,"IOLooper::post")])

p("Concurrent calls and crashes: buffered durable linearizability",
  "Whatever threads call put, get, delete and clear_data at the same time, and whenever the process is then killed (between two background writes, also in the middle of calls), the next open shows the map that some first part of one linearization of the calls leads to - never an effect without the effects ordered before it - and all of it after a clean close; and so on over any number of sessions, each seeing exactly what the one before left. No call fails on the way.",
  "all numbers of sessions and threads, all calls with records up to one page, all interleavings of threads and background thread, all points of death between two background writes, plain and encrypted",
  "It quantifies over interleavings and points of death at once; a test that kills a process cannot know which orders of the calls were possible.",
  [a(M,"MMKV::put","MMKV::get","MMKV::delete","MMKV::clear_data","Drop"),a(I,"MmkvImpl::put","MmkvImpl::get","MmkvImpl::delete","MmkvImpl::clear_data"),a(L,"IOLooper::post"),a(W,"IOWriter::write")])

p("Switching the encryption feature on or off over existing data",
  "A directory written by a build without encryption opens under a build with encryption, and the other way round (the data file has the same name). The other build shows only what passes its own check - a record that authenticates under the key, or one whose CRC-8 matches - so usually nothing; and as long as nothing is written through it, the data file is left byte for byte as it was, so that switching back shows everything again.",
  "all directories that open under one build, all keys, all contents of the nonce file, all ciphers, all runs without mutations, all interleavings with the background thread",
  "It quantifies over every stored file and every read-only history under the other build, including files whose records are misread by chance.",
  [a(M,"MMKV::new","MMKV::resolve_file_path"),a(I,"MmkvImpl::new"),a(CR,"encode_to_bytes","decode_bytes"),a(EN,"encode_to_bytes","decode_bytes","init"),a(IT,"next")])

p("clear_data reaches every process that has the directory open",
  "After clear_data returns Ok in one process, no process shows data from before, and what other processes that have the directory open put afterwards (without competing with anybody) is stored: a later session sees it.",
  "all histories of any number of processes on one file system, with all calls including clear_data, all schedules, all kills",
  "It quantifies over every interleaving of several processes and over the files the operating system keeps alive without a name.",
  [a(M,"MMKV::clear_data"),a(I,"MmkvImpl::clear_data"),a(W,"remove_file"),a(MM,"RawMmap"),a(CF,"remove_file")])

p("A whole process is linearizable",
  "Threads that open directories with MMKV::new and call put, get, delete and clear_data on the handles they get observe, over all directories together, what they would observe if all these calls had been made one at a time in some order that agrees with real time: the first new of a directory finds what the disk held, every handle of a directory is the same store, a call on one directory changes no other, and get returns the latest put.",
  "all numbers of threads and directories, all contents of the data files, all schedules of the threads, of the registry and of the background threads, all failures",
  "It quantifies over every interleaving of any number of threads, including races between two first openings of a directory, and asks for one order that explains all results at once.",
  [a(M,"MMKV::new","INSTANCE_MAP","MMKV::put","MMKV::get","MMKV::delete","MMKV::clear_data"),a(I,"MmkvImpl"),a(L,"IOLooper")])

p("Kotlin strings arrive unchanged",
  "A key or a string value passed from Kotlin reaches the store as the same text, and a stored string reaches Kotlin as the same text; different Kotlin keys are different keys.",
  "all Kotlin strings (any sequence of 16-bit units, paired or unpaired surrogates, NUL, empty), all stored strings, both ways a Java machine writes modified UTF-8, all histories around the call",
  "Tests pass a few ASCII strings; the conversion goes through modified UTF-8 and three decoders, and fails only on particular combinations of units.",
  [a(J,"env_str","mmkv_put!","mmkv_get!","Java_net_yangkx_mmkv_MMKV_initialize"),a("android/library/src/main/java/net/yangkx/mmkv/MMKV.kt","putString","getString")])

p("Kotlin loggers receive every message, however many",
  "Through the Kotlin API, every message the level lets through is received by the Kotlin logger exactly once, in the order of the log calls, on the method of its level and with its text; this does not depend on how many messages were logged before.",
  "all numbers of messages, levels, texts, threads logging at once, all schedules of the log thread, all capacities of the Java machine's table of local references",
  "Tests log a few dozen messages; the table of local references fills only after hundreds or millions of them, and what happens then depends on the Java machine.",
  [a(J,"AndroidLogger::call_java","impl_java_put","Java_net_yangkx_mmkv_MMKV_attachLogger"),a(LG,"format_log","set_logger"),a("android/library/src/main/java/net/yangkx/mmkv/log/Logger.kt","LoggerWrapper")])

p("Kotlin setLogger takes effect in order",
  "Through the Kotlin API, messages logged before setLogger(l) go to the logger that was installed then, messages logged after it go to l.",
  "all histories of log calls and setLogger calls, all schedules of the log thread",
  "The order in which the log thread gets to a message and the caller gets to setLogger is up to the scheduler; tests see one of them.",
  [a("android/library/src/main/java/net/yangkx/mmkv/log/Logger.kt","LoggerWrapper.setLogger"),a(J,"AndroidLogger::call_java"),a(LG,"set_logger")])

p("Logging does not feed itself",
  "Each call of the C interface makes at most five log messages - one Error if the store refused it, first, and otherwise Verbose ones only -, freeing its result makes exactly one less than the call did, handing a message to a native logger makes none, so no more messages are delivered than were logged (plus one per replaced logger), and when the program stops calling the library the log thread comes to rest with everything delivered.",
  "all C calls, types, outcomes and heaps, all histories of log calls, level changes and set_logger calls, all schedules of the log thread",
  "The machinery that hands messages to a logger is the one whose use is logged; a test that sees a handful of messages cannot tell that the chain ends for every history.",
  [a("src/ffi/ffi_buffer.rs","leak","release","RawTypedArray::new","InternalError::new"),a(F,"NativeLogger::call_target","map_error","impl_get","impl_put","free_buffer"),a(LG,"log","set_logger")])

p("A logger may use the library",
  "A logger may itself call the library, for example to keep the messages in a store: when the program stops making calls, the log still falls silent.",
  "all calls the callback makes, by the messages they cause, all levels, histories and schedules",
  "It depends on the level in force and on what the calls log; tests do not call the library from a logger, and a run that never ends is not a test result.",
  [a(F,"NativeLogger::call_target","impl_put","impl_get"),a(J,"impl_java_put","AndroidLogger::call_java"),a(LG,"log")])

p("The data file follows its format",
  "What the library writes is a documented format: eight bytes of length, then records of four bytes of length, a protobuf message of kv.proto and its CRC-8/AUTOSAR (or, with encryption, the message sealed under key, nonce file and record number); the last record of a key stands for its value. At every moment the data file follows the format and stands for a first part of the calls made; at rest, for all of them. A file that follows the format, whoever wrote it, opens and shows exactly what its records stand for.",
  "all messages, records and files; all keys, types and values; all histories of sessions, crashes between writes and schedules; all ciphers",
  "Round-trip tests use the library's own reader on the library's own writer: both could be wrong in the same way, and no test covers every message protobuf allows or every byte string a checksum must be computed for.",
  [a("src/core/crc.rs","CrcEncoderDecoder"),a(EN,"Encryptor"),a(B,"Buffer::to_bytes","Buffer::from_encoded_bytes"),a(MM,"MemoryMap"),a(IT,"MemoryMapIterator"),a("src/protos/kv.proto","KV")])

p("A failed call can be contained",
  "Dropping a handle never panics. So a thread in which a call of the library panicked - a `new` on a path that is no directory, say - and that owns other handles can unwind: `catch_unwind` or the join of the thread gets the panic, and the rest of the process goes on.",
  "all processes: directories, handles, threads, histories, schedules; all points at which a thread lets its handles go, unwinding or not",
  "A panic in a destructor during unwinding aborts the test process itself, and whether a destructor panics depends on everything the process did before.",
  [a(M,"Drop for MMKV","MMKV::new","INSTANCE_MAP"),a(L,"Drop for IOLooper")])

p("put, get and delete never wait for the disk",
  "A put, get or delete that was called returns although the background thread makes no step at all - the disk is stuck, the thread dead or descheduled - and reads or writes no file itself. It waits for other calls at most, and only for their memory operations; the exception is clear_data, which waits for the background thread, and whom everybody then waits for.",
  "all states and interleavings of any number of threads, readers and calls; all behaviours of the background thread",
  "A test cannot stall the disk at every point, and not observing a delay says nothing about the schedules in which a lock is held across a write.",
  [a(M,"MMKV::put","MMKV::get","MMKV::delete","MMKV::clear_data"),a(I,"MmkvImpl"),a(L,"IOLooper::post","IOLooper::quit")])

p("A call through a binding reports what happened",
  "A putX, delete or clearData of the Kotlin and Swift bindings returns normally if and only if the store did what was asked; otherwise it throws the exception it declares (Kotlin: NativeException for putX and delete) or gives a failure with the documented code (Swift). It does not end the process.",
  "all keys, types and values, all histories of a store, all errors, all states of a C caller's heap",
  "Tests of the bindings exercise the success paths; the error paths need a store whose background thread has died, in every state it can be in.",
  [a("src/jni/mod.rs","Java_net_yangkx_mmkv_MMKV_delete","impl_java_put","Java_net_yangkx_mmkv_MMKV_clearData"),a("android/library/src/main/java/net/yangkx/mmkv/MMKV.kt","MMKV"),a("ios/MMKV/Sources/MMKV/ResultWrapper.swift","unwrapResult"),a(F,"clear_data","delete","impl_put")])

p("A logger written in Swift gets its messages, and lives exactly as long as needed",
  "Every message the library hands to a logger set with MMKV.setLogger of the Swift binding reaches the method for its level, in order and once; the object that holds the logger is never used after it is gone; it goes only after another logger has been set and after the last of its messages has been delivered, and then it does go (no leak).",
  "all histories of log calls, level changes and setLogger calls in any threads, all interleavings with the log thread and with a main thread that gets to its queue whenever it likes",
  "The lifetime is managed by hand (passRetained, takeUnretainedValue, takeRetainedValue) across three threads; a use after free or a leak shows only under a schedule nobody tests.",
  [a("ios/MMKV/Sources/MMKV/Logger.swift","LogWrapper","LogWrapper.toNativeLogger","LogWrapper.log"),a("ios/MMKV/Sources/MMKV/MMKV.swift","setLogger"),a(F,"NativeLogger","NativeLogger::drop","set_logger"),a(LG,"set_logger")])

p("A logger written in Swift is called on the main thread only",
  "All calls the Swift binding makes to the user's logger happen on the main thread (the binding dispatches every message there).",
  "all histories of log calls, level changes and setLogger calls in any threads, all interleavings with the log thread and the main thread",
  "The thread that drops the last reference depends on the schedule; a test that happens to have a message waiting sees the main thread.",
  [a("ios/MMKV/Sources/MMKV/Logger.swift","LogWrapper","LogWrapper.toNativeLogger","LogWrapper.log"),a(F,"NativeLogger::drop")])

p("Swift get with default",
  "getX(key).unwrap(default) of the Swift binding returns the stored value if the key currently holds a value of that type and the default in every other case; getX(key).unwrapResult() is a failure with the documented code in exactly those other cases.",
  "all store states, keys, types and defaults",
  "Every pair of stored type and requested type, every error of the core and every history behind the stored value has its own path through the C result object.",
  [a("ios/MMKV/Sources/MMKV/ResultWrapper.swift","unwrapResult","unwrap"),a("ios/MMKV/Sources/MMKV/MMKV.swift","getInt32"),a(F,"impl_get")])

p("A process that opens, uses, closes and reopens directories behaves like one map per directory",
  "Threads may open directories, use and share the handles, drop them and open the directories again, at any time and in any interleaving, as long as no open of a directory overlaps a drop of one of its handles (unless another of its handles is kept) and a directory is always named the same way. Then all results are as if the calls were made one at a time, in an order agreeing with real time, on one map per directory that lives on unchanged while the directory is closed. If the process dies, whoever opens a directory next finds the map after some first part of its mutations, and all of them if its handles had been dropped.",
  "all numbers of threads, handles and directories, all histories of open/put/get/delete/clear_data/drop, all schedules of the threads and of the background threads, all crash points between background writes",
  "Closing runs against calls still being written, against other handles of the same directory and against opens of other directories; a test fixes one interleaving of a few of them.",
  [a(M,"MMKV::new","MMKV::drop","INSTANCE_MAP"),a(I,"MmkvImpl::new"),a(L,"IOLooper::drop","IOLooper::quit")])

p("Memory use is bounded by what the store holds",
  "The memory a store takes is bounded by its live entries, up to a constant factor: overwritten and deleted values, and calls that failed, leave nothing behind in memory.",
  "all histories of calls, successful or failing, and all speeds of the background thread",
  "What piles up depends on how far the background thread has fallen behind over an unbounded history; a test sees one run on an idle machine.",
  [a(L,"IOLooper::post","Executor::new"),a(I,"MmkvImpl::put","MmkvImpl::delete")])

p("What is written to the file is proportional to what is put",
  "The bytes a store writes into its file are at most a fixed multiple of the bytes of the records of the calls made, plus a constant: compaction does not multiply the writes without bound (flash wear).",
  "all histories of calls, all contents, all page sizes and all speeds of the background thread",
  "Write amplification depends on how full the file is of live entries; tests check contents, not the number of bytes written, and each sees one fill level.",
  [a(W,"IOWriter::write"),a("src/core/memory_map.rs","MemoryMap::append","MemoryMap::reset"),a("src/core/config.rs","Config::expand")])

p("A Kotlin program reads what it wrote, whatever the garbage collector does",
  "A Kotlin program that makes its calls one at a time - each has returned before the next is made - and lets the garbage collector finalize the MMKV objects it no longer uses gets, from every get, what its puts, deletes and clears made before it lead to; a later process finds what a first part of them leads to, and all of them once the objects have been finalized.",
  "all programs, all directories and files to start with, all moments at which the finalizer thread runs and all speeds of it and of the background threads, with and without encryption",
  "When an unreachable object is finalized is up to the virtual machine; a test of a few calls hardly ever has a finalizer running inside the constructor of the next object.",
  [a("android/library/src/main/java/net/yangkx/mmkv/MMKV.kt","MMKV.nativeObj","MMKV.finalize"),a(J,"Java_net_yangkx_mmkv_MMKV_initialize","Java_net_yangkx_mmkv_MMKV_close"),a(M,"MMKV::new","MMKV::drop","INSTANCE_MAP"),a(I,"MmkvImpl::new"),a(L,"IOLooper::drop")])

p("A full disk ends no process and destroys nothing",
  "When the disk has no space left, puts and deletes may fail to be saved (and an error may be logged or returned), but the process goes on, and everything saved before is still there when the directory is opened again.",
  "all histories of calls and background steps, all moments at which the disk runs full, all orders in which a copy touches the pages of the file, all amounts of space",
  "A test would need a file system of its own that is full at a chosen moment; where the first store into a page without space happens depends on the sizes and order of all records before.",
  [a(CF,"Config::new","Config::expand"),a(MM,"RawMmap::new","MemoryMap::append","MemoryMap::reset"),a(W,"IOWriter::write","IOWriter::expand")])

p("The library does the same in every build",
  "What a program sees of the library - what opens, what each call returns, what is saved - does not depend on how the library was compiled: a debug build, a release build and the libraries shipped for Android and iOS behave alike.",
  "all files, all histories of calls and background steps, all failures, all combinations of overflow checks and panic strategy",
  "Tests run in one build (debug, unwinding); the shipped libraries are compiled without overflow checks and with panics that end the process.",
  [a(MM,"MemoryMap::append","MemoryMap::write_offset"),a(IT,"Iter::next","Iter::into_map"),a(W,"IOWriter::write"),a(CR,"CrcEncoderDecoder::encode_to_bytes","CrcEncoderDecoder::decode_bytes"),a(EN,"Encryptor::decode_bytes"),a(CF,"Config::expand"),a(".cargo/config.toml","profile.release")])

p("A removed value is gone from the disk",
  "Once a value has been deleted, overwritten or cleared, the call has returned Ok and the store has been closed, the old value is no longer in the files of the directory: nobody who gets hold of them (and of the key, with encryption) can recover it.",
  "all histories of calls and background steps, all values, all sizes of the file, with and without encryption",
  "Tests look at what get returns, not at the bytes of the file; and whether old bytes survive depends on where in the file they happened to be and on when the file was last compacted.",
  [a(MM,"MemoryMap::append","MemoryMap::reset"),a(W,"IOWriter::write","IOWriter::remove_file"),a(I,"MmkvImpl::put","MmkvImpl::delete","MmkvImpl::clear_data"),a(M,"MMKV::clear_data")])

p("A copy made while the store is in use",
  "A copy of the data file, read from front to back by another program (a backup) while the store is in use, opens, and shows what the data file showed when the copy was begun, or at least every value that was there before and is not touched while the copy is made.",
  "all files, histories of calls and background steps, all moments at which each byte of the file is read, with and without encryption",
  "It depends on where between the stores of the background thread each byte is read; tests open files nobody is writing to.",
  [a(MM,"MemoryMap::append","MemoryMap::reset"),a(W,"IOWriter::write"),a(CF,"Config::new","Config::expand"),a(IT,"MemoryMap::iter","Iter::next")])

p("What sizes and places give away",
  "The results of the calls, the length of the data file, its header, and where and how much of the file is written depend only on the sizes of keys and values, on the types, on the order in which the hash maps yield them, and on which calls use the same key: not on the contents of keys and values, nor on the encryption key and nonce.",
  "all histories of sessions and calls, all interleavings with the background thread, all points at which a process dies, all renamings of keys that keep their length, all values of the same length, with and without encryption, all keys and nonces",
  "It is a statement about pairs of executions, one for every way to change contents; a test runs one of them.",
  [a(I,"MmkvImpl::put","MmkvImpl::delete"),a(W,"IOWriter::write"),a(MM,"MemoryMap::append","MemoryMap::reset"),a(CR,"CrcEncoderDecoder::encode_to_bytes"),a(EN,"Encryptor::encode_to_bytes"),a(IT,"MemoryMap::iter")])

p("A system call that fails while the file grows",
  "If any of the system calls made to enlarge the data file fails (asking for its size, fsync, ftruncate, mmap, the msync of the old mapping), the entries saved before are still there when the directory is opened again, whatever is called in between.",
  "all histories of calls, all interleavings with the background thread, each of the system calls, each growth (also the second and later ones of one compaction), all later calls short of another clear_data, with and without encryption",
  "A test does not make fsync, ftruncate or mmap fail at a chosen moment of a chosen write, let alone at each of them.",
  [a(CF,"Config::expand","Config::file_size"),a(W,"IOWriter::expand","IOWriter::write"),a(MM,"MemoryMap::new","Drop for MemoryMap","RawMmap::new")])

p("A process that changes its working directory",
  "A handle made with a relative directory stays with the directory the string named when it was made, whatever the process's working directory becomes: puts, gets and deletes go there, clear_data clears it and nothing else; and MMKV::new with a relative string opens what the string names at that moment.",
  "all histories of chdir, MMKV::new, calls and drops in any number of threads and directories, absolute and relative strings, all interleavings with the background threads",
  "The path is resolved at several moments, some of them on the background thread; a test runs in one working directory.",
  [a(M,"MMKV::new","MMKV::clear_data","resolve_file_path","INSTANCE_MAP"),a(CF,"Config::new","Config::remove_file"),a(W,"IOWriter::remove_file")])

p("Handles in a forked child",
  "After fork, the child can go on using the handles it inherited: calls it makes through them return, what they wrote is in the data file once the handle is closed, closing and clear_data return; and nothing the child does through them disturbs the parent's files.",
  "all histories of the process before the fork, all histories of the child (calls through inherited and new handles, opens, drops, threads of its own), plain and encrypted stores",
  "The child lacks the background threads of the stores it inherited; a test would have to fork, and would hang or wait for a write that never comes.",
  [a(M,"MMKV::put","MMKV::clear_data","Drop for MMKV"),a(L,"IOLooper::new","IOLooper::post","IOLooper::quit","Drop for IOLooper","Executor::new"),a(I,"MmkvImpl::put")])

p("Descriptors, mappings and threads are given back",
  "A store in use costs one descriptor of its data file, one mapping of it and one background thread, however many handles and calls there are; during the open of another store, the end of a clear_data or the growth of a file at most one more of each exists for a moment. When the drop of the last handle (or clear_data) returns they have been given back, each exactly once; so have they after an open that panicked and after a background thread that died. Opening and closing any number of times does not accumulate them.",
  "all histories of the process: any number of directories, handles and threads, opens that panic, background threads that die, clear_data, growth of files, at every moment including the middle of an event",
  "A test sees the descriptor table of the few histories it runs; a leak on one path (an open that panics, a clear_data that fails, a race of drop and new) shows only after thousands of repetitions.",
  [a(M,"MMKV::new","MMKV::clear_data","Drop for MMKV"),a(I,"MmkvImpl::new"),a(CF,"Config::new"),a(W,"IOWriter","IOWriter::expand"),a(MM,"Drop for RawMmap","RawMmap::new"),a(L,"Executor::new","IOLooper::quit","Drop for IOLooper")])

p("A Kotlin logger that throws does no harm",
  "If a logger written in Kotlin throws an exception while it handles a message, later messages still reach the logger in charge (that one or one installed later), and no call of the library fails or ends the process because of it.",
  "all Kotlin loggers (which messages they throw on), all histories of log calls and setLogger calls, all schedules of the log thread",
  "The exception is met on the log thread, after the call that logged has returned; what it breaks are later calls, in other threads.",
  [a(J,"AndroidLogger::call_java"),a(LG,"LogWrapper::format_log","LogWriter"),a(L,"IOLooper::post","Executor::new"),a("android/library/src/main/java/net/yangkx/mmkv/log/Logger.kt","LoggerWrapper")])

p("Tampering with an encrypted store, without the key, at most sets it back",
  "Someone who can read and replace the data file of an encrypted store, but has no key, can at most make it show a state it was in earlier (or make it refuse to open): it never shows a combination of values it has never held.",
  "all keys, nonces, histories of an encrypted store, all sets of moments at which its file was seen, all files put together from what was seen",
  "What is at stake are all the files someone might put together; tests corrupt a few bytes and look at a few of them.",
  [a(EN,"StreamWrapper::encrypt","StreamWrapper::decrypt","Encryptor::decode_bytes"),a(IT,"Iter::next","Iter::into_map")])

p("An app that is started, killed and started again sees its own past",
  "However often an app is started and exits or is killed, with any number of threads, handles and directories in each run: each run is linearizable as a whole, starting from what the run before left; and a run leaves in each directory what it found there followed by some first part of the mutating calls made on it, in that order - all of them, if the handles of the directory had been dropped.",
  "all numbers of runs, threads, handles, directories and calls, all schedules in each run, all moments of exit or kill: between two background writes, inside a new or a clear_data, or inside an append once its header and length field are stored, all keys, ciphers and random bytes",
  "The number of histories of several runs with several threads and a kill at any step is beyond any test; what is claimed is that one order explains each of them and that the orders fit together.",
  [a(M,"MMKV::new","MMKV::put","MMKV::get","MMKV::delete","MMKV::clear_data","Drop for MMKV"),a(I,"MmkvImpl::new","MmkvImpl::clear_data"),a(L,"IOLooper"),a(MM,"MemoryMap"),a(EN,"Encryptor::init")])

p("Values do not get into the log",
  "What the library and its C interface log - printed to standard output unless the program installs a logger or lowers the level - tells which keys are used, at which types and sizes, but not what is stored: two programs that differ only in the contents of their values leave the same log.",
  "all values of all types, keys, heaps, ways to print pointers and floats, log levels, all histories of puts, deletes and reads through the C interface",
  "A test compares the log of one value with what its author had in mind; that a log does not depend on the value is a statement about all pairs of values.",
  [a(FB,"Leakable::leak","Releasable::release","RawTypedArray::new","InternalError::new"),a(F,"impl_get","impl_put","delete","free_buffer","map_error"),a(LG,"log","LOG_LEVEL")])

p("The library's own log tells sizes, not contents",
  "The messages the store itself logs - at opening, when the file grows or is compacted, at clear_data, when handles and the background thread go - name no key and no value: two programs that differ only in the contents of their keys, values, encryption keys and nonces (same calls, same sizes, same keys reused) leave the same messages at every level, and a store that only this library has written logs no error.",
  "all histories of sessions and calls, all interleavings with the background thread, all points at which a process dies, all renamings of keys that keep their length, all values of the same length, with and without encryption, all keys and nonces, all log levels",
  "It is a statement about pairs of executions, one for every way to change contents; a test reads the log of one of them.",
  [a(CF,"Config::expand"),a(W,"IOWriter::write"),a(I,"MmkvImpl::new","MmkvImpl::clear_data"),a(IT,"Iter::next"),a(L,"IOLooper::quit","Drop for IOLooper"),a(M,"Drop for MMKV")])

p("On Android, log and exceptions name no keys and no values",
  "The messages a Kotlin app finds in its log, and the texts of the exceptions it catches, give away neither the keys it stores under nor the values: two apps that differ only in keys or values (same calls, same sizes) leave the same log at every level and catch the same exceptions.",
  "all histories of sessions, all last sessions of puts, reads, deletes and clears through the Kotlin interface at every type, all interleavings with the background thread, all values of the same length, with and without encryption, all keys and nonces, all log levels",
  "It is a statement about pairs of executions, one for every way to change contents; a test reads the log of one of them.",
  [a("src/jni/mod.rs","impl_java_put","impl_java_get","Java_net_yangkx_mmkv_MMKV_delete")])

with open("/verif/properties.jsonl","w") as f:
    for x in P: f.write(json.dumps(x)+"\n")
print(len(P))
