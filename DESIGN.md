# Formal model of yangkx-1024/MMKV in Lean 4

## Layout

* `lean/Verif/Spec.lean`: the small independent specification: a plain map with put / delete / clear, what a directory
  may show after several sessions (`Survives`), typed reads.
* `lean/Verif/Model/*.lean`: the model, function by function; every definition cites the file and lines in /repo it models
  and says where it simplifies.
* `lean/Verif/Lemmas/*.lean`: invariants and helper lemmas.
* `lean/Verif/Props/*.lean`: the property theorems `Cnn_…`, each followed by a concrete case that meets its hypotheses.
* `properties.jsonl` (written by `tools/gen_properties.py`), `MANIFEST.json` (`tools/gen_manifest.py`, from the theorem names
  and `tools/status.json`), `seeded/LOG.jsonl` (wrong programs tried), `tools/axioms.py` (axioms of every theorem).

Names: `Cnn_x` proves claim nn (or a part that together with the others makes up the claim); `Cnn_refuted…` proves that the
code does *not* have the property as stated, by exhibiting an execution of the model (often a whole family, for every cipher
or every size); `Cnn_…partial` proves what does hold, and its comment says what is missing.

## Trusted base

* Lean 4.33.0's kernel. Mathlib is used only for the specification of the checksum (polynomials over `ZMod 2`, `SpecFormat`) and the proof about it (`Lemmas/CrcPoly`); everything else is core Lean.
* Axioms: every theorem depends on a subset of `propext`, `Quot.sound`, `Classical.choice` (Lean's own three).
  `AXIOMS.txt` (written by `python3 tools/axioms.py`) lists them for every theorem of the manifest. No axiom is added, no `native_decide`, no `bv_decide`.
* That the model says what the code does. It was written from the text of /repo (nothing could be run here). The numbers in
  the repository's own tests (offsets, file sizes, visible values) are reproduced as theorems in `Props/Conformance.lean`.
* Descriptions of dependencies, which are not part of /repo:
  * rust-protobuf: proto3 wire format of the `KV` message (`Model/Proto.lean`), including which malformed inputs it rejects.
    Unknown fields are skipped instead of carried along.
  * crate `crc`, `CRC_8_AUTOSAR`: the bitwise definition (`Model/Codec.lean`).
  * crates `aes`, `eax`, `aead::stream::StreamBE32`: any AEAD with a correctness law (what was sealed under a nonce opens under it, length grows
    by the tag); nothing is assumed about secrecy, and about forging only where a theorem says so (`NotForged`, C101, of one file); no theorem claims them. Counter limit 2^32 - 1 as
    in the `aead` crate.
  * crate `hex`: both cases of digits, even length.
  * `std`: `mpsc` is a FIFO whose `recv` fails iff empty and disconnected and whose `send` fails iff the receiver is gone;
    `Mutex` / `RwLock` exclude and poison as documented; `thread::join` waits and reports panics; `HashMap` is a finite
    map with an arbitrary iteration order (a permutation, quantified in every theorem); slices panic out of range.
  * The operating system: a file is its page-cache content, shared with every mapping of it (`MAP_SHARED`); `set_len`
    appends zeros and is atomic; a store into the mapping may be torn bytewise by the death of the process; `unlink` succeeds.

## What is modelled

| part of /repo | model | granularity |
|---|---|---|
| src/core/buffer.rs (tokens, ToBytes / FromBytes, Buffer) | Model/Values, Model/Basic | every function; numbers as bit patterns |
| src/protos/kv.proto, generated code | Model/Proto | wire format, writer and reader |
| src/core/crc.rs, src/core/encrypt.rs | Model/Codec, Model/Encrypt | byte exact framing, counter, key decoding, nonce file |
| src/core/memory_map.rs, iter.rs, config.rs, writer.rs | Model/Store | every function, byte exact; every store and resize in a ghost log |
| crash inside a write | Model/Crash | between any two effects, and bytewise inside a store |
| a disk without space for the pages of the file (holes, SIGBUS) | Model/Blocks | block by block; any order of the bytes of a copy |
| a failing system call while the file grows (config.rs 36-49, writer.rs 99-102) | Model/Grow | each of the calls, at each growth of a write; one failure |
| destructor of the mapping (src/core/memory_map.rs:85-89), panic while unwinding | Model/Mapping | whether `msync` succeeds past the end of the file is a parameter |
| copying the file while it is written | Model/Copy | each byte read between any two stores |
| power failure | Model/Power | pagewise mixture of the changes since the last `sync_all`; nonce file unsynced |
| src/core/io_looper.rs | Model/Looper | lock and channel operations, any number of producers |
| src/core/mmkv_impl.rs, put/get/delete/clear_data of src/mmkv.rs | Model/Instance | one step per lock / channel operation, IO thread interleaved |
| several sessions of a directory | Model/Session (plain), Model/Encrypt (with nonce file) | clean close or death between background writes |
| src/mmkv.rs: registry, new, clone, Drop | Model/World | critical sections of the registry lock; Arc release separate; poisoning |
| a process that changes its working directory | Model/Cwd | `World` with every path resolved against the working directory of the event |
| the child of a `fork` | Model/Fork | `World` from the state at the fork, without the background threads of the inherited stores; no critical section under way at the fork |
| descriptors, mappings, threads of the process | Model/Resources | what each event of `World` takes and gives back, in order |
| processes one after the other on the same files | Model/Restarts | memory is lost, files (and nonce files) stay; the end of a process may fall inside a `new` or a `clear_data`, after any of its system calls (`openStates`, `encOpenStates`), and inside a background write that leaves what `Survives` says: the records before it, those after it, or those before it and one broken record |
| several threads on one store; on a whole process | Model/Threads, Model/Multi, Model/Proc | calls, lock, work, return as separate events; registry look-up and creation separate; Model/Proc also has drops (registry entry, `Arc`, join as separate steps) and reopening; Model/EncWorld adds the nonce files (one key per directory; the two removals of `clear_data` are one step) |
| build profiles: overflow checks, `panic = 'abort'` (.cargo/config.toml) | Model/Build | every addition, subtraction and counter of iter.rs, memory_map.rs, writer.rs, config.rs and the codecs at its machine type |
| a Kotlin process and its finalizer thread | Model/Kotlin | `Proc` and `EncThreads` runs whose drops are all made by one thread |
| several processes on one file system | Model/Turns (plain, strict turns), Model/Host (all calls) | steps of `World` on shared names and inodes |
| src/log | Model/Logger | filter, background thread, logger switch, panicking loggers |
| src/ffi, proc_macro_lib | Model/Ffi, Model/CLog (what it logs), Model/LogText (the texts) | heap of blocks with layouts; what is allocated, read, freed |
| src/jni, android/library (Kotlin), ios/MMKV (Swift) | Model/Bindings, Model/JniString, Model/AndroidLog, Model/SwiftLog | argument and result conversions; logging through Kotlin, with the table of local references; logging through Swift, with reference counts and the main queue; Kotlin strings down to UTF-16 units, with the Java machine and the crates jni and cesu8 modelled from their documentation |

Not modelled: more than one failing system call in a session (the first growth that fails ends the background thread, C58 and C96; a failed `new` panics, C62), texts of I/O and lock errors (those of the log messages: Model/LogText, Model/CoreText, Model/KotlinText), the demo
apps, benchmarks, memory safety of the `unsafe` mmap calls beyond index ranges (except the C interface's
heap, Model/Ffi), `Drop` order inside one process exit, timing.

Modelling choices: bytes are `UInt8`, byte strings and the mapping `List UInt8`, strings Lean `String` (UTF-8, like
`str`); lengths and offsets are `Nat` with the checks the code or Rust's slice indexing makes, `as u32` truncations
explicit, `usize` width a parameter; a panic is an explicit result that keeps the state reached so far (what was stored
before the panic stays stored); an iteration order is an explicit argument, different at every use.  Additions are read on
`Nat`, an offset past `usize` is a panic (as in a debug build), and the encoder's length field wraps (as in a release build);
C92 proves that this mixture is what every build does while file and records stay below 4 GiB, and says where builds differ.

Assumptions that recur in statements, and why: `8 ≤ page` (the real page size is at least 4096), `page < 2^32` (record
lengths are `u32`), "records fit a page" (`Ev.Fits`; without it the claim is false, C07), and `page * calls + 8 < 2^64`
(`usize` offsets do not overflow: 2^52 calls of 4 KiB).

## Properties: model and proof

| id | modelled as | proof | status |
|----|-------------|-------|--------|
| C01 | store state machine with interleaved IO thread vs plain map; also the whole process, without and with encryption (`EncWorld`) | refinement by induction over events | proved |
| C02 | to/from bytes of the 11 types, Buffer, codec, reopen (plain and encrypted) | round-trip lemmas, file invariant; C23 for the encrypted form | proved |
| C03 | token table, `check_buffer_type` | case analysis, for all values | proved |
| C04 | delete, tombstone replay, reopen (plain and encrypted) | corollary of refinement, file invariant | proved |
| C05 | as C01, reopen (plain and encrypted) | corollary | proved |
| C06 | writer, iterator, reopen; also from any well-formed file, and for the whole process, without and with encryption | file invariant by induction over jobs; replay = plain map | proved |
| C07 | same without the size limit | false (one expansion is not enough): witness for every size; exact dichotomy; partial for records up to a page; the same for encrypted stores (`Props/SizeEnc`) | refuted, partial |
| C08 C09 C42 C45 | looper with any number of producers; C08, C09, C45 also of the calls on a store (Props/Calls) | invariant on ghost history, termination measure | proved |
| C10 | death between background writes, any number of sessions; also the whole process, without and with encryption | file invariant, `Survives` | proved |
| C11 C12 | crash at any effect, torn stores | false: witnesses (header first; header reset first); partial: what is never touched; both plain and encrypted (Props/CrashEnc.lean) | refuted, partial |
| C13 C14 | compaction, any iteration order, plain (`Props/Size`) and encrypted (`Props/SizeEnc`) | replay of the rewritten list | proved |
| C15 C16 | writer invariant | induction over jobs | proved |
| C17 | file size after a write | false (stale `max_len`): witness; partial: exact bound | refuted, partial |
| C18 | framing and protobuf | round trip with any bytes following | proved |
| C19 | CRC-8 | linearity and bijectivity of the byte step | proved |
| C20 | damaged record inside a file, plain (any one byte, any burst) and encrypted (any change the cipher does not accept) | induction over records | proved |
| C21 | open on arbitrary bytes | false: witness; exact characterisation of the files that open, plain and encrypted | refuted, partial |
| C22 | open and close | framing | proved |
| C23 | encrypted life under one key | codec laws, general environment | proved |
| C24 | counter and nonce of every stored record | false at *every* compaction for every cipher; partial without compaction | refuted, partial |
| C25 C48 | other key or nonce | decoding fails record by record; overwritten on compaction (C48 false) | proved; refuted, partial |
| C26 | clear_data and re-creation, reopen (plain and encrypted); `C26_process`, `C26_encrypted_process`: every handle of the process, whichever handle cleared | refinement | proved |
| C27 C28 | process: registry, handles, stores, files | invariant over events | proved |
| C29 C30 C31 | same | false: witnesses (raw string key; Drop releases the registry before the store; poisoned lock); partial (C29, C30 also with encryption) | refuted, partial |
| C32 C33 | TypeToken, arrays, strings; also after a reopen, plain and encrypted | arithmetic and list lemmas | proved |
| C34 | failing put | false (map first, post later): every store with a dead IO thread; partial | refuted, partial |
| C35 | C interface errors | false (`unwrap` aborts); partial | refuted, partial |
| C36 | heap of the C interface | exact heap equality for every result | proved |
| C37 C38 | logger; native loggers with a `Drop` that logs (Props/NativeFilter) | induction over log histories | proved |
| C39 | bindings, arrays | Kotlin proved; false for Swift's empty arrays | refuted, partial |
| C40 | Kotlin defaults | case analysis over all results | proved |
| C41 | process with all locks, channels, joins | progress from every reachable state, rank argument | proved |
| C43 | header codec with `usize` width as parameter | false for every width but 8 | refuted, partial |
| C44 | plain map commutation, refinement, reopen (plain and encrypted) | corollaries; repeating, too (Props/More) | proved |
| C46 C47 | store at rest; page size change | file invariant, also for directories with a past and encrypted ones (`Props/EncLife.lean`) | proved |
| C49 | hex keys | exact set of accepted strings (the documented length, 16 characters, panics) | proved |
| C50 | counter limit | false at 2^32 - 1; partial below | refuted, partial |
| C51 | panicking logger | false: log thread dies, later calls panic; partial | refuted, partial |
| C52 | strings through C | false for NUL; exact cut; partial | refuted, partial |
| C53 | get on any file | false for short values in foreign files; exact condition; partial for files of this library, plain and encrypted | refuted, partial |
| C54 | size of the file over one session | size invariant by induction over events, plain and encrypted | proved |
| C55 | size over many sessions | false for every number of sessions (`need_trim` forgotten on close); partial: growth per session bounded | refuted, partial |
| C56 | destructor of the mapping, double panic | false: witnesses for every file of 1-7 bytes, for headers past the end, for oversized puts; partial: directories with any past of this library, plain or encrypted, records up to a page | refuted, partial |
| C57 | pages written back in any mixture since the last sync | false while open, and with encryption even after a close; partial: after a clean close, plain store, or encrypted if the nonce file is spared | refuted, partial |
| C58 | a limit on the size of the file (`WState.quota`), hit by any expansion; the limit does not apply to the first page | false when a compaction needs room; partial: histories that only add keys, by simulation with an unlimited disk up to the failed write | refuted, partial; `C58_encrypted_partial` with encryption and any past |
| C59 | the whole `clear_data` protocol after any history, with a dead IO thread and failed opens | false after a failed `clear_data`; partial: true if `get` does not answer InstanceClosed | refuted, partial |
| C60 | the registry of the `World` model with keys per handle, malformed keys included | false while a handle is in use; partial: true without one, combined with C25 | refuted, partial |
| C61 | the states the two files of a directory go through in `new` and `clear_data`, system call by system call (`Model/OpenSteps`) | the nonce in use and the data read are invariant along them; induction over the number of cut calls; `encOpenStates_last` ties the states to the model of whole sessions | proved |
| C62 | each system call of `new` failing, and the removal of the data file failing | false for reading the nonce and for the removal; partial: all others | refuted, partial |
| C63 | several processes with their own maps, mappings and counters on one file (`Model/Turns`); strict turns | false: unseen deletes, stale mappings, stale counters; partial: invariant over histories of any number of processes, unless a thread panics; add-only processes never fail | refuted, partial |
| C64 | user code inside `put`/`get` under the lock (`Model/User`) | false: the panic poisons the lock for good; partial: the history splits at the first panic, data intact after close; `get` is a function of the store whatever user code does | refuted, partial |
| C65 | `Model/Logged`: `Config::expand`, `IOWriter::write` (with the rewrite loop) and `MmkvImpl::new` with every log call in its place, and a logger that takes `n` more messages and then makes log calls panic. A logger that lives (or is filtered out) changes nothing, byte for byte (`C65_logging_changes_nothing`, `C65_open_unchanged`, any codec); if it is dead from the start, or dies at any time while keys are only added, the file shows a prefix of the calls (`C65_partial`). False in general: it can cost data when it dies inside a compaction (`C65_refuted`), and with the default log level no file opens any more (`C65_refuted_open`); at level Error only files with damaged records (`C65_open_error_level`, `C65_refuted_open_damaged`). | partial |
| C66 | `Model/NativeLog`: the log thread with native loggers, `Drop` included (it posts to its own thread, then calls `destroy`). Invariant over all histories: loggers destroyed = all those whose `set_logger` has been carried out but the last; nothing after `destroy` (`C66_destroy_last`), every replaced logger destroyed once the thread is at rest (`C66_replaced_destroyed`), which it comes to within a bounded number of steps under any schedule (`C66_comes_to_rest`, a decreasing measure). | proved |
| C67 | `Lemmas/Latency`: a ranking of looper states (`Due N s n`: after at most `n` thread steps the first `N` jobs have run) that every thread step decreases and no other event increases; lifted to stores through the durability invariant with the calls of earlier generations named (`DAt`), so that the disk shows at least the calls made before (`C67_bounded_latency`, `C67_encrypted`); the bound is sharp (an example); `C67_never_stuck`: no lost wake-up; `C67_waiting_bound`. | proved |
| C68 | `Lemmas/Silent`: an invariant that does not need the thread alive: the file is `execAll` of the jobs run so far on a valid writer (`Gen`); if the thread then exits without a panic, each of those jobs was a complete write (`write_or`: a write is complete or panics), and all pushed jobs have run. Lifted over sessions (`C68_clean_close_saves`), to any starting file (`C68_any_file`) and to the encrypted store (`C68_encrypted`). | proved |
| C69 | `Model/NonceFile`: the nonce file as part of the state of a running store; invariant `Fit` (the nonce file holds the nonce in use exactly while the data file exists) over every step: `C69_partial_clear_renews` (a `clear_data` that returns `Ok` leaves the store and the nonce file with the nonce drawn in it), `C69_partial_kept` (no clear: same nonce now and in the next session), `C69_partial_next_session` (cut off anywhere: file and its nonce, or neither and a fresh nonce), `C69_partial_encLeft` (ties the directories of `EncLife`). The kill between the two removals is `C69_refuted`: the old nonce is used again from counter 0. | partial, refuted |
| C70 | `SpecLin`: Herlihy and Wing's definition, free of the model. `Model/Threads`: any number of threads, the RwLock, calls and returns as separate events. Linearization point: the step that takes the lock (a mutation: the step it finishes in). Invariant `TInv` over every step: `C70_linearizable` (with all failures, against a small sequential object), `C70_linearizable_map` (no failure: a plain map), `C70_order_of_the_file` (the mutations reach the file in that order), `C70_saved` (clean close, reopen: the map that order ends with). | proved; `C70_saved_with_past`, `C70_saved_encrypted` (Props/EncLife3) |
| C71 | `SpecLin.BufferedDurable` (Izraelevitz et al. 2016). `Model/Threads`: sessions with threads (`TLife`, `TEncLife`), killed anywhere or closed. Projection of C70 to a run of the store, whose durability invariant `DInv` gives the prefix that survives; a mutation under way when the process dies is added to the linearization. `C71_buffered_durable`, `C71_encrypted`. | proved |
| C72 | Both codecs over the same file: the framing of one is the framing of the other (`Frames`), whatever each makes of a record. `C72_switched_on`, `C72_switched_off`; `C72_records_not_empty` shows the side condition of the latter holds of every directory written with one key. | proved |
| C73 | Any number of processes with registries of their own over shared names and inodes (`Model/Host`). Non-interference: two runs, with and without the process on the unlinked file, proved in step by induction on the history. | refuted, partial |
| C74 | `Model/Multi`: the registry in front of any number of stores with their locks (`Model/Threads`), threads in `new` (look-up and creation are separate steps) or in a call. Each step of a store is classified (`Kind`: a call, nothing, a linearization point, a return), and a generic invariant (`HInv`) builds the linearization of the whole process along the run. `C74_linearizable` (all failures, against a sequential process), `C74_linearizable_maps` (no failure: one plain map per directory, shown by every idle store). | proved |
| C75 | `Model/JniString`: Kotlin strings as lists of 16-bit units; `GetStringUTFChars`/`NewStringUTF` (to the letter of JNI, and as Android's ART does it), the decoders of the crates jni and cesu8, the lossy fallback. `C75_exact`: a string arrives as its text iff it has no unpaired surrogate and (on ART) not both a NUL and a character beyond U+FFFF; `C75_lossy`: exactly what arrives instead of the others (relation `Garbles`: two U+FFFD for a NUL, three for an unpaired surrogate, …); `C75_back`: stored strings always reach Kotlin; `C75_no_panic`; `C75_keys`; `C75_partial`, `C75_delete`, `C75_other_keys` (through the store); `C75_refuted`, `C75_refuted_value` | refuted, partial |
| C76 | `Model/AndroidLog`: the log thread with `AndroidLogger` in it, the table of local references of the Java machine with any capacity, `LoggerWrapper`. `C76_partial`: as long as twice the number of messages is within the capacity, everything is received, once, in order, on its method, with its text, and no thread panics; `C76_limit`: with any capacity, after capacity/2 messages the next one aborts the process; `C76_refuted` | refuted, partial |
| C77 | `Model/AndroidLog`. `C77_refuted`: a message logged before `setLogger` is given to the new logger; `C77_partial`: from `setLogger(l)` on, until the next one, everything that is delivered goes to l | refuted, partial |
| C78 | `Model/CLog`: the messages of every C call by outcome, type and heap, the `TypeId` test of `leak` and `release`, the log thread that posts to itself. A measure that every step without a new call decreases (`wind_bound`), a count of messages out or under way (`C78_count`), no lost wake-up (`Wake`): `C78_calls`, `C78_balance_get`, `C78_balance_unit`, `C78_count`, `C78_program`, `C78_silent` | proved |
| C79 | `Model/CLog` with the messages `cb` of the callback's own calls. `C79_refuted`: for every non-empty `cb`, at the default level one message keeps the log thread busy for ever, messages grow beyond every bound; `C79_partial`: silent if the level filters `cb` out | refuted, partial |
| C80 | `SpecFormat`: a grammar of the file independent of the model - base-128 varints and the protobuf wire format as inductive relations, CRC-8/AUTOSAR as the remainder of a polynomial division over `ZMod 2` (Mathlib), lengths as big-endian numbers. `C80_checksum`: the byte-wise algorithm computes that remainder, for every message; `C80_message`: the reader accepts exactly the wire format; `C80_record`, `C80_written`: records; `C80_read`, `C80_read_encrypted`: any file of the format opens and shows its records; `C80_file`, `C80_at_rest`, `C80_encrypted`: what the library leaves follows the format and stands for what survives; `C80_unambiguous` | proved |
| C81 | `Model/Unwind`: a thread drops its handles one after the other (`Drop::drop`, release of the `Arc`, join of the background thread), unwinding or not, the rest of the process running on; a panic of a destructor while unwinding aborts. `C81_refuted`: in every state, a panicking `new` in a thread that owns a handle ends in an abort; `C81_refuted_later`, `C81_refuted_close`; `C81_partial`: no panicking `new`, records that fit: no drop panics | partial: the claim is false |
| C82 | On `Model/Threads` (lock, waiting calls, background thread): `C82_no_wait` - from every state in which clear_data does not hold the lock, any begun put, get or delete completes by steps of calling threads alone, at most (readers + 6) of them; `C82_steps`: once it has the lock it returns after four steps of its own whatever the others do; `C82_no_file_access`; `C82_clear_waits`: clear_data is an exception | proved |
| C83 | `Model/Bindings`: what Kotlin's `putX`, `delete`, `clearData` and Swift's do with what the store returned. `C83_noticed`: in every case a call returns normally exactly when the store returned `Ok`; `C83_put`, `C83_swift_code`; `C83_refuted`: `delete` throws `KeyNotFoundException` for every error, it declares `NativeException`; `C83_refuted_clear`: `clearData` ends the process; `C83_partial`: with a living thread no call fails | partial: the claim is false |
| C84 | `Model/SwiftLog` on top of `Model/NativeLog`: reference counts of the wrappers, the main queue, the block that is running. Invariant: count = the library's reference + waiting blocks + the running one; delivered ++ waiting = handed over. `C84_lifetime`, `C84_delivery`, `C84_complete`, `C84_released`, `C84_drains` | proved |
| C85 | same model; `C85_refuted`: the farewell `info` of `deinit` comes on the log thread when no message of the logger is waiting; `C85_partial`: every message of the library comes on the main thread | partial: the claim is false |
| C86 | `Model/Bindings` (Swift.get, Swift.getOr) over the C interface model: `C86_partial` (value, absent, other type, against the plain map), `C86_any_error_partial` (every error, panic), `C86_refuted` (stored empty arrays crash the reader, with a default too) | partial: the claim is false |
| C87 | `Model/Proc`: threads that are in `new`, in a call or in a drop, over the steps of `Model/World` (registry, handles, stores, background threads, files). The invariant combines the registry invariant of C29/C30, the file invariant of C31's world and the history invariant of C74. `C87_linearizable` against a sequential process with one map per directory (`SeqBehaves`), `C87_saved` (what handles show and what the next process finds) ; with the `encryption` feature: `C87_encrypted_linearizable`, `C87_encrypted_saved`, over `Model/EncWorld`, where the nonce file of each directory is drawn, stored, read and removed as the code does | proved (records that fit a page; opens apart from drops unless another handle is kept, else C30; one spelling per directory, else C29) |
| C88 | In-memory map plus records waiting in `Model/Looper`. `C88_partial` (every store, every history: one map entry per live key, waiting records at most the mutating calls), `C88_at_rest_partial` (nothing waits once the background thread is idle), `C88_refuted` (N puts of one key leave N records), `C88_refuted_failed` (after the thread died, N failing puts leave N records until clear_data or drop) | partial: the claim is false |
| C89 | Bytes of every store into the mapped file, from the effect log of `Model/Store`. `C89_amortized_partial` (any plain file of whole records, any schedule: one compaction per `free` bytes of records, where `free` is what the live entries leave of the file), `C89_amortized_encrypted_partial`, `C89_refuted` (every page size: a fill level at which each 13-byte put writes a whole page, for any number of puts) | partial: the claim is false |
| C90 | `Model/Kotlin`: a process of `Model/Proc` in which one thread (the finalizer) does nothing but drop handles and the others drop none; `OneAtATime`, `ReadsOwnWrites` over the observed history. `C90_partial`, `C90_saved_partial`, `C90_encrypted_partial`, `C90_encrypted_saved_partial` from the linearizability of C87: with calls made one at a time the order of a linearization is that of the program, and dropping changes no map; `oneAtATime_of_thread` (a program with one calling thread is one). `C90_refuted`, `C90_refuted_saved`: the finalizer closes the old store while the constructor of the next object opens the file | partial: the claim is false |
| C91 | `Model/Blocks`: blocks of the file that have space and how many more the disk can give; a store into a block without space, when there is none, kills the process (SIGBUS), with any of the bytes in blocks with space stored; `Full.Run` runs a store on such a disk. `C91_partial` (invariant: blocks in use lie inside the file, mapping never longer than the file, every store of a write inside the file) : killed only when the file is longer than the space there is; `C91_saved_partial`: what a kill inside an append leaves. `C91_refuted`, `C91_refuted_loses`; with encryption `C91_encrypted_saved_partial`, `C91_encrypted_refuted` | partial: the claim is false |
| C92 | `Model/Build`: the arithmetic of the code at its machine types, with overflow checks or wrapping, and panics that unwind or end the process; `Build.run` runs a store in a build. `C92_partial`, `C92_encrypted_partial`, `C92_shipped_partial`, `C92_open_partial` (simulation, invariant: the header plus 8 is below 2^64, as many records as positions, records below 4 GiB - a decoded message is at most 33 bytes longer when encoded again): with file and records below 4 GiB all builds agree with `run` until the first panic; `C92_every_build_partial`: with records that fit a page all builds agree always. `C92_debug_release_partial`, `C92_shipped_release_partial`: the same of the three builds there are. `C92_refuted`, `C92_refuted_builds`, `C92_refuted_lost`, `C92_refuted_ends` | partial: the claim is false |
| C93 | `C93_refuted`, `C93_refuted_encrypted` (any schedule, any earlier life: while the records fit the file, the closed file holds the record of every value found or put, in the terms of `SpecFormat`), `C93_refuted_tail` (no write, of any codec, touches the file behind the records it leaves), `C93_refuted_compacted`; `C93_partial`: after a `clear_data` that returned `Ok` the store is in exactly the state of a new directory. Invariants: `RInv` (records only appended), `Conf` (settings constant) | partial: the claim is false |
| C94 | `C94_refuted` (a copy begun while the background thread rests, with one compaction while it is made, opens without complaint and lacks a value nobody touched); `C94_partial` (any codec, any file, any history without `clear_data`, failures included: if the length header is never below the one read first, the copy shows what the file showed then), `C94_partial_fits` (so it does whenever the records of the session fit the file). By the trace of stores of the background thread: `Writes` (a store other than of the header begins where the header pointed), `Rising` (appends only raise the header) | partial: the claim is false; `C94_encrypted_partial` with encryption and any past |
| C95 | `C95_sizes_only`, `C95_sizes_only_encrypted` (relational: two histories that are `EvAlike` (Verif/SpecAlike.lean) both happen, return the same, and are `SeenAs` the same, by a simulation between two runs of the instance machine: `irel_step`, over `WRel.write`, the two writers of which do the same to files of the same length); `C95_repeats_show` (that two calls use the same key does show) | proved |
| C96 | `writeF` (Model/Grow.lean): the write with one chosen system call of one chosen growth failing; `C96_no_failure_no_difference` (until it fails it is the ordinary step); `C96_partial`, `C96_encrypted_partial` (any history: the directory opens again and shows the saved calls, or, after a failure inside a compaction, some of the entries and never all); `C96_adds` (exactly the saved calls if no key is replaced or deleted); false for compactions, whichever the call: `C96_refuted` | partial |
| C97 | `Model/Cwd`: `World` with strings resolved against the working directory of each event. Simulation: `C97_as_if_it_never_moved` (a history in which strings are looked up only while they name what they named at the start is, result for result, one of a process that never moves; `steady_absolute`, `steady_no_names` give large classes of such histories); `C97_partial` (gets, results and files, by C01 and C06); false else: `C97_refuted_new` (every state), `C97_refuted_new_execution`, `C97_refuted_clear`, `C97_refuted_kept`, `C97_refuted_panic` | partial |
| C98 | `Model/Fork`: a history of the child is a history of `World` from the state at the fork in which the background threads of the inherited stores take no step. Invariant `Inst.Stuck` per inherited store and `Inherited` per data file. False: `C98_refuted` (a put returns `Ok` and is never saved, in every continuation), `C98_refuted_drop` (the drop of the last handle never returns), `C98_refuted_clear` (`clear_data` never returns, the store stays locked). `C98_parent_partial`: the child changes nothing in files it does not open afresh; `C98_partial`: calls return `Ok` and gets are right, directories opened by the child are saved | partial |
| C99 | `Model/Resources`: what each event of `World` takes from the system and gives back (descriptor, mapping, thread), from the ownership in the code (`Config` and `MemoryMap` moved into the writer, the writer into the thread). `C99_balance`: taken = given + stores whose thread has not ended, for every history (induction, using the invariant of C41 that a `clear_data` reopens only after the old thread has ended); `C99_midway`: at every prefix of an event nothing is given back twice, at most one more is held; `C99_bound`: at most one per directory string in use plus the stores being closed (injectivity from the registry invariant of C27); `C99_at_rest`, `C99_all_back` | proved |
| C100 | `Model/AndroidLog` (the `throws` branch of `call_java`). False: `C100_refuted` (every history in which a logger has thrown: nothing is delivered ever after, and once the log thread has ended every call that logs panics, in an `extern "C"` function); `C100_refuted_example`: it happens. `C100_partial`: until one has thrown, as C76 (simulation: the run is one of loggers that never throw) | partial |
| C101 | `Model/Encrypt`, files in the terms of `SpecFormat`; `Tampered`: every record is one that a file seen had at the same position, or blank. False: `C101_refuted` (a compaction starts the positions again under the same nonce; the splice of the file before and the file after shows values never held together), `C101_drop_refuted` (after every history: any set of records can be left out), `C101_mix_refuted` (any mix of the logs seen, position by position). `C101_partial`: no more than that, unless a record is forged; `C101_one_log_partial`: without a compaction, only leaving records out; `C101_values_partial`: every value shown was written under that key | partial |
| C102 | `Model/Restarts` over `Model/Proc` and `Model/EncWorld`: processes one after the other, each starting on the files the one before left; the specification is `Lives`, buffered durable linearizability of a whole process, directory by directory. `C102_restarts`, `C102_encrypted` and, for a directory whose handles every run drops, `C102_closed`, `C102_encrypted_closed` (nothing is ever lost) (a kill inside a `new` or a `clear_data` may leave each of the two files as it is after any system call; one inside a background write may leave its last record broken, `C102_kill_inside_append`, `C102_kill_inside_append_encrypted`), under the conditions of C87 in each run | proved |
| C103 | `Model/LogText`: the messages of Model/CLog with their texts (`levels_get`, `levels_put`, `levels_delete`, `levels_free`: the levels agree), the formatting of pointers and floats left open (`Fmt`, `Readable`). `C103_given_away`: for every type but strings the log of a `get_…` determines the value, whatever the keys and heaps (the text of a value in a message is unambiguous: `msg_text`, `valText_inj`); `C103_refuted`, `C103_given_away_again`. For strings `C103_partial_strings`, and with C95 for whole histories `C103_partial_history`; `C103_partial_level` | refuted, partial |
| C104 | `Model/CoreText`: the messages of `Config::expand`, `IOWriter::write`, `Iter::next`, `MmkvImpl::new`, `clear_data`, `IOLooper` and the drop of the last handle, with levels and texts, as functions of the state before (`stepText` beside `Inst.step`); durations and the reason of a decoding error left out. The relation of C95 (`IRel`, kept by every step) is shown to make the messages of each step equal, and the invariant `DInv` of a store no one else has written that no record fails to decode. `C104_log_sizes_only`, `C104_log_sizes_only_encrypted`; the texts agree with the log calls of `Model/Logged` in number and level (`writeL_room`, `openStoreL_room`) | proved |
| C105 | `Model/KotlinText`: what each call of the Kotlin interface logs and throws when it returns (`putSeen`, `getSeen`, `deleteSeen`), and all a session with reads shows, the core's messages included (`seen`). The relation of C95 with unchanged keys is kept by every step and decides the outcome of every read but those of strings, so the messages agree. Keys: the text around the key is fixed, so it can be read off. `C105_keys_given_away`, `C105_refuted`, `C105_partial_values`, `C105_partial_values_texts`, `C105_partial_values_texts_encrypted` (no condition on reads of strings: the plain map a store stands for has only texts under that type), `C105_partial_values_encrypted` | partial (false for keys) |

## Findings: where the code does not do what its users rely on

Each is a theorem (an execution of the model) rather than an observation:

1. A value whose record needs more than one extra page is acknowledged, kills the IO thread and leaves an unopenable file
   (`C07_refuted`, src/core/writer.rs:84-94 expands once).
2. The length header is written before the data: killed in between, the file ends in stale or zero bytes and may show a value
   never written or panic on open (`C11_refuted`, `C11_refuted_wrong_value`; src/core/memory_map.rs:97-105).
3. Compaction resets the header first: killed in between, everything is lost or deleted keys come back (`C12_refuted`,
   `C12_refuted_resurrected`; src/core/writer.rs:68-82).
4. The compaction loop compares with the old mapping length and may expand once per record (`C17_refuted`; writer.rs:45, 77).
5. A damaged file can make every open panic (`C21_refuted`), and that panic poisons the registry for all other
   directories (`C31_refuted`; src/mmkv.rs:70-112).
6. Every compaction re-uses (key, nonce, counter) triples for different plaintexts (`C24_refuted_at_every_compaction`), for
   EAX (counter mode inside) a loss of confidentiality.
7. A session with a wrong key that compacts destroys the right key's data (`C48_refuted_end_to_end`).
8. Different spellings of a directory give two stores on one file (`C29_refuted`); dropping the last handle while another
   thread opens gives the new handle an old file (`C30_refuted`).
9. A put that returns Err is visible to get (`C34_refuted`); the C interface aborts on several errors (`C35_refuted`).
10. Swift: an empty array crashes (`C39_refuted`); strings with NUL are cut, so keys collide (`C52_refuted`).
11. 32-bit targets cannot open any directory (`C43_refuted`; src/core/memory_map.rs:103, 117-119), yet armeabi-v7a is shipped.
12. The documented key length (16 characters) panics; 32 hexadecimal digits are needed (`C49_documented_length_panics`).
13. After 2^32 - 1 records an encrypted store's next write kills the IO thread (`C50_refuted`).
14. A panicking logger makes every later logging call panic (`C51_refuted`).
15. `get` panics on a numeric or boolean value shorter than its type in a foreign file (`C53_refuted`).
16. Superseded records accumulate across sessions without bound (`C55_refuted`; src/core/writer.rs:35).
17. A data file of 1 to 7 bytes, or one whose header points past its end, makes opening it abort the process: the destructor of
    the mapping panics while the first panic unwinds (`C56_refuted`, `C56_refuted_header`; memory_map.rs:85-89). The
    scenarios of 1, C34 and C35 in which the IO thread dies of an oversized record but the process lives are those where
    memory happens to be mapped behind the file.
18. A power failure can leave a file that never opens (`C57_refuted`), and since the nonce file is never synced it can lose an
    encrypted store even after a clean close (`C57_refuted_encrypted`).
19. On a full disk an overwrite can lose keys that were not touched: compaction resets the file and then cannot extend it
    (`C58_refuted`; src/core/writer.rs:68-82). ftruncate makes sparse files, so on most systems a full disk shows as SIGBUS at
    the store, which is the kill of C11 and C12.
20. A `clear_data` that failed leaves a closed store; calling it again returns Ok and brings the old data back (`C59_refuted`;
    src/mmkv.rs:206-220 ignores a closed store's error).
21. `new` ignores the key while any handle of the directory exists (`C60_refuted`; src/mmkv.rs:71-96), and `clear_data` through
    such a handle re-creates the store under that key, or panics and poisons the store if it is malformed
    (`C60_refuted_executions`).
22. One failed read of the nonce file deletes it: all encrypted data are lost (`C62_refuted`; src/core/encrypt.rs:86-97).
    A failed removal of the data file makes `clear_data` return Ok with the data still there (`C62_refuted_clear`;
    src/core/config.rs:55-57).
23. Processes that take strict turns still lose data (`C63_refuted`, `C63_refuted_encrypted`): `delete` of a key written by
    another process returns Ok and does nothing (src/core/mmkv_impl.rs:89-92); a process whose mapping is shorter than the
    file panics when it compacts (src/core/iter.rs:62-79 reads up to the length in the shared header); with encryption the record
    counter is stale, so the second process encrypts under a nonce already used and its record cannot be read back
    (src/core/writer.rs:40, 60).
24. A panic in a user's `to_bytes`, or a reserved type token, in one `put` poisons the store's lock: every later call of every
    handle fails with `LockError` until all handles are dropped (`C64_refuted`; src/mmkv.rs:181-186 builds the record with the
    write guard held).
25. a logger that panics kills the log thread, and from then on every log call that passes the filter panics in the thread that makes it (src/log/logger.rs:55-60, `post(..).unwrap()`): `MMKV::new` panics at the `info!` at its end (src/core/mmkv_impl.rs:54; the registry is locked at that time, cf. C31), the background thread dies at its next expansion or compaction (src/core/writer.rs:57-90, src/core/config.rs:39-48) while `put` goes on returning `Ok`, and if the logger dies while a compaction is past `reset`, data is lost (`C65_refuted`).
26. `clear_data` removes the data file first and the nonce file second (src/core/mmkv_impl.rs:107-110); killed between the two, the next session starts an empty file under the old key and nonce from counter 0, so its first records share (key, nonce, counter) with the records that were cleared (`C69_refuted`).
27. `clear_data` removes the data file by name (src/core/writer.rs:104-106) whoever else has it open. A process that has the directory open keeps showing all the old data, and everything it puts from then on, acknowledged and even closed cleanly, goes to a file without a name and is lost at its end: nothing it does makes any difference to anybody else (`C73_refuted_writes_lost`, `C73_refuted_unseen`). No competing writes (README.md:18-19) are needed: one process clears, the other writes later.
28. Kotlin strings with an unpaired surrogate are replaced by U+FFFD without an error (src/jni/mod.rs:23-26, the lossy fallback of the jni crate): different keys collide and values come back changed (`C75_refuted`, `C75_refuted_value`). On Android the same happens to every string with both a NUL and a character beyond U+FFFF, because ART writes four-byte sequences, which the crate cesu8 refuses, and the NUL as two bytes, which UTF-8 refuses.
29. On Android every log message leaks two JNI local references (src/jni/mod.rs:225-241): the log thread is a native thread attached for good, so they are never freed, and the Java machine aborts the process when its table is full: after 256 messages on ART before Android 8, 4194304 after it.  At the default level every successful `putX` logs one (`C76_refuted`, `C76_limit`).
30. Kotlin's `setLogger` writes a variable and does not go through the log thread (Logger.kt:56-58; compare `MMKV::set_logger`, which does): messages logged before it and still queued go to the new logger (`C77_refuted`).
31. A logger that stores its messages through the C interface or from Kotlin never stops at the default level: every `put` logs a verbose message, which is given to the logger, which puts it ... (src/ffi/mod.rs:231, src/jni/mod.rs:173; `C79_refuted`). With the level at Debug or lower it does (`C79_partial`).
32. A panicking `new` in a thread that owns another handle aborts the process: the panic poisons the registry's lock, unwinding drops the other handle, and `Drop for MMKV` unwraps the poisoned lock (src/mmkv.rs:43-55), which is a second panic. `catch_unwind` does not help if the handle is inside its scope (`C81_refuted`). Dropping the last handle of a store whose background thread has died panics too (`C81_refuted_close`).
33. The Kotlin `delete` declares `@Throws(NativeException::class)` (MMKV.kt:209) and throws `KeyNotFoundException` (src/jni/mod.rs:392-411), for every error - also when the key is there and the error is an IO error; the two exceptions are siblings, so who catches the declared one is not protected (`C83_refuted`). `clearData` of both bindings unwraps the result inside an `extern C-ABI` function: an error ends the process (`C83_refuted_clear`).
34. Swift: a logger that is replaced while none of its messages wait in the main queue is called on the library's log thread: `destroy` drops the wrapper's last reference there and `deinit` calls `logger.info` (Logger.swift:24-26, 53-56; `C85_refuted`). A logger that touches UI or unsynchronised state relies on the main thread. With the default run this is the usual case, not a rare one.
35. The queue of the background thread is unbounded, and `post` (src/core/io_looper.rs:60-77) puts the job into it before it finds out that the thread is gone: a program that goes on calling `put` after the background thread died leaks every record (`C88_refuted`, `C88_refuted_failed`).
36. A compaction that leaves almost no free space does not enlarge the file (src/core/writer.rs:54-83 expands only when the live records themselves do not fit), so when the live entries nearly fill the file every single overwrite compacts again: with 4096-byte pages a 13-byte put can cost 4096 bytes of writes each time, for ever (`C89_refuted`).
37. Kotlin has no `close()`: a handle is released only by `finalize` (MMKV.kt:51-53), on the finalizer thread, and dropping the last handle takes the store from the list before its queued writes have reached the file (src/mmkv.rs:43-55, src/core/io_looper.rs:93-104). So even a single-threaded Kotlin program that makes an `MMKV`, puts, loses the object and makes another on the same directory may find its put missing (`C90_refuted`), or have a later put overwritten by an earlier one in the file (`C90_refuted_saved`). Keeping one object of the directory alive avoids it (`C90_partial`).
38. `set_len` reserves no space (src/core/config.rs:21-24, 41): on a full disk it succeeds, and the store into the new page (src/core/memory_map.rs:103-104) is answered with `SIGBUS`, which ends the whole process - not an error of the call, not even a panic. The length header has been stored by then, so if the file was exactly full the directory cannot be opened any more (`C91_refuted`); during a compaction, keys saved long before are lost (`C91_refuted_loses`). `fallocate` instead of `set_len` would turn this into a failing system call.
39. Builds differ. A file whose header is one of the last eight `u64` values (a header overwritten with ones) makes a debug build panic in `new`, but a release build wraps `write_offset` (src/core/memory_map.rs:117-119) below 8, takes the store for empty and stores the next record over the header, so that it is lost (`C92_refuted`, `C92_refuted_lost`). And with the `panic = 'abort'` of the shipped Android and iOS libraries (.cargo/config.toml:5-10) each panic that elsewhere kills only the background thread or one call ends the app (`C92_refuted_ends`); `catch_unwind` and poisoned locks play no role there.
40. Deleted and overwritten values stay in the data file: a `delete` or `put` only appends (src/core/writer.rs:49-53), so every value put since the last compaction is in the file in the clear (`C93_refuted`), or decryptable (`C93_refuted_encrypted`), also after a close; and a compaction resets the length and writes over the beginning of the content (src/core/writer.rs:54-88), leaving the rest of the old records behind the new end (`C93_refuted_tail`, `C93_refuted_compacted`). Only `clear_data` gets rid of them (`C93_partial`).
41. The data file cannot be copied safely while the store is in use, and nothing shows that a copy is bad: a compaction (src/core/writer.rs:60-88) rewrites the records in place, in a different order, so a copy read meanwhile can lack records that were in the file before and after (`C94_refuted`). As long as no compaction happens a copy is sound (`C94_partial`, `C94_partial_fits`).
42. C96: a compaction empties the file before it asks for more room. If fsync, ftruncate, mmap or any other system call of the growth fails then, entries that were saved long before and that nobody touched are lost for good (`C96_refuted`, for each of the calls; C58 is the case of a full disk). Asking for the room before resetting the header would avoid it.
43. C97: paths are never made absolute. After a `chdir`, `MMKV::new("data")` hands out the store of the old directory as long as a handle of it lives; `clear_data` on a handle made with a relative path deletes the data file (and nonce file) of the directory the string names now - data of another directory - returns `Ok`, leaves the handle's own data in place and moves the handle to the other directory; and where the string names nothing it panics and poisons the store (`C97_refuted_new`, `C97_refuted_clear`, `C97_refuted_panic`). Canonicalising the path in `new` would avoid it (and C29).
44. C98: handles do not survive `fork`. The background thread of an open store does not exist in the child, but `post` still finds the channel alive: `put` and `delete` return `Ok` and show in `get`, but are never written; dropping the last inherited handle and `clear_data` wait for ever in `join` (`C98_refuted`, `C98_refuted_drop`, `C98_refuted_clear`). Comparing the process id in `post`, `quit` and `drop` (or a `pthread_atfork` handler) would avoid it.
45. C100: a Kotlin logger that throws once takes logging down with it, and the app: the `unwrap` in `call_java` panics on the log thread, which ends; from then on `format_log`'s `unwrap` panics in every thread that logs anything, whatever logger is installed afterwards, and in a function called from Kotlin (`extern "C"`) that is an abort (`C100_refuted`). Checking and clearing the exception (`exception_clear`) instead of `unwrap` would avoid it.
46. C101: an encrypted file is sealed record by record, not as a whole. Without the key one can leave out any records (a deletion, say, so that a deleted value is back, or all writes of one key), and mix records of several moments, since a compaction uses the same nonce and positions again: the store opens without complaint and shows combinations of values it never held (`C101_refuted`, `C101_drop_refuted`). The cause is the same as in C24 (nonces used again) together with unauthenticated records being skipped silently.
47. C103: at the level a program starts with (5, src/log/logger.rs:77), and to standard output unless it installs a logger, the C interface prints every number, bool and array that is read - passwords, keys, health data kept as byte arrays - in full, twice: when the result is made (`leak`, src/ffi/ffi_buffer.rs:20-27, `RawTypedArray::new`, 89-101) and when it is freed (34-54). Only strings are exempt, for another reason (C78). `set_log_level` at Debug or lower avoids it (`C103_partial_level`).
48. C105: the Kotlin interface names the key of every put, read and delete in clear text in the log (src/jni/mod.rs:173, 192, 403, at Verbose, the level a program starts with) and in the texts of exceptions (163-171, 195-203), also of an encrypted store whose file hides the keys (`C105_refuted`). Values do not show (`C105_partial_values`). By the way: a number is put as "i32" and found as "int" in the log (298, 345), so a search for one finds half.

## Testing the theorems against wrong programs

`seeded/LOG.jsonl` has one line per attempt: the model is copied, one definition edited as a realistic bug would, everything rebuilt
with a driver that checks each declaration on its own (so that one broken lemma does not hide the others), and the theorems
that no longer prove are listed. A theorem that uses a lemma that fails counts as failed.
