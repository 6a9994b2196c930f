# DESIGN: a Lean 4 model of google/cdc-file-transfer

## Trusted base

* **Lean 4.33.0's kernel.** Every theorem depends on at most the three standard axioms `propext`,
  `Classical.choice` and `Quot.sound`.  There are no own axioms, no `native_decide`, no `bv_decide`,
  no unfinished proofs.  Concrete examples use `decide`, `decide +kernel` or `rfl` (kernel evaluation).
  Mathlib is used for a few list lemmas, permutations and rationals; every import names one module.
* **The reading of the C++ code.** Nothing is extracted from or run against the code.  Each definition
  of the model cites the file and lines it models and says what it simplifies.  The tie between a
  theorem and the program is that citation.  `seeded/LOG.jsonl` records how the theorems react when
  the model is edited the way a bug would change the program.
* **The environment**, as far as a theorem needs it; always a hypothesis or a stated modelling decision:
  * TCP and gRPC streams deliver bytes and messages in order; `send`/`recv` answer by an arbitrary script.
  * absl::Mutex gives mutual exclusion; a critical section is one atomic step. Memory is sequentially
    consistent; interlocked operations on shared memory are atomic (`Threads.Ports`).
  * protobuf: parsing undoes serialising; sizes of messages as in the wire format where they matter.
  * Hashes (chunk ids) are parameters; collision freedom is a hypothesis where it is needed.
  * zstd is a codec with a flush law (`Threads.Zstd`, `Threads.Unzstd`); jsoncpp's `asInt`, `asBool`,
    `asString`, `isMember` and lyra behave as documented (`Stream.Settings`).
  * POSIX and glibc: `rename` is atomic, `fread`/`fwrite`/`fclose` with arbitrary buffering (`Store.Stdio`),
    `opendir`/`readdir` (`Util.DirIter`, `Indexer`), `nftw` as glibc performs it (`Sync.SearchLinux`),
    `wordexp` without expansions (`Sync.Expand`), `readlink` (`Text.ExeDir`), `realloc` with arbitrary
    placement (`Util.Buffer`).  What a process has written survives its own crash, not that of the machine.
  * The Linux kernel's FUSE client: reference counts, page cache, readdir (`FuseFs.*`).
  * Windows: `ReadDirectoryChangesW` (`Stream.Watch*`), `FindFirstFileEx` with matching as a parameter
    (`Sync.Search`), `CommandLineToArgvW` rules (`Text.Quote`), sftp's batch mode (`Text.Components`).
  * IEEE doubles only through stated rounding properties (`Sync.Progress`).
  * An uncaught exception (`std::out_of_range`, `Json::Exception`), a null dereference, an access out of
    bounds and signed overflow are outcomes of their own (crash / undefined behaviour), never a value.

## What is modelled and what is not

Modelled, function by function, with lines cited at the definitions: `fastcdc`; `cdc_rsync/base`
(chunk signatures, diff, patch, message pump); `cdc_rsync` (client run, parameters, file search and
batching, parallel opener, zstd stream, progress, server architecture and deployment); `cdc_rsync_server`
(file finder, diff, deletion, copying, patching, finalising, unzstd); `manifest` (content ids, builder,
iterator, file chunk map, updater with its queue and tasks, pruning); `data_store` (disk, memory, grpc
reader, provider with its cleanup thread and locks); `cdc_fuse_fs` (assets, nodes, requests, queue,
manifest replacement, consistency checks, config stream client); `cdc_stream` (sessions, multi-sessions,
service, fuse manager, grpc servers, commands, configuration); `cdc_indexer`; `common` (path, buffer,
thread pool, semaphore, directory iterator, file watcher, port manager, sockets, path filter, ANSI
filter, quoting, gamelet components, UTF-8 helper); `absl_helper` (size flags).

Not modelled: `common/process_win.cc` (starting and watching Windows processes; processes are arbitrary
environments here), `common/log.cc` and all message texts that nothing depends on, `common/errno_mapping.cc`
(a table), `common/url.cc` (unused), `manifest/stats_printer.cc` and the statistics for printing, metrics
(`metrics/`, `metrics_recorder`), test tools (`tests_*`, `fake_*`, `mock_*`), the vendored protobuf, grpc,
absl, zstd, blake3, jsoncpp, lyra and libfuse.  Time is a number chosen by the environment.  Permissions
of files are modelled only where a property speaks of them (C10, C70, C134, C137, C146).

## Layout and conventions

Per area there are files with definitions and citations (`Model` or the first part of the file), with
helper lemmas, and with specification, property theorems and examples (`Props` or the last part).
Property theorems are named `Cnn_...` after the line of properties.jsonl they prove; the specification
vocabulary they use is defined separately from the model and is small.  Beside each theorem there is an
`example` (or a theorem) that shows that a non-trivial case meets its hypotheses.  A property the code
violates has a theorem `..._violated` and a `..._partial` theorem giving the part that holds.
Threads are labelled transition systems whose steps are critical sections, and theorems quantify over
all schedules; crash points are prefixes of traces.

## Modules

| module | lines | subject | properties |
|---|---|---|---|
| `Asset.Consistent` | 618 | The consistency check of a single entry (`Asset::IsConsistent`, cdc_fuse_fs/asset.cc:242-371) | C144 |
| `Asset.Dir` | 506 | C26: directory lookups see every child | C26 C86 |
| `Asset.Model` | 295 | Model of `Asset` (cdc_fuse_fs/asset.cc) |  |
| `Asset.Read` | 817 | C25: reading a streamed file returns its bytes | C25 |
| `ChunkMap.Model` | 134 | Model of `FileChunkMap` (manifest/file_chunk_map.cc) |  |
| `ChunkMap.Picture` | 729 | C203, C204: the picture of the streaming statistics | C203 C204 |
| `ChunkMap.Props` | 780 | C24: chunk lookups reflect the flushed files | C24 |
| `ChunkMap.Stats` | 901 | C188: the streaming statistics | C188 |
| `Delta.Lemmas` | 1034 | Signatures |  |
| `Delta.Model` | 387 | Model of the delta sync pipeline (`cdc_rsync/base/cdc_interface.cc`) |  |
| `Delta.Props` | 708 | Properties C07-C10 and C53: delta sync of one file | C07 C08 C09 C10 C53 |
| `FastCdc.Lemmas` | 784 | The scan loop |  |
| `FastCdc.Local` | 176 | Edits change few chunks (C182) | C182 |
| `FastCdc.Model` | 115 | Model of the content-defined chunker (`fastcdc/fastcdc.h`) |  |
| `FastCdc.Props` | 285 | Properties C01-C06: the content-defined chunker | C01 C02 C03 C04 C05 C06 |
| `FastCdc.Spec` | 36 | Specification vocabulary for the chunker properties. It uses nothing of the model but the type of configurations. |  |
| `FuseFs.Access` | 179 | Checking access rights (C70): cdc_fuse_fs/cdc_fuse_fs.cc | C70 |
| `FuseFs.Cache` | 342 | What a program reads from a file that changes (C68): cdc_fuse_fs/cdc_fuse_fs.cc | C68 |
| `FuseFs.Check` | 637 | The file system's examination of itself (C189, C190): cdc_fuse_fs/cdc_fuse_fs.cc | C190 |
| `FuseFs.CheckUpdate` | 1025 | The examination after a manifest update (C189) | C189 |
| `FuseFs.Inodes` | 1477 | The lifetime of file system nodes (C51): cdc_fuse_fs/cdc_fuse_fs.cc | C51 C98 |
| `FuseFs.Life` | 352 | The life of the file system process (C191, C192): cdc_fuse_fs/main.cc, cdc_fuse_fs.cc, config_stream_client.cc | C191 C192 |
| `FuseFs.Listing` | 583 | Listing a directory (C69): cdc_fuse_fs/cdc_fuse_fs.cc | C69 C101 |
| `FuseFs.Opens` | 94 | What the requests of a program that only reads are answered with (C185) | C185 |
| `FuseFs.Ops` | 750 | All requests of the kernel (C171-C173): cdc_fuse_fs/cdc_fuse_fs.cc | C171 C172 C173 |
| `FuseFs.Paths` | 194 | The valid nodes form a tree |  |
| `FuseFs.Queue` | 483 | Requests that have to wait (C66, C67): cdc_fuse_fs/cdc_fuse_fs.cc | C66 C67 C104 |
| `FuseFs.Update` | 880 | Replacing the manifest (C65): cdc_fuse_fs/cdc_fuse_fs.cc, cdc_fuse_fs/asset.cc | C65 |
| `Indexer.Buckets` | 499 | The indexer: sizes of chunks (C138, C139, C140). | C138 C139 C140 |
| `Indexer.Model` | 252 | The indexer (cdc_indexer), C136-C141: model |  |
| `Indexer.Overflow` | 87 | The sizes of the indexer with 64 bits (C141) | C141 |
| `Indexer.Props` | 393 | The indexer: C136, C137 and C141. | C136 C137 C141 |
| `Indexer.Run` | 712 | The indexer: proofs for C136, C137 and C141. |  |
| `Indexer.Spec` | 49 | Specification of the indexer: what is to be found. |  |
| `Manifest.Alias` | 315 | C30, C54: what goes wrong when a manifest is loaded, changed and flushed | C30 C54 |
| `Manifest.Builder` | 464 | Model of `ManifestBuilder` (manifest/manifest_builder.cc) and of the setters of `AssetBuilder` |  |
| `Manifest.Chunks` | 565 | C27: moving the chunks of a file to indirect lists | C27 |
| `Manifest.Closed` | 796 | The store never holds a reference to something that is not there (part of C32) | C32 |
| `Manifest.Counts` | 190 | The size of a manifest that is reported when streaming begins (C202) | C202 |
| `Manifest.Dirs` | 871 | C28: moving the entries of a directory to indirect lists | C28 |
| `Manifest.Encode` | 145 | The sizes the manifest builder computes are those of the encoded messages (C27, C28) | C27 C28 |
| `Manifest.Flush` | 1590 | C71: a manifest that is built from scratch reads back as it was built (and what of C30 holds) | C30 C71 C80 |
| `Manifest.Iterator` | 552 | C29: `ManifestIterator` (manifest/manifest_iterator.cc) | C29 |
| `Manifest.Multi` | 1461 | Manifests with indirect asset lists: the directories in memory and the file tree they stand for |  |
| `Manifest.MultiDir` | 290 | Changing a directory through a pointer to it |  |
| `Manifest.MultiExample` | 177 | Example: a directory that is split, changed and split again (C30, C80) |  |
| `Manifest.MultiFlush` | 1346 | Flushing manifests with indirect asset lists |  |
| `Manifest.MultiHist` | 652 | Manifests that are changed and saved again and again (C30, C80) | C30 C80 |
| `Manifest.Proto` | 92 | The manifest messages (proto/manifest.proto) |  |
| `Provider.Lemmas` | 503 | Invariants |  |
| `Provider.LockProps` | 514 | C21: the provider's locks cannot deadlock | C21 |
| `Provider.Locks` | 126 | Model of the provider's locks |  |
| `Provider.Model` | 402 | Model of the chunk provider |  |
| `Provider.Props` | 606 | C20, C22: what the chunk provider returns | C20 C22 C85 |
| `Provider.Reads` | 252 | Reads succeed whatever the state of the cache (C184) | C184 |
| `Pump.Lemmas` | 692 | Invariant of the transition system |  |
| `Pump.Listen` | 615 | Opening and closing sockets | C174 C175 C176 C177 |
| `Pump.Model` | 334 | Model of the message pump (`cdc_rsync/base/message_pump.cc`) |  |
| `Pump.Progress` | 396 | The message pump does not get stuck: C12, C13, C167 | C12 C13 |
| `Pump.Props` | 410 | Properties of the message pump: C11, C12, C13, C14 | C11 C12 C13 C14 |
| `Pump.Sockets` | 500 | C117, C118: the sockets between client and server (common/client_socket.cc, common/server_socket.cc) | C117 C118 |
| `Pump.Switch` | 1401 | Switching compression on and off in the middle of a connection (C193, C194) | C193 C194 |
| `Store.Lemmas` | 490 | Hex |  |
| `Store.Lemmas2` | 439 | The eviction order |  |
| `Store.Model` | 330 | Model of content ids and the chunk stores |  |
| `Store.Props` | 1051 | Properties of content ids and chunk stores: C15, C16, C17, C18, C19, C23 | C15 C16 C17 C18 C19 C23 C83 C84 |
| `Store.Size` | 250 | The size of the disk cache (C183) | C183 |
| `Store.Stdio` | 269 | Writing and reading whole files (C154, C155) | C154 C155 |
| `Stream.ChunkIndex` | 196 | The server's chunk index and the files of the manifest (C79) | C79 |
| `Stream.Commands` | 1427 | The commands of cdc_stream (C119-C121): cdc_stream/start_command.cc, stop_command.cc, local_assets_stream_manager_client.cc, local_assets_stream_manager_service_impl.cc | C119 C120 C121 |
| `Stream.Config` | 874 | Telling the clients about new manifests (C75-C77) | C75 C76 C77 |
| `Stream.Content` | 217 | The server's answers to requests for chunks (C78) | C78 C103 |
| `Stream.Fuse` | 607 | Starting the remote component (C62, C64): cdc_stream/cdc_fuse_manager.cc, cdc_stream/session.cc | C62 C64 C99 |
| `Stream.Handshake` | 990 | Starting a session (C167-C170) | C167 C168 C169 C170 |
| `Stream.ManifestStreams` | 535 | The streams of manifest ids on the workstation (C215) | C215 |
| `Stream.Service` | 541 | The streaming service (C61, C63): cdc_stream/session_management_server.cc, cdc_stream/background_service_impl.cc, on top of Stream/Sessions.lean | C50 C61 C63 C100 |
| `Stream.ServiceEnd` | 332 | How the streaming service ends | C208 |
| `Stream.Sessions` | 1172 | Streaming sessions (C50, C61): cdc_stream/session_manager.cc, cdc_stream/multi_session.cc | C50 C61 |
| `Stream.Settings` | 462 | The configuration file of the streaming service and the exit code of cdc_stream (C142, C143) | C142 C143 |
| `Stream.SettingsExact` | 400 | C142 for every file | C142 |
| `Stream.Usage` | 782 | What is reported about the use of a session (C198, C199), and the end of a multi-session (C200) | C198 C199 C200 |
| `Stream.WatchExample` | 277 | C74: runs of the watcher and the runner | C74 |
| `Stream.WatchLoop` | 352 | The streamed directory, the file watcher and the thread that updates the manifest (C73, C74) | C73 |
| `Stream.WatchProps` | 1299 | C74: the manifest catches up with the streamed directory | C74 |
| `Stream.WatchRestart` | 251 | Stopping and starting the watcher (C201): common/file_watcher_win.cc:581-622 | C201 |
| `Stream.WatchTimes` | 347 | When changes are picked up | C209 |
| `Stream.Watcher` | 361 | Watching the streamed directory (C72, C73) | C72 C102 |
| `Sync.Batch` | 589 | C36, C37: lists sent in batches | C36 C37 |
| `Sync.Client` | 1219 | C108-C112: one run of cdc_rsync (cdc_rsync/cdc_rsync_client.cc, cdc_rsync/main.cc) | C108 C109 C110 C111 |
| `Sync.Crash` | 359 | C38, C59: the server stops in the middle of a sync |  |
| `Sync.CrashExample` | 147 | C38, C59: runs | C59 C90 |
| `Sync.CrashProps` | 745 | C38, C59: proofs | C38 C59 C90 |
| `Sync.Delete` | 384 | C36: deletion of extraneous files and directories | C36 C89 |
| `Sync.Diff` | 435 | C34, C35: the server's file list and the comparison with the client's | C35 |
| `Sync.DiffProps` | 781 | C34: classification of files and directories | C34 C88 |
| `Sync.Ends` | 522 | How a sync begins and ends (C195 to C197): cdc_rsync/cdc_rsync_client.cc, cdc_rsync_server/cdc_rsync_server.cc, message_pump.cc | C195 C196 C197 |
| `Sync.Expand` | 190 | The destination given to the server (`HandleSetOptions`, cdc_rsync_server/cdc_rsync_server.cc:412, 424-437, and `ExpandPathVariables` on Linux, common/path.cc:222-232) | C150 |
| `Sync.Fs` | 309 | The server's file system |  |
| `Sync.Progress` | 1073 | Progress shown by `cdc_rsync` (C125-C129) | C125 C126 C127 C128 C129 |
| `Sync.ProgressDelete` | 171 | What is shown while files are deleted (C212) | C212 |
| `Sync.ProgressText` | 367 | The text of a progress line (C214) | C214 |
| `Sync.Protocol` | 398 | The client/server conversation of cdc_rsync (C39) |  |
| `Sync.ProtocolExample` | 209 | Queues limited in bytes, and concrete sessions (C39) | C91 |
| `Sync.ProtocolProps` | 1092 | Proofs about the conversation (C39) | C39 C91 |
| `Sync.Run` | 483 | C57, C58: the effect of a whole sync on the server's file system |  |
| `Sync.RunExample` | 291 | C57, C58: runs | C57 C58 |
| `Sync.RunProps` | 800 | C57, C58: proofs | C57 |
| `Sync.Search` | 1048 | Finding the source files (`SearchFiles` on Windows, common/path.cc:498-637, 718-761) | C145 C146 |
| `Sync.SearchLinux` | 687 | Finding the files at the destination (`SearchFiles` on Linux, common/path.cc:640-716, and `FileFinder::AddFiles`, cdc_rsync_server/file_finder.cc:26-57) | C149 |
| `Sync.Sizes` | 941 | C186: every message of a sync fits into a packet | C186 |
| `Sync.SizesWire` | 120 | The sizes of C186 are those of the protobuf encoding | C186 |
| `Sync.Sources` | 863 | Where source files land (cdc_rsync/file_finder_and_sender.cc) | C147 C148 |
| `Sync.Wire` | 540 | Changed files in bytes: three threads and two streams | C211 |
| `Sync.WireExample` | 274 | C211: runs of the pipeline | C211 |
| `Text.CachePath` | 589 | C52: the cache directory of a source directory (cdc_stream/multi_session.cc: `GetCacheDir`, `GetCachePath`; common/util.cc: `Utf8CodePointLen`) | C52 C60 C207 |
| `Text.CommandLine` | 705 | C163-C166: the command lines of ssh, sftp and scp (common/remote_util.cc) | C163 C164 C165 C166 |
| `Text.Components` | 734 | C112-C116: is the server on the device the one that belongs to the client? | C112 C113 C114 C115 C116 |
| `Text.Demux` | 742 | C40: separating the server's error text from its normal output (cdc_rsync/cdc_rsync_client.cc: `CdcRsyncClient::HandleServerOutput`) | C40 |
| `Text.ExeDir` | 91 | The directory of the program on Linux (C156) | C156 |
| `Text.Filter` | 698 | C41, C42: path filter rules and wildcard matching (common/path_filter.cc) | C41 C42 |
| `Text.Flags` | 733 | C47, C94, C95, C96: flag values and terminal output (absl_helper/jedec_size_flag.cc, common/port_range_parser.cc, common/ansi_filter.cc) | C47 C94 C95 C96 |
| `Text.LocalStart` | 179 | C217: a server on this machine gets the description of the client's files | C217 |
| `Text.LogOutput` | 349 | Logging the output of a child process (C162) | C162 C181 |
| `Text.Netstat` | 275 | Which ports are available (C133) | C133 |
| `Text.Params` | 1924 | C105-C107: the command line of cdc_rsync (cdc_rsync/params.cc) | C105 C106 C107 |
| `Text.Path` | 595 | C46: joining and splitting paths (common/path.cc) | C46 |
| `Text.Quote` | 922 | C45: quoting command line arguments (common/remote_util.cc: `QuoteForWindows`, `QuoteForSsh`) | C45 C93 |
| `Text.Split` | 399 | Splitting and joining strings (C153) | C153 |
| `Text.Url` | 319 | URLs | C178 |
| `Threads.Opener` | 668 | Invariant | C44 C92 |
| `Threads.Pool` | 777 | Counting workers | C43 |
| `Threads.Ports` | 904 | Reserving ports (C130-C133) | C130 C131 C132 |
| `Threads.Process` | 1274 | Child processes (C158-C161) | C158 C159 C160 C161 |
| `Threads.Semaphore` | 219 |  | C48 |
| `Threads.Unzstd` | 548 | The promises can be kept: a toy codec | C49 |
| `Threads.Zstd` | 990 | Invariant | C49 C97 |
| `Updater.EndToEnd` | 182 | Bytes end to end (C210) | C210 |
| `Updater.Heal` | 1027 | C122-C124: updates that are disturbed, that fail and that are interrupted | C122 C123 C124 |
| `Updater.HealExample` | 482 | Example: a disturbed update, an interrupted one and an undisturbed one (C122-C124) | C122 C124 |
| `Updater.Mounted` | 563 | C82: what is mounted is the source directory | C82 |
| `Updater.MountedExample` | 383 | Example: two updates of a directory with the content-defined chunker (C81, C82) |  |
| `Updater.Prompt` | 578 | C187: a file a program waits for is delivered while the update goes on | C187 |
| `Updater.Queue` | 530 | C33: `PendingAssetsQueue` (manifest/pending_assets_queue.cc) | C33 |
| `Updater.Run` | 439 | C32, C56: the update loop (`ManifestUpdater::Update`, manifest/manifest_updater.cc:765-904) | C56 C87 |
| `Updater.Scan` | 924 | C31, C55: scanning a directory and bringing its manifest entry up to date |  |
| `Updater.ScanProps` | 503 | C31, C55: theorems about scanning a directory | C31 C55 |
| `Updater.SourceDir` | 376 | C205: the directory to stream | C205 |
| `Updater.Twins` | 292 | Two equal directories (C80-C82, C122-C124) | C81 C82 C122 C123 C124 |
| `Updater.Update` | 302 | C81: an update makes the manifest equal to the source directory |  |
| `Updater.UpdateProps` | 901 | C81: the manifest mirrors the source directory | C81 |
| `Updater.UpdateScan` | 560 | Scanning a directory in a manifest (C81) |  |
| `Util.Buffer` | 1118 | Buffers (C151, C152) | C151 C152 |
| `Util.Bytes` | 102 | Byte strings ordered as by `std::string::compare` |  |
| `Util.DirIter` | 699 | Iterating over a directory tree (C134, C135) | C134 C135 |
| `Util.Errno` | 379 | Errors of the operating system | C206 |
| `Util.FileTime` | 149 | Modification times on Windows | C157 |
| `Util.Handle` | 452 | Owned handles | C180 |
| `Util.Sort` | 129 | A stable sort |  |
| `Util.StatsCollector` | 522 | The statistics collector (C213) | C213 |
| `Util.Status` | 275 | Errors with tags | C179 |
| `Util.WatcherTime` | 95 | The time of a file that the watcher has seen (C216) | C216 |

## Properties: model, proof, result

`status` is that of MANIFEST.json: *proved* (the statement of properties.jsonl in full), *partial* (a `_partial` theorem states what holds and names what is missing; where the code does not have the property a `_violated` theorem proves it for a whole class of inputs or runs).

| id | property | model | proof | modules | status | remarks |
|---|---|---|---|---|---|---|
| C01 | Chunking loses, adds and reorders nothing | chunker generic in hash width and gear table; byte lists; the loop without fuel, with divergence as an outcome | induction over the buffer, loop invariant on (rc_len, rc_mask) | `FastCdc.Props` | proved | Every block list, gear table, hash width and valid configuration; includes termination. |
| C02 | Chunk sizes respect the configured limits | chunker generic in hash width and gear table; byte lists; the loop without fuel, with divergence as an outcome | induction over the buffer, loop invariant on (rc_len, rc_mask) | `FastCdc.Props` | proved | Size limits for all streams; the minimum for every chunk but the last of a stream of non-empty blocks. |
| C03 | Chunk boundaries do not depend on how the input is delivered | chunker generic in hash width and gear table; byte lists; the loop without fuel, with divergence as an outcome | induction over the buffer, loop invariant on (rc_len, rc_mask) | `FastCdc.Props` | proved |  |
| C04 | Chunking resynchronises after a common cut point | chunker generic in hash width and gear table; byte lists; the loop without fuel, with divergence as an outcome | induction over the buffer, loop invariant on (rc_len, rc_mask) | `FastCdc.Props` | proved |  |
| C05 | The cut point is the documented one | chunker generic in hash width and gear table; byte lists; the loop without fuel, with divergence as an outcome | induction over the buffer, loop invariant on (rc_len, rc_mask) | `FastCdc.Props` | proved | IsCut in FastCdc/Spec.lean is the independent description; holds for every chunk of every stream. |
| C06 | Chunking terminates for every configuration the manifest updater accepts | chunker generic in hash width and gear table; byte lists; the loop without fuel, with divergence as an outcome | induction over the buffer, loop invariant on (rc_len, rc_mask) | `FastCdc.Props` | partial | False of the code: min=avg=0 is accepted by ValidateCdcParams and the chunking loop then never advances (C06_accepted_params_diverge_violated). C06_accepted_params_exactly: an accepted parameter set chunks every file to its end if and only if its average is not 0. |
| C07 | Delta sync reconstructs the client file exactly | signature, diff and patch pipeline; the chunk hash, the arrival of signatures and the finishing of hash tasks are parameters | simulation of the sender by the list of client chunks; undefined behaviour is an outcome | `Delta.Props` | proved | All block partitions, all signature/diff schedules, no hash collision between different chunks (NoCollision hypothesis), files under 2^63 bytes. |
| C08 | A patch message can never make the server read outside the message or the old file | signature, diff and patch pipeline; the chunk hash, the arrival of signatures and the finishing of hash tasks are parameters | simulation of the sender by the list of client chunks; undefined behaviour is an outcome | `Delta.Props` | partial | False of the code: the bound check adds offset and size in 64 bits and wraps (C08_patch_bounds_violated). C08_patch_bounds_exactly: the exact condition under which the server reads out of bounds, for all message sequences. |
| C09 | Signature and patch streams end exactly where they should | signature, diff and patch pipeline; the chunk hash, the arrival of signatures and the finishing of hash tasks are parameters | simulation of the sender by the list of client chunks; undefined behaviour is an outcome | `Delta.Props` | proved | Both directions: exactly one empty terminator, no empty message before it. |
| C10 | The executable bit is decided by the content of the whole file | signature, diff and patch pipeline; the chunk hash, the arrival of signatures and the finishing of hash tasks are parameters | simulation of the sender by the list of client chunks; undefined behaviour is an outcome | `Delta.Props` | proved | Copy path for all read-block sizes >= 4, delta path for all configurations with minimum chunk size >= 4. |
| C11 | Packet framing round-trips over a byte stream | framing as byte lists; all threads of both sides as a labelled transition system | invariant: received ++ in flight ++ queued = sent; byte counter invariant; progress measure | `Pump.Props` | proved | All packet lists, all truncation points. |
| C12 | Packets are delivered in order, exactly once, under every thread schedule | framing as byte lists; all threads of both sides as a labelled transition system | invariant: received ++ in flight ++ queued = sent; byte counter invariant; progress measure | `Pump.Progress` `Pump.Props` | proved | All schedules of application, sender, network and receiver, arbitrary packet list, arbitrary queue limit, with failures at any step; plus no lost wake-up (quiescent implies all delivered) and no spurious receive error. |
| C13 | Flushing waits for everything that was queued; queues stay bounded | framing as byte lists; all threads of both sides as a labelled transition system | invariant: received ++ in flight ++ queued = sent; byte counter invariant; progress measure | `Pump.Progress` `Pump.Props` | proved | RedirectOutput modelled as one atomic step as required by its header comment. |
| C14 | Malformed packets are rejected | framing as byte lists; all threads of both sides as a labelled transition system | invariant: received ++ in flight ++ queued = sent; byte counter invariant; progress measure | `Pump.Props` | proved |  |
| C15 | Content ids and their hex names are in bijection | hex digits; path building and parsing | round trip by induction | `Store.Props` | proved |  |
| C16 | The disk cache maps ids to file names injectively and invertibly | hex digits; path building and parsing | round trip by induction | `Store.Props` | proved | All depths. |
| C17 | The disk cache behaves as a map | disk store (files, times, cached total) and memory store; histories of operations with failures and crashes | refinement to a finite map; invariants; cleanup by induction on the sorted list | `Store.Props` | proved | Refinement of an abstract map for every history including failing writes and removals, interrupts and any enumeration order. |
| C18 | Cleanup keeps exactly the most recently used chunks that fit | disk store (files, times, cached total) and memory store; histories of operations with failures and crashes | refinement to a finite map; invariants; cleanup by induction on the sorted list | `Store.Props` | proved | Every directory the store may find and every history; order also for interrupted and failing cleanups. |
| C19 | Prune keeps exactly the requested chunks | disk store (files, times, cached total) and memory store; histories of operations with failures and crashes | refinement to a finite map; invariants; cleanup by induction on the sorted list | `Store.Props` | proved |  |
| C20 | Reading several chunks gives the right bytes from a possibly damaged cache | nondeterministic programs over the cache and the readers: failures, crashes and other threads between any two primitives | Hoare-style case analysis with an invariant for the cache | `Provider.Props` | proved | Under interference, I/O errors, torn writes and crashes. |
| C21 | Concurrent chunk reads and cache maintenance cannot deadlock | lock acquisition order of all calls and the cleanup thread, any number of threads | ordered-lock argument | `Provider.LockProps` | proved | Any number of threads, reader/writer locks, condition-variable waits, join of the cleanup thread. |
| C22 | Every chunk source reads the requested byte range | nondeterministic programs over the cache and the readers: failures, crashes and other threads between any two primitives | Hoare-style case analysis with an invariant for the cache | `Provider.Props` | partial | False of GrpcReader through the common interface: its override declares (size, offset) where the base class has (offset, size). |
| C23 | The in-memory store behaves as a map | disk store (files, times, cached total) and memory store; histories of operations with failures and crashes | refinement to a finite map; invariants; cleanup by induction on the sorted list | `Store.Props` | proved |  |
| C24 | Chunk lookups reflect the flushed file contents | flushed state and list of pending updates | invariant between index and file map over all histories | `ChunkMap.Props` | proved | Any history, any hash map iteration order; plus correctness of the bytes found. |
| C25 | Reading a streamed file returns its bytes | assets with atomic steps under their mutex, other threads between any two | Hoare-style triples over interleavings | `Asset.Read` | proved | Any number of concurrent readers; composed with the chunk provider (C20) in C25_read_through_provider. |
| C26 | Directory lookups see every child, however it is stored | assets with atomic steps under their mutex, other threads between any two | Hoare-style triples over interleavings | `Asset.Dir` | proved | Any number of threads; completeness of lookups for a thread that is alone at that moment, after any concurrent history. |
| C27 | Moving file chunks to indirect lists changes nothing a reader sees | size enforcement, iterator with reused node addresses; Manifest/Encode.lean: an encoder of the protobuf wire format for these messages | induction; the modelled size of a message is the length of its encoding, by structural induction | `Manifest.Chunks` `Manifest.Encode` | proved | Every chunk list and limit, no hash collision between different chunk lists in the store; composed with the reader of C25 (C27_reads_the_same). |
| C28 | Moving directory entries to indirect lists changes nothing a reader sees | size enforcement, iterator with reused node addresses; Manifest/Encode.lean: an encoder of the protobuf wire format for these messages | induction; the modelled size of a message is the length of its encoding, by structural induction | `Manifest.Dirs` `Manifest.Encode` | proved | The directory itself fits as long as no new list is needed for it: the ids of the new lists are added after the size was enforced, and the code has no second level of lists. |
| C29 | Iterating a manifest visits every asset exactly once | size enforcement, iterator with reused node addresses | induction | `Manifest.Iterator` | proved | Arbitrary allocator: addresses of freed nodes may be reused. |
| C30 | Updating one directory of a manifest leaves all others alone | builder with asset list cache keyed by content id; histories of loading, editing, flushing | simulation by operations on plain file trees; the aliasing counterexample | `Manifest.Alias` `Manifest.Flush` `Manifest.MultiHist` | partial | False of the code when two directories have identical overflow lists: the in-memory list is shared by content id (C30_changes_stay_local_violated). Proved for manifests without indirect asset lists (C30_changes_stay_local_partial), and for any saved manifest, with asset lists, when no stored list could be one of two directories (C30_changes_to_saved_manifests_partial). |
| C31 | A directory scan brings the manifest directory up to date | directory comparison, pending queue, pruning | sorted merge induction; traces | `Updater.ScanProps` | proved | Directory level: every directory content, every manifest directory, any enumeration order; names compared as byte strings. |
| C32 | A stored manifest is complete at every moment | store operations of the builder as traces, every prefix a crash point | trace induction: what is referred to was written before | `Manifest.Closed` | proved | Every history of edits, flushes and loads; every prefix of the store operations is a crash point. |
| C33 | Prioritised assets are processed first, nothing gets lost | directory comparison, pending queue, pruning | sorted merge induction; traces | `Updater.Queue` | proved |  |
| C34 | Files are classified correctly before syncing | file diff, finder, deletion, batching | sorted-merge induction; list lemmas | `Sync.DiffProps` | proved | Every client and server list, any order of elements with equal paths after std::sort. |
| C35 | Files in the destination take precedence over the copy-dest directory | file diff, finder, deletion, batching | sorted-merge induction; list lemmas | `Sync.Diff` | proved | Any listing of both directories. |
| C36 | Extraneous directories are removed after everything in them | file diff, finder, deletion, batching | sorted-merge induction; list lemmas | `Sync.Batch` `Sync.Delete` | proved | Any listing and size limit. |
| C37 | File lists and index lists survive batching | file diff, finder, deletion, batching | sorted-merge induction; list lemmas | `Sync.Batch` | proved | Any list of found entries, any batch size. |
| C38 | An interrupted sync is never mistaken for a finished one | file system steps of copying and patching, a crash after every prefix of every interleaving | invariant on the steps of each file | `Sync.CrashProps` | proved | Every crash point and interleaving of all transfers in small steps, destination without links. |
| C39 | Client and server never disagree about the next message | client thread, both server threads and bounded queues as a transition system | confluence: one finishing run gives all; the run is exhibited for all inputs | `Sync.ProtocolProps` | proved | Every option combination, comparison outcome, message count, CanReceive timing and interleaving of the three threads, with back-pressure. |
| C40 | Server error text is separated from normal output however the output is cut | byte-wise demultiplexer over arbitrary pieces | induction over pieces | `Text.Demux` | proved | Every NUL-free stream and every split; C40_nul_matters shows why NUL bytes are excluded (the handler treats a read as a C string). What atoi does with the port field is a parameter. |
| C41 | The first matching filter rule decides | matcher at pointer level with an out-of-bounds outcome | induction | `Text.Filter` | partial | Every rule list and non-empty path for which the matcher does not leave the path (C42); always answers for simple patterns. |
| C42 | Wildcard patterns match as documented | matcher at pointer level with an out-of-bounds outcome | induction | `Text.Filter` | partial | False of the code: the remaining length is not reduced when characters are consumed, so for patterns with two or more fixed characters before an inner star the matcher reads behind the end of every non-matching path (C42_every_long_prefix_violated; even the unit test does). Matching paths are always recognised, answers are always right; the empty path is wrong for ** (C42_empty_path_violated). |
| C43 | The thread pool runs every task exactly once | transition systems of thread pool, opener, semaphore, compression streams; zstd as a codec with stated assumptions | inductive invariants over all schedules | `Threads.Pool` | proved | Every number of threads, schedule and client. Tasks are taken to return. After shutdown with tasks still queued a waiter is never released (C43_shutdown_strands_waiters), so progress is stated for pools not shut down. |
| C44 | Files opened in parallel come back in request order | transition systems of thread pool, opener, semaphore, compression streams; zstd as a codec with stated assumptions | inductive invariants over all schedules | `Threads.Opener` | proved | Every completion order, number of files and threads; at most 257 files are in flight. |
| C45 | Command line quoting for Windows is lossless | quoting, paths, flags, terminal filter | induction on strings | `Text.Quote` | proved | Every byte string. |
| C46 | Path joining and splitting are inverse | quoting, paths, flags, terminal filter | induction on strings | `Text.Path` | proved | Byte strings, Linux and Windows separators; the exact split is given without relying on the helpers of the model. |
| C47 | Sizes given as flags are parsed to the number they denote | quoting, paths, flags, terminal filter | induction on strings | `Text.Flags` | partial | False of the code: sizes over 2^64 wrap around, a hexadecimal size ending in b is cut. Proved for all other texts. |
| C48 | The semaphore never lets more holders in than it has permits | transition systems of thread pool, opener, semaphore, compression streams; zstd as a codec with stated assumptions | inductive invariants over all schedules | `Threads.Semaphore` | proved | Every schedule with spurious wakeups and barging. count_ as an unbounded integer. |
| C49 | The compression stream sends all data in order | transition systems of thread pool, opener, semaphore, compression streams; zstd as a codec with stated assumptions | inductive invariants over all schedules | `Threads.Unzstd` `Threads.Zstd` | proved | Every schedule, buffer size, write size and compressor behaviour allowed by the zstd documentation (structures Codec and Decoder, not proved about zstd itself), including the receiving side: end to end. |
| C50 | An instance is streamed from at most one directory | session manager and service as histories of calls; processes arbitrary | inductive invariants | `Stream.Service` `Stream.Sessions` | proved | Every history of start/stop/exit requests with arbitrary failures and hash map orders. The filter is the wildcard matcher of C42, so mount directories containing * or ? stop more sessions. |
| C51 | No request touches a freed file system node | nodes with addresses, kernel reference counts, manifest replacement level by level | inductive invariants over all histories | `FuseFs.Inodes` | proved | All histories. |
| C52 | Shortening a cache path keeps the distinguishing hash | cache directory names, UTF-8 lengths | induction on strings | `Text.CachePath` | proved | Every directory, base directory and limit; GetFullPath is not modelled. The assertion at multi_session.cc:637 holds (the hash is never cut). |
| C53 | Delta sync sends only the data the server lacks | signature, diff and patch pipeline; the chunk hash, the arrival of signatures and the finishing of hash tasks are parameters | simulation of the sender by the list of client chunks; undefined behaviour is an outcome | `Delta.Props` | proved |  |
| C54 | A flushed manifest can be loaded, extended and flushed again | builder with asset list cache keyed by content id; histories of loading, editing, flushing | simulation by operations on plain file trees; the aliasing counterexample | `Manifest.Alias` | partial | False of the code: a file already cut to its share of the limit is over it again by its list references (C54_flush_always_works_violated). Holds when no file of the directory has indirect lists. |
| C55 | An update repairs a manifest with missing parts | whole sync on the server file system | composition of C34-C37 with the effect of every transfer | `Updater.ScanProps` | partial | Missing entries of directories are repaired; a lost indirect chunk list of an otherwise unchanged file is not noticed (C55_missing_chunks_repaired_violated). |
| C56 | A manifest update terminates | whole sync on the server file system | composition of C34-C37 with the effect of every transfer | `Updater.Run` | partial | Bounded number of iterations for all runs. The loop can wait for ever for a task that was never queued: a deadline that passes between two checks, or a directory that is not found (C56_*_violated). |
| C57 | A successful sync makes the destination equal to the source | whole sync on the server file system | composition of C34-C37 with the effect of every transfer | `Sync.RunExample` `Sync.RunProps` | partial | All options, trees and finalisation orders, destination without symbolic links. False of the code for a client file that has the name of the temporary file of another client file (C57_temp_name_violated); the theorem excludes such names. |
| C58 | A sync changes nothing outside the destination directory | whole sync on the server file system | composition of C34-C37 with the effect of every transfer | `Sync.RunExample` | partial | False of the code with symbolic links in the destination: they are followed when a client file of the same name is written (C58_symlink_violated). Proved without links. |
| C59 | A sync that reports success has written every byte | file system steps of copying and patching, a crash after every prefix of every interleaving | invariant on the steps of each file | `Sync.CrashExample` `Sync.CrashProps` | partial | False of the code: the result of fclose is ignored, so buffered data can be lost without an error (C59_lost_data_violated). Holds if closing loses nothing. |
| C60 | Different source directories do not share a cache | cache directory names, UTF-8 lengths | induction on strings | `Text.CachePath` | partial | False of the code on Linux for every path with a backslash (C60_backslashes_violated); proved for all other paths. |
| C61 | A directory whose streaming failed once can be streamed again | session manager and service as histories of calls; processes arbitrary | inductive invariants | `Stream.Service` `Stream.Sessions` | partial | False of the code: the status of a failed runner is kept for ever and its MultiSession can never be removed. Proved when the directories involved have not failed and everything works. |
| C62 | A session that cannot be started is reported as an error | two processes per session, arbitrary exits and outputs | case analysis over all process behaviours | `Stream.Fuse` | partial | False of the code: exact conditions for a null pointer crash (C62_crash_iff). Assertions are taken to be compiled out; with them the crash is an abort. |
| C63 | The streaming service can be told to exit | session manager and service as histories of calls; processes arbitrary | inductive invariants | `Stream.Service` | partial | False of the code: Exit runs its callback only once, and after a failed exit the already shut down directories crash the service when streamed again. The first exit works if all sessions can be stopped and no directory has failed. |
| C64 | The port of the remote component is read correctly however its output arrives | two processes per session, arbitrary exits and outputs | case analysis over all process behaviours | `Stream.Fuse` | proved | Every split, port and surrounding text without earlier markers. atoi without leading blanks or sign. |
| C65 | A new manifest is taken over without disturbing the mounted file system | nodes with addresses, kernel reference counts, manifest replacement level by level | inductive invariants over all histories | `FuseFs.Update` | partial | False of the code: if a loaded node is in an indirect list of a directory other than the root, every complete run of the update accesses a freed proto (C65_use_after_free_violated), and a fetch failure invalidates nodes. Safety and the exact result are proved otherwise, for all schedules. |
| C66 | A request that had to wait is answered for what was asked | requests at any thread and time against updates | invariant of the queue over all schedules | `FuseFs.Queue` | partial | False of the code: the queue keeps a pointer to the name in the buffer of the worker thread. Proved for histories in which such a thread receives nothing meanwhile. |
| C67 | No waiting request is forgotten | requests at any thread and time against updates | invariant of the queue over all schedules | `FuseFs.Queue` | proved | All interleavings of arrivals with the phases of SetManifest. |
| C68 | A program that opens a streamed file reads what is in it then | file system answers together with the kernel cache and directory reading | invariants over histories of the kernel and programs | `FuseFs.Cache` | partial | False of the code: a second manifest after a change resets the mark that makes the kernel drop its pages (stale content for ever), and opening a file clears the mark for all who have it open (mixture of versions). Proved if a changed file is opened before the next manifest arrives. Pages of one file of constant size; the kernel as in fs/fuse/file.c without automatic invalidation. |
| C69 | Listing a directory that does not change gives every entry exactly once | file system answers together with the kernel cache and directory reading | invariants over histories of the kernel and programs | `FuseFs.Listing` | proved | Byte-exact model of the buffer and of the kernel parser. |
| C70 | Access to streamed files is granted by the rules of POSIX | file system answers together with the kernel cache and directory reading | invariants over histories of the kernel and programs | `FuseFs.Access` | partial | False of the code: classes of rights are united, the group of root is allowed everything, and the caller is taken from fuse_get_context(), which is not set in a low-level session. Equal to POSIX for usual modes given the right context. |
| C71 | A manifest built from scratch reads back exactly as it was built | builder with asset list cache keyed by content id; histories of loading, editing, flushing | simulation by operations on plain file trees; the aliasing counterexample | `Manifest.Flush` | proved | Refinement of the builder's operations to a map from paths to assets for trees without indirect lists, and preservation of the read-back view by Flush (which creates the lists). Covers the first flush of a manifest; for later flushes see C30. |
| C72 | The collected changes of a directory lead to the same result as the changes themselves | changer, watcher thread and runner thread as one transition system | labelled steps: clean runs converge; one violation per kind of unclean step | `Stream.Watcher` | partial | False of the code for a file that existed, is deleted, written and deleted again: the entry is erased (C72_collected_changes_complete_violated). C72_collected_changes_complete_iff_partial says exactly when it fails. |
| C73 | No collected change is forgotten | changer, watcher thread and runner thread as one transition system | labelled steps: clean runs converge; one violation per kind of unclean step | `Stream.WatchLoop` | proved | All interleavings of directory, watcher thread and runner thread, including failures. |
| C74 | What is streamed catches up with the directory | changer, watcher thread and runner thread as one transition system | labelled steps: clean runs converge; one violation per kind of unclean step | `Stream.WatchExample` `Stream.WatchProps` | partial | False of the code for five independent reasons, each with a run (C74_*_violated): entries erased for known files (two scenarios), directories moved with contents, changes between the callback and the first ReadDirectoryChanges call, unreadable files, failed updates. Proved for every run without these five kinds of steps (C74_catches_up_partial), including lost notifications, re-created directories and scans that run concurrently with changes. |
| C75 | Every listening client is told the current manifest | server threads per client, client acknowledgements | inductive invariants over all schedules | `Stream.Config` | proved | All interleavings with any number of clients. gRPC delivers written messages in order (assumed). |
| C76 | A session that has started shows the current manifest | server threads per client, client acknowledgements | inductive invariants over all schedules | `Stream.Config` | partial | False of the code when a client is restarted on an instance: the old acknowledgement counts (C76_restart_violated). Proved with one client per instance, in both directions. |
| C77 | Clients end up with the current manifest | server threads per client, client acknowledgements | inductive invariants over all schedules | `Stream.Config` | partial | False of the code after a failed load or a failed write: neither is repeated (C77_*_violated). Proved if these do not fail. |
| C78 | A chunk request returns the chunks or fails | answers to chunk requests; chunk index under watcher operations | case analysis; invariant | `Stream.Content` | partial | False of the code for files that changed after chunking: short reads are padded with zeros and answered as success. Proved for unchanged files. |
| C79 | The chunk index lists the files that there are | answers to chunk requests; chunk index under watcher operations | case analysis; invariant | `Stream.ChunkIndex` | partial | False of the code for deletions below the top level (backslashes), of directories, and for files replaced by directories (C79_*_violated). Proved for the remaining changes. |
| C80 | A manifest that is changed and saved again and again always reads back as the file tree | builder with asset list cache keyed by content id; histories of loading, editing, flushing | simulation by operations on plain file trees; the aliasing counterexample | `Manifest.Flush` `Manifest.MultiHist` | partial | Every history of edits, deletions, flushes and loads with one store, with directories moved to asset lists and lists split again. Proved for histories in which, at each flush, no list in the store could be a list of two directories (Unshared: so it is if no two directories have an identical entry, and if no directory is split); without that it is false of the code (C30_changes_stay_local_violated). Success of Flush itself is a premise of each flush step (see C54). AppendChunk is excluded: on a file with chunk lists it appends in the wrong place. |
| C81 | After an update, the manifest is the source directory | the whole update: scan, operations, tasks in any order, intermediate and final flush, pushed manifests | simulation by the file tree over all schedules, composed with C80, C28, C25 | `Updater.Twins` `Updater.UpdateProps` | partial | UpdateAll with the builder, the store, the scanner and the chunking tasks in one model; the tree the manifest must have is defined from the source directory alone (want). Proved when the source does not change during an update, all tasks succeed, a changed file differs in time or size, and no asset list in the store could be a list of two directories, which is so if no two directories have an entry with the same name, kind, time and size, or if no directory is large enough to be split (twins_example: twins and a split directory); otherwise in-memory lists may be shared, see C30. Without the condition on asset lists it is false of the code (C81_equal_directories_violated: two equal directories that are split, a change to a file in one shows up in the other). |
| C82 | What is mounted is the source directory | the whole update: scan, operations, tasks in any order, intermediate and final flush, pushed manifests | simulation by the file tree over all schedules, composed with C80, C28, C25 | `Updater.Mounted` `Updater.Twins` | partial | End to end: composes C01, C81, C25 and C26 on one store. Partial for the reasons of C81 (no changes during an update, all tasks succeed, no asset list that could be one of two directories); the completeness of lookups needs that no other thread uses the same directory at the same time (C86_lookup_race_violated). Without the condition on asset lists it is false of the code (C82_equal_directories_violated: two equal directories that are split, a change to a file in one shows up in the other). |
| C83 | No stray file in the cache directory is taken for a chunk | disk store (files, times, cached total) and memory store; histories of operations with failures and crashes | refinement to a finite map; invariants; cleanup by induction on the sorted list | `Store.Props` | partial | False of the code: separators are ignored at any position, so a stray file is taken for a chunk and pruning then deletes a chunk that was to be kept (C83_stray_file_mistaken_violated). The exact set of recognised names is proved. |
| C84 | Cleanup enforces the capacity also after a failed write | disk store (files, times, cached total) and memory store; histories of operations with failures and crashes | refinement to a finite map; invariants; cleanup by induction on the sorted list | `Store.Props` | partial | False of the code (C84_failed_write_violated): the bytes are on disk but not counted. Without such a failure: C18. |
| C85 | Reading a whole chunk gives the right bytes from a possibly damaged cache | nondeterministic programs over the cache and the readers: failures, crashes and other threads between any two primitives | Hoare-style case analysis with an invariant for the cache | `Provider.Props` | partial | False of the code after a torn cache write (C85_whole_chunk_read_violated): the short file is returned as success. Proved: always a prefix, and the right chunk if no write was torn. |
| C86 | Concurrent lookups find every child | assets with atomic steps under their mutex, other threads between any two | Hoare-style triples over interleavings | `Asset.Dir` | partial | False of the code (C86_lookup_race_violated): a lookup can report an existing name as missing if another thread loads the last indirect list in between. Proved otherwise: C26. |
| C87 | Pruning after an update keeps the manifest complete | directory comparison, pending queue, pruning | sorted merge induction; traces | `Updater.Run` | partial | False of the code after a failed or skipped directory scan: only the status of the last task counts. Proved if every directory is found and every scan can be applied. |
| C88 | --existing creates nothing | file diff, finder, deletion, batching | sorted-merge induction; list lemmas | `Sync.DiffProps` | partial | False of the code with --copy-dest: a file found only in the copy-dest directory is still created (C88_existing_creates_files_violated). Proved without. |
| C89 | Everything extraneous is deleted | file diff, finder, deletion, batching | sorted-merge induction; list lemmas | `Sync.Delete` | partial | False of the code when an extraneous directory contains an excluded file: its deletion fails and with it the sync (C89_excluded_file_violated). Proved if everything below an extraneous directory is extraneous. |
| C90 | A patched file is replaced as a whole | file system steps of copying and patching, a crash after every prefix of every interleaving | invariant on the steps of each file | `Sync.CrashExample` `Sync.CrashProps` | partial | False of the code if closing the patched file fails: the error is ignored and the truncated file replaces the old one (C90_patched_violated). Proved otherwise for every crash point. |
| C91 | Client and server finish the protocol | client thread, both server threads and bounded queues as a transition system | confluence: one finishing run gives all; the run is exhibited for all inputs | `Sync.ProtocolExample` `Sync.ProtocolProps` | partial | False of the code: for very large files both sides block for ever (C91_deadlock_violated). The exact condition under which sessions finish is proved (C91_finishes_iff), also in bytes. Each direction is one bounded FIFO. |
| C92 | A file that cannot be opened is reported | transition systems of thread pool, opener, semaphore, compression streams; zstd as a codec with stated assumptions | inductive invariants over all schedules | `Threads.Opener` | partial | False of the code in every schedule: the process aborts instead of returning null (C92_failed_open_aborts_violated). C92_aborts_only_then: it aborts at the first file that cannot be opened and nowhere else; all calls before return their files. |
| C93 | Command line quoting for ssh is lossless | transition systems of thread pool, opener, semaphore, compression streams; zstd as a codec with stated assumptions | inductive invariants over all schedules | `Text.Quote` | partial | False of the code for arguments with $ or backtick, which are not escaped. C93_ssh_exactly: the argument arrives as meant if and only if there is neither. |
| C94 | Port ranges are parsed to the numbers they denote | quoting, paths, flags, terminal filter | induction on strings | `Text.Flags` | partial | Every accepted range is valid (C94_always_valid), numbers are read rightly (C94_port_range_partial). False of the code: what follows a number is ignored, for every number (C94_garbage_violated), and numbers over 2^32 are accepted (C94_port_violated). |
| C95 | Removing ANSI sequences keeps the text | quoting, paths, flags, terminal filter | induction on strings | `Text.Flags` | proved | Every input made of text and complete sequences; sublist for every input. |
| C96 | Removing ANSI sequences keeps UTF-8 text | quoting, paths, flags, terminal filter | induction on strings | `Text.Flags` | partial | False of the code: characters with bytes 0x90, 0x9B or 0x9D are taken for introducers (C96_utf8_violated). C96_exactly: the exact condition under which a text is left unchanged. Text and sequences mixed: C95. |
| C97 | An error of the compression thread is reported | quoting, paths, flags, terminal filter | induction on strings | `Threads.Zstd` | partial | False of the code in one case: an error of the thread before the constructor assigns status_ is lost and Finish hangs (C97_startup_error_lost_violated). Later errors are reported. |
| C98 | File system nodes are freed when the kernel forgets them | nodes with addresses, kernel reference counts, manifest replacement level by level | inductive invariants over all histories | `FuseFs.Inodes` | partial | False of the code: each directory listing counts a reference the kernel does not know, and a removed directory that was forgotten before its last child stays in invalid_inodes for ever. The exact statement is proved for histories of lookups and forgets, and with updates for everything but such leftovers. |
| C99 | No process of a streaming session is left behind | two processes per session, arbitrary exits and outputs | case analysis over all process behaviours | `Stream.Fuse` | proved | Every combination of failures of the steps. |
| C100 | An exit ends all streaming, and nothing else takes the service down | session manager and service as histories of calls; processes arbitrary | inductive invariants | `Stream.Service` | proved | Every history of calls, failures and hash map orders. |
| C101 | Listing a directory while it changes | file system answers together with the kernel cache and directory reading | invariants over histories of the kernel and programs | `FuseFs.Listing` | partial | False of the code: entries are lost and repeated, or the listing fails with EIO. Without changes: C69. |
| C102 | Temporary files leave no trace in the collected changes | changer, watcher thread and runner thread as one transition system | labelled steps: clean runs converge; one violation per kind of unclean step | `Stream.Watcher` | proved | All sequences of changes and notifications. |
| C103 | A chunk request succeeds exactly if the chunks can be found | answers to chunk requests; chunk index under watcher operations | case analysis; invariant | `Stream.Content` | proved | All index contents, requests and readers. |
| C104 | Waiting requests other than lookups are answered for what was asked | requests at any thread and time against updates | invariant of the queue over all schedules | `FuseFs.Queue` | proved | All histories. |
| C105 | The rsync command line is parsed as it is meant | parameters and environment of cdc_rsync | induction over arguments | `Text.Params` | proved | All command lines of the grammar, all file systems and environments; warnings are not modelled. |
| C106 | Every option of the help text is understood | parameters and environment of cdc_rsync | induction over arguments | `Text.Params` | partial | False of the code: --verbose is documented, but only --verbosity and -v are known. All other options of the help text are proved to work. |
| C107 | Nothing on the command line is silently ignored | parameters and environment of cdc_rsync | induction over arguments | `Text.Params` | partial | False of the code: a value given to a flag is ignored (--delete=false deletes), numbers are read with atoi, empty arguments and lone dashes are dropped. Proved for command lines without these. |
| C108 | cdc_rsync exits with code 0 exactly if the sync was successful | one run of the client against an arbitrary environment | case analysis over all environments | `Sync.Client` | partial | False of the code at this commit: the socket the client sends to is never connected (Connect is only called on a temporary socket in WaitForConnection), so no run exits with code 0. With that connection assumed the equivalence is proved. |
| C109 | The server is deployed when and only when it is needed, at most once | one run of the client against an arbitrary environment | case analysis over all environments | `Sync.Client` | proved | All environments. |
| C110 | The other exit codes of cdc_rsync say what happened | one run of the client against an arbitrary environment | case analysis over all environments | `Sync.Client` | proved | All environments. |
| C111 | The client connects to the port the server announced | one run of the client against an arbitrary environment | case analysis over all environments | `Sync.Client` | partial | False of the code if an earlier server of the same run announced a port before it exited: the port is not reset. Proved if earlier servers announced nothing. |
| C112 | The server reads the components the client passed | component lists and deployment command files | round trip; order independence | `Text.Components` | partial | False where long has 32 bits (Windows server) for files modified after January 2038: std::stol throws. C112_exactly: components arrive if and only if all sizes and times are in the range of long, otherwise none arrives. |
| C113 | The up-to-date check compares components as documented | component lists and deployment command files | round trip; order independence | `Text.Components` | partial | False of the code: operator== looks at its own build version twice. C113_exactly: accepted if and only if fresh and there is no local server that is compared with a released client; nothing that is not fresh is accepted. |
| C114 | A server process that passes the check is of the client's release | component lists and deployment command files | round trip; order independence | `Text.Components` | proved | All histories; two binaries with the same release version are assumed to be the same. |
| C115 | A server process that passes the check is of the client's local build | component lists and deployment command files | round trip; order independence | `Text.Components` | partial | False if the file is replaced between the start of the process and its check. Proved otherwise. |
| C116 | A file system that passes the check runs with the client's files | component lists and deployment command files | round trip; order independence | `Text.Components` | partial | False for releases: the version compared for libfuse.so is that of the running program, and files are written in place. Proved for local builds. |
| C117 | Bytes arrive from server to client as they were sent | socket calls with scripts of kernel answers | induction over scripts | `Pump.Sockets` | proved | All scripts of kernel answers; a script that ends is a call that blocks. |
| C118 | Bytes arrive from client to server as they were sent | socket calls with scripts of kernel answers | induction over scripts | `Pump.Sockets` | partial | False of the code: the client makes one call of send and ignores how many bytes it accepted. Proved if whole buffers are accepted. C118_exactly: what can be on the way to the server if all calls succeed; C118_whole_iff: it is right if and only if no buffer was cut. |
| C119 | Starting and stopping a streaming session by its name | commands, settings and exit codes | string induction; case analysis | `Stream.Commands` | partial | False of the code for directories with * or ? in their names (stop takes them for patterns) and for * if sessions were started by resource name. Proved for all histories of commands otherwise; patterns are those the matcher decides (C42). |
| C120 | A directory of a host is streamed to from one source directory | commands, settings and exit codes | string induction; case analysis | `Stream.Commands` | partial | False of the code for every place and every two different ways to write it (C120_every_spelling_violated; trailing slash, user name left out). Proved for the same spelling. |
| C121 | Instances with a resource name | commands, settings and exit codes | string induction; case analysis | `Stream.Commands` | proved | All names and outputs; an empty host is accepted. |
| C122 | The manifest recovers from disturbed and interrupted updates | the whole update: scan, operations, tasks in any order, intermediate and final flush, pushed manifests | simulation by the file tree over all schedules, composed with C80, C28, C25 | `Updater.Heal` `Updater.HealExample` `Updater.Twins` | partial | False of the code for empty files that once could not be read: they stay executable. Proved otherwise for all histories, if no asset list in the store could be a list of two directories, which is so if no two directories have an entry with the same name, kind, time and size, or if no directory is large enough to be split (twins_example: twins and a split directory), and if a file seen with its present time had its present content from then on; the store is not pruned (C87). Without the condition on asset lists it is false of the code (C122_equal_directories_violated: two equal directories that are split, a change to a file in one shows up in the other). |
| C123 | The manifest has nothing that was not in the source directory | the whole update: scan, operations, tasks in any order, intermediate and final flush, pushed manifests | simulation by the file tree over all schedules, composed with C80, C28, C25 | `Updater.Heal` `Updater.Twins` | partial | All histories and schedules, pushes at any moment, if no asset list in the store could be a list of two directories, which is so if no two directories have an entry with the same name, kind, time and size, or if no directory is large enough to be split (twins_example: twins and a split directory) (C30); the store is not pruned (C87). Without the condition on asset lists it is false of the code (C123_equal_directories_violated: two equal directories that are split, a change to a file in one shows up in the other). |
| C124 | Disturbances are local | the whole update: scan, operations, tasks in any order, intermediate and final flush, pushed manifests | simulation by the file tree over all schedules, composed with C80, C28, C25 | `Updater.Heal` `Updater.HealExample` `Updater.Twins` | partial | As C123; a file that once had its present time and size has its present content (see C122). Without the condition on asset lists it is false of the code (C124_equal_directories_violated: two equal directories that are split, a change to a file in one shows up in the other). |
| C125 | Displayed progress never goes backwards | progress tracker as a state machine | invariant over all histories; number formatting for all sizes | `Sync.Progress` | proved | All sequences of calls, times and settings. Floating point: any rounding that is monotone, exact on integers up to 2^53 and does not round the numbers just below 1 and 100 up to these. Counters are natural numbers (no overflow). |
| C126 | Displayed progress ends at 100% | progress tracker as a state machine | invariant over all histories; number formatting for all sizes | `Sync.Progress` | partial | False of the code if all transferred files are empty (0/0 is shown as 0%) and in a dry run with new files. Proved otherwise. |
| C127 | 100% means that all is done | progress tracker as a state machine | invariant over all histories; number formatting for all sizes | `Sync.Progress` | proved | If less than 2^53 bytes were announced and no more than announced are reported. |
| C128 | Progress is shown at the right rate | progress tracker as a state machine | invariant over all histories; number formatting for all sizes | `Sync.Progress` | proved | All sequences of calls. The clock does not go back. |
| C129 | Progress lines have the right width | progress tracker as a state machine | invariant over all histories; number formatting for all sizes | `Sync.Progress` | proved | Bytes, not characters (the code has a TODO about UTF-8). Speeds, times and the whole text are C214. |
| C130 | A reserved port is not reserved by anybody else | processes on shared memory with interlocked operations; netstat text | ownership invariant over all interleavings; string lemmas | `Threads.Ports` | partial | False of the code: if no port is marked as unused the one reserved the longest time ago is given away, and ports that were not available for a moment stay marked because the arguments of the second exchange are swapped. Proved for all interleavings if only ports marked as unused are returned, and for reservations one after the other if all ports are available and enough. |
| C131 | A reserved port was available | processes on shared memory with interlocked operations; netstat text | ownership invariant over all interleavings; string lemmas | `Threads.Ports` | proved | All interleavings and crashes. Availability is what netstat showed (C133). |
| C132 | Ports are not lost | processes on shared memory with interlocked operations; netstat text | ownership invariant over all interleavings; string lemmas | `Threads.Ports` | proved | All states; the times are those in the shared memory. |
| C133 | The ports offered are those not in use | processes on shared memory with interlocked operations; netstat text | ownership invariant over all interleavings; string lemmas | `Text.Netstat` | partial | False of the code: only one address is looked for (127.0.0.1 on Windows, 0.0.0.0 on Linux), and a port number that is the beginning of another is mistaken for it. Proved exact for this address and ports of five digits. |
| C134 | A directory iteration finds everything once | iteration over trees with reused handles and failing calls | induction over trees | `Util.DirIter` | partial | False of the code for sockets and block devices (the iteration ends with an error, because the type is tested with a bit mask) and for file systems that do not give the types of entries (nothing is found). Proved for trees of files, symlinks, FIFOs, character devices and directories. The tree does not change during the iteration. |
| C135 | Entries are what they are said to be | iteration over trees with reused handles and failing calls | induction over trees | `Util.DirIter` | partial | False of the code: the types are tested as bit masks, so every regular file is said to be a symlink and every symlink a regular file. Directories are told right. |
| C136 | The indexer counts everything once | indexer threads with one step per critical section | balance account over all schedules; well-founded progress | `Indexer.Props` | partial | False of the code if the number of threads is not given and hardware_concurrency() is 0 (Run succeeds, nothing was read), and on file systems without entry types (C134). Proved otherwise, for hashes without collisions; the counters do not reach 2^64. |
| C137 | The indexer reports an error if and only if something cannot be read | indexer threads with one step per critical section | balance account over all schedules; well-founded progress | `Indexer.Props` | partial | Symlinks to directories and files without permission end the whole run, though directories without permission are skipped. Proved to be exact for trees as in C134. |
| C138 | Chunks are counted in the smallest bucket they fit in | indexer threads with one step per critical section | balance account over all schedules; well-founded progress | `Indexer.Buckets` | proved | All sizes up to 2^63. |
| C139 | The table of chunk sizes is complete | indexer threads with one step per critical section | balance account over all schedules; well-founded progress | `Indexer.Buckets` | proved | All distributions with sizes up to 2 GB. |
| C140 | The results file has the distribution | indexer threads with one step per critical section | balance account over all schedules; well-founded progress | `Indexer.Buckets` | partial | False of the code if the minimum or the maximum chunk size is not a power of two or a bucket (chunks are left out or counted twice), and if there are no chunks (division by 0). |
| C141 | Every configuration of the indexer is made valid | Indexer/Model.lean: the defaulting of the configuration; Indexer/Overflow.lean: the same with 64 bit sizes, and the loop of the chunker with the resulting maximum | case analysis; induction on the passes of the loop | `Indexer.Overflow` `Indexer.Props` | partial | Partial: with 64 bit sizes C141_config holds for every average below 2^63 (C141_fits); for larger ones doubling overflows and the chunker gets parameters it does not accept (C141_huge_violated), with exactly 2^63 it never ends (C141_hangs_violated). |
| C142 | The configuration file overrides the flags | commands, settings and exit codes | string induction; case analysis | `Stream.Settings` `Stream.SettingsExact` | partial | False of the code: a value of another type, or JSON that is no object, ends the service with an exception; numbers that do not fit are cut to 16 or 32 bits; the documented settings forward-port-first and -last are ignored. C142_exactly: the exact behaviour for every object of the file. jsoncpp is not modelled. |
| C143 | The exit code of cdc_stream | commands, settings and exit codes | string induction; case analysis | `Stream.Settings` | partial | False of the code: arguments that are not accepted by the argument parser lead to exit code 0, because "no command was run" is taken for a call without arguments. Proved for accepted arguments; the parser (lyra) is not modelled. |
| C144 | The consistency check of the mounted directory | consistency check on partially loaded assets | loop invariant against an independent specification | `Asset.Consistent` | partial | False of the code for a first chunk that does not start at 0 and for lists of chunks that are not loaded (both accepted). No false alarms: proved for all well-formed entries and all loaded states. |
| C145 | Every source file is found, once | searching sources and destinations, names of what is found, expansion of the destination | induction over trees; string lemmas | `Sync.Search` | partial | False of the code: what is in a directory whose own name matches the pattern is found twice, and a pattern with ? but without * is not searched for in subdirectories. Proved exactly otherwise. The matching of names (FindFirstFile) is a parameter; the tree does not change during the search. |
| C146 | A source directory that cannot be read is not taken for an empty one | searching sources and destinations, names of what is found, expansion of the destination | induction over trees; string lemmas | `Sync.Search` | partial | False of the code: proved that for all trees and sources the search gives the same for a directory that cannot be read as for an empty one. Proved complete if all can be read. |
| C147 | Where source files land | searching sources and destinations, names of what is found, expansion of the destination | induction over trees; string lemmas | `Sync.Sources` | partial | False of the code for a name directly behind a drive letter (C:f crashes the client) and for doubled separators (the file is announced under a name that begins with a separator). Proved for all other sources, in both kinds of separators. |
| C148 | Where source files land with --relative | searching sources and destinations, names of what is found, expansion of the destination | induction over trees; string lemmas | `Sync.Sources` | partial | False of the code for sources that begin with . or .. (taken literally by the server: never equal to what is there, or outside the destination) and for C:f (crash). Proved for all other sources in the three ways. |
| C149 | The files at the destination are found | searching sources and destinations, names of what is found, expansion of the destination | induction over trees; string lemmas | `Sync.SearchLinux` | partial | False of the code: proved that for every destination that is a symlink to a directory nothing is found, that the server crashes if the destination is a file, or written with two or more slashes at its end and has a file as its first entry. Proved exactly for directories written with one slash. The behaviour of nftw is that of glibc. |
| C150 | The destination is the one asked for | searching sources and destinations, names of what is found, expansion of the destination | induction over trees; string lemmas | `Sync.Expand` | partial | False of the code: proved that every destination with a blank is refused and that every destination with a shell-reserved character leads to undefined behaviour (the return value of wordexp is ignored). Proved for all destinations of ordinary characters. Expansions of wordexp are not modelled. |
| C151 | Buffers keep their bytes | buffers over a heap with arbitrary placement | inductive invariant over all histories | `Util.Buffer` | proved | Heap model with arbitrary placement by realloc; realloc never fails and sizes do not overflow. |
| C152 | Buffers do not leak, free twice or move needlessly | buffers over a heap with arbitrary placement | inductive invariant over all histories | `Util.Buffer` | proved | Same model; the cost is counted in bytes realloc has to keep. |
| C153 | Splitting and joining strings | split loop over positions | induction | `Text.Split` | proved | The loop over positions is modelled; reserved capacity is not. |
| C154 | A file written successfully has the bytes written | stdio streams with arbitrary buffering on a disk with limited room | case analysis over all runs | `Store.Stdio` | partial | False of the code: the result of fclose is ignored, so every data that fits into the stdio buffer but not on the disk is cut off with success reported (proved, also for the chunk cache). Proved: with room everything is written. |
| C155 | Reading a file | stdio streams with arbitrary buffering on a disk with limited room | case analysis over all runs | `Store.Stdio` | proved | Contents are those at two moments: size and read. |
| C156 | The directory of the program | readlink into uninitialised memory | string lemmas | `Text.ExeDir` | partial | False of the code: readlink does not terminate the string and the buffer is not initialised; proved for all left-over memory without a separator before its first zero, and violated for all with a separator followed by a name. |
| C157 | Modification times survive a round trip on Windows | 64 bit conversions with overflow as an outcome | linear arithmetic over all values | `Util.FileTime` | partial | False of the code only before 1601 (clamped). Proved for all later times and all FILETIMEs. |
| C158 | The output of a child process is handed over | transition system of the child, its descendants, pipes, the reading thread and the owner | invariants over all interleavings; a measure for termination; explicit runs | `Threads.Process` | partial | False of the code: the thread stops as soon as it sees the exit of the process, also with output in the pipes (any output can be lost as a whole, C158_output_lost_violated). Proved: at any time what was handed over is a prefix, in pieces of 1 to 4095 bytes; and it is everything once the end of the stream was found. Pipes, overlapped reads, WaitForMultipleObjects and job objects are modelled as documented; writes of zero bytes are not. |
| C159 | Exit codes are those of the process | transition system of the child, its descendants, pipes, the reading thread and the owner | invariants over all interleavings; a measure for termination; explicit runs | `Threads.Process` | proved | All histories of one process: one Start, any number of RunUntilExit, one Terminate or destructor, with all failures of reads and waits. RunUntil with another exit condition is not modelled. |
| C160 | The end of a process is noticed | transition system of the child, its descendants, pipes, the reading thread and the owner | invariants over all interleavings; a measure for termination; explicit runs | `Threads.Process` | partial | False of the code if another process that has the pipe keeps writing to it (C160_never_noticed_violated); proved if nothing is written any more. |
| C161 | Terminated processes are gone | transition system of the child, its descendants, pipes, the reading thread and the owner | invariants over all interleavings; a measure for termination; explicit runs | `Threads.Process` | partial | False of the code if the process cannot be assigned to the job: Start fails, the process goes on and Terminate does not end it (C161_start_failed_violated). Proved for processes whose Start succeeded, also if TerminateProcess fails, because the job is closed. |
| C162 | Output of processes is logged line by line | loop over the characters | induction; inductive specification of lines | `Text.LogOutput` | partial | False of the code for output with zeros (C162_exactly: only the part before the first zero is logged; C162_lost_exactly) and for lines that are read in two pieces (logged as two, the second one with another level). Proved for all other output. |
| C163 | The command lines of ssh and sftp have the intended arguments | Text/CommandLine.lean: the format strings of remote_util.cc as functions on byte strings; the split of a command line as a relation by the Microsoft rules of Text/Quote.lean | a command prefix is Whole if it stands for its arguments whatever follows; words, quoted arguments and concatenations are Whole; the host is the first argument that is no option. C166: induction over the command, against the first position with a match | `Text.CommandLine` | partial | Splitting by the Microsoft rules; the program name itself is split by slightly simpler rules on Windows, which the configured command has to fit. Chmod: as in C93, only for arguments without $ and backticks. |
| C164 | ssh and sftp connect to the given host | Text/CommandLine.lean: the format strings of remote_util.cc as functions on byte strings; the split of a command line as a relation by the Microsoft rules of Text/Quote.lean | a command prefix is Whole if it stands for its arguments whatever follows; words, quoted arguments and concatenations are Whole; the host is the first argument that is no option. C166: induction over the command, against the first position with a match | `Text.CommandLine` | partial | False of the code for a host that begins with a dash: there is no -- before the host. C164_exactly: ssh connects to the host if and only if it does not begin with a dash, else to the first word of the remote command. |
| C165 | scp copies the given local files to the given target | Text/CommandLine.lean: the format strings of remote_util.cc as functions on byte strings; the split of a command line as a relation by the Microsoft rules of Text/Quote.lean | a command prefix is Whole if it stands for its arguments whatever follows; words, quoted arguments and concatenations are Whole; the host is the first argument that is no option. C166: induction over the command, against the first position with a match | `Text.CommandLine` | partial | False of the code for a local path with a colon before the first slash that is no drive prefix; C165_exactly: the exact condition for all paths that are not UNC paths. IPv6 addresses in brackets are not part of the specification of remote files. |
| C166 | An scp command is turned into an sftp command at the documented place | Text/CommandLine.lean: the format strings of remote_util.cc as functions on byte strings; the split of a command line as a relation by the Microsoft rules of Text/Quote.lean | a command prefix is Whole if it stands for its arguments whatever follows; words, quoted arguments and concatenations are Whole; the host is the first argument that is no option. C166: induction over the command, against the first position with a match | `Text.CommandLine` | proved |  |
| C167 | Starting a session succeeds if the instance answers | Stream/Handshake.lean: transition system of StartSession/StopSession with their lock, the pushed manifest, file systems with connections, and any number of requests | C167: invariant on the progress of the file system, kept by every calm step of anybody, and an explicit continuation; C168, C170: invariants; C169: induction on the number of chunks; violations: explicit runs and an invariant of the stuck states | `Stream.Handshake` | partial | False of the code if a second manifest is pushed between the first acknowledgement and the check of StartSession: the server then knows the instance, looks up its session before it sends the chunk, and waits for the lock that StartSession holds; StartSession fails after five seconds (C167_waits_for_itself_violated). Proved as long as no other manifest is pushed after the file system connects over a connection not seen before: StartSession has succeeded, or a few more steps without any failure make it succeed. |
| C168 | A started session has the current manifest | Stream/Handshake.lean: transition system of StartSession/StopSession with their lock, the pushed manifest, file systems with connections, and any number of requests | C167: invariant on the progress of the file system, kept by every calm step of anybody, and an explicit continuation; C168, C170: invariants; C169: induction on the number of chunks; violations: explicit runs and an invariant of the stuck states | `Stream.Handshake` | partial | False of the code for a session that is started again: acknowledgements are never forgotten, and StartSession succeeds before the new file system has connected (C168_old_acknowledgement_violated). Proved for the first session of an instance. |
| C169 | Starting or stopping a session does not hold up the others | Stream/Handshake.lean: transition system of StartSession/StopSession with their lock, the pushed manifest, file systems with connections, and any number of requests | C167: invariant on the progress of the file system, kept by every calm step of anybody, and an explicit continuation; C168, C170: invariants; C169: induction on the number of chunks; violations: explicit runs and an invariant of the stuck states | `Stream.Handshake` | partial | False of the code: StartSession and StopSession keep the lock that every chunk sent to a known instance needs (C169_other_instance_violated). Proved for the time when no session is started or stopped, and for instances that are not known yet. |
| C170 | A session is not used after it was stopped | Stream/Handshake.lean: transition system of StartSession/StopSession with their lock, the pushed manifest, file systems with connections, and any number of requests | C167: invariant on the progress of the file system, kept by every calm step of anybody, and an explicit continuation; C168, C170: invariants; C169: induction on the number of chunks; violations: explicit runs and an invariant of the stuck states | `Stream.Handshake` | partial | False of the code: FindSession returns a raw pointer and releases the lock (C170_freed_session_violated). Proved for sessions that are not stopped between the lookup and the use. |
| C171 | Every request of the kernel is answered exactly once | FuseFs/Ops.lean: all handlers as functions to the list of replies, with the queue | case analysis over all requests and paths; induction over histories with the number of replies plus the number of places in the queue as invariant | `FuseFs.Ops` | partial | Proved for every request other than retrieve_reply, which the kernel sends only on demand and which is answered with an error where no answer is allowed (C171_retrieve_violated). Requests arriving during an update are ordered before or after it here; their interleaving is in C67. |
| C172 | The mounted directory cannot be changed through the mount | FuseFs/Ops.lean: all handlers as functions to the list of replies, with the queue | case analysis over all requests and paths; induction over histories with the number of replies plus the number of places in the queue as invariant | `FuseFs.Ops` | partial | Names, attributes, listings, and bytes of files opened since they were last changed. False of statfs: most of the answer is uninitialised memory (C172_statfs_violated). |
| C173 | Attempts to change the mounted directory are refused | FuseFs/Ops.lean: all handlers as functions to the list of replies, with the queue | case analysis over all requests and paths; induction over histories with the number of replies plus the number of places in the queue as invariant | `FuseFs.Ops` | partial | False of chmod, chown, truncate and changes of times: they report success and change nothing (C173_setattr_violated). Proved for all other requests. |
| C174 | Sockets are closed | Pump/Listen.lean: the calls of ServerSocket and ClientSocket as functions of the answers of the kernel, with the open descriptors as a ghost | invariant: the open descriptors are those in the members; induction over the attempts | `Pump.Listen` | partial | Proved for server sockets, and for client sockets that are not connected again while connected; then the first connection is leaked (C174_connected_twice_violated). |
| C175 | A server listens if it can | Pump/Listen.lean: the calls of ServerSocket and ClientSocket as functions of the answers of the kernel, with the open descriptors as a ghost | invariant: the open descriptors are those in the members; induction over the attempts | `Pump.Listen` | partial | False if there is an address of IPv6 but IPv6 does not work: IPv4 is not tried (C175_no_fallback_violated). Proved otherwise. |
| C176 | The announced port is the one listened to | Pump/Listen.lean: the calls of ServerSocket and ClientSocket as functions of the answers of the kernel, with the open descriptors as a ghost | invariant: the open descriptors are those in the members; induction over the attempts | `Pump.Listen` | partial | The returned port is right (C176_port); a port that was found is not reserved, two searches can find the same one (C176_same_port_violated). |
| C177 | Waiting for a connection | Pump/Listen.lean: the calls of ServerSocket and ClientSocket as functions of the answers of the kernel, with the open descriptors as a ghost | invariant: the open descriptors are those in the members; induction over the attempts | `Pump.Listen` | proved | Time is what the clock shows after each attempt; a call of connect that never returns is not modelled. |
| C178 | URLs are split into scheme, host and port | Text/Url.lean: the regular expression as a greedy parser | agreement of the accepted set with the expression read as a set of splits; explicit computation for well-formed URLs | `Text.Url` | partial | Accepted strings are characterised exactly (C178_accepts). False for URLs with user information, IPv6 hosts, fragments, and ports with trailing characters (C178_user_violated, C178_others_violated). |
| C179 | Errors keep their code, messages and tag on the way up | Util/Status.lean: absl::Status with payloads | induction over the chain of calls with the payload of the tag as invariant | `Util.Status` | partial | Proved within a process; tags are lost when a status is sent over gRPC (C179_grpc_violated), code and message are not. |
| C180 | Owned handles are closed once and never leaked | Util/Handle.lean: transition system of owners, handles in hand and closed handles | invariant: every handle is in exactly one place | `Util.Handle` | proved | Handles are fresh numbers; reuse of numbers by the system is not modelled. |
| C181 | Messages of the remote side keep their level | Text/LogOutput.lean: the console format of log.cc against the reader of process_win.cc | induction over the messages | `Text.LogOutput` | partial | False for messages with several lines: the lines after the first get level info (C181_two_lines_violated). Output read in one piece; for cut lines see C162. |
| C182 | An edit changes few chunks | FastCdc/Local.lean, on the model of C01-C06 | induction over the common prefix; a position that is not a boundary lies inside a chunk, whose end contradicts the documented cut point (C05); then C04 | `FastCdc.Local` | proved | How often isolated cut points occur depends on the data and the gear table, about which nothing is assumed. |
| C183 | The reported cache size is the size of the stored chunks | Store/Size.lean, on the model of C13-C16 | invariant over the operations, with the specifications of the cleanup and prune loops | `Store.Size` | partial | False of the code when a stored chunk is written again (counted twice), removed by Remove, half written by a failing Put, or present before the first listing (C183_twice_violated, C183_others_violated). Proved otherwise. |
| C184 | Reads succeed whatever the state of the cache | Provider/Reads.lean, on the model of C20, with readers that may be restricted to not fail | Hoare-style rules over all outcomes of the nondeterministic program | `Provider.Reads` | proved | Partial correctness: a call that returns has succeeded; that it does not block forever is C21. For single chunks only success; which bytes is C22 and C85. |
| C185 | Opening, reading and listing are answered as the manifest says | FuseFs/Opens.lean, on the model of C171-C173 | case analysis; the induction over histories of C172 | `FuseFs.Opens` | proved | Requests are handled one after the other here; what other handles of a changed file see is C68. |
| C186 | Every message of a sync fits into a packet | Sync/Sizes.lean: protobuf sizes of the messages of the models of C36, C37 and C07, and the limit of C11; Sync/SizesWire.lean: an encoder of the protobuf wire format for these messages | invariants of the senders: what they count bounds the payload, the payload bounds the size on the wire; the modelled size of a message is the length of its encoding, by structural induction | `Sync.Sizes` `Sync.SizesWire` | proved | Protobuf sizes follow the wire format, not the library (C186_encoded_length: they are the lengths of the messages encoded in it). The options message, which holds whatever is on the command line, and messages with a fixed number of numbers are not covered. |
| C187 | A file a program waits for is delivered while the update goes on | Updater/Prompt.lean: timed transition system of the update loop, the deadline, the requests, the manifest stream and the file system asking again | invariants over all runs; runs without a push for the drain of directory scans; explicit runs for the violations | `Updater.Prompt` | partial | False of the code if an asset is queued twice (an earlier failed Update leaves entries behind): a push of an unchanged manifest clears the deadline without reaching the file system. No time bound holds: GetCompletedTask has no timeout. Both proved as _violated; the rest proved. |
| C188 | The streaming statistics are right | ChunkMap/Stats.lean, on the model of C24: the statistics with the two sets of recorded chunks; iteration orders are inputs | invariant relating marks, amounts and the recorded sets, kept by recording and by the rebuild; arithmetic for the line | `ChunkMap.Stats` | partial | Marks, amounts, memory safety and the line layout proved for all histories. False of the code: a chunk first cached and later streamed counts twice and changes its mark at the next flush; of equal contents only one place is shown as loaded (both _violated). |
| C189 | The self-examination raises no false alarm | FuseFs/CheckUpdate.lean: the update of C65 with the table of nodes, and the examination of FuseFs/Check.lean of the result | invariant of the table over all orders of the tasks; the result meets the specification of C190; termination by the set of nodes and by depth | `FuseFs.CheckUpdate` | proved | For updates that come to their end, i.e. not those of C65_use_after_free_violated; entries that make sense by themselves (C144) are assumed. No step of the update misses the table (proved if no node is in a list fetched by a directory other than the root). Texts of warnings are not modelled. |
| C190 | If the self-examination says all is well, all is well | FuseFs/Check.lean: the six steps of the examination over an arbitrary graph of nodes, relationally | induction over the work lists; a specification (Healthy) that does not mention the work lists | `FuseFs.Check` | partial | Soundness proved for every graph of nodes with distinct addresses. False of the code: problems of two kinds at once (e.g. a lost node and a node not updated) end the program instead of being logged, since the report is both an array and an object (C190_two_problems_violated). |
| C191 | The file system process cleans up | FuseFs/Life.lean: transition system of the main thread of the file system process, from Initialize to the end of main with every failure, and the thread that receives manifests | invariant over all runs; explicit runs for the violations | `FuseFs.Life` | partial | Holds if the process does not end because the cache, the connection or the list of cached chunks fails; in these three cases main returns without Shutdown and the directory stays mounted (C191_left_mounted_violated). |
| C192 | The file system process ends without a crash | FuseFs/Life.lean: transition system of the main thread of the file system process, from Initialize to the end of main with every failure, and the thread that receives manifests | invariant over all runs; explicit runs for the violations | `FuseFs.Life` | partial | Holds if the loop of the session does not fail. If it fails, Run returns without stopping the thread that receives manifests: the process never ends regularly, the destructor of the thread terminates it or the thread uses the destroyed session (both _violated). |
| C193 | Compression is switched on and off without loss | Pump/Switch.lean: transition system of the client, the network and the receiver thread with its redirected input; the decompressor is any relation with the documented promises of zstd (Decoder of C49, and Stops) | invariant relating the unread bytes, the rest of the frame and the rest of its data to the packets still to come; a measure for termination; an explicit run for the violation | `Pump.Switch` | proved |  |
| C194 | Switching compression on and off does not break the session | Pump/Switch.lean: transition system of the client, the network and the receiver thread with its redirected input; the decompressor is any relation with the documented promises of zstd (Decoder of C49, and Stops) | invariant relating the unread bytes, the rest of the frame and the rest of its data to the packets still to come; a measure for termination; an explicit run for the violation | `Pump.Switch` | partial | Everything arrives unless the stream fails (C194_all_delivered_partial), which happens only after a complete part when the client has gone on (C194_fails_only_then). False of the code: the server answers when it has the last packet of the part, perhaps before it has read the end of the frame; if that end and the next bytes then come in one read, the decompressor reports trailing data and the session ends in an error (C194_answered_too_early_violated, C194_read_too_far_violated). |
| C195 | The client is connected to the server before the sync begins | Sync/Ends.lean: what StartServer leaves behind, on the model of the attempts to connect of C177 | what a successful start implies, for all sequences of attempts; a theorem that the code violates the property for all of them. All other properties of the sync are about a client and a server that are connected | `Sync.Ends` | partial | False of the code at this commit: StartServer only probes the port with a temporary socket (ClientSocket::WaitForConnection is static and disconnects), and nothing ever calls socket_.Connect, so the message pump sends on an unconnected socket and the one connection the server accepts is the closed probe (C195_never_connected_violated). C195_accepted_partial is what does hold. All other properties of the sync are stated for a client and a server that are connected. |
| C196 | Both processes end | Sync/Ends.lean: transition system of the main threads and receiver threads of both processes from the sync to their end, with every failure | invariant over all runs, well-founded order on the states for termination, case analysis of the states in which nothing can happen; an invariant for the hang | `Sync.Ends` | partial | Holds unless the client fails by itself. If it does, Run returns without StopServer and the destructor joins the receiver thread, which waits for the server, which waits for the client: both hang (C196_hangs_violated). |
| C197 | The client reports what happened on the server | Sync/Ends.lean: transition system of the main threads and receiver threads of both processes from the sync to their end, with every failure | invariant over all runs, well-founded order on the states for termination, case analysis of the states in which nothing can happen; an invariant for the hang | `Sync.Ends` | proved |  |
| C198 | The reported use of a session is right | Stream/Usage.lean: the sessions with their amounts and the recorded events, as a function of the history of operations (each holds the lock) | invariant by induction over histories; a specification of which session runs and what was sent to it by recursion over the history | `Stream.Usage` | partial | Holds but for what is sent to an instance while its session is being started (the instance loads the manifest before it acknowledges it): that is never counted (C198_early_violated). |
| C199 | The end of a session is recorded once | Stream/Usage.lean: the sessions with their amounts and the recorded events, as a function of the history of operations (each holds the lock) | invariant by induction over histories; a specification of which session runs and what was sent to it by recursion over the history | `Stream.Usage` | partial | An end is recorded when it should be and not before, but for every session that is stopped it is recorded twice: by StopSession and again by the destructor (C199_twice_violated). |
| C200 | A multi-session can be shut down | Stream/Usage.lean: Shutdown and the destructor over a list of sessions that may fail to stop | induction over the sessions and the number of shutdowns; exact condition for std::terminate | `Stream.Usage` | partial | Holds if all sessions can be stopped. Otherwise Shutdown returns at the first failure without joining its threads, and the destructor calls std::terminate unless Shutdown was called at least once per failing session (C200_terminates_violated). |
| C201 | Stopping and starting the file watcher loses no change | Stream/WatchRestart.lean: the two maps of the watcher on the model of the notifications of C72; histories of starts, stops, queries and changes | invariant over histories: what was handed out and what is kept lead to the tree at the beginning of the current part; C72 for each part | `Stream.WatchRestart` | partial | Holds with the exceptions of C72, unless the watcher is started while it is running: then everything collected and not yet handed out is lost (C201_started_twice_violated). |
| C202 | The size reported when streaming begins is that of the manifest | Manifest/Counts.lean: the loop of RecordMultiSessionStart on the iterator of C29, with counters of 32 and 64 bits | C29 for the assets visited; induction over them and over the chunk lists; counterexample with a list that cannot be read | `Manifest.Counts` | partial | Holds if all lists can be read. If one cannot, the counts of what was read are reported, and nothing in the event tells so: the status of the iterator is not looked at (C202_silent_violated). |
| C203 | The statistics of a file show the state of its chunks | ChunkMap/Picture.lean: the bytes that Print writes, for any files, chunks and width; a terminal (cursor, style, escape codes, wrapping) as specification | composition of pieces of output that draw given characters at the cursor; invariant of the loop that looks for the chunk changed last; counterexamples with the other order of evaluation and with a terminal of the width used | `ChunkMap.Picture` | partial | Holds if the compiler reads line.size() before it moves line in the same call; the order is unspecified, and in the other order the line is cut within a colour code (C203_order_violated). Names must consist of printable ASCII characters. |
| C204 | The statistics are drawn in place | ChunkMap/Picture.lean: the bytes that Print writes, for any files, chunks and width; a terminal (cursor, style, escape codes, wrapping) as specification | composition of pieces of output that draw given characters at the cursor; invariant of the loop that looks for the chunk changed last; counterexamples with the other order of evaluation and with a terminal of the width used | `ChunkMap.Picture` | partial | Holds on Windows, where the width used is one less than that of the terminal. On Linux the line of every file is one column too long, takes two rows, and the display moves down one row per file with every drawing (C204_moves_violated). |
| C205 | Every existing directory can be streamed | Updater/SourceDir.lean: IsValidDir with is_absolute of both operating systems, over any file system | case analysis over the beginning of the path and induction over the separators at its end; roots are refused for every file system | `Updater.SourceDir` | partial | Holds except for roots (/ and C:\\), which are refused as relative because the separator that makes them absolute is removed first (C205_root_violated), and on Linux for names that end in a backslash (C205_backslash_violated). C205_exactly: the exact condition for all paths and file systems, on both operating systems. |
| C206 | A failed system call is reported as what went wrong | Util/Errno.lean: the switch by names, with the numbers of both systems (trusted: the headers), and its callers over any result of the system | case analysis over the names for the known numbers; a number that is no name falls through the switch; counterexamples for std::filesystem and ferror | `Util.Errno` | partial | Holds for opening a file and looking at it. For operations of std::filesystem only that an error is an error holds: on Linux the code is always unknown (C206_linux_violated), on Windows the number of GetLastError is read as an errno, e.g. write protected is not found (C206_windows_violated). The indexer converts the result of ferror instead of errno (C206_indexer_violated). |
| C207 | The cache of a streamed directory is one directory with a valid name | Text/CachePath.lean (as C52) | C52 for the form of the path; the replacement checked for all 256 bytes; hexadecimal digits are allowed | `Text.CachePath` | proved |  |
| C208 | Ending the streaming service is clean | Stream/ServiceEnd.lean: transition system of the handlers of calls, the thread that stops the service and the main thread with its destructors | inductive invariant over all schedules; a path to the end from every state; a measure for termination; reachable bad states for the violations | `Stream.ServiceEnd` | partial | Proved: order of the end, one thread as long as exits do not overlap, no deadlock, termination. Violated: the function that shuts down ends without returning its status in every run (C208_return_violated); the server may be destroyed before the other thread calls Wait on it (C208_race_violated); two exits at the same time may terminate the process while streaming goes on (C208_overlap_violated). |
| C209 | Changes are picked up after they have settled, and in time | Stream/WatchTimes.lean: the loop of Run with its timer, flags and time-outs as a transition system in which time may pass anywhere | invariant relating the timer to the times of the first notification and of the first look; reachable states for the violations, for every wait | `Stream.WatchTimes` | partial | Holds for changes notified while the runner sleeps. Violated for changes notified while it is awake, which may be handed over in the moment they are notified (C209_early_violated); and the runner does not sleep while it waits for changes to settle, because the condition it waits for holds already (C209_busy_violated). |
| C210 | Bytes arrive end to end | Updater/EndToEnd.lean: the models of updater, chunk index, server, cache and provider, and assets put together; a server at any moment, a cache after any history of calls and crashes | composition of the theorems for each part; the history of the cache by induction | `Updater.EndToEnd` | partial | Composition of C81, C82, C78, C20 and C24 with the conditions of C81 (no two lists shared between directories, changes visible in time or size) and the one of C78 (a chunked file does not change before it is chunked again). The content ids are assumed to be unique among the data that occur. |
| C211 | A batch of changed files arrives under every schedule | Sync/Wire.lean: transition system of main thread, patcher thread, finalizers and client with both message streams and the files as bytes; the steps call the models of signature, diff and patch of C07 | inductive invariant: both queues are the concatenation of good messages per file; progress from every reachable state and a measure; Sync/WireExample.lean: an executable scheduler, checked sound, for the runs | `Sync.Wire` `Sync.WireExample` | partial | False of the code if the copy directory is inside the destination or the other way round: a file can be patched from a file that the same batch replaces, and gets bytes that neither side ever had while every step reports success (C211_changed_batch_violated; another order of the same threads gives the right bytes). Proved for all other batches, in bytes, with progress and termination; the content hash is assumed not to collide between an old and a new chunk of one file (C07). |
| C212 | The count of deleted files is right | Sync/Progress.lean (as C61), Sync/ProgressDelete.lean | induction over the reports with the counters as invariant; lines specified by an inductive relation | `Sync.ProgressDelete` | proved |  |
| C213 | Everything the statistics collector is told is shown once | Util/StatsCollector.lean: the two maps, the stopwatch, the condition of the mutex and the log as a state, one event per critical section | invariant over all histories; complete runs for the violations | `Util.StatsCollector` | partial | False of the code: what was recorded since the last line is lost when the collector is destroyed (C213_lost_violated), and since the condition that waits for the time is only looked at when somebody releases the mutex (as documented by absl), nothing is shown as long as nothing more is recorded (C213_never_shown_violated). Counters are modulo 2^64; the formatting of durations is not modelled. |
| C214 | The columns of the progress display | Sync/ProgressText.lean: FormatTime, FormatDoubleBytes, the assembled text of a line including the total, byte for byte; speeds are rationals | case analysis for times, induction on the units for speeds, lengths of decimal texts for the columns; violated part by the same length formula | `Sync.ProgressText` | partial | Partial: the length of the text is constant only while all times are below an hour; C214_hours_violated shows that it is at least three characters longer otherwise. Rounding of exact halves (%.1f of a binary double), the nearest double of 999.9 and the cast of times of 2^31 seconds or more to int are not modelled. C214_contents says what every line contains, field by field. |
| C215 | The streams that announce manifests | Stream/ManifestStreams.lean: GetManifestId with WaitForUpdate, SetManifestId and Shutdown; any number of calls as transition system with one step per lock | invariant over histories (what was received is a subsequence of what was set), measures for the steps left until the current id is delivered and until the call ends | `Stream.ManifestStreams` | partial | Partial: C215_in_order, C215_current, C215_delivered and C215_shutdown_partial are full; C215_gone_clients_violated shows that before the shutdown no call ever ends, in any history. grpc is assumed to run every call in a thread of its own; whether Write succeeds is not used by the code. |
| C216 | The watcher and a scan agree about times | Util/WatcherTime.lean: ToUnixTime with the division of C++, on top of the FILETIME model of C157 | integer arithmetic: division towards zero against division with floor | `Util.WatcherTime` | partial | Partial: proved for all times from 1970 on; C216_before_1970_violated shows that earlier ones differ by a second unless they are full seconds; C216_exactly says exactly when both agree. |
| C217 | A server on this machine gets the description of its client | Text/LocalStart.lean: the command of a local sync, the splitting by the Microsoft rules (the specification of C163), and the beginning of main of cdc_rsync_server | uniqueness of the splitting, with the roundtrip of the description (C112) | `Text.LocalStart` | partial | Proved for paths without blanks and quotes (description_partial, own_server_partial). The path of the server is not quoted: from a directory like C:\Program Files every server ends by an exception of std::stol (blank_violated). |
