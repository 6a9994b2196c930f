{"id": "C01", "title": "Chunking loses, adds and reorders nothing", "statement": "Feeding any sequence of data blocks to the content-defined chunker and finalizing it calls the chunk handler with byte ranges whose concatenation, in call order, is exactly the bytes that were fed in.", "quantifier": "every chunker configuration the constructor accepts, every gear table and hash width, every byte string, every way of cutting it into non-empty blocks", "why_tests_cant": "a unit test samples a few inputs; the boundary loop has data-dependent control flow (hash, regression mask) over unbounded inputs", "anchors": ["fastcdc/fastcdc.h: ChunkerTmpl::Process, ChunkerTmpl::FindChunkBoundary, ChunkerTmpl::Finalize"]}
{"id": "C02", "title": "Chunk sizes respect the configured limits", "statement": "Every chunk handed to the handler is non-empty and at most max_size bytes; every chunk except the last one of a stream is at least min_size bytes.", "quantifier": "every accepted configuration (including min_size = 0), every input, every block split", "why_tests_cant": "the zero-length and off-by-one cases depend on hash coincidences that sampling almost never hits", "anchors": ["fastcdc/fastcdc.h: ChunkerTmpl::FindChunkBoundary, ChunkerTmpl::Process, Config"]}
{"id": "C03", "title": "Chunk boundaries do not depend on how the input is delivered", "statement": "Two callers that feed the same bytes in differently sized non-empty blocks get the same sequence of chunks.", "quantifier": "every accepted configuration, every byte string, every pair of block splits", "why_tests_cant": "there are exponentially many splits of every input", "anchors": ["fastcdc/fastcdc.h: ChunkerTmpl::Process"]}
{"id": "C04", "title": "Chunking resynchronises after a common cut point", "statement": "If two inputs share a tail and in both of them the tail starts at a chunk boundary, the chunks of the tail are identical, however different the parts before it are.", "quantifier": "all pairs of inputs with a common tail starting on a boundary in both, every accepted configuration", "why_tests_cant": "relational property over all pairs of files; deduplication rests on it", "anchors": ["fastcdc/fastcdc.h: ChunkerTmpl::FindChunkBoundary, ChunkerTmpl::Process"]}
{"id": "C05", "title": "The cut point is the documented one", "statement": "Within the first min(len,max_size) bytes the chunker cuts at the first position at or after min_size whose gear hash is <= the threshold, and if there is none, at the last position (the end included) whose hash has the most leading zero bits; the hash at a position at or beyond the hash width depends only on that many preceding bytes.", "quantifier": "every accepted configuration, every input longer than min_size, every gear table and hash width", "why_tests_cant": "regression chunking is an optimised loop with a shrinking mask; equivalence with its description is a statement about all inputs", "anchors": ["fastcdc/fastcdc.h: ChunkerTmpl::FindChunkBoundary"]}
{"id": "C06", "title": "Chunking terminates for every configuration the manifest updater accepts", "statement": "For every set of CDC parameters that the manifest updater considers sane, chunking any file terminates.", "quantifier": "every (min,avg,max) triple accepted by the validation, every file", "why_tests_cant": "non-termination cannot be observed by a finite test, and the offending parameter triple comes from a stored manifest", "anchors": ["manifest/manifest_updater.cc: ValidateCdcParams, CdcConfigFromProto", "fastcdc/fastcdc.h: ChunkerTmpl::Process"]}
{"id": "C07", "title": "Delta sync reconstructs the client file exactly", "statement": "When the client diffs its file against the chunk signature of the server's old file and the server applies the resulting patch stream to that old file, the new server file equals the client file byte for byte, provided no two distinct chunks involved have the same chunk hash.", "quantifier": "all pairs of old and new files, every chunker output for them, every interleaving of signature arrival with client chunking, every packetisation of the patch stream", "why_tests_cant": "the result must be right for every file pair and for every timing of the signature messages", "anchors": ["cdc_rsync/base/cdc_interface.cc: CdcInterface::CreateAndSendSignature, CdcInterface::ReceiveSignatureAndCreateAndSendDiff, CdcInterface::ReceiveDiffAndPatch"]}
{"id": "C08", "title": "A patch message can never make the server read outside the message or the old file", "statement": "Whatever patch message arrives, applying it either fails cleanly or only reads bytes that lie inside the received data block.", "quantifier": "every patch message with 64-bit offsets and sizes, every data block length", "why_tests_cant": "the failing values are a 2^-64 corner of the input space (unsigned wrap-around)", "anchors": ["cdc_rsync/base/cdc_interface.cc: CdcInterface::ReceiveDiffAndPatch"]}
{"id": "C09", "title": "Signature and patch streams end exactly where they should", "statement": "A signature or patch stream is a series of non-empty batch messages followed by one empty message, whatever the file is; the receiver therefore consumes exactly the messages of one file and sees all chunks in order.", "quantifier": "every chunk sequence, every batch size limit", "why_tests_cant": "premature end-of-stream would depend on batch boundaries coinciding with chunk boundaries", "anchors": ["cdc_rsync/base/cdc_interface.cc: SignatureSender/ServerChunkReceiver/PatchSender"]}
{"id": "C10", "title": "The executable bit is decided by the content of the whole file", "statement": "After a copy or delta sync, a file is given the executable bit if and only if its content has at least four bytes and starts with the ELF, `#!/` or MZ magic, no matter how its data was split into packets or patch commands.", "quantifier": "every file content, every first block size", "why_tests_cant": "depends on the size of the first block handed to the check", "anchors": ["common/util.cc: Util::IsExecutable", "cdc_rsync/base/cdc_interface.cc: CdcInterface::ReceiveDiffAndPatch", "cdc_rsync_server/cdc_rsync_server.cc: FinalizeCopiedFileTask, CdcRsyncServer::HandleSendMissingFileData"]}
{"id": "C11", "title": "Packet framing round-trips over a byte stream", "statement": "Any sequence of packets written by the sender is recovered exactly, in order and with types and payloads intact, by the receiver reading the same bytes from the stream, and a truncated stream yields a prefix of the packets and then an error.", "quantifier": "every packet sequence with legal sizes, every truncation point", "why_tests_cant": "unbounded sequences and all truncation points", "anchors": ["cdc_rsync/base/message_pump.cc: MessagePump::QueuePacket, MessagePump::ThreadDoSendPacket, MessagePump::ThreadDoReceivePacket"]}
{"id": "C12", "title": "Packets are delivered in order, exactly once, under every thread schedule", "statement": "Whatever the interleaving of the application threads, the sender thread, the network and the receiver thread, the packets received on one side at any moment are a prefix of the packets the other side queued.", "quantifier": "every schedule of the producer, sender, receiver and consumer threads, every queue bound", "why_tests_cant": "schedules cannot be enumerated by tests", "anchors": ["cdc_rsync/base/message_pump.cc: MessagePump::ThreadSenderMain, MessagePump::ThreadReceiverMain, MessagePump::QueuePacket, MessagePump::DequeuePacketBatch, MessagePump::ReceiveRawData"]}
{"id": "C13", "title": "Flushing waits for everything that was queued; queues stay bounded", "statement": "When flushing the outgoing queue returns without error, every packet queued before has been handed to the output; the number of queued bytes never exceeds the limit by more than one packet; packets that arrived before a connection error are still delivered before the error is reported.", "quantifier": "every schedule, every packet size sequence, every error point", "why_tests_cant": "needs all interleavings of producer, sender and error", "anchors": ["cdc_rsync/base/message_pump.cc: MessagePump::FlushOutgoingQueue, MessagePump::ThreadSenderMain, MessagePump::ReceiveRawData, PacketQueue"]}
{"id": "C14", "title": "Malformed packets are rejected", "statement": "A packet header with a type outside the known range makes the receiver fail instead of delivering it, packets larger than the maximum size are refused by the sender, and every accepted size survives the 24-bit size field.", "quantifier": "every header byte quadruple, every payload size", "why_tests_cant": "boundary values of the size field and all 256 type bytes times all sizes", "anchors": ["cdc_rsync/base/message_pump.cc: CreateSerializedHeader, MessagePump::ThreadDoReceivePacket, MessagePump::QueuePacket"]}
{"id": "C15", "title": "Content ids and their hex names are in bijection", "statement": "Converting a content id to hex and back gives the same id; parsing accepts exactly the 40-digit lower-case hexadecimal strings, and everything it accepts prints back as itself.", "quantifier": "every 20-byte id, every string", "why_tests_cant": "2^160 ids and all malformed strings", "anchors": ["manifest/content_id.cc: ContentId::ToHexString, ContentId::FromHexString"]}
{"id": "C16", "title": "The disk cache maps ids to file names injectively and invertibly", "statement": "Distinct content ids are stored under distinct paths for every directory depth, the id is recovered from the path, and the directory of every chunk is among the ones created in advance.", "quantifier": "every id, every depth up to the hash length, every cache root", "why_tests_cant": "all ids and depths", "anchors": ["data_store/disk_data_store.cc: DiskDataStore::GetCacheFilePath, DiskDataStore::ParseCacheFilePath"]}
{"id": "C17", "title": "The disk cache behaves as a map", "statement": "After any history of puts, removes, prunes and wipes a get returns the bytes most recently put under that id if it is still present, NotFound otherwise, and Contains agrees with Get; reading a range returns exactly the requested part that exists.", "quantifier": "every operation history, every id, every offset and size", "why_tests_cant": "unbounded histories", "anchors": ["data_store/disk_data_store.cc: DiskDataStore::Put, DiskDataStore::Get, DiskDataStore::Contains, DiskDataStore::Remove, DiskDataStore::Wipe"]}
{"id": "C18", "title": "Cleanup keeps exactly the most recently used chunks that fit", "statement": "After a successful cleanup of a cache that was used in any way without a write failing half-way, exactly the most recently used chunks are left that fit into the limit (capacity*fill_factor), and the cached size is not less than the real one. Whatever failed before and however a cleanup ends (also interrupted or failing), no chunk is evicted while one used longer ago is kept.", "quantifier": "every operation history, every capacity, every chunk size and timestamp assignment", "why_tests_cant": "needs an invariant over all histories (the cached total is maintained incrementally)", "anchors": ["data_store/disk_data_store.cc: DiskDataStore::Cleanup, DiskDataStore::Put, DiskDataStore::Remove, DiskDataStore::Prune"]}
{"id": "C19", "title": "Prune keeps exactly the requested chunks", "statement": "After pruning, the store contains exactly those chunks that were present and requested to be kept; it reports NotFound if and only if a requested chunk was not there.", "quantifier": "every store content, every set of ids to keep, both store implementations", "why_tests_cant": "all pairs of stores and id sets", "anchors": ["data_store/disk_data_store.cc: DiskDataStore::Prune", "data_store/mem_data_store.cc: MemDataStore::Prune"]}
{"id": "C20", "title": "Reading several chunks gives the right bytes from a possibly damaged cache", "statement": "If every remote reader returns correct chunks and every cached chunk file is a prefix of the right chunk (a crash can truncate it), a multi-chunk read returns the right bytes for every chunk it reports as read (all of them if it succeeds and the remote reader is in the chain), and afterwards the chunks it fetched are whole in the cache. This holds whatever other threads do in between.", "quantifier": "every cache state reachable through crashes, every set of readers, every chunk list with offsets and sizes", "why_tests_cant": "needs all crash points of earlier writes", "anchors": ["data_store/data_provider.cc: DataProvider::Get, DataProvider::GetFromWriter, data_store/disk_data_store.cc: DiskDataStore::Put"]}
{"id": "C21", "title": "Concurrent chunk reads and cache maintenance cannot deadlock", "statement": "Threads that read arbitrary lists of chunks and the cleanup thread never wait for each other in a cycle.", "quantifier": "any number of threads, any chunk id lists, every schedule", "why_tests_cant": "deadlocks are schedule dependent", "anchors": ["data_store/data_provider.cc: DataProvider::WriteLockAll, DataProvider::LockAllMutexes, DataProvider::CleanupThreadMain, DataProvider::Get"]}
{"id": "C22", "title": "Every chunk source reads the requested byte range", "statement": "For every data source in the reader chain, a read of a chunk at an offset with a size returns bytes [offset, offset+size) of the chunk clipped to its end.", "quantifier": "every chunk, offset and size, every reader implementation", "why_tests_cant": "depends on argument meaning across an interface that passes two integers of the same type", "anchors": ["data_store/data_store_reader.h: DataStoreReader::Get", "data_store/grpc_reader.cc: GrpcReader::Get", "data_store/mem_data_store.cc: MemDataStore::Get"]}
{"id": "C23", "title": "The in-memory store behaves as a map", "statement": "After any history of puts, removes, prunes and wipes on the in-memory store, get, range get and contains agree with an abstract map.", "quantifier": "every operation history", "why_tests_cant": "unbounded histories", "anchors": ["data_store/mem_data_store.cc"]}
{"id": "C24", "title": "Chunk lookups reflect the flushed file contents", "statement": "After any history of file initialisations, chunk appends, removals and flushes, looking up a chunk id returns a file, offset and size at which that chunk really is in the state as of the last flush, fails if no flushed file has it, and never reflects unflushed changes.", "quantifier": "every update/flush history, every id", "why_tests_cant": "unbounded histories with deferred updates", "anchors": ["manifest/file_chunk_map.cc: FileChunkMap::Init, AppendCopy, Remove, FlushUpdates, Lookup, Clear"]}
{"id": "C25", "title": "Reading a streamed file returns its bytes", "statement": "A read at any offset with any size on a streamed file returns exactly the bytes of that range of the file (clipped at the end of file), for files with direct and indirect chunk lists.", "quantifier": "every file, every chunking into direct chunks and indirect lists, every offset and size", "why_tests_cant": "boundary arithmetic across chunks and lists for all offsets", "anchors": ["cdc_fuse_fs/asset.cc: Asset::Read, Asset::FindChunk, Asset::FindChunkList, Asset::GetChunkRefList, Asset::ChunkListOffset"]}
{"id": "C26", "title": "Directory lookups see every child, however it is stored", "statement": "A lookup of a name in a streamed directory that is not used by another thread at the same time finds an entry if and only if some direct or indirect list of the directory has it, whatever was looked up or listed before by any number of threads. With other threads running, what a lookup finds is right, and it fails only if the data store does. Listing the directory returns exactly the entries of all lists, with other threads running, too.", "quantifier": "every directory layout, every history of lookups and listings", "why_tests_cant": "lazy loading makes the result potentially history dependent", "anchors": ["cdc_fuse_fs/asset.cc: Asset::Lookup, Asset::GetAllChildProtos, Asset::FetchNextDirAssetList"]}
{"id": "C27", "title": "Moving file chunks to indirect lists changes nothing a reader sees", "statement": "When a file's chunk list is too big for its directory entry and is split into indirect chunk lists, the flattened sequence of (chunk id, absolute offset) is unchanged and the lists respect the size limit unless a single chunk exceeds it.", "quantifier": "every chunk list, every size limit", "why_tests_cant": "unbounded lists, all limits", "anchors": ["manifest/manifest_builder.cc: ManifestBuilder::EnforceFileProtoSize, AppendAllocatedIndirectChunks"]}
{"id": "C28", "title": "Moving directory entries to indirect lists changes nothing a reader sees", "statement": "When a directory has too many entries and some are moved to indirect asset lists, the multiset of its entries is unchanged, every indirect list respects the size limit, counting two bytes of framing per entry, unless a single entry exceeds it, and the entries that stay in the directory fit into the limit together with its own data and the lists it had before.", "quantifier": "every directory, every size limit", "why_tests_cant": "unbounded directories, all limits", "anchors": ["manifest/manifest_builder.cc: ManifestBuilder::EnforceDirProtoSize, AppendAllocatedIndirectAssets"]}
{"id": "C29", "title": "Iterating a manifest visits every asset exactly once", "statement": "Iterating a manifest yields every asset below the root exactly once with its correct relative path, each directory before its descendants.", "quantifier": "every manifest tree with direct and indirect lists", "why_tests_cant": "unbounded trees", "anchors": ["manifest/manifest_iterator.cc: ManifestIterator::NextEntry, UpdateRelPath"]}
{"id": "C30", "title": "Updating one directory of a manifest leaves all others alone", "statement": "After loading a manifest, changing an asset and flushing, the new manifest differs from the old one only at the changed path.", "quantifier": "every manifest, every changed path", "why_tests_cant": "fails only for two directories whose overflow lists have identical content", "anchors": ["manifest/manifest_builder.cc: ManifestBuilder::GetAssetList, FlushDir, WriteBackAssetList"]}
{"id": "C31", "title": "A directory scan brings the manifest directory up to date", "statement": "Comparing the files on disk with the assets in the manifest and applying the resulting operations leaves the manifest directory with exactly the names on disk, files with equal type, mtime and size are not re-chunked, and everything else is.", "quantifier": "every pair of source listing and manifest listing with distinct names", "why_tests_cant": "all pairs of listings", "anchors": ["manifest/manifest_updater.cc: DirScannerTask::CompareAssets, ManifestUpdater::ApplyOperations"]}
{"id": "C32", "title": "A stored manifest is complete at every moment", "statement": "After every history of edits, flushes and loads of manifests, at every moment, including a crash between any two store operations, every manifest id that has been stored in the data store refers to a manifest all of whose parts are in the store.", "quantifier": "every history of updates, every crash point, every set of failing directory scans", "why_tests_cant": "crash points and failing scans multiply", "anchors": ["manifest/manifest_updater.cc: ManifestUpdater::Update, FlushAndPushManifest, HandleDirScannerResult"]}
{"id": "C33", "title": "Prioritised assets are processed first, nothing gets lost", "statement": "At any time all assets with a deadline precede all assets without one in the queue, prioritising reorders but neither drops nor duplicates assets, and assets of equal priority stay in order.", "quantifier": "every history of add, dequeue and prioritise operations", "why_tests_cant": "unbounded histories", "anchors": ["manifest/pending_assets_queue.cc: PendingAssetsQueue::Add, Dequeue, Prioritize"]}
{"id": "C34", "title": "Files are classified correctly before syncing", "statement": "Every client file ends up in exactly one of missing, changed, matching; a server file is extraneous iff no client file has its path; matching requires equal size and mtime (or equal content with --checksum); files found only in the copy-dest directory are never deleted from it; the options reclassify only as documented.", "quantifier": "every pair of client and server file lists, all combinations of the checksum, whole-file, existing and copy-dest options", "why_tests_cant": "all list pairs", "anchors": ["cdc_rsync_server/file_diff_generator.cc: file_diff::Generate"]}
{"id": "C35", "title": "Files in the destination take precedence over the copy-dest directory", "statement": "The file list the server works with contains every relative path at most once, and if a path exists both in the destination and in the copy-dest directory, the destination's entry is the one listed.", "quantifier": "every pair of directory listings", "why_tests_cant": "relies on sort stability for all lists", "anchors": ["cdc_rsync_server/file_finder.cc: FileFinder::AddFiles, FileFinder::ReleaseFiles"]}
{"id": "C36", "title": "Extraneous directories are removed after everything in them", "statement": "When deleting extraneous files and directories, every entry is deleted before any directory that contains it, the deletion of everything extraneous is attempted exactly once, and the client is told exactly these paths.", "quantifier": "every set of extraneous files and directories, every batching", "why_tests_cant": "all trees", "anchors": ["cdc_rsync_server/cdc_rsync_server.cc: CdcRsyncServer::RemoveExtraneousFilesAndDirs", "cdc_rsync_server/file_deleter_and_sender.cc: FileDeleterAndSender::DeleteAndSendFileOrDir"]}
{"id": "C37", "title": "File lists and index lists survive batching", "statement": "The server reconstructs exactly the list of files the client found, in the same order, so that an index means the same file on both sides; index lists sent by the server arrive unchanged.", "quantifier": "every file list, every batch size", "why_tests_cant": "batch boundaries can fall anywhere", "anchors": ["cdc_rsync/file_finder_and_sender.cc: FileFinderAndSender::HandleFoundFileOrDir, SendFilesAndDirs, Flush", "cdc_rsync_server/cdc_rsync_server.cc: HandleSendAllFiles, SendFileIndices", "cdc_rsync/cdc_rsync_client.cc: ReceiveFileIndices"]}
{"id": "C38", "title": "An interrupted sync is never mistaken for a finished one", "statement": "If the server process dies at any point, a later sync never classifies a file as matching although its content differs from the one the client had (unless it did so before), and a later sync that succeeds repairs everything.", "quantifier": "every crash point during copying, patching, replacing and time stamping, every file", "why_tests_cant": "all crash points", "anchors": ["cdc_rsync_server/cdc_rsync_server.cc: PatchTask, HandleSendMissingFileData, FinalizeCopiedFileTask", "common/path.cc: path::ReplaceFile"]}
{"id": "C39", "title": "Client and server never disagree about the next message", "statement": "For every combination of options, every outcome of the file comparison and every interleaving, each side only ever receives message types it expects, and no session goes on for ever.", "quantifier": "all option combinations, all numbers of files and messages per phase", "why_tests_cant": "all combinations of options times unbounded message counts", "anchors": ["cdc_rsync/cdc_rsync_client.cc: CdcRsyncClient::Sync", "cdc_rsync_server/cdc_rsync_server.cc: CdcRsyncServer::Sync"]}
{"id": "C40", "title": "Server error text is separated from normal output however the output is cut", "statement": "The error message, the normal output and the port extracted from the text the server writes depend only on the text, not on how it is split into reads, and an error message the server sends arrives complete and without other output mixed in. (Text: no NUL bytes.)", "quantifier": "every output stream, every split into reads", "why_tests_cant": "all splits", "anchors": ["cdc_rsync/cdc_rsync_client.cc: CdcRsyncClient::HandleServerOutput"]}
{"id": "C41", "title": "The first matching filter rule decides", "statement": "A path is included if the first rule whose pattern matches it is an include rule or if no rule matches, and excluded otherwise.", "quantifier": "every rule list and path", "why_tests_cant": "all rule lists", "anchors": ["common/path_filter.cc: PathFilter::IsMatch"]}
{"id": "C42", "title": "Wildcard patterns match as documented", "statement": "A pattern with ? and * matches a path exactly when the wildcards can be replaced to give the path (or its suffix as documented), and matching never reads outside the two strings.", "quantifier": "every pattern and path", "why_tests_cant": "all string pairs; the failing ones need a literal part before a star and no match after it", "anchors": ["common/path_filter.cc: internal::IsMatch"]}
{"id": "C43", "title": "The thread pool runs every task exactly once", "statement": "Every queued task is run exactly once, waiting returns only after all tasks queued before are done (and, unless the pool is shut down, does return), completed tasks are handed out once each, and with one thread they complete in queue order.", "quantifier": "every schedule, number of threads and task sequence", "why_tests_cant": "schedules", "anchors": ["common/threadpool.cc: Threadpool"]}
{"id": "C44", "title": "Files opened in parallel come back in request order", "statement": "The n-th call to get the next open file returns the handle of the n-th requested file, in whatever order the open operations finish; every call for a file that can be opened returns, and only a bounded number of files is open.", "quantifier": "every completion order, every number of files and threads", "why_tests_cant": "completion orders", "anchors": ["cdc_rsync/parallel_file_opener.cc: ParallelFileOpener::GetNextOpenFile"]}
{"id": "C45", "title": "Command line quoting for Windows is lossless", "statement": "The Microsoft command line parser turns a quoted argument back into exactly the original one, whatever characters it has.", "quantifier": "every argument string", "why_tests_cant": "backslash/quote runs of every length", "anchors": ["common/remote_util.cc: RemoteUtil::QuoteForWindows, RemoteUtil::QuoteForSsh"]}
{"id": "C46", "title": "Path joining and splitting are inverse", "statement": "Joining a directory and a name and taking the base name gives the name back, taking the directory name gives the directory back (up to trailing separators).", "quantifier": "every path string", "why_tests_cant": "all strings, including those made of separators", "anchors": ["common/path.cc: path::Join, path::DirName, path::BaseName, path::EnsureEndsWithPathSeparator"]}
{"id": "C47", "title": "Sizes given as flags are parsed to the number they denote", "statement": "A size with a unit suffix parses to the documented number of bytes or is rejected.", "quantifier": "every flag string, every output text", "why_tests_cant": "all strings, in particular near the 64-bit limit", "anchors": ["absl_helper/jedec_size_flag.cc: AbslParseFlag", "common/port_range_parser.cc: port_range::Parse", "common/ansi_filter.cc: ansi_filter::RemoveEscapeSequences"]}
{"id": "C48", "title": "The semaphore never lets more holders in than it has permits", "statement": "At any time the number of completed waits is at most the initial count plus the number of signals, and a waiter is only blocked while the count is zero.", "quantifier": "every schedule of waits and signals by any number of threads", "why_tests_cant": "schedules", "anchors": ["common/semaphore.cc: Semaphore::Wait, Semaphore::Signal"]}
{"id": "C49", "title": "The compression stream sends all data in order", "statement": "The data handed to the compressor is exactly the data written, in order, whatever the interleaving of the writer and the background thread, and finishing returns only after all of it was compressed and sent.", "quantifier": "every schedule, every write size, every buffer size", "why_tests_cant": "schedules and buffer fill levels", "anchors": ["cdc_rsync/zstd_stream.cc: ZstdStream::Write, ZstdStream::Finish, ZstdStream::ThreadCompressorMain"]}
{"id": "C50", "title": "An instance is streamed from at most one directory", "statement": "After any history of starting and stopping streaming sessions, with failures at any step, each remote instance is served by at most one source directory, and stopping it removes it.", "quantifier": "every history of start/stop calls with arbitrary failures", "why_tests_cant": "unbounded histories with failures", "anchors": ["cdc_stream/session_manager.cc: SessionManager::StartSession, SessionManager::StopSession, StopSessionInternal"]}
{"id": "C51", "title": "No request touches a freed file system node", "statement": "After any history of lookups, directory listings, manifest updates and forgets, every node that the kernel refers to and every parent of such a node exists, and no request ever touches a node that has been freed.", "quantifier": "every history of lookup, readdir and forget requests consistent with the kernel protocol, every sequence of manifest updates, every choice of addresses by the allocator", "why_tests_cant": "unbounded histories, reference counts", "anchors": ["cdc_fuse_fs/cdc_fuse_fs.cc: GetOrCreateInode, ForgetOne, ForgetChild"]}
{"id": "C52", "title": "Shortening a cache path keeps the distinguishing hash", "statement": "The cache path computed for a source directory always ends with the full directory hash and stays within the length limit whenever that is possible.", "quantifier": "every source directory string, every length limit", "why_tests_cant": "multi-byte characters at the cut position", "anchors": ["cdc_stream/multi_session.cc: MultiSession::GetCachePath, common/util.cc: Util::Utf8CodePointLen"]}
{"id": "C53", "title": "Delta sync sends only the data the server lacks", "statement": "For every pair of old and new file contents and every timing of the signature messages, the literal data in the patch is exactly the chunks of the new file whose hash and size do not occur among the chunks of the old file, in order; everything else is sent as references into the old file.", "quantifier": "all pairs of file contents, all interleavings of signature arrival and patch creation", "why_tests_cant": "all contents times all interleavings of two streams", "anchors": ["cdc_rsync/base/cdc_interface.cc: PatchSender::TryAddChunks, ServerChunkReceiver"]}
{"id": "C54", "title": "A flushed manifest can be loaded, extended and flushed again", "statement": "After any history of edits, flushes and reloads, adding one more file to a directory of the manifest and flushing succeeds.", "quantifier": "every history of manifest edits, flushes and reloads, every size limit", "why_tests_cant": "needs a directory that overflows in two different flushes", "anchors": ["manifest/manifest_builder.cc: ManifestBuilder::EnforceFileProtoSize, EnforceDirProtoSize, FlushDir"]}
{"id": "C55", "title": "An update repairs a manifest with missing parts", "statement": "If parts of the stored manifest are missing, an update re-reads the affected files and directories from disk, so that the manifest it writes is complete again.", "quantifier": "every set of missing manifest parts", "why_tests_cant": "all subsets of parts", "anchors": ["manifest/manifest_updater.cc: DirScannerTask::GetAssetInfosFromList, DirScannerTask::CompareAssets, ManifestUpdater::Update"]}
{"id": "C56", "title": "A manifest update terminates", "statement": "As long as every background task finishes, the update loop never waits for a task when none is outstanding.", "quantifier": "every history of completed, failing and prioritised tasks, every timing of flush requests", "why_tests_cant": "depends on the relative timing of deadlines", "anchors": ["manifest/manifest_updater.cc: ManifestUpdater::Update, ManifestUpdater::QueueTasks, MaybeFlush"]}
{"id": "C57", "title": "A successful sync makes the destination equal to the source", "statement": "After a sync that reports success, every file sent has the client's content and modification time in the destination (a file with the client's size and time may be left as it is unless checksums are requested), every directory sent is there, with deletion enabled everything else that is not excluded is gone, with --existing nothing is created, temporary files are gone and nothing else in the file system has changed; a dry run changes nothing.", "quantifier": "All client trees, server file systems, filters and combinations of options; any order in which the background threads finalise files; files excluded or nested in any way.", "why_tests_cant": "The result depends on the interplay of listing, comparison, deletion order, directory creation and background tasks for every pair of trees.", "anchors": ["cdc_rsync_server/cdc_rsync_server.cc: CdcRsyncServer::Sync, CreateMissingDirs, HandleSendMissingFileData, SyncChangedFiles, PatchTask, FinalizeCopiedFileTask", "common/path.cc: ReplaceFile, RemoveFile, CreateDirRec"]}
{"id": "C58", "title": "A sync changes nothing outside the destination directory", "statement": "A sync never changes files outside the destination directory given by the user (apart from creating the directories leading to it).", "quantifier": "All file systems, also with symbolic links inside the destination; all client trees and options.", "why_tests_cant": "It must hold for every content of the destination, in particular for entries the tests do not create.", "anchors": ["cdc_rsync_server/cdc_rsync_server.cc: HandleSendMissingFileData, PatchTask", "common/path.cc: OpenFile, SearchFiles"]}
{"id": "C59", "title": "A sync that reports success has written every byte", "statement": "If a sync ends without reporting an error, every file it transferred has exactly the client's content on the server, also when writing fails late, for example because the disk is full when a file is closed.", "quantifier": "All lists of files, all interleavings of the transferring and finalising threads, all write failures.", "why_tests_cant": "Failures of closing a file are not produced by tests.", "anchors": ["cdc_rsync_server/cdc_rsync_server.cc: FinalizeCopiedFileTask::ThreadRun, PatchTask::Finalize"]}
{"id": "C60", "title": "Different source directories do not share a cache", "statement": "Two different source directories never get the same cache directory, whatever the length limit, unless the hashes of the two paths agree in the digits used.", "quantifier": "All pairs of source directory strings, all length limits.", "why_tests_cant": "All pairs of strings; the colliding ones contain characters tests do not use.", "anchors": ["cdc_stream/multi_session.cc: MultiSession::GetCacheDir, MultiSession::GetCachePath"]}
{"id": "C61", "title": "A directory whose streaming failed once can be streamed again", "statement": "After streaming a directory has failed, for whatever reason, a later request to stream it succeeds if nothing fails then; a request to stop or exit succeeds, too.", "quantifier": "Every history of start, stop and exit requests with arbitrary failures.", "why_tests_cant": "Needs a failure of the background thread followed by arbitrary histories.", "anchors": ["cdc_stream/session_manager.cc: SessionManager::StartSession, StopSessionInternal, Shutdown", "cdc_stream/multi_session.cc: MultiSessionRunner::Run, MultiSessionRunner::Shutdown, MultiSession::StartSession"]}
{"id": "C62", "title": "A session that cannot be started is reported as an error", "statement": "If a streaming session cannot be started, for whatever reason, the request fails with an error, no process of it is left running and the service and its other sessions go on.", "quantifier": "Every combination of outcomes of starting, running, deploying and connecting the remote component.", "why_tests_cant": "Every combination of failures of two processes; the failing ones are never produced in tests.", "anchors": ["cdc_stream/cdc_fuse_manager.cc: CdcFuseManager::Start, RunFuseProcess, RunPortForwardingProcess, WaitForFuseConnected, Stop", "cdc_stream/session.cc: Session::Start, Session::Stop, Session::~Session"]}
{"id": "C63", "title": "The streaming service can be told to exit", "statement": "A request to exit that is answered with OK ends the service and everything it streams; if a session could not be stopped the request can be repeated; until then the service goes on working.", "quantifier": "Every history of start, stop and exit requests with arbitrary failures.", "why_tests_cant": "Needs failures during shutdown followed by arbitrary requests.", "anchors": ["cdc_stream/background_service_impl.cc: BackgroundServiceImpl::Exit", "cdc_stream/session_management_server.cc: SessionManagementServer::Shutdown", "cdc_stream/session_manager.cc: SessionManager::Shutdown", "cdc_stream/multi_session.cc: MultiSessionRunner::Shutdown, WaitForManifestAck"]}
{"id": "C64", "title": "The port of the remote component is read correctly however its output arrives", "statement": "However the output of the remote component is split into pieces, it is recognised as up to date and its port is read correctly and completely.", "quantifier": "All ports, all texts before and after, all ways to split the output.", "why_tests_cant": "All splits of all outputs.", "anchors": ["cdc_stream/cdc_fuse_manager.cc: CdcFuseManager::HandleFuseStdout, ParsePort"]}
{"id": "C65", "title": "A new manifest is taken over without disturbing the mounted file system", "statement": "When a new manifest arrives, every node the kernel knows keeps its identity; a node is valid afterwards exactly if its path exists in the new manifest, and it is known whether its content has changed. No freed data is accessed, whatever nodes are in use, and a directory whose parts cannot be fetched at that moment does not lose its nodes.", "quantifier": "All pairs of old and new manifests, all sets of nodes in use, all orders in which the parallel tasks finish, all failures of fetching manifest parts.", "why_tests_cant": "Freed memory is only accessed for certain sets of nodes in use and certain placements of directory entries in manifest parts.", "anchors": ["cdc_fuse_fs/cdc_fuse_fs.cc: UpdateInodeTask::ThreadRun, InvalidateTree, CdcFuseSetManifest", "cdc_fuse_fs/asset.cc: Asset::UpdateProto"]}
{"id": "C66", "title": "A request that had to wait is answered for what was asked", "statement": "A lookup, open or open-directory request that had to wait for a part of the manifest is finally answered as if it had been asked at that moment, with the name it was asked with.", "quantifier": "All histories of requests at any number of threads and manifest updates.", "why_tests_cant": "The name is only wrong if the thread that received it has received something else meanwhile.", "anchors": ["cdc_fuse_fs/cdc_fuse_fs.cc: QueuedRequest, QueueLookupRequest, CdcFuseLookup, CdcFuseSetManifest"]}
{"id": "C67", "title": "No waiting request is forgotten", "statement": "Every request is answered at most once, and when no update is going on, a request that is not answered is about a file or directory still marked as in progress by the current manifest.", "quantifier": "All histories of requests and manifest updates, in particular requests that arrive during an update.", "why_tests_cant": "Depends on the moment a request arrives relative to the exchange of the manifest and of the queue.", "anchors": ["cdc_fuse_fs/cdc_fuse_fs.cc: QueueOpenRequest, QueueOpenDirRequest, QueueLookupRequest, CdcFuseSetManifest"]}
{"id": "C68", "title": "A program that opens a streamed file reads what is in it then", "statement": "Whatever a program reads from a streamed file has been in the file since the program opened it; and a program that has a file open while it changes reads one version of it only, or gets an error.", "quantifier": "All histories of manifests, opens, reads and closes by any number of programs, whatever pages the kernel keeps in its cache.", "why_tests_cant": "Only certain successions of manifests and opens leave stale pages in the kernel.", "anchors": ["cdc_fuse_fs/cdc_fuse_fs.cc: CdcFuseOpen, CdcFuseRead, SetManifest, UpdateInodeTask::ThreadRun"]}
{"id": "C69", "title": "Listing a directory that does not change gives every entry exactly once", "statement": "However a listing of a directory is divided into requests, the program gets every entry exactly once, in order, and no error, if the directory does not change meanwhile; going on at a place told earlier works, too.", "quantifier": "All directories, all divisions into requests, all points at which a listing is interrupted and resumed, all changes of the directory meanwhile.", "why_tests_cant": "All sizes of names relative to the boundaries of requests; changes between two requests.", "anchors": ["cdc_fuse_fs/cdc_fuse_fs.cc: CdcFuseReadDir, AddDirectoryEntry"]}
{"id": "C70", "title": "Access to streamed files is granted by the rules of POSIX", "statement": "access() on a streamed file answers by the mode of the file: the rights of the owner count for the owner, else those of the group for its members, else those of the others.", "quantifier": "All modes, users, groups and requested rights.", "why_tests_cant": "All combinations; the tests replace the call that determines who asks.", "anchors": ["cdc_fuse_fs/cdc_fuse_fs.cc: CdcFuseAccess"]}
{"id": "C71", "title": "A manifest built from scratch reads back exactly as it was built", "statement": "Start with an empty manifest (on a store that may already hold other data), create, change and delete assets in any order with ManifestBuilder, flush, and load the manifest by the returned id: walking it, following every indirect list, finds exactly the paths that the same operations leave in an ordinary file tree, each with the same fields and the same chunks in the same order. Creating with force and deleting never fail, and flushing works.", "quantifier": "all sequences of GetOrCreateAsset/DeleteAsset calls and asset changes, all trees, names, chunk lists, size limits, sort orders of equal-sized entries and prior store contents without hash collisions", "why_tests_cant": "Tests build a few small trees; which entries and chunks are moved to which lists depends on every size in the tree, and a lost or duplicated entry only shows for particular combinations of sizes and nesting.", "anchors": ["manifest/manifest_builder.cc: GetOrCreateAsset, DeleteAsset, FindOrCreateDirPathRec, FlushDir, EnforceDirProtoSize, AppendAllocatedIndirectAssets, Flush", "manifest/asset_builder.cc: AppendChunk, SetChunks, TruncateChunks"]}
{"id": "C72", "title": "The collected changes of a directory lead to the same result as the changes themselves", "statement": "While a directory is watched, any sequence of creations, modifications, removals and renames of files and directories is collected into one action per path; applying these actions to what was there before gives what is there now, at every path, and files that exist neither before nor after (temporary files) leave no action.", "quantifier": "all sequences of changes of any length, all directory contents, all paths", "why_tests_cant": "Tests try a few short sequences on one file; the outcome depends on the whole history of a path since the last collection.", "anchors": ["common/file_watcher_win.cc: AsyncFileWatcher::ProcessDirChanges, GetModifiedFiles"]}
{"id": "C73", "title": "No collected change is forgotten", "statement": "While changes that the file watcher has collected have not been picked up, the thread that updates the manifest has been told that files changed, or the watcher is about to tell it; so it never sleeps with changes to be picked up.", "quantifier": "all interleavings of the watcher thread, the update thread and changes of the directory, all failures", "why_tests_cant": "A lost wake-up needs a particular interleaving of two threads and two mutexes.", "anchors": ["common/file_watcher_win.cc: ProcessDirChanges, GetModifiedFiles", "cdc_stream/multi_session.cc: MultiSessionRunner::Run, OnFilesChanged"]}
{"id": "C74", "title": "What is streamed catches up with the directory", "statement": "Whenever the file watcher and the update thread have nothing left to do, and the last scan of the whole directory succeeded, the published manifest shows the streamed directory as it is: every path, with the right kind and content.", "quantifier": "all directory trees, all histories of changes (also of the streamed directory itself), all interleavings of changes, watcher and update thread, all losses of notifications and failures", "why_tests_cant": "The result depends on where in a scan, an update or the start of watching each change falls; tests make a change and wait.", "anchors": ["common/file_watcher_win.cc: WatchDirChanges, ReadDirChanges, ProcessDirChanges", "cdc_stream/multi_session.cc: MultiSessionRunner::Run", "manifest/manifest_updater.cc: ApplyOperations, HandleFileChunkerResult, HandleDirScannerResult"]}
{"id": "C75", "title": "Every listening client is told the current manifest", "statement": "While manifests are set at any time and clients listen, the ids each client is told are ids that were set, in the order they were set; replaced ones may be skipped, but when the server has nothing more to send to a client and sending has not failed, the last id it has sent is the current one. Having set a manifest, this takes the server a bounded number of steps, whatever the other clients do.", "quantifier": "all interleavings of setting manifests, any number of clients, shutdown and failures", "why_tests_cant": "A lost wake-up or a skipped last id needs a particular interleaving of a set with a write.", "anchors": ["cdc_stream/grpc_asset_stream_server.cc: GetManifestId, SetManifestId, WaitForUpdate, Shutdown"]}
{"id": "C76", "title": "A session that has started shows the current manifest", "statement": "If waiting for an instance to acknowledge the manifest succeeds, the client just started on that instance has loaded and shown the manifest that is current; conversely, waiting succeeds once the client has.", "quantifier": "all interleavings of setting manifests, starting clients on the same or on other instances, loading and acknowledging, and failures", "why_tests_cant": "Depends on acknowledgements of earlier clients and on manifests set in between; the tests start one client.", "anchors": ["cdc_stream/grpc_asset_stream_server.cc: WaitForManifestAck, AckManifestIdReceived", "cdc_fuse_fs/config_stream_client.cc: SendManifestAck", "cdc_stream/multi_session.cc: StartSession"]}
{"id": "C77", "title": "Clients end up with the current manifest", "statement": "Whatever fails in between, when neither the server nor a client that listens has anything left to do, the client shows the current manifest.", "quantifier": "all interleavings of setting manifests, sending, loading and acknowledging, and all transient failures", "why_tests_cant": "A transient failure at the wrong moment is needed.", "anchors": ["cdc_fuse_fs/config_stream_client.cc: ReadThreadMain", "cdc_fuse_fs/cdc_fuse_fs.cc: SetManifest", "cdc_stream/grpc_asset_stream_server.cc: GetManifestId"]}
{"id": "C78", "title": "A chunk request returns the chunks or fails", "statement": "A request for chunks that succeeds is answered with one piece of data for each id, in order, each having that content id, also if files have changed since they were chunked.", "quantifier": "all histories of the chunk index, all file contents, all lists of ids", "why_tests_cant": "Depends on files changing between chunking and reading.", "anchors": ["cdc_stream/grpc_asset_stream_server.cc: AssetStreamServiceImpl::GetContent, ReadFromFile", "common/path.cc: ReadFile"]}
{"id": "C79", "title": "The chunk index lists the files that there are", "statement": "After every update of the manifest for changes reported by the file watcher, the index used to answer chunk requests lists exactly the files that there are with their chunks, so that a chunk of an existing file is never looked for in a deleted one.", "quantifier": "all sequences of updates, all paths, sizes and chunk lists", "why_tests_cant": "The failure needs two files that share a chunk, one of them deleted, and a particular iteration order of a hash map.", "anchors": ["manifest/manifest_updater.cc: ApplyOperations, HandleFileChunkerResult", "manifest/file_chunk_map.cc: Remove, UpdateIdToChunkMap", "cdc_stream/multi_session.cc: GetFileOperations"]}
{"id": "C80", "title": "A manifest that is changed and saved again and again always reads back as the file tree", "statement": "Use one store for any history of: starting a new manifest, loading a manifest saved earlier, creating, changing and deleting assets (all setters except AppendChunk), and flushing. Every manifest ever saved can be loaded at any later time, and walking it, following every indirect list, finds exactly the paths, fields and chunks that the same operations leave in an ordinary file tree. Creating with force and deleting never fail in between.", "quantifier": "all histories of operations, flushes and loads, all trees, names, chunk lists, size limits and sort orders, stores without hash collisions", "why_tests_cant": "Entries in indirect lists are loaded, kept in memory by content id, changed, split again and written back; whether a change is lost or goes to the wrong list depends on all earlier flushes.", "anchors": ["manifest/manifest_builder.cc: GetOrCreateAsset, DeleteAsset, LoadManifest, Flush, FlushDir, FlushIndirectAssetLists, EnforceDirProtoSize, EnforceAssetListProtoSize, GetAssetList"]}
{"id": "C81", "title": "After an update, the manifest is the source directory", "statement": "Update the manifest of a directory any number of times, from an empty one or from the manifest stored last, with tasks finishing in any order, directories listed in any order and the manifest pushed at any time in between. The manifest stored at the end of an update has exactly the files and directories of the source directory, each with its name, kind and time, and each file with its size, permissions and the ids of the chunks of its content in order. A manifest pushed during an update is readable, and everything in it is right, or marked as in progress, or below a directory that is marked. No step of an update fails because of the state of the manifest.", "quantifier": "all directory trees and sequences of versions of them, all schedules of tasks and pushes, all chunkers and content ids, all limits that make directories and files be split into lists", "why_tests_cant": "The result depends on the order in which tasks finish, on where pushes fall, and on how directories were split at each earlier flush.", "anchors": ["manifest/manifest_updater.cc: UpdateAll, Update, QueueTasks, ApplyOperations, HandleFileChunkerResult, HandleDirScannerResult, DirScannerTask", "manifest/manifest_builder.cc: GetOrCreateAsset, DeleteAsset, Flush, LoadManifest"]}
{"id": "C82", "title": "What is mounted is the source directory", "statement": "Update the manifest of a directory any number of times and let a client use the manifest stored last. Whatever the client finds at a path, by lookups and listings in any order and with other threads running, is in the source directory at that path, with the same kind, time, size and permissions; listing a directory gives exactly its names; a read of a file returns exactly the bytes of the source file in the range, or fails because the data store failed; and with a working data store everything in the source directory can be found and read.", "quantifier": "all directory trees and sequences of versions, all schedules of the updater, all limits that split directories and files into lists, all client states and interleavings of client threads, all offsets and sizes", "why_tests_cant": "Spans the chunker, the manifest updater, the builder, the data store and the asset tree of the client; each test covers one of them with a few files.", "anchors": ["manifest/manifest_updater.cc: UpdateAll, Update", "manifest/manifest_builder.cc: Flush, EnforceFileProtoSize, EnforceDirProtoSize", "fastcdc/fastcdc.h: Chunker", "cdc_fuse_fs/asset.cc: Lookup, GetAllChildProtos, Read"]}
{"id": "C83", "title": "No stray file in the cache directory is taken for a chunk", "statement": "A file in the cache directory that is not where the store keeps a chunk is never mistaken for one: it is not counted and removed as one and does not affect the real chunk.", "quantifier": "every id, every depth up to the hash length, every cache root", "why_tests_cant": "all ids and depths", "anchors": ["data_store/disk_data_store.cc: DiskDataStore::GetCacheFilePath, DiskDataStore::ParseCacheFilePath"]}
{"id": "C84", "title": "Cleanup enforces the capacity also after a failed write", "statement": "After a successful cleanup the cache directory occupies at most capacity*fill_factor bytes even if writing a chunk has failed half-way before, for example because the disk was full.", "quantifier": "every operation history, every capacity, every chunk size and timestamp assignment", "why_tests_cant": "needs an invariant over all histories (the cached total is maintained incrementally)", "anchors": ["data_store/disk_data_store.cc: DiskDataStore::Cleanup, DiskDataStore::Put, DiskDataStore::Remove, DiskDataStore::Prune"]}
{"id": "C85", "title": "Reading a whole chunk gives the right bytes from a possibly damaged cache", "statement": "If every remote reader returns correct chunks and every cached chunk file is a prefix of the right chunk (a crash can truncate it), a whole-chunk read that succeeds returns the right chunk.", "quantifier": "every cache state reachable through crashes, every set of readers, every chunk list with offsets and sizes", "why_tests_cant": "needs all crash points of earlier writes", "anchors": ["data_store/data_provider.cc: DataProvider::Get, DataProvider::GetFromWriter, data_store/disk_data_store.cc: DiskDataStore::Put"]}
{"id": "C86", "title": "Concurrent lookups find every child", "statement": "A lookup of a name that is in the directory never reports it as missing, whatever other threads do with the same directory at the same time.", "quantifier": "every directory layout, every history of lookups and listings", "why_tests_cant": "lazy loading makes the result potentially history dependent", "anchors": ["cdc_fuse_fs/asset.cc: Asset::Lookup, Asset::GetAllChildProtos, Asset::FetchNextDirAssetList"]}
{"id": "C87", "title": "Pruning after an update keeps the manifest complete", "statement": "The prune step at the end of a manifest update, with any outcome of the tasks of the update, removes no part of the manifest that the stored id refers to.", "quantifier": "every manifest, every outcome of every directory scan and chunking task", "why_tests_cant": "crash points and failing scans multiply", "anchors": ["manifest/manifest_updater.cc: ManifestUpdater::Update, FlushAndPushManifest, HandleDirScannerResult"]}
{"id": "C88", "title": "--existing creates nothing", "statement": "With --existing only files that exist in the destination are copied or patched and no directory is created, whatever other options are given.", "quantifier": "every pair of client and server file lists, all combinations of the checksum, whole-file, existing and copy-dest options", "why_tests_cant": "all list pairs", "anchors": ["cdc_rsync_server/file_diff_generator.cc: file_diff::Generate"]}
{"id": "C89", "title": "Everything extraneous is deleted", "statement": "With --delete every extraneous file and directory is gone afterwards, nothing else has changed, and the deletion does not fail because a directory is not empty, whatever filter rules are given.", "quantifier": "every set of extraneous files and directories, every batching", "why_tests_cant": "all trees", "anchors": ["cdc_rsync_server/cdc_rsync_server.cc: CdcRsyncServer::RemoveExtraneousFilesAndDirs", "cdc_rsync_server/file_deleter_and_sender.cc: FileDeleterAndSender::DeleteAndSendFileOrDir"]}
{"id": "C90", "title": "A patched file is replaced as a whole", "statement": "At whatever point a sync stops or fails, a file being delta-patched has either its old content, its new content or is absent.", "quantifier": "every crash point during copying, patching, replacing and time stamping, every file", "why_tests_cant": "all crash points", "anchors": ["cdc_rsync_server/cdc_rsync_server.cc: PatchTask, HandleSendMissingFileData, FinalizeCopiedFileTask", "common/path.cc: path::ReplaceFile"]}
{"id": "C91", "title": "Client and server finish the protocol", "statement": "For every combination of options, every outcome of the file comparison and files of every size, both sides finish the protocol; they never wait for each other for ever.", "quantifier": "all option combinations, all numbers of files and messages per phase", "why_tests_cant": "all combinations of options times unbounded message counts", "anchors": ["cdc_rsync/cdc_rsync_client.cc: CdcRsyncClient::Sync", "cdc_rsync_server/cdc_rsync_server.cc: CdcRsyncServer::Sync"]}
{"id": "C92", "title": "A file that cannot be opened is reported", "statement": "If a requested file cannot be opened, the call for it returns a null handle, as its callers expect, and the process goes on.", "quantifier": "every completion order, every number of files and threads", "why_tests_cant": "completion orders", "anchors": ["cdc_rsync/parallel_file_opener.cc: ParallelFileOpener::GetNextOpenFile"]}
{"id": "C93", "title": "Command line quoting for ssh is lossless", "statement": "An argument quoted for ssh arrives unchanged at the remote program after both the Microsoft parser and the remote shell, apart from the documented expansion of ~.", "quantifier": "every argument string", "why_tests_cant": "backslash/quote runs of every length", "anchors": ["common/remote_util.cc: RemoteUtil::QuoteForWindows, RemoteUtil::QuoteForSsh"]}
{"id": "C94", "title": "Port ranges are parsed to the numbers they denote", "statement": "A text that is a port or a range of two ports parses to its two ends if these are valid and in order; everything else is rejected.", "quantifier": "every flag string, every output text", "why_tests_cant": "all strings, in particular near the 64-bit limit", "anchors": ["absl_helper/jedec_size_flag.cc: AbslParseFlag", "common/port_range_parser.cc: port_range::Parse", "common/ansi_filter.cc: ansi_filter::RemoveEscapeSequences"]}
{"id": "C95", "title": "Removing ANSI sequences keeps the text", "statement": "Removing ANSI escape sequences from output made of text and complete sequences gives exactly the text (text: no ESC and none of the 8-bit introducers 0x90, 0x9B, 0x9D); for every input, nothing is added or reordered.", "quantifier": "every flag string, every output text", "why_tests_cant": "all strings, in particular near the 64-bit limit", "anchors": ["absl_helper/jedec_size_flag.cc: AbslParseFlag", "common/port_range_parser.cc: port_range::Parse", "common/ansi_filter.cc: ansi_filter::RemoveEscapeSequences"]}
{"id": "C96", "title": "Removing ANSI sequences keeps UTF-8 text", "statement": "Removing ANSI escape sequences from UTF-8 output gives exactly the text outside of the sequences.", "quantifier": "every flag string, every output text", "why_tests_cant": "all strings, in particular near the 64-bit limit", "anchors": ["absl_helper/jedec_size_flag.cc: AbslParseFlag", "common/port_range_parser.cc: port_range::Parse", "common/ansi_filter.cc: ansi_filter::RemoveEscapeSequences"]}
{"id": "C97", "title": "An error of the compression thread is reported", "statement": "If the background thread of the compression stream fails, at whatever moment, a later write or finish returns an error.", "quantifier": "every schedule, every write size, every buffer size", "why_tests_cant": "schedules and buffer fill levels", "anchors": ["cdc_rsync/zstd_stream.cc: ZstdStream::Write, ZstdStream::Finish, ZstdStream::ThreadCompressorMain"]}
{"id": "C98", "title": "File system nodes are freed when the kernel forgets them", "statement": "After any history of lookups, directory listings, manifest updates and forgets, a node exists only if the kernel holds a reference to it or to one of its descendants.", "quantifier": "every history of lookup, readdir and forget requests consistent with the kernel protocol, every sequence of manifest updates, every choice of addresses by the allocator", "why_tests_cant": "unbounded histories, reference counts", "anchors": ["cdc_fuse_fs/cdc_fuse_fs.cc: GetOrCreateInode, ForgetOne, ForgetChild"]}
{"id": "C99", "title": "No process of a streaming session is left behind", "statement": "A started session has both of its processes; stopping it leaves none, also if terminating them fails, so that a second attempt to stop it succeeds; a session that could not be started leaves no component running.", "quantifier": "Every combination of outcomes of starting, running, deploying and connecting the remote component.", "why_tests_cant": "Every combination of failures of two processes; the failing ones are never produced in tests.", "anchors": ["cdc_stream/cdc_fuse_manager.cc: CdcFuseManager::Start, RunFuseProcess, RunPortForwardingProcess, WaitForFuseConnected, Stop", "cdc_stream/session.cc: Session::Start, Session::Stop, Session::~Session"]}
{"id": "C100", "title": "An exit ends all streaming, and nothing else takes the service down", "statement": "If a request to exit ends the service then nothing is streamed any more; and as long as no exit has been requested no request takes the service down, whatever fails (apart from crashes while a session is started).", "quantifier": "Every history of start, stop and exit requests with arbitrary failures.", "why_tests_cant": "Needs failures during shutdown followed by arbitrary requests.", "anchors": ["cdc_stream/background_service_impl.cc: BackgroundServiceImpl::Exit", "cdc_stream/session_management_server.cc: SessionManagementServer::Shutdown", "cdc_stream/session_manager.cc: SessionManager::Shutdown", "cdc_stream/multi_session.cc: MultiSessionRunner::Shutdown, WaitForManifestAck"]}
{"id": "C101", "title": "Listing a directory while it changes", "statement": "A program that lists a directory while new manifests arrive gets every entry that is in the directory all the time exactly once, and no error.", "quantifier": "All directories, all divisions into requests, all points at which a listing is interrupted and resumed, all changes of the directory meanwhile.", "why_tests_cant": "All sizes of names relative to the boundaries of requests; changes between two requests.", "anchors": ["cdc_fuse_fs/cdc_fuse_fs.cc: CdcFuseReadDir, AddDirectoryEntry"]}
{"id": "C102", "title": "Temporary files leave no trace in the collected changes", "statement": "A file that exists neither before nor after the collected changes has no action, and neither has a path without a notification.", "quantifier": "all sequences of changes of any length, all directory contents, all paths", "why_tests_cant": "Tests try a few short sequences on one file; the outcome depends on the whole history of a path since the last collection.", "anchors": ["common/file_watcher_win.cc: AsyncFileWatcher::ProcessDirChanges, GetModifiedFiles"]}
{"id": "C103", "title": "A chunk request succeeds exactly if the chunks can be found", "statement": "A chunk request succeeds if every chunk is in an unchanged file or in the data store, and fails if one is in neither.", "quantifier": "all histories of the chunk index, all file contents, all lists of ids", "why_tests_cant": "Depends on files changing between chunking and reading.", "anchors": ["cdc_stream/grpc_asset_stream_server.cc: AssetStreamServiceImpl::GetContent, ReadFromFile", "common/path.cc: ReadFile"]}
{"id": "C104", "title": "Waiting requests other than lookups are answered for what was asked", "statement": "Open and open-directory requests that had to wait for a part of the manifest are finally answered as if they had been asked at that moment; waiting lookups are at least answered for the directory they were asked in.", "quantifier": "All histories of requests at any number of threads and manifest updates.", "why_tests_cant": "The name is only wrong if the thread that received it has received something else meanwhile.", "anchors": ["cdc_fuse_fs/cdc_fuse_fs.cc: QueuedRequest, QueueLookupRequest, CdcFuseLookup, CdcFuseSetManifest"]}
{"id": "C105", "title": "The rsync command line is parsed as it is meant", "statement": "Every well-formed command line (grouped letters, long options, values with = or as the next argument, sources and destination, in any order) that is acceptable gives the parameters it denotes: flags given, last value of each option (else the environment, else the default), filter rules in command-line order with files of rules expanded in place, all plain arguments but the last as sources, the last as destination with user@host split off; and it is rejected if it is not acceptable (delete without recursive, bad level, missing source or destination, unreadable files, help).", "quantifier": "all command lines of the grammar, file contents and environments", "why_tests_cant": "Options, values and positions combine without bound; tests try a few command lines.", "anchors": ["cdc_rsync/params.cc: Parse, HandleParameter, LoadFilesFrom, PopUserHost, ValidateParameters", "common/path.cc: ReadAllLines", "common/remote_util.cc: ScpToSftpCommand"]}
{"id": "C106", "title": "Every option of the help text is understood", "statement": "Each option the help text documents is accepted in the documented forms, in front of any well-formed command line.", "quantifier": "all command lines of the grammar, file contents and environments", "why_tests_cant": "Options, values and positions combine without bound; tests try a few command lines.", "anchors": ["cdc_rsync/params.cc: Parse, HandleParameter, LoadFilesFrom, PopUserHost, ValidateParameters", "common/path.cc: ReadAllLines", "common/remote_util.cc: ScpToSftpCommand"]}
{"id": "C107", "title": "Nothing on the command line is silently ignored", "statement": "If a command line is accepted then every argument has contributed to the parameters with its documented meaning: it is a well-formed command line and the parameters are what it denotes.", "quantifier": "all command lines of the grammar, file contents and environments", "why_tests_cant": "Options, values and positions combine without bound; tests try a few command lines.", "anchors": ["cdc_rsync/params.cc: Parse, HandleParameter, LoadFilesFrom, PopUserHost, ValidateParameters", "common/path.cc: ReadAllLines", "common/remote_util.cc: ScpToSftpCommand"]}
{"id": "C108", "title": "cdc_rsync exits with code 0 exactly if the sync was successful", "statement": "For every behaviour of ssh, of the server process and of the network, cdc_rsync exits with code 0 if and only if the server could be started and reached, the sync succeeded, the server could be stopped and exited with code 0.", "quantifier": "all outcomes of starting, deploying, syncing and stopping", "why_tests_cant": "The outcomes of up to three server starts, the deployment, the sync and the shutdown multiply; a test needs a real remote device for each.", "anchors": ["cdc_rsync/cdc_rsync_client.cc: Run, StartServer, StopServer, GetServerExitStatus", "cdc_rsync/main.cc", "common/client_socket.cc: WaitForConnection, Send"]}
{"id": "C109", "title": "The server is deployed when and only when it is needed, at most once", "statement": "A run starts the server at most three times and deploys it at most once; it deploys only to a remote device, only after a server start showed that it is missing or out of date, and for the architecture of the device; and it does deploy in this case unless the architecture cannot be detected or the server for the detected one works.", "quantifier": "all outcomes of starting, deploying, syncing and stopping", "why_tests_cant": "The outcomes of up to three server starts, the deployment, the sync and the shutdown multiply; a test needs a real remote device for each.", "anchors": ["cdc_rsync/cdc_rsync_client.cc: Run, StartServer, StopServer, GetServerExitStatus", "cdc_rsync/main.cc", "common/client_socket.cc: WaitForConnection, Send"]}
{"id": "C110", "title": "The other exit codes of cdc_rsync say what happened", "statement": "Exit code 2 exactly if the last start of the server took too long; 5 exactly if a deployed server still exits as if it had to be deployed; 4 only if the server reported that its port is in use; 3 only if the connection was lost during the sync.", "quantifier": "all outcomes of starting, deploying, syncing and stopping", "why_tests_cant": "The outcomes of up to three server starts, the deployment, the sync and the shutdown multiply; a test needs a real remote device for each.", "anchors": ["cdc_rsync/cdc_rsync_client.cc: Run, StartServer, StopServer, GetServerExitStatus", "cdc_rsync/main.cc", "common/client_socket.cc: WaitForConnection, Send"]}
{"id": "C111", "title": "The client connects to the port the server announced", "statement": "The client forwards to and connects to the port announced by the server process it has just started, whatever earlier attempts of the same run printed.", "quantifier": "all outcomes of starting, deploying, syncing and stopping", "why_tests_cant": "The outcomes of up to three server starts, the deployment, the sync and the shutdown multiply; a test needs a real remote device for each.", "anchors": ["cdc_rsync/cdc_rsync_client.cc: Run, StartServer, StopServer, GetServerExitStatus", "cdc_rsync/main.cc", "common/client_socket.cc: WaitForConnection, Send"]}
{"id": "C112", "title": "The server reads the components the client passed", "statement": "The component list the client puts on the command line (build version, file name, size, modification time of each component) is read back unchanged by the server and by the file system, for all sizes and times.", "quantifier": "all lists of components", "why_tests_cant": "Sizes and times are unbounded integers; tests use small ones.", "anchors": ["common/gamelet_component.cc: ToCommandLineArgs, FromCommandLineArgs"]}
{"id": "C113", "title": "The up-to-date check compares components as documented", "statement": "Two component lists are considered equal exactly if they have the same names in order and, for each, the same build version if both are releases, else the same size and time.", "quantifier": "all pairs of component lists", "why_tests_cant": "Needs all combinations of released and local builds.", "anchors": ["common/gamelet_component.cc: operator=="]}
{"id": "C114", "title": "A server process that passes the check is of the client's release", "statement": "Whatever deployments by whatever clients have finished, broken off or are going on at the same time, a cdc_rsync_server process that passes the check of a released client has been started from the complete binary of that release.", "quantifier": "all interleavings of deployments, each broken off at any byte, and of server starts", "why_tests_cant": "Interruption points and interleavings of deployments cannot be enumerated by tests.", "anchors": ["cdc_rsync/server_arch.cc: GetDeploySftpCommands", "cdc_rsync_server/cdc_rsync_server.cc: CheckComponents", "common/gamelet_component.cc: Get"]}
{"id": "C115", "title": "A server process that passes the check is of the client's local build", "statement": "The same for locally built clients, where sizes and times of the files are compared.", "quantifier": "all interleavings of deployments, each broken off at any byte, and of server starts", "why_tests_cant": "Interruption points and interleavings of deployments cannot be enumerated by tests.", "anchors": ["cdc_rsync/server_arch.cc: GetDeploySftpCommands", "cdc_rsync_server/cdc_rsync_server.cc: CheckComponents", "common/gamelet_component.cc: Get"]}
{"id": "C116", "title": "A file system that passes the check runs with the client's files", "statement": "If cdc_fuse_fs on the device passes the check then cdc_fuse_fs and libfuse.so on the device are the complete files of the client, whatever deployments have finished or broken off before.", "quantifier": "all interleavings of deployments, each broken off at any byte, and of server starts", "why_tests_cant": "Interruption points and interleavings of deployments cannot be enumerated by tests.", "anchors": ["cdc_rsync/server_arch.cc: GetDeploySftpCommands", "cdc_rsync_server/cdc_rsync_server.cc: CheckComponents", "common/gamelet_component.cc: Get"]}
{"id": "C117", "title": "Bytes arrive from server to client as they were sent", "statement": "Whatever the kernels do (interrupts, short transfers, errors, connection loss), what the client receives up to the first failing call is a prefix of what the server sent, in buffers of the sizes asked for, and the end of the stream is reported only after everything that was sent.", "quantifier": "all sequences of sends and receives, all answers of the kernels", "why_tests_cant": "Short transfers and interrupts depend on timing and load.", "anchors": ["common/server_socket.cc: Send", "common/client_socket.cc: Receive", "common/socket.h"]}
{"id": "C118", "title": "Bytes arrive from client to server as they were sent", "statement": "The same in the other direction.", "quantifier": "all sequences of sends and receives, all answers of the kernels", "why_tests_cant": "Short transfers and interrupts depend on timing and load.", "anchors": ["common/server_socket.cc: Send", "common/client_socket.cc: Receive", "common/socket.h"]}
{"id": "C119", "title": "Starting and stopping a streaming session by its name", "statement": "After any history of commands (sessions started and stopped, services started, stopped or killed, directories that fail), cdc_stream start dir x that succeeds leaves x = [user@]host:dir streamed to from that directory and no other, and touches no other session; an x that is not of this form changes nothing; cdc_stream stop x then stops exactly that session, a pattern stops exactly those it matches, and * stops all.", "quantifier": "all histories of commands and of failures, all arguments", "why_tests_cant": "Names, patterns and histories are unbounded; the service and its remote side are not available in unit tests.", "anchors": ["cdc_stream/start_command.cc: Run, StartStreamingService", "cdc_stream/stop_command.cc: Run", "cdc_stream/local_assets_stream_manager_client.cc: ParseUserHostDir", "cdc_stream/local_assets_stream_manager_service_impl.cc: StartSession, StopSession, GetTarget", "cdc_stream/session_manager.cc"]}
{"id": "C120", "title": "A directory of a host is streamed to from one source directory", "statement": "After any history of commands, two sessions to the same directory of the same host come from the same source directory.", "quantifier": "all histories of commands and of failures, all arguments", "why_tests_cant": "Names, patterns and histories are unbounded; the service and its remote side are not available in unit tests.", "anchors": ["cdc_stream/start_command.cc: Run, StartStreamingService", "cdc_stream/stop_command.cc: Run", "cdc_stream/local_assets_stream_manager_client.cc: ParseUserHostDir", "cdc_stream/local_assets_stream_manager_service_impl.cc: StartSession, StopSession, GetTarget", "cdc_stream/session_manager.cc"]}
{"id": "C121", "title": "Instances with a resource name", "statement": "A request with a resource name starts a session exactly if the name is organizations/{org}/projects/{project}/pools/{pool}/gamelets/{a}/{b}/{c} with no part empty, a directory but no host is given, and ggp ssh init prints a line \"Host: ...\"; the session has the id a/b/c and goes to the given directory on the host of the first such line.", "quantifier": "all names and all outputs of ggp", "why_tests_cant": "Names and outputs are unbounded texts.", "anchors": ["cdc_stream/local_assets_stream_manager_service_impl.cc: ParseInstanceName, ParseValue, GetTargetForStadia, InitSsh, StartSessionInternal"]}
{"id": "C122", "title": "The manifest recovers from disturbed and interrupted updates", "statement": "Whatever happened in earlier updates - the source directory changed meanwhile, files or directories could not be read, updates were interrupted at any point or failed - the next update during which the source directory is quiet and readable stores a manifest that has exactly its files and directories, with their times, sizes, permissions and chunks.", "quantifier": "all histories of updates with failing tasks, changes at any moment and interruptions, all schedules", "why_tests_cant": "The result depends on the order in which tasks finish, on where pushes fall, and on how directories were split at each earlier flush.", "anchors": ["manifest/manifest_updater.cc: UpdateAll, Update, QueueTasks, ApplyOperations, HandleFileChunkerResult, HandleDirScannerResult, DirScannerTask", "manifest/manifest_builder.cc: GetOrCreateAsset, DeleteAsset, Flush, LoadManifest"]}
{"id": "C123", "title": "The manifest has nothing that was not in the source directory", "statement": "Whatever happens during an update and happened before it, every file or directory in a manifest that is stored or pushed was at this place in the source directory at some time, with the modification time it has in the manifest; a file has the chunks of a content that was read from it then or later, or is empty because it could not be read, or is marked as being in progress and has no chunks.", "quantifier": "all histories of updates with failing tasks, changes at any moment and interruptions, all schedules", "why_tests_cant": "The result depends on the order in which tasks finish, on where pushes fall, and on how directories were split at each earlier flush.", "anchors": ["manifest/manifest_updater.cc: UpdateAll, Update, QueueTasks, ApplyOperations, HandleFileChunkerResult, HandleDirScannerResult, DirScannerTask", "manifest/manifest_builder.cc: GetOrCreateAsset, DeleteAsset, Flush, LoadManifest"]}
{"id": "C124", "title": "Disturbances are local", "statement": "A file or directory that nothing happens to during an update, and that can be read, is in the stored manifest with its right time, size, permissions and chunks, and what is not there all the time is not in it, whatever changes or cannot be read elsewhere in the source directory meanwhile.", "quantifier": "all histories of updates with failing tasks, changes at any moment and interruptions, all schedules", "why_tests_cant": "The result depends on the order in which tasks finish, on where pushes fall, and on how directories were split at each earlier flush.", "anchors": ["manifest/manifest_updater.cc: UpdateAll, Update, QueueTasks, ApplyOperations, HandleFileChunkerResult, HandleDirScannerResult, DirScannerTask", "manifest/manifest_builder.cc: GetOrCreateAsset, DeleteAsset, Flush, LoadManifest"]}
{"id": "C125", "title": "Displayed progress never goes backwards", "statement": "Once the totals of a sync are known, the total progress shown (JSON value and percentage) never decreases and is between 0 and 100%; the progress shown for a file never decreases while the file is transferred.", "quantifier": "all sequences and timings of progress reports, all settings, every rounding of floating point numbers allowed by IEEE 754", "why_tests_cant": "Floating point rounding of arbitrary 64-bit quotients; any interleaving of reports.", "anchors": ["cdc_rsync/progress_tracker.cc: GetProgress, UpdateOutput, OutputFileProgress, GetTotalProgress"]}
{"id": "C126", "title": "Displayed progress ends at 100%", "statement": "The last line for every file shows 100% and ends with a line feed; if everything announced has been transferred then the last line shows 100% in total and ends with a line feed.", "quantifier": "all sequences and timings of progress reports, all settings, every rounding of floating point numbers allowed by IEEE 754", "why_tests_cant": "Floating point rounding of arbitrary 64-bit quotients; any interleaving of reports.", "anchors": ["cdc_rsync/progress_tracker.cc: GetProgress, UpdateOutput, OutputFileProgress, GetTotalProgress"]}
{"id": "C127", "title": "100% means that all is done", "statement": "If 100% is shown in total then every byte announced for copying and comparing has been transferred (and all but 40 bytes of the signatures).", "quantifier": "all sequences and timings of progress reports, all settings, every rounding of floating point numbers allowed by IEEE 754", "why_tests_cant": "Floating point rounding of arbitrary 64-bit quotients; any interleaving of reports.", "anchors": ["cdc_rsync/progress_tracker.cc: GetProgress, UpdateOutput, OutputFileProgress, GetTotalProgress"]}
{"id": "C128", "title": "Progress is shown at the right rate", "statement": "Two updates of the progress line are at least the display delay (0.1 s on a terminal, else 1 s) apart, except for the last line of an operation; a report after this delay is shown; nothing is printed with --quiet.", "quantifier": "all sequences and timings of progress reports, all settings, every rounding of floating point numbers allowed by IEEE 754", "why_tests_cant": "Floating point rounding of arbitrary 64-bit quotients; any interleaving of reports.", "anchors": ["cdc_rsync/progress_tracker.cc: GetProgress, UpdateOutput, OutputFileProgress, GetTotalProgress"]}
{"id": "C129", "title": "Progress lines have the right width", "statement": "Sizes are shown with at most four digits in the largest unit that needs no more, rounded down; a file line fills the width exactly, shows the path as a whole if it fits and otherwise its end after ..., and never cuts off the rest.", "quantifier": "all sizes, paths and widths", "why_tests_cant": "Boundary cases of all lengths.", "anchors": ["cdc_rsync/progress_tracker.cc: GetProgress, UpdateOutput, OutputFileProgress, GetTotalProgress"]}
{"id": "C130", "title": "A reserved port is not reserved by anybody else", "statement": "A port returned by a reservation is not reserved by any other manager (or by the same one), whatever processes reserve and release ports at the same time.", "quantifier": "all interleavings of any number of processes, all crash points, all times", "why_tests_cant": "Races between processes on shared memory.", "anchors": ["common/port_manager_win.cc: PortManager::ReservePort, ReleasePort, SharedMemory"]}
{"id": "C131", "title": "A reserved port was available", "statement": "A port returned by a reservation is in the range and was available locally and on the remote device when the reservation began, in all interleavings.", "quantifier": "all interleavings of any number of processes, all crash points, all times", "why_tests_cant": "Races between processes on shared memory.", "anchors": ["common/port_manager_win.cc: PortManager::ReservePort, ReleasePort, SharedMemory"]}
{"id": "C132", "title": "Ports are not lost", "statement": "Whatever happened before (crashes without release, unavailable ports), a reservation during which no other happens ends, and returns a port if and only if one is available; ports marked as unused come first, then those marked the longest time ago.", "quantifier": "all interleavings of any number of processes, all crash points, all times", "why_tests_cant": "Races between processes on shared memory.", "anchors": ["common/port_manager_win.cc: PortManager::ReservePort, ReleasePort, SharedMemory"]}
{"id": "C133", "title": "The ports offered are those not in use", "statement": "A port of the range is offered if and only if the output of netstat shows no program using it (connections in the state TIME_WAIT do not count).", "quantifier": "all outputs of netstat, all ranges", "why_tests_cant": "Text search in arbitrary output.", "anchors": ["common/port_manager_win.cc: PortManager::FindAvailablePorts, GetNetstatFilterIp"]}
{"id": "C134", "title": "A directory iteration finds everything once", "statement": "An iteration over a directory tree returns every wanted entry below the directory exactly once, with its path relative to it, every directory before what is in it, leaves out only what is in directories that may not be read, and ends; after an error what was returned is a beginning of that.", "quantifier": "all directory trees, all errors of opendir and readdir, all reuses of directory handles", "why_tests_cant": "Unbounded nesting; the path is cached by a pointer that the system may reuse.", "anchors": ["common/dir_iter.cc: DirectoryIterator::Open, NextEntry", "common/dir_iter.h"]}
{"id": "C135", "title": "Entries are what they are said to be", "statement": "For every entry returned by an iteration IsDir, IsRegularFile and IsSymlink tell what it is.", "quantifier": "all entries of all trees", "why_tests_cant": "Types are bit patterns; each combination of type and test counts.", "anchors": ["common/dir_iter.cc: DirectoryEntry::IsDir, IsRegularFile, IsSymlink"]}
{"id": "C136", "title": "The indexer counts everything once", "statement": "If cdc_indexer ends without an error then the numbers it reports are those of the inputs: all files, all chunks and bytes, each different chunk once with its size, and for each size bucket the number of different chunks in it, whatever the number of threads and in whatever order they run.", "quantifier": "all inputs and directory trees, all contents, all configurations, all schedules of any number of threads", "why_tests_cant": "Counters are updated under different locks by many threads; all interleavings.", "anchors": ["cdc_indexer/indexer.cc: Indexer::Run, Worker::Run, Worker::IndexFile, AddChunk, AddFile, GetNextJob"]}
{"id": "C137", "title": "The indexer reports an error if and only if something cannot be read", "statement": "Run returns in every schedule, and returns an error if and only if a file or an input cannot be read (missing permissions for a directory are not an error).", "quantifier": "all inputs and directory trees, all contents, all configurations, all schedules of any number of threads", "why_tests_cant": "Counters are updated under different locks by many threads; all interleavings.", "anchors": ["cdc_indexer/indexer.cc: Indexer::Run, Worker::Run, Worker::IndexFile, AddChunk, AddFile, GetNextJob"]}
{"id": "C138", "title": "Chunks are counted in the smallest bucket they fit in", "statement": "The bucket of a chunk is the smallest size at least as large, of 1 KB, twice as much each up to the minimum chunk size and then in steps.", "quantifier": "all sizes and configurations", "why_tests_cant": "All sizes.", "anchors": ["cdc_indexer/indexer.cc: Indexer::Run, Worker::Run, Worker::IndexFile, AddChunk, AddFile, GetNextJob"]}
{"id": "C139", "title": "The table of chunk sizes is complete", "statement": "The table printed at the end has a line for each bucket with chunks, once and in ascending order, so that the numbers add up to the number of different chunks.", "quantifier": "all distributions and configurations", "why_tests_cant": "All distributions.", "anchors": ["cdc_indexer/indexer.cc: Indexer::Run, Worker::Run, Worker::IndexFile, AddChunk, AddFile, GetNextJob"]}
{"id": "C140", "title": "The results file has the distribution", "statement": "The row written to the results file has a column for each bucket between the minimum and the maximum chunk size, and the columns add up to the number of different chunks.", "quantifier": "all distributions and configurations", "why_tests_cant": "All distributions.", "anchors": ["cdc_indexer/indexer.cc: Indexer::Run, Worker::Run, Worker::IndexFile, AddChunk, AddFile, GetNextJob"]}
{"id": "C141", "title": "Every configuration of the indexer is made valid", "statement": "Whatever sizes are given the chunker gets parameters it accepts, and what is given is used if it fits to the average chunk size. It does not for averages of 2^63 bytes or more, where the doubled maximum overflows.", "quantifier": "all configurations", "why_tests_cant": "All combinations of values.", "anchors": ["cdc_indexer/indexer.cc: Indexer::Run, Worker::Run, Worker::IndexFile, AddChunk, AddFile, GetNextJob"]}
{"id": "C142", "title": "The configuration file overrides the flags", "statement": "Every setting in the configuration file of the streaming service replaces the command line flag of that name, all others keep the values of the flags, and it is told which were read; whatever the file contains the service starts.", "quantifier": "all files, all settings and values", "why_tests_cant": "All combinations of settings, types and values.", "anchors": ["cdc_stream/asset_stream_config.cc: LoadFromFile", "cdc_stream/start_service_command.cc: Run"]}
{"id": "C143", "title": "The exit code of cdc_stream", "statement": "The exit code of cdc_stream is 0 if and only if help was asked for or the command was carried out; nothing is done if an argument is not understood.", "quantifier": "all arguments, all results of commands", "why_tests_cant": "All combinations of arguments.", "anchors": ["cdc_stream/main.cc", "cdc_stream/base_command.cc: CommandHandler"]}
{"id": "C144", "title": "The consistency check of the mounted directory", "statement": "The consistency check accepts every entry of a well-formed manifest, whatever parts have been loaded by whatever reads and lookups, and what it accepts is consistent: the chunks of a file are in order, without overlap and within the file, nothing but a directory has entries, nothing but a symlink a target.", "quantifier": "all manifests and stores, all histories of reads and lookups before the check", "why_tests_cant": "The check runs at any time on any partially loaded state.", "anchors": ["cdc_fuse_fs/asset.cc: Asset::IsConsistent"]}
{"id": "C145", "title": "Every source file is found, once", "statement": "A source that is a directory (with or without a separator at its end), a file or a pattern: a recursive search reports exactly what is below the directory, or what matches the pattern at any depth, with its directory, name, time, size and type, and nothing twice; a search that is not recursive reports the matches in the one directory, and nothing for a directory.", "quantifier": "all directory trees, sources and ways names can match", "why_tests_cant": "The traversal is recursive over unbounded trees and patterns.", "anchors": ["common/path.cc: SearchFiles, SearchFilesWin, IsRegularDir"]}
{"id": "C146", "title": "A source directory that cannot be read is not taken for an empty one", "statement": "If a directory of the source cannot be read then the sync does not go on as if it were empty (with --delete this deletes its files at the destination).", "quantifier": "all directory trees with unreadable directories at any places", "why_tests_cant": "The traversal is recursive over unbounded trees and patterns.", "anchors": ["common/path.cc: SearchFiles, SearchFilesWin, IsRegularDir"]}
{"id": "C147", "title": "Where source files land", "statement": "Without --relative, what is below a source directory that ends in a separator (or in . or ..) lands in the destination under the same path relative to it; what another source selects lands in the destination under the path that starts with the last name of the source. Each with its time, size and type, and only what passes the filter.", "quantifier": "all sources, directory trees and filters", "why_tests_cant": "Strings of all forms: drives, shares, separators of both kinds, dots.", "anchors": ["cdc_rsync/file_finder_and_sender.cc: FindAndSendFiles, GetBaseDir, GetFullSource, HandleFoundFileOrDir", "cdc_rsync_server/cdc_rsync_server.cc: HandleSendAllFiles", "common/path.cc: DirName, GetDrivePrefix, Join"]}
{"id": "C148", "title": "Where source files land with --relative", "statement": "With --relative the path of a source is kept from the first \\.\\ on, or from the base directory of --files-from on, or else as a whole without its drive, and nothing lands outside the destination.", "quantifier": "all sources, directory trees and filters", "why_tests_cant": "Strings of all forms: drives, shares, separators of both kinds, dots.", "anchors": ["cdc_rsync/file_finder_and_sender.cc: FindAndSendFiles, GetBaseDir, GetFullSource, HandleFoundFileOrDir", "cdc_rsync_server/cdc_rsync_server.cc: HandleSendAllFiles", "common/path.cc: DirName, GetDrivePrefix, Join"]}
{"id": "C149", "title": "The files at the destination are found", "statement": "The server lists every file and every readable directory below the destination that passes the filter, with its path relative to it, time and size, once and nothing else; symlinks are not followed; a destination that does not exist is empty.", "quantifier": "all destinations, directory trees and filters", "why_tests_cant": "The traversal is recursive over unbounded trees; destinations are arbitrary strings.", "anchors": ["common/path.cc: SearchFilesLinux, ftw_handler", "cdc_rsync_server/file_finder.cc: FileFinder::AddFiles"]}
{"id": "C150", "title": "The destination is the one asked for", "statement": "The server uses the destination it is given, with backslashes replaced by slashes.", "quantifier": "all destinations", "why_tests_cant": "All strings.", "anchors": ["common/path.cc: ExpandPathVariables", "cdc_rsync_server/cdc_rsync_server.cc: HandleSetOptions"]}
{"id": "C151", "title": "Buffers keep their bytes", "statement": "Whatever a program does with buffers (create, fill, grow, shrink, append, write, move, assign to itself, compare, destroy), there is no undefined behaviour, the bytes of every buffer are those the operations on it are documented to give, no operation changes another buffer, and == tells whether the bytes are equal.", "quantifier": "all sequences of operations on any number of buffers, wherever realloc puts memory", "why_tests_cant": "Pointer bugs show only for certain sequences and heap layouts.", "anchors": ["common/buffer.cc: Buffer", "common/buffer.h"]}
{"id": "C152", "title": "Buffers do not leak, free twice or move needlessly", "statement": "At any time the allocated blocks are exactly those of the buffers in existence, one each; growing within the capacity leaves the data in place; building a buffer by appends copies at most three times the bytes appended.", "quantifier": "all sequences of operations on any number of buffers, wherever realloc puts memory", "why_tests_cant": "Pointer bugs show only for certain sequences and heap layouts.", "anchors": ["common/buffer.cc: Buffer", "common/buffer.h"]}
{"id": "C153", "title": "Splitting and joining strings", "statement": "Splitting a string gives it cut at all delimiters (without empty parts if asked for); joining undoes splitting, and splitting undoes joining for parts without the delimiter; the path of a manifest entry is taken apart into exactly its components.", "quantifier": "all strings, delimiters and lists of parts", "why_tests_cant": "All strings.", "anchors": ["common/util.cc: SplitString, JoinStrings", "manifest/manifest_builder.cc: SplitUnixPath, JoinUnixPath"]}
{"id": "C154", "title": "A file written successfully has the bytes written", "statement": "If writing a file (or putting a chunk into the cache) reports success then the file contains exactly the bytes given; if there is room it succeeds.", "quantifier": "all data, sizes of the stdio buffer and amounts of free disk space", "why_tests_cant": "The disk may be full at any byte; stdio buffers any part.", "anchors": ["common/path.cc: WriteFile", "data_store/disk_data_store.cc: DiskDataStore::Put"]}
{"id": "C155", "title": "Reading a file", "statement": "A file that nobody changes is read as a whole, a range of it as exactly the bytes at these positions; if others change it meanwhile the result has the length the file had at first or is an error.", "quantifier": "all files, ranges and changes between the calls", "why_tests_cant": "Races with other programs.", "anchors": ["common/path.cc: ReadFile"]}
{"id": "C156", "title": "The directory of the program", "statement": "The directory of the running program is found on Linux, whatever is on the stack.", "quantifier": "all paths of programs, all contents of uninitialised memory", "why_tests_cant": "Tests see one content of the stack.", "anchors": ["common/path.cc: GetExeDir"]}
{"id": "C157", "title": "Modification times survive a round trip on Windows", "statement": "A modification time that is set is read back exactly, times keep their order, and a time read is the second the modification falls into.", "quantifier": "all times and all FILETIMEs", "why_tests_cant": "64 bit arithmetic over all values.", "anchors": ["common/path.cc: UnixTimeToWindowsFileTime, FileTimeToTimeT, SetFileTime, GetFileTime"]}
{"id": "C158", "title": "The output of a child process is handed over", "statement": "The output handlers of a process are called with what the process writes to stdout and stderr, in order, nothing left out or repeated, and with all of it before the process is reported to have exited.", "quantifier": "all outputs, all interleavings of the child, its descendants, the reading thread and the owner", "why_tests_cant": "Tests see few interleavings; whether output is left in the pipe depends on timing.", "anchors": ["common/process_win.cc: AsyncReader", "common/process_win.cc: MessagePumpThread::ThreadWorkerMain"]}
{"id": "C159", "title": "Exit codes are those of the process", "statement": "HasExited, ExitCode, RunUntilExit and ProcessFactory::Run tell the truth: a process is said to have exited only if it has, the code is its own (or says that it could not be retrieved), running processes have none, success of Run means exit code 0.", "quantifier": "all histories and interleavings", "why_tests_cant": "All interleavings of the reading thread and the owner.", "anchors": ["common/process_win.cc: WinProcess::RunUntil", "common/process_win.cc: WinProcess::ExitCode", "common/process_win.cc: ProcessFactory::Run"]}
{"id": "C160", "title": "The end of a process is noticed", "statement": "After a process has exited, RunUntilExit returns, and the thread reading its output needs no more steps than there are bytes left in the pipes, plus three.", "quantifier": "all outputs, all interleavings of the child, its descendants, the reading thread and the owner", "why_tests_cant": "Tests see few interleavings; whether output is left in the pipe depends on timing.", "anchors": ["common/process_win.cc: AsyncReader", "common/process_win.cc: MessagePumpThread::ThreadWorkerMain"]}
{"id": "C161", "title": "Terminated processes are gone", "statement": "When Terminate has succeeded, the process is not running any more; the destructor ends a process unless it is detached, and leaves a detached one alone; no process is left behind if Start fails.", "quantifier": "all histories, failures and interleavings", "why_tests_cant": "Tests do not see failures of the operating system at each point.", "anchors": ["common/process_win.cc: WinProcess::Start", "common/process_win.cc: WinProcess::Terminate", "common/process_win.cc: WinProcess::~WinProcess"]}
{"id": "C162", "title": "Output of processes is logged line by line", "statement": "Output that is forwarded to the log appears there line by line, nothing lost but empty lines and nothing added, each line with the level that its beginning says.", "quantifier": "all outputs and all pieces they are read in", "why_tests_cant": "All byte strings and all ways to cut them.", "anchors": ["common/process_win.cc: LogOutput", "common/process_win.cc: GuessLogLevel"]}
{"id": "C163", "title": "The command lines of ssh and sftp have the intended arguments", "statement": "When the library starts ssh, with or without port forwarding, or sftp, the program, splitting its command line by the Microsoft rules, gets exactly the documented options, the user and host as one unchanged argument, the batch file as one unchanged argument, and after -- the words of the remote command; the remote command of Chmod has the mode and the path as one word each.", "quantifier": "all hosts, ports, paths and remote commands, all values of the verbosity and quiet settings, all configured commands that are complete by themselves", "why_tests_cant": "a test checks a few command lines as strings; that quoting and splitting fit together for every host and path is a statement about all strings", "anchors": ["common/remote_util.cc: RemoteUtil::BuildProcessStartInfoForSshInternal, BuildProcessStartInfoForSsh, BuildProcessStartInfoForSshPortForward, Sftp, Chmod", "common/remote_util.cc: QuoteForWindows"]}
{"id": "C164", "title": "ssh and sftp connect to the given host", "statement": "The host ssh and sftp connect to is the user and host given to the library, never a part of the remote command or nothing at all.", "quantifier": "all hosts, remote commands, ports and settings", "why_tests_cant": "hosts that look like options are inputs no test uses", "anchors": ["common/remote_util.cc: RemoteUtil::BuildProcessStartInfoForSshInternal, Sftp"]}
{"id": "C165", "title": "scp copies the given local files to the given target", "statement": "scp gets one argument per source, in order, and one for host:target, whatever the paths contain, and takes every source for a local file.", "quantifier": "all lists of sources and all targets", "why_tests_cant": "which paths scp takes for remote ones depends on where colons and slashes are, in every path", "anchors": ["common/remote_util.cc: RemoteUtil::Scp", "common/path.cc: GetDrivePrefix"]}
{"id": "C166", "title": "An scp command is turned into an sftp command at the documented place", "statement": "Turning an scp command into an sftp command replaces exactly the first scp, in upper or lower case, that is followed by a dot, a space or the end, leaves everything else unchanged, and yields nothing if there is none.", "quantifier": "all command strings", "why_tests_cant": "the first match among overlapping candidates must be right for every string", "anchors": ["common/remote_util.cc: RemoteUtil::ScpToSftpCommand", "cdc_rsync/params.cc: Parse", "cdc_stream/start_command.cc"]}
{"id": "C167", "title": "Starting a session succeeds if the instance answers", "statement": "If the file system of the instance connects, loads manifests and acknowledges them, and nothing fails, starting the session succeeds, whatever other instances do at the same time.", "quantifier": "all interleavings of manifest pushes, requests, acknowledgements and other instances", "why_tests_cant": "a deadlock between the call that waits and the request it waits for shows only in some interleavings", "anchors": ["cdc_stream/multi_session.cc: MultiSession::StartSession, OnContentSent, FindSession", "cdc_stream/grpc_asset_stream_server.cc: GetContent, AckManifestIdReceived, WaitForManifestAck", "cdc_fuse_fs/cdc_fuse_fs.cc: SetManifest"]}
{"id": "C168", "title": "A started session has the current manifest", "statement": "When starting a session succeeds, the file system that was started on the instance has loaded the manifest that is current at that time.", "quantifier": "all histories of sessions started, stopped and started again", "why_tests_cant": "what is left over from an earlier session matters only in longer histories", "anchors": ["cdc_stream/grpc_asset_stream_server.cc: AckManifestIdReceived, WaitForManifestAck", "cdc_stream/multi_session.cc: MultiSession::StartSession"]}
{"id": "C169", "title": "Starting or stopping a session does not hold up the others", "statement": "While a session of one instance is started or stopped, chunks that other instances ask for are still sent.", "quantifier": "all interleavings of requests with starts and stops", "why_tests_cant": "depends on which locks are held at the same time, in every interleaving", "anchors": ["cdc_stream/multi_session.cc: MultiSession::StartSession, StopSession, FindSession, OnContentSent", "cdc_stream/grpc_asset_stream_server.cc: GetContent"]}
{"id": "C170", "title": "A session is not used after it was stopped", "statement": "Sending chunks does not touch the data of a session that was stopped and freed.", "quantifier": "all interleavings of requests with stops", "why_tests_cant": "use after free in a short window between two locks", "anchors": ["cdc_stream/multi_session.cc: MultiSession::FindSession, OnContentSent, StopSession"]}
{"id": "C171", "title": "Every request of the kernel is answered exactly once", "statement": "Every request the kernel sends to the mounted file system is answered exactly once, with an answer that belongs to the request; only lookups and requests to open something wait, until a manifest arrives in which it is ready.", "quantifier": "all requests, all manifests, all histories of requests and manifest updates", "why_tests_cant": "a request that is not answered hangs a program for ever and one that is answered twice crashes the file system, on any path through any handler", "anchors": ["cdc_fuse_fs/cdc_fuse_fs.cc: all handlers, Initialize, SetManifest"]}
{"id": "C172", "title": "The mounted directory cannot be changed through the mount", "statement": "Whatever programs on the instance do with the mounted directory, names, attributes, listings and contents stay the same until a new manifest arrives.", "quantifier": "all sequences of requests", "why_tests_cant": "no request among all sequences of requests may change the state in a visible way", "anchors": ["cdc_fuse_fs/cdc_fuse_fs.cc: all handlers"]}
{"id": "C173", "title": "Attempts to change the mounted directory are refused", "statement": "A program that tries to create, change, rename or delete something in the mounted directory gets an error.", "quantifier": "all requests that change something, in all states", "why_tests_cant": "each kind of request in each state has to be refused, including states in which requests wait", "anchors": ["cdc_fuse_fs/cdc_fuse_fs.cc: CdcFuseSetAttr, CdcFuseOpen, Initialize"]}
{"id": "C174", "title": "Sockets are closed", "statement": "Whatever calls of a server or client socket are made and whatever system calls fail, no descriptor is left open once the object is destroyed, at most two are open before, and after a failed attempt to listen another attempt can be made.", "quantifier": "all sequences of calls and all answers of the kernel", "why_tests_cant": "every system call may fail in every state; leaks are not observed by tests", "anchors": ["common/server_socket.cc: ServerSocket", "common/client_socket.cc: ClientSocket", "common/socket_internal.h: Close"]}
{"id": "C175", "title": "A server listens if it can", "statement": "If the port can be listened to with IPv6 or with IPv4, starting to listen succeeds.", "quantifier": "all sets of addresses and all answers of the kernel", "why_tests_cant": "machines where a protocol is configured but not usable are not those of the tests", "anchors": ["common/server_socket.cc: StartListening, StartListeningInternal"]}
{"id": "C176", "title": "The announced port is the one listened to", "statement": "The port StartListening returns is the one the socket listens to, and the one asked for unless that is 0; a port found by FindAvailablePort is still available when it is used.", "quantifier": "all ports, addresses and answers of the kernel", "why_tests_cant": "another process may take the port between finding and using it", "anchors": ["common/server_socket.cc: StartListening, FindAvailablePort"]}
{"id": "C177", "title": "Waiting for a connection", "statement": "WaitForConnection succeeds at the first attempt that is accepted, fails with a timeout at the first unsuccessful attempt after the given time, ends once the time is over, and leaves nothing open.", "quantifier": "all sequences of attempts with any outcome at any time", "why_tests_cant": "depends on when the other side starts to listen", "anchors": ["common/client_socket.cc: WaitForConnection, Connect"]}
{"id": "C178", "title": "URLs are split into scheme, host and port", "statement": "For a URL of scheme http or https (in any case), a host, an optional port and an optional path or query, Url::Parse returns the scheme and host in small letters and the port, or 443 for https and 80 for http if none is given; exactly the strings of the documented form are accepted.", "quantifier": "all strings; all hosts, ports, paths and queries", "why_tests_cant": "unit tests parse a handful of URLs; the regular expression must be right for all", "anchors": ["common/url.cc: Url::Parse", "common/url.h"]}
{"id": "C179", "title": "Errors keep their code, messages and tag on the way up", "statement": "An error that is handed on through any number of functions, each of which may add a message or a tag, arrives with its original code, all messages in order and the tag that was set last; a success stays a success without a tag.", "quantifier": "all codes, messages, tags, and all sequences of WrapStatus and SetTag", "why_tests_cant": "tests wrap a status once or twice; callers decide on retries and deployment by the tag at the end of arbitrary chains", "anchors": ["common/status.h: WrapStatus, SetTag, HasTag, GetTag", "common/status.cc", "common/status_macros.h", "common/grpc_status.h"]}
{"id": "C180", "title": "Owned handles are closed once and never leaked", "statement": "In a program that creates, moves, assigns, sets, releases, closes and destroys owners of handles in any order, no handle is closed twice or while something else has it, no two owners have the same handle, every handle is closed or released when all owners are gone, and assignment does not change the last error.", "quantifier": "all programs with any number of owners, including self assignment", "why_tests_cant": "a double close may hit a handle that another part of the process has got meanwhile; tests see one order of operations", "anchors": ["common/scoped_handle_win.cc: ScopedHandle"]}
{"id": "C181", "title": "Messages of the remote side keep their level", "statement": "If the remote program logs messages of one line to its console, then the same messages, in order, are logged here with the same levels.", "quantifier": "all sequences of messages of all levels, with or without time and place", "why_tests_cant": "tests log single lines; the format and the parser must agree for every message", "anchors": ["common/log.cc: ConsoleLog::WriteLogMessage", "common/process_win.cc: LogOutput, GuessLogLevel"]}
{"id": "C182", "title": "An edit changes few chunks", "statement": "If two inputs begin with the same bytes, they begin with the same chunks, which cover all of these bytes but fewer than the maximum chunk size; if they end with the same bytes, their chunks are the same from the first isolated cut point on, i.e. a position whose preceding hash window is below the threshold and in front of which neither input has a chunk start within the minimum size and the window.", "quantifier": "all inputs, all pairs of edits, all configurations, hash tables and widths", "why_tests_cant": "the point of content-defined chunking; tests count chunks for one file and one edit", "anchors": ["fastcdc/fastcdc.h: ChunkerTmpl::Process, FindChunkBoundary"]}
{"id": "C183", "title": "The reported cache size is the size of the stored chunks", "statement": "The size the disk cache reports is the total size of the chunk files in its directory, as long as no stored chunk is written again or removed one by one and no write fails half-way; and whatever happened before, it is right after every listing, prune and wipe.", "quantifier": "all histories of puts (also failing), gets, removes, lists, prunes, cleanups (also interrupted or failing) and wipes, all directories found at the start", "why_tests_cant": "Tests put and get a few chunks; the counter is updated in five places and only agrees with the directory by an invariant over all histories.", "anchors": ["data_store/disk_data_store.cc: Size, Put, Remove, Prune, Cleanup, Wipe, CollectCacheFiles"]}
{"id": "C184", "title": "Reads succeed whatever the state of the cache", "statement": "If no reader fails and the remote store has the chunks, every read through the data provider succeeds and, for a list of chunks, delivers the right bytes for every request, however damaged the cache is, whichever cache operations fail and whatever other threads do to the cache at the same time.", "quantifier": "all cache contents that are prefixes of the chunks, all failures of cache operations, all interleavings, all lists of requests within the chunks", "why_tests_cant": "Tests damage one chunk at a time; here any combination of damage, failures and concurrent changes.", "anchors": ["data_store/data_provider.cc: Get, GetFromWriter", "data_store/data_store_reader.cc", "data_store/grpc_reader.cc", "data_store/mem_data_store.cc"]}
{"id": "C185", "title": "Opening, reading and listing are answered as the manifest says", "statement": "Opening a file for reading waits exactly if the file has content that is still being processed, and otherwise succeeds at once; the pages cached by the kernel are dropped exactly if the file changed since it was last opened or the program bypasses the cache; from then on reads get the bytes of the manifest until a new manifest arrives, and a changed file cannot be read before it is opened again. Opening a directory waits exactly while it is being processed, and a listing has exactly the entries that are there. Closing succeeds.", "quantifier": "all states of the file system, all flags, all later requests", "why_tests_cant": "The state of every node matters, and requests come in any order.", "anchors": ["cdc_fuse_fs/cdc_fuse_fs.cc: CdcFuseOpen, CdcFuseRead, CdcFuseRelease, CdcFuseOpenDir, CdcFuseReadDir, CdcFuseReleaseDir"]}
{"id": "C186", "title": "Every message of a sync fits into a packet", "statement": "The message pump refuses messages of 16 MiB or more, which would end the sync. No sender ever produces one: every message of the file list, of the list of deletions, of the index lists, of the signatures and of the patch commands, and every packet of file data, is accepted, however many files there are, however large they are and whatever is in them, as long as names and directories are shorter than 1 MiB.", "quantifier": "all lists of files and directories, all deletions, all old and new files, all answers and timings of the other side", "why_tests_cant": "The senders limit the size only roughly and before the last element is added; the size on the wire depends on varints and on every element. Tests send a few files.", "anchors": ["cdc_rsync/file_finder_and_sender.cc: HandleFoundFileOrDir", "cdc_rsync_server/file_deleter_and_sender.cc: DeleteAndSendFileOrDir", "cdc_rsync_server/cdc_rsync_server.cc: SendFileIndices", "cdc_rsync/base/cdc_interface.cc: CreateAndSendSignature, PatchSender", "cdc_rsync/base/message_pump.cc: kMaxPacketSize", "cdc_rsync/protos/messages.proto"]}
{"id": "C187", "title": "A file a program waits for is delivered while the update goes on", "statement": "While a directory is being processed, a program that opens a file that is not ready is not forgotten: there is always a request on its way, a deadline at which an intermediate manifest is pushed, or a new manifest on its way, unless an asset is queued twice. Once the deadline has passed no further directory scan is started, and the manifest is pushed as soon as the running ones are done; it has everything processed until then, and the programs waiting for something in it are answered. The delivery is not bounded by any time: the deadline is only looked at when a task completes.", "quantifier": "all queues of files and directories, all times, all requests at all moments, all interleavings of the updater and the file system", "why_tests_cant": "Depends on how completions, the clock, requests and pushes interleave.", "anchors": ["manifest/manifest_updater.cc: Update, MaybeFlushAndPushManifest, WantManifestFlushed, PrioritizeQueuedAssets", "manifest/pending_assets_queue.cc: Prioritize", "cdc_stream/grpc_asset_stream_server.cc: GetManifestId", "cdc_fuse_fs/cdc_fuse_fs.cc: SetManifest"]}
{"id": "C188", "title": "The streaming statistics are right", "statement": "With statistics enabled: a chunk shown as streamed was streamed, a chunk shown as cached was found in the cache, and a chunk shown as not loaded was not loaded unless its content is shown elsewhere; the amounts shown are the sums over the different chunks streamed and cached that are still part of a file; recording never touches memory outside a file; at most 32 files are shown; every chunk of a file shown is part of exactly one character of its line.", "quantifier": "all histories of file changes, flushes, streamed and cached chunks, all iteration orders of the hash maps, all console widths", "why_tests_cant": "The statistics are rebuilt from two sets at every flush and updated in between; tests record a few chunks of one file.", "anchors": ["manifest/file_chunk_map.cc: RecordStreamedChunk, RecordCachedChunk, UpdateIdToChunkMap", "manifest/stats_printer.cc: RecordStreamedChunk, RecordCachedChunk, AddToRecentFiles, Print"]}
{"id": "C189", "title": "The self-examination raises no false alarm", "statement": "With --check the mounted file system examines itself after each new manifest. After any history of requests of the kernel and any new manifest whose update comes to its end, the examination comes to an end as well and logs that all is well; no step of the update misses a node in the table of nodes.", "quantifier": "all histories of requests and manifests, all orders of the parallel update tasks, all numbers of nodes and depths of directories", "why_tests_cant": "The examination covers the whole graph of nodes after an arbitrary history and a parallel update; tests check a few small trees.", "anchors": ["cdc_fuse_fs/cdc_fuse_fs.cc: CheckFUSEConsistency, UpdateProtosFromRoot, UpdateInodeTask, InvalidateTree, SetManifest", "cdc_fuse_fs/asset.cc: GetLoadedChildProtos, Lookup, UpdateProto"]}
{"id": "C190", "title": "If the self-examination says all is well, all is well", "statement": "Whatever state the nodes are in: if the examination logs that all is well, then no node was lost, every node has the description under which it is found, which is part of the new manifest, all nodes above it are valid up to the root, the kernel refers to it or to one below it, and it makes sense by itself; otherwise the problems are logged.", "quantifier": "all graphs of nodes, including damaged ones", "why_tests_cant": "The point of the check is to find problems nobody has thought of; tests damage one thing at a time.", "anchors": ["cdc_fuse_fs/cdc_fuse_fs.cc: CheckFUSEConsistency, CheckConsistencyInodesHierarchy, CheckProtoReachability, CheckConsistencyIndividualInodes"]}
{"id": "C191", "title": "The file system process cleans up", "statement": "Whatever fails while the file system is set up or running: when its process ends, everything it had acquired (the mount, the session, the signal handlers) has been released in the opposite order and the directory is not mounted any more, and the exit code is 0 only if the file system had been set up.", "quantifier": "all combinations of failing calls and all moments at which they fail", "why_tests_cant": "every call may fail; each failure leaves by a different path; tests use a mock without any of them", "anchors": ["cdc_fuse_fs/main.cc: main", "cdc_fuse_fs/cdc_fuse_fs.cc: Initialize, Run, Shutdown"]}
{"id": "C192", "title": "The file system process ends without a crash", "statement": "While the file system is shut down, manifests may still arrive. Neither thread uses something that was freed, and the process is not terminated abnormally.", "quantifier": "all interleavings of the main thread with any number of manifests received, all failing calls", "why_tests_cant": "a race between shutdown and the thread that receives manifests", "anchors": ["cdc_fuse_fs/cdc_fuse_fs.cc: Run, Shutdown, SetManifest", "cdc_fuse_fs/config_stream_client.cc: ManifestIdReader"]}
{"id": "C193", "title": "Compression is switched on and off without loss", "statement": "A session is any number of parts, each made of packets sent directly, the packet that announces compression and packets sent through the compression stream, followed by packets sent directly; the client starts the bytes behind a compressed part only when the server has received all packets of that part. Whatever the sizes of the pieces in which the bytes arrive and whenever they arrive, the server receives exactly the packets the client sent, in the same order, from the first on: none is lost in between, changed or repeated when compression is switched on or off.", "quantifier": "every session, every way the bytes are cut and timed, every decompressor that keeps zstd's documented promises", "why_tests_cant": "needs every cut of the byte stream relative to the ends of the frames, in every schedule of the client and the receiver thread", "anchors": ["cdc_rsync/base/message_pump.cc:ThreadDoReceivePacket", "cdc_rsync/base/message_pump.cc:ThreadDoReceive", "cdc_rsync_server/unzstd_stream.cc:Read", "cdc_rsync/cdc_rsync_client.cc:StartCompressionStream", "cdc_rsync/cdc_rsync_client.cc:StopCompressionStream", "cdc_rsync_server/cdc_rsync_server.cc:SyncMissingFiles"]}
{"id": "C194", "title": "Switching compression on and off does not break the session", "statement": "In such a session, if the connection does not break, the server receives all packets: no way of cutting or timing the bytes makes it fail.", "quantifier": "every session, every way the bytes are cut and timed, every decompressor that keeps zstd's documented promises", "why_tests_cant": "needs every cut of the byte stream relative to the ends of the frames, in every schedule of the client and the receiver thread", "anchors": ["cdc_rsync/base/message_pump.cc:ThreadDoReceivePacket", "cdc_rsync/base/message_pump.cc:ThreadDoReceive", "cdc_rsync_server/unzstd_stream.cc:Read", "cdc_rsync/cdc_rsync_client.cc:StartCompressionStream", "cdc_rsync/cdc_rsync_client.cc:StopCompressionStream", "cdc_rsync_server/cdc_rsync_server.cc:SyncMissingFiles"]}
{"id": "C195", "title": "The client is connected to the server before the sync begins", "statement": "If the server was started and the client goes on to synchronise, then the socket it sends on is connected to that server, and the server has accepted that connection and no other: the first packet the client sends reaches the server.", "quantifier": "every sequence of attempts to connect, refused or accepted, and every timeout", "why_tests_cant": "the tests start the server process and the client separately or use fake sockets; a test does not cover every order of a port that becomes reachable", "anchors": ["cdc_rsync/cdc_rsync_client.cc: CdcRsyncClient::StartServer", "common/client_socket.cc: ClientSocket::WaitForConnection, Connect, Send", "cdc_rsync_server/cdc_rsync_server.cc: CdcRsyncServer::Run"]}
{"id": "C196", "title": "Both processes end", "statement": "However the sync ends - successfully, because the server fails, because the client fails or because the connection breaks - both the client and the server process end; neither waits for the other for ever.", "quantifier": "every order of the steps of the two processes and of their receiver threads, every point at which either fails or the connection breaks", "why_tests_cant": "a hang depends on where the other process is when one of them fails; tests fail at a few chosen points", "anchors": ["cdc_rsync/cdc_rsync_client.cc: CdcRsyncClient::Run, StopServer, ~CdcRsyncClient", "cdc_rsync_server/cdc_rsync_server.cc: CdcRsyncServer::Run", "common/message_pump.cc: StopMessagePump, ThreadDoReceivePacket"]}
{"id": "C197", "title": "The client reports what happened on the server", "statement": "The client reports success only if the server has finished the sync successfully and its process has ended. It reports the error of the server only if the server has failed and has ended. If neither the client fails by itself nor the connection breaks, its report is one of these two.", "quantifier": "every order of the steps of the two processes, every point of failure", "why_tests_cant": "depends on the order in which the end of the connection and the last packets are seen", "anchors": ["cdc_rsync/cdc_rsync_client.cc: CdcRsyncClient::Run, StopServer", "cdc_rsync_server/cdc_rsync_server.cc: CdcRsyncServer::Run"]}
{"id": "C198", "title": "The reported use of a session is right", "statement": "Every heartbeat and every end recorded for a streaming session gives exactly the bytes and chunks that had been sent to its instance up to then; heartbeats of one session increase; and what was sent is told at the latest at the next beat.", "quantifier": "every history of starts, stops, sent content and beats, for any number of instances", "why_tests_cant": "a test sends a few chunks to one instance; the amounts depend on the whole history", "anchors": ["cdc_stream/session.cc: OnContentSent, RecordHeartBeatIfChanged, Stop", "cdc_stream/multi_session.cc: OnContentSent, StartHeartBeatCheck, StartSession, StopSession"]}
{"id": "C199", "title": "The end of a session is recorded once", "statement": "For every session that was stopped or could not be started exactly one end is recorded, and none before.", "quantifier": "every history of starts and stops, also failing ones", "why_tests_cant": "depends on the history; a fake metrics service only sees what one test does", "anchors": ["cdc_stream/session.cc: Session::Stop, ~Session", "cdc_stream/multi_session.cc: StartSession, StopSession"]}
{"id": "C200", "title": "A multi-session can be shut down", "statement": "After Shutdown nothing of a multi-session is left - no session, no thread - and it can be destroyed without harm to the rest of the service, also if a session cannot be stopped properly.", "quantifier": "every set of sessions, every combination of sessions that cannot be stopped, every number of shutdowns before the destruction", "why_tests_cant": "failures of several sessions in all combinations", "anchors": ["cdc_stream/multi_session.cc: MultiSession::Shutdown, ~MultiSession", "cdc_stream/cdc_fuse_manager.cc: Stop"]}
{"id": "C201", "title": "Stopping and starting the file watcher loses no change", "statement": "However often the file watcher is stopped, started again and asked for the modified files, the answers lead, one after the other, to the directory as it is: a change that was noticed is in exactly one answer, also if the watcher was stopped before it was asked.", "quantifier": "every sequence of starts, stops, queries and changes of the directory", "why_tests_cant": "a few sequences are tested; the answers depend on the whole history", "anchors": ["common/file_watcher_win.cc: StartWatching, StopWatching, GetModifiedFiles"]}
{"id": "C202", "title": "The size reported when streaming begins is that of the manifest", "statement": "The event recorded when streaming of a directory begins carries the number of files, chunks and bytes of the manifest; if they could not be determined, the event says so rather than carrying smaller numbers.", "quantifier": "every manifest with its lists of assets and chunks, every subset of them that can be read, every address the allocator hands out", "why_tests_cant": "Counting is a traversal over a tree whose nodes are loaded one by one; the tests look at small manifests that are complete.", "anchors": ["cdc_stream/multi_session.cc:RecordMultiSessionStart", "manifest/manifest_iterator.cc:NextEntry"]}
{"id": "C203", "title": "The statistics of a file show the state of its chunks", "statement": "In the line that the service draws for a file in use, every character shows the state (not loaded, cached, or streamed to a given thread) of the chunk that changed last among those it stands for, after the name of the file, and chunks in different states look different.", "quantifier": "every file name of printable characters, every list of chunks with states and times, every width of the console, every assignment of colours, both orders of evaluation", "why_tests_cant": "The picture scales any number of chunks to any width; tests print a few fixed files and nobody looks at the bytes.", "anchors": ["manifest/stats_printer.cc:Print", "manifest/stats_printer.cc:PrintPadded"]}
{"id": "C204", "title": "The statistics are drawn in place", "statement": "Every drawing of the statistics covers the one before and leaves the cursor where it was, so that the display does not scroll.", "quantifier": "every list of files and chunks, every width of the terminal, every state of the terminal in which text is drawn", "why_tests_cant": "Needs a model of what a terminal does with the bytes for every width; tests do not run on a terminal.", "anchors": ["manifest/stats_printer.cc:Print", "common/util.cc:GetConsoleWidth"]}
{"id": "C205", "title": "Every existing directory can be streamed", "statement": "A directory given by an absolute path is accepted for streaming if it exists; otherwise the error tells whether the path is relative, does not exist or is not a directory.", "quantifier": "every path, with any separators at its end, every file system in which separators at the end of a path do not matter, both operating systems", "why_tests_cant": "Ranges over all paths and file systems; the tests use four paths, none of them a root.", "anchors": ["manifest/manifest_updater.cc:IsValidDir", "common/path.cc:IsAbsolute", "common/path.cc:EnsureDoesNotEndWithPathSeparator"]}
{"id": "C206", "title": "A failed system call is reported as what went wrong", "statement": "If opening a file or looking at it fails, the status is an error whose code tells the kind of the error (missing: not found, denied or read only: permission denied, no space: resource exhausted, ...), the same on Linux and Windows, unknown for errors nobody knows; no failure is reported as success, and a path exists, is a file or is a directory exactly if the system says so. The same holds for creating directories, reading links and reading files to index.", "quantifier": "every error number, both operating systems, every result of the system", "why_tests_cant": "Tests provoke one or two errors; the mapping has dozens of cases whose numbers differ between the systems, and the errors of std::filesystem have other categories and numbers", "anchors": ["common/errno_mapping.cc:ErrnoToCanonicalCode", "common/errno_mapping.h:ErrnoToCanonicalStatus, ErrorCodeToCanonicalStatus", "common/path.cc:OpenFile, GetStats, FileSize, DirExists, FileExists, Exists, CreateDir, CreateDirRec, GetSymlinkTarget", "cdc_indexer/indexer.cc:IndexFile"]}
{"id": "C207", "title": "The cache of a streamed directory is one directory with a valid name", "statement": "For every directory streamed the cache is one directory directly below the base directory; its name has no separator and no other character that is not allowed in names on Windows, and is the (end of the) path of the directory in which exactly these characters are replaced by underscores, and its hash.", "quantifier": "every path of a directory, every length limit, both operating systems", "why_tests_cant": "Ranges over all paths; the tests use a few plain ones.", "anchors": ["cdc_stream/multi_session.cc:MultiSession::GetCacheDir, MultiSession::GetCachePath"]}
{"id": "C208", "title": "Ending the streaming service is clean", "statement": "Whatever clients call and in whatever order the threads run, the service ends only after the sessions were stopped and all calls were answered; its threads do not wait for each other for ever; and it ends without crash, without using anything destroyed and without undefined behaviour, also if it is told to exit several times at once.", "quantifier": "every schedule of the handlers of calls, the thread that stops the service and the main thread, any number of calls", "why_tests_cant": "Depends on the order of steps of several threads; a test sees one order.", "anchors": ["cdc_stream/background_service_impl.cc:BackgroundServiceImpl::Exit", "cdc_stream/session_management_server.cc:SessionManagementServer::Shutdown, SessionManagementServer::RunUntilShutdown", "cdc_stream/start_service_command.cc:StartServiceCommand::RunService"]}
{"id": "C209", "title": "Changes are picked up after they have settled, and in time", "statement": "A file that begins to change is left alone for the configured time before it is read; after that its changes are picked up when the runner looks next, also if files change all the time; no change is left while the runner sleeps; once told to shut down it picks up nothing more; and while it waits it sleeps.", "quantifier": "every order of notifications, rebuilds, a shutdown and the steps of the runner, with any times between them", "why_tests_cant": "Depends on when notifications arrive relative to the steps of the loop.", "anchors": ["cdc_stream/multi_session.cc:MultiSessionRunner::Run, MultiSessionRunner::OnFilesChanged, MultiSessionRunner::OnDirRecreated, MultiSessionRunner::Shutdown"]}
{"id": "C210", "title": "Bytes arrive end to end", "statement": "A read of a file in the mounted directory on the instance that succeeds returns the bytes that the file of that path has in the source directory on the workstation, at the given offset, clipped at the end of the file, with every component at work: updater, manifest, chunk index, server, cache on disk, chunk provider and file system.", "quantifier": "every source directory and history of updates before it, every file, offset and size, every history of the cache including crashes and torn writes, every interleaving with other readers and every moment at which the server answers", "why_tests_cant": "Every component has unit tests with fakes for the others; that their contracts fit together for all inputs and histories is never tested.", "anchors": ["cdc_stream/manifest_updater.cc:UpdateAll", "cdc_stream/grpc_asset_stream_server.cc:GetContent", "data_store/data_provider.cc:Get", "cdc_fuse_fs/asset.cc:Read"]}
{"id": "C211", "title": "A batch of changed files arrives under every schedule", "statement": "When a sync has updated its changed files, every one of them has the bytes of the client's file, no intermediate file is left and no other file was changed, although signatures of later files are computed from the disk while earlier files are patched and replaced and while the messages of many files are in flight; and no interleaving makes a patch fail or the transfer stop.", "quantifier": "every list of changed files with or without a copy directory, every content, every interleaving of the main thread, the patcher thread, any number of finalizer threads and the client, every timing of hash tasks and of received signatures", "why_tests_cant": "Unit tests transfer one file in one thread; the pools are only used in integration tests with the schedule of the moment.", "anchors": ["cdc_rsync_server/cdc_rsync_server.cc:SyncChangedFiles", "cdc_rsync_server/cdc_rsync_server.cc:PatchTask", "cdc_rsync/cdc_rsync_client.cc:ReceiveSignaturesAndSendDelta", "cdc_rsync/base/cdc_interface.cc:CreateAndSendSignature, ReceiveSignatureAndCreateAndSendDiff, ReceiveDiffAndPatch"]}
{"id": "C212", "title": "The count of deleted files is right", "statement": "While a sync deletes files and directories, every deletion is shown in a line of its own with its path, its number counted from one without gaps, and the number of all deletions of the sync; at the end the numbers shown are the numbers of deletions that were reported, and if there is nothing to delete, no line is shown.", "quantifier": "every number of files and directories, every order of reports, every time of every report, every display mode but quiet and totals only", "why_tests_cant": "Unit tests delete two files in one fixed order with a fake clock.", "anchors": ["cdc_rsync/progress_tracker.cc:StartDeleteFiles, ReportFileDeleted, ReportDirDeleted, UpdateOutput"]}
{"id": "C213", "title": "Everything the statistics collector is told is shown once", "statement": "Everything that is counted or measured under a name is shown in the log exactly once under this name, also what is recorded in the last second before the collector is destroyed; every line shows each name once, in order; two lines are at least a second apart; and what was recorded is shown about a second later.", "quantifier": "every history of counts and measurements of any number of threads, every timing, every moment at which the collector is destroyed", "why_tests_cant": "There are no tests of it; the schedule of the printing thread and the moment of the end cannot be enumerated.", "anchors": ["common/stats_collector.cc:IncCounter, DoRecordDuration, ThreadPrintMain"]}
{"id": "C214", "title": "The columns of the progress display", "statement": "Every time shown by the progress display says exactly the elapsed or remaining time in hours, minutes and seconds; every speed is shown with at most three digits before the point, in the smallest unit in which it is at most 999.9, and correct to half of the last digit; and the text behind the path of a file always has the same length, so that the columns of all lines are below each other and every line has exactly the width of the terminal. The last part does not hold once a time is an hour or more: then the text is at least three characters longer.", "quantifier": "all operations, percentages, sizes, speeds, times and paths", "why_tests_cant": "tests print a handful of lines; the column widths depend on size, speed and time together", "anchors": ["cdc_rsync/progress_tracker.cc:FormatTime, FormatDoubleBytes, FormatIntBytes, OutputFileProgress, GetTotalProgressText"]}
{"id": "C215", "title": "The streams that announce manifests", "statement": "Every connected client of the streaming server receives manifest ids that were set, in the order in which they were set and never the same one twice in a row, and once no more are set it receives the current one; the server can be shut down whatever the clients do; and the call of a client that has gone away ends. The last part does not hold: while the server runs no such call ever ends, so every connection that was ever made keeps a thread.", "quantifier": "every history of connections, disconnections, updates, thread schedules and a shutdown", "why_tests_cant": "tests have one client that stays connected; the property is about all interleavings and about calls that never return", "anchors": ["cdc_stream/grpc_asset_stream_server.cc:ConfigStreamServiceImpl, GetManifestId, WaitForUpdate, SetManifestId, Shutdown"]}
{"id": "C216", "title": "The watcher and a scan agree about times", "statement": "The time the file watcher gives for a changed file is the second in which it was changed, the same as a scan of the directory gives. It is not for files changed before 1970, unless at a full second: the watcher gives the second after, so the next comparison with a scan takes the file for changed.", "quantifier": "every file time Windows can represent", "why_tests_cant": "tests use current times; the two conversions round differently", "anchors": ["common/file_watcher_win.cc:ToUnixTime", "common/path.cc:FileTimeToTimeT", "manifest/manifest_updater.cc:DirScannerTask"]}
{"id": "C217", "title": "A server on this machine gets the description of its client", "statement": "For a sync on one machine, the server that the client starts reads from its command line exactly the description of its file that the client has written there, and goes on if and only if the description is right, whatever directory the programs are in.", "quantifier": "all installation directories, versions, names, sizes and times", "why_tests_cant": "tests start the programs in directories without blanks", "anchors": ["cdc_rsync/cdc_rsync_client.cc:CdcRsyncClient::StartServer", "cdc_rsync_server/main.cc:main", "common/gamelet_component.cc:GameletComponent::ToCommandLineArgs, GameletComponent::FromCommandLineArgs"]}
