{"id": "C01", "title": "Block id integer form is lossless", "statement": "For every block number below 2^31, block count below 2^16 and chunk number below 2^16, a BlkId built from them converts with to_integer() to a 64-bit value from which BlkId(uint64) rebuilds an id with the same block number, count and chunk; two ids have the same integer form only if all their fields agree.", "quantifier": "all block numbers < 2^31, counts < 2^16, chunk numbers < 2^16, and all pairs of them", "why_tests_cant": "the id space has 2^63 points; a test samples a handful", "anchors": ["src/include/homestore/blk.h: BlkId, BlkId::to_integer", "src/lib/blkalloc/blk.cpp: BlkId::BlkId(uint64_t)"]}
{"id": "C02", "title": "MultiBlkId serialization round-trips", "statement": "For every MultiBlkId obtainable by adding between one and six pieces in the same chunk, deserializing the bytes returned by serialize() yields an id with the same pieces in the same order, and serialized_size() equals expected_serialized_size(number of pieces) and never exceeds max_serialized_size().", "quantifier": "all lists of 1..6 pieces with arbitrary block numbers and counts", "why_tests_cant": "the space of piece lists is astronomically large; persisted replication journal entries depend on every one of them", "anchors": ["src/lib/blkalloc/blk.cpp: MultiBlkId::serialize, deserialize, serialized_size, expected_serialized_size, add", "src/include/homestore/blk.h: MultiBlkId"]}
{"id": "C03", "title": "MultiBlkId iteration enumerates exactly the added pieces", "statement": "After adding pieces p1..pn (n<=6, one chunk) to an empty MultiBlkId, iterate() yields p1..pn in order and then stops, num_pieces() is n, and blk_count() equals the sum of the pieces' counts.", "quantifier": "all sequences of at most six pieces", "why_tests_cant": "blk_count() is computed in 16 bits: only exhaustive reasoning shows for which inputs the sum is right", "anchors": ["src/include/homestore/blk.h: MultiBlkId::iterator, blk_count", "src/lib/blkalloc/blk.cpp: MultiBlkId::add, num_pieces, blk_count"]}
{"id": "C04", "title": "Block id comparison is a total order", "statement": "BlkId::compare is a total order: it is zero exactly on ids with equal chunk, block number and count, it is antisymmetric and transitive, so ids can be used as keys of ordered maps. MultiBlkId::compare is a total order too: it is zero exactly on ids of the same chunk that have the same blocks, in however many pieces and in whatever order, and it is antisymmetric and transitive, also across ids with one and with several pieces.", "quantifier": "all pairs and triples of block ids", "why_tests_cant": "order laws quantify over all triples", "anchors": ["src/lib/blkalloc/blk.cpp: BlkId::compare, MultiBlkId::compare"]}
{"id": "C05", "title": "Append allocator never hands a block out twice and never exceeds its chunk", "statement": "In every history of alloc/free/commit calls issued one at a time, the ranges returned by successful allocations are pairwise disjoint, lie inside [0,total blocks), and a failed allocation changes nothing; used plus available blocks is always the total.", "quantifier": "all finite histories of allocator calls and all capacities", "why_tests_cant": "overlap can appear only after a particular sequence of sizes", "anchors": ["src/lib/blkalloc/append_blk_allocator.cpp: alloc, alloc_contiguous, free, available_blks, get_used_blks"]}
{"id": "C06", "title": "Append allocator recovers every committed block", "statement": "At every crash point, after restart the append cursor is at or above the end of every block committed before the last completed checkpoint flush, so no such block is ever handed out again.", "quantifier": "all histories of alloc/commit/free/checkpoint calls and all crash points in them", "why_tests_cant": "needs every crash point in every history", "anchors": ["src/lib/blkalloc/append_blk_allocator.cpp: reserve_on_disk, cp_flush, on_meta_blk_found, reserve_on_cache"]}
{"id": "C07", "title": "Append allocator stays within the chunk under concurrent allocation", "statement": "Under every interleaving of concurrent alloc calls, the ranges returned are pairwise disjoint and stay inside the chunk.", "quantifier": "all interleavings of any number of concurrent allocations at instruction granularity (check, then fetch-add)", "why_tests_cant": "a data race between the space check and the atomic add shows up only in rare schedules", "anchors": ["src/lib/blkalloc/append_blk_allocator.cpp: alloc lines 70-95"]}
{"id": "C08", "title": "Fixed-size allocator never double-allocates", "statement": "In every history in which callers free only blocks they own, once each, a block returned by alloc is not currently owned by anyone, and every block that is not owned is eventually returned if allocation continues (free blocks = total - owned).", "quantifier": "all histories of alloc/free/reserve/recovery_completed calls and all capacities", "why_tests_cant": "double allocation corrupts data silently and depends on the whole history, in particular on frees made before recovery completes", "anchors": ["src/lib/blkalloc/fixed_blk_allocator.cpp: alloc, free, reserve_on_cache, recovery_completed"]}
{"id": "C09", "title": "Committed blocks and frees reach the persistent bitmap at the next checkpoint", "statement": "After a checkpoint flush completes, the persisted allocation bitmap marks exactly the blocks that were committed and not freed when the flush took its snapshot; in particular a freed block is free again after a restart that follows a checkpoint.", "quantifier": "all histories of commit/free/checkpoint calls and all crash points", "why_tests_cant": "requires all histories; the loss is visible only after a restart", "anchors": ["src/lib/blkalloc/bitmap_blk_allocator.cpp: reserve_on_disk, free_on_disk, cp_flush, acquire_underlying_buffer, release_underlying_buffer"]}
{"id": "C10", "title": "Commits that race with a checkpoint flush are neither lost nor torn", "statement": "A block committed while a checkpoint flush of the bitmap is in progress does not appear in the image being written and is present in the live bitmap once the flush finishes; the flush never aborts because of such commits.", "quantifier": "all interleavings of commit and free calls with the phases of a flush", "why_tests_cant": "depends on the interleaving with the flush window", "anchors": ["src/lib/blkalloc/bitmap_blk_allocator.cpp: reserve_on_disk, release_underlying_buffer, cp_flush"]}
{"id": "C11", "title": "Variable-size allocator returns disjoint, in-range blocks of the requested total", "statement": "In every history, blocks returned by a successful allocation were free before the call, lie inside the chunk, are pairwise disjoint, number exactly the requested count, and use no more pieces than allowed; after a failed allocation the set of free blocks is unchanged.", "quantifier": "all bitmap states, request sizes and hints, and all histories", "why_tests_cant": "fragmentation patterns are unbounded", "anchors": ["src/lib/blkalloc/varsize_blk_allocator.cpp: alloc, alloc_blks_direct, free_blks_direct"]}
{"id": "C12", "title": "Freeing makes exactly the freed blocks available", "statement": "After a free, exactly the blocks of the freed id become available again, the free count grows by their number, and every other block keeps its status.", "quantifier": "all histories and all block ids", "why_tests_cant": "all states and ids", "anchors": ["src/lib/blkalloc/varsize_blk_allocator.cpp: free, free_blks_direct, free_blks_slab"]}
{"id": "C13", "title": "Slab size class selection is exact", "statement": "For every block count n in 1..65535 the slab chosen for an allocation is the smallest slab holding at least n blocks, and the slab chosen when caching a free run is the largest slab not exceeding it, with remainder n minus the slab size.", "quantifier": "all 16-bit counts", "why_tests_cant": "table driven for small counts and arithmetic above: the boundary is where tests miss", "anchors": ["src/lib/blkalloc/blk_cache.h: FreeBlkCache::find_slab, find_round_down_slab"]}
{"id": "C14", "title": "A failed multi-chunk allocation leaks nothing and a successful one returns the requested total", "statement": "VirtualDev::alloc_blks either fails leaving every chunk's free set as before, or returns ids totalling the requested number of blocks, all previously free.", "quantifier": "all chunk states, request sizes and hints", "why_tests_cant": "depends on partial failures deep inside the chunk retry loop", "anchors": ["src/lib/device/virtual_dev.cpp: VirtualDev::alloc_blks, alloc_blks_from_chunk"]}
{"id": "C15", "title": "A freed block is not reused before the checkpoint that frees it completes", "statement": "A block whose free was requested in checkpoint n is not returned by any allocation until the flush of checkpoint n has persisted the bitmaps.", "quantifier": "all histories of alloc/free/checkpoint calls and all crash points", "why_tests_cant": "crash-consistency property over all schedules", "anchors": ["src/lib/device/virtual_dev.cpp: VirtualDev::free_blk, cp_flush"]}
{"id": "C16", "title": "Chunk data areas never overlap and stay inside the device", "statement": "For every history of chunk creation and removal on a device, including restarts, the data areas of live chunks are pairwise disjoint and lie between the device's data start and data end; creation fails only when no gap of the requested size exists.", "quantifier": "all histories of create/remove/reload and all chunk sizes", "why_tests_cant": "fragmentation histories are unbounded", "anchors": ["src/lib/device/physical_dev.cpp: find_next_chunk_area, populate_chunk_info, free_chunk_info, load_chunks"]}
{"id": "C17", "title": "Chunk metadata survives crashes and failed creations", "statement": "After any history of chunk creations (successful or failing for lack of space), removals and a crash between any two superblock writes, restart loads exactly the live chunks, plus at most the chunk whose creation or removal was interrupted, and never aborts.", "quantifier": "all histories and all crash points between superblock writes", "why_tests_cant": "needs every crash point; failed creations leave state that matters only after the next restart", "anchors": ["src/lib/device/physical_dev.cpp: create_chunk, create_chunks, do_remove_chunk, load_chunks"]}
{"id": "C18", "title": "Physical device ids stay unique across device replacement", "statement": "A newly formatted device never receives the id of another device of the same store, over every sequence of boots with arbitrary subsets of devices present that always include one device carrying the newest generation.", "quantifier": "all sequences of boots, device subsets and crash points during formatting", "why_tests_cant": "depends on the boot history", "anchors": ["src/lib/device/device_manager.cpp: load_devices, format_single_device, populate_pdev_info, commit_formatting"]}
{"id": "C19", "title": "Virtual device sizing is consistent", "statement": "For every requested size, chunk count or chunk size and block size that is accepted, the resulting virtual device has at least one chunk, its size is exactly the number of chunks times the chunk size and never exceeds what was asked for, the chunk size is a multiple of the block size and at least the minimum chunk size, and the number of chunks is within limits.", "quantifier": "all numeric parameters", "why_tests_cant": "arithmetic with rounding and 32-bit truncation over a huge parameter space", "anchors": ["src/lib/device/device_manager.cpp: compose_vparam"]}
{"id": "C20", "title": "Superblock add, update and remove are atomic under crashes", "statement": "At every crash point during add_sub_sb, update_sub_sb or remove_sub_sb, a restart recovers either exactly the set of superblock records before the operation or exactly the set after it, with every other record and its content intact.", "quantifier": "all record sets, all operation histories, all crash points between block writes", "why_tests_cant": "requires every crash point in every history of linked-list surgery", "anchors": ["src/lib/meta/meta_blk_service.cpp: add_sub_sb, init_meta_blk, update_sub_sb, remove_sub_sb, scan_and_load_meta_blks"]}
{"id": "C21", "title": "Superblock content of any size round-trips and is written only to its own blocks", "statement": "For every content size, what recovery hands back equals what was written, and writing it touches only blocks allocated for that record.", "quantifier": "all content sizes and all block-id lists the allocator may return", "why_tests_cant": "the overflow chain boundary is hit only for particular numbers of fragments", "anchors": ["src/lib/meta/meta_blk_service.cpp: write_meta_blk_ovf, write_ovf_blk_to_disk, read_sub_sb_internal"]}
{"id": "C22", "title": "Superblock consumers are recovered after their dependencies", "statement": "If the registered dependency graph has no cycle, recovery delivers every registered type exactly once and each type after all types it depends on; if it has a cycle, recovery reports it.", "quantifier": "all dependency graphs", "why_tests_cant": "all graphs", "anchors": ["src/lib/common/homestore_utils.cpp: hs_utils::topological_sort", "src/lib/meta/meta_blk_service.cpp: recover, register_handler"]}
{"id": "C23", "title": "The superblock store may become empty and be reused", "statement": "Removing records in any order until none is left and then adding records again works, and restarting with no record present works.", "quantifier": "all histories", "why_tests_cant": "the empty list is one boundary case of list surgery", "anchors": ["src/lib/meta/meta_blk_service.cpp: remove_sub_sb, init_meta_blk, load_ssb"]}
{"id": "C24", "title": "A checkpoint is flushed only after all its I/O has left, and one at a time", "statement": "Under every schedule, consumers' flush for a checkpoint starts only when no I/O holds that checkpoint, starts exactly once, and no two checkpoints are being flushed at the same time; I/O entering later is accounted to a later checkpoint.", "quantifier": "all interleavings of any number of I/O threads and triggers", "why_tests_cant": "a race between entering a checkpoint and switching over shows up in rare schedules", "anchors": ["src/lib/checkpoint/cp_mgr.cpp: cp_io_enter, cp_io_exit, do_trigger_cp_flush, cp_start_flush, on_cp_flush_done"]}
{"id": "C25", "title": "A successful checkpoint trigger covers all earlier I/O", "statement": "When the future returned by trigger_cp_flush completes with true, every checkpoint that I/O could have entered before the trigger call has been flushed by all consumers and recorded in the superblock.", "quantifier": "all interleavings of triggers, forced triggers during a flush and I/O", "why_tests_cant": "depends on schedules of back-to-back triggers", "anchors": ["src/lib/checkpoint/cp_mgr.cpp: do_trigger_cp_flush, on_cp_flush_done"]}
{"id": "C26", "title": "Checkpoint ids recovered after a crash never lag a recorded flush", "statement": "At every crash point the next checkpoint id after restart is exactly one more than the number of the last checkpoint whose flush was recorded, and a checkpoint is recorded only after every participating consumer, the sealer last, has flushed it.", "quantifier": "all histories and crash points", "why_tests_cant": "crash points", "anchors": ["src/lib/checkpoint/cp_mgr.cpp: create_first_cp, cp_start_flush, on_cp_flush_done"]}
{"id": "C27", "title": "A stuck checkpoint is noticed by the watchdog", "statement": "If a checkpoint stays in the flush phase without progress for longer than the allowed time, the watchdog reacts (repairs or aborts).", "quantifier": "all watchdog states", "why_tests_cant": "tests would have to wait for a stuck flush", "anchors": ["src/lib/checkpoint/cp_mgr.cpp: CPWatchdog::cp_watchdog_timer"]}
{"id": "C28", "title": "A block is not freed while a read issued before the free is in flight", "statement": "Under every interleaving of reads and asynchronous frees, the free of a block runs only when no read of any of its blocks that began before the free request is still outstanding.", "quantifier": "all histories of read start, read completion and free requests over arbitrary block ranges", "why_tests_cant": "depends on overlap and timing of arbitrary ranges", "anchors": ["src/lib/blkdata_svc/blk_read_tracker.cpp: merge, insert, remove, wait_on"]}
{"id": "C29", "title": "Every asynchronous free runs exactly once", "statement": "Each asynchronous free runs at most once; it has run as soon as the request has returned and no unfinished read touches the freed blocks or blocks tracked together with them; in particular it has run once all reads have finished.", "quantifier": "all histories of reads and frees", "why_tests_cant": "all histories", "anchors": ["src/lib/blkdata_svc/blk_read_tracker.cpp: merge, wait_on", "src/lib/blkdata_svc/blk_read_tracker.hpp: blk_track_waiter"]}
{"id": "C30", "title": "Block allocation through the data service covers the requested bytes", "statement": "If alloc_blks(size) succeeds, the returned blocks together hold exactly size bytes, for every size that is a multiple of the block size.", "quantifier": "all 32-bit sizes and all block sizes", "why_tests_cant": "integer truncation only at large sizes", "anchors": ["src/lib/blkdata_svc/blkdata_service.cpp: alloc_blks, async_alloc_write"]}
{"id": "C31", "title": "Journal space: distinct logical offsets map to distinct device offsets", "statement": "For every history of appends and truncations of a journal stream, each live logical offset maps to exactly one (chunk, offset in chunk) position inside the chunk's bounds and different logical offsets map to different positions, so data read back at an offset is the data last written there.", "quantifier": "all histories of reserve/write/truncate and all chunk counts", "why_tests_cant": "chunk boundary arithmetic over unbounded histories", "anchors": ["src/lib/device/journal_vdev.cpp: offset_to_chunk, process_pwrite_offset, alloc_next_append_blk, append_chunk, truncate"]}
{"id": "C32", "title": "Journal truncation keeps everything at or above the truncation point", "statement": "Truncating a journal stream at a valid offset changes neither the content nor the mapping of any logical offset at or above it, keeps the tail offset (when everything is truncated it may move up to the next chunk boundary), leaves other streams alone, and releases only whole chunks that end at or below it.", "quantifier": "all stream states and truncation offsets", "why_tests_cant": "all states", "anchors": ["src/lib/device/journal_vdev.cpp: JournalVirtualDev::Descriptor::truncate, update_data_start_offset"]}
{"id": "C33", "title": "Journal chunk chain is recovered after a crash", "statement": "After any history and a crash between any two chunk-metadata writes, recovery rebuilds for each stream a chunk list that contains every chunk holding live data in order, and returns all other chunks to the pool.", "quantifier": "all histories and crash points between chunk superblock writes", "why_tests_cant": "crash points", "anchors": ["src/lib/device/journal_vdev.cpp: init, append_chunk, truncate, release_chunk_to_pool"]}
{"id": "C34", "title": "Log store appends are numbered consecutively and read back", "statement": "Appends to a log store get consecutive sequence numbers; after an append completes, reading its number returns exactly the appended bytes until it is truncated or rolled back.", "quantifier": "all histories of append/flush/read/truncate/rollback over any number of stores sharing a log device", "why_tests_cant": "unbounded histories over shared log groups", "anchors": ["src/lib/logstore/log_store.cpp: append_async, write_async, read_sync, truncate, rollback", "src/lib/logstore/log_dev.cpp: append_async, flush, read"]}
{"id": "C35", "title": "Log recovery replays exactly a prefix of what was written", "statement": "After a crash at any point, replay of a log device delivers every record whose flush completed, in order, with its bytes intact, followed by at most records that were being flushed, and never a record that was never appended or a torn group.", "quantifier": "all histories of group flushes and all crash points including torn writes at block granularity", "why_tests_cant": "crash points and torn writes", "anchors": ["src/lib/logstore/log_stream.cpp: log_stream_reader::next_group", "src/lib/logstore/log_group.cpp: LogGroup::finish", "src/lib/logstore/log_dev.cpp: do_load, flush"]}
{"id": "C36", "title": "Log truncation never removes a record some store still needs", "statement": "Device truncation removes only records whose number is below every store's truncation point; records above survive, also across restart.", "quantifier": "all numbers of stores and all truncation histories", "why_tests_cant": "minimum over an unbounded set of stores and histories", "anchors": ["src/lib/logstore/log_dev.cpp: LogDev::truncate", "src/lib/logstore/log_store.cpp: HomeLogStore::truncate"]}
{"id": "C37", "title": "Rolled back log records never reappear", "statement": "After a rollback to sequence number n completes, reads and replays (also after restart) deliver no record above n that was written before the rollback, and new appends continue at n+1.", "quantifier": "all histories with rollbacks, appends after rollback and crashes", "why_tests_cant": "depends on record id ranges across restarts", "anchors": ["src/lib/logstore/log_store.cpp: HomeLogStore::rollback", "src/lib/logstore/log_dev.cpp: LogDev::rollback, LogDevMetadata::add_rollback_record"]}
{"id": "C38", "title": "B-tree node operations keep keys sorted and behave like a map", "statement": "Every insert, update, remove, split-move and merge-move on a node keeps its keys strictly increasing and changes the node's key-value content exactly as the same operation on a finite map would.", "quantifier": "all node contents, keys and values", "why_tests_cant": "all node contents and positions", "anchors": ["src/include/homestore/btree/detail/simple_node.hpp", "src/include/homestore/btree/detail/varlen_node.hpp", "src/include/homestore/btree/detail/btree_node.hpp: find, bsearch_node"]}
{"id": "C39", "title": "B-tree get/put/remove behave like an ordered map", "statement": "For every sequence of puts (insert, update, upsert) and removes executed one at a time, get returns exactly what an ordered map would, irrespective of node splits and merges.", "quantifier": "all operation sequences, tree shapes and node capacities", "why_tests_cant": "tree shapes are unbounded", "anchors": ["src/include/homestore/btree/btree.ipp", "src/include/homestore/btree/detail/btree_mutate_impl.ipp", "src/include/homestore/btree/detail/btree_remove_impl.ipp", "src/include/homestore/btree/detail/btree_get_impl.ipp"]}
{"id": "C40", "title": "B-tree range query returns exactly the keys in range, also when paginated", "statement": "A range query returns every key in the interval once, in ascending order with its value; splitting it into batches of any size and continuing returns the same concatenated result.", "quantifier": "all trees, intervals and batch sizes", "why_tests_cant": "unbounded trees and boundaries", "anchors": ["src/include/homestore/btree/detail/btree_query_impl.ipp", "src/include/homestore/btree/detail/btree_internal.hpp: BtreeTraversalState, BtreeRangeRequest cursor"]}
{"id": "C41", "title": "Cache refill credits the slab it filled", "statement": "When the free-block cache is refilled from a portion of the bitmap, the per-slab progress of the refill session is charged to the slab that received the blocks, so a refill never stops early for a slab that still needs blocks and never keeps filling one that is full, for every pattern of slabs that need blocks.", "quantifier": "all cache fill levels (any subset of slabs needing blocks) and all bitmaps", "why_tests_cant": "the mismatch appears only for particular subsets of partly filled slabs", "anchors": ["src/lib/blkalloc/blk_cache_queue.cpp: create_cache_fill_session, try_fill_cache", "src/lib/blkalloc/varsize_blk_allocator.cpp: fill_cache_in_portion"]}
{"id": "C42", "title": "Out-of-space is reported only when space is really short", "statement": "A variable-size allocation that allows several pieces and partial results reports that there is no space only if fewer blocks are free than were requested (within the limit on the number of pieces).", "quantifier": "all allocator states (bitmap and cache contents) and all request sizes", "why_tests_cant": "depends on how free blocks are split between cache and bitmap, an unbounded state space", "anchors": ["src/lib/blkalloc/varsize_blk_allocator.cpp: alloc, alloc_blks_direct", "src/lib/blkalloc/blk_cache_queue.cpp: try_alloc_blks"]}
{"id": "C43", "title": "Corruption of a persisted device record is noticed", "statement": "If a persisted chunk record or virtual-device record is altered on the device by any error confined to 16 consecutive bits, the restart notices it (and refuses the record) rather than using the altered contents.", "quantifier": "all record contents and all error bursts of up to 16 bits at every position", "why_tests_cant": "2^(8*512) record contents times all burst patterns; only the algebra of the checksum covers them", "anchors": ["src/lib/common/crc.cpp: crc16_t10dif", "src/lib/device/physical_dev.cpp: load_chunks", "src/lib/device/device_manager.cpp: read_vdev_infos"]}
{"id": "C44", "title": "Chunk ids stay unique across an interrupted virtual-device creation", "statement": "Over every history of virtual-device creations, chunk creations and removals, crashes at any point, device replacements and restarts (with all or some of the devices), no two chunks recorded on the devices of the store have the same chunk id, and a restart is possible.", "quantifier": "all histories of vdev creation, crash points between superblock writes, and restarts", "why_tests_cant": "needs a crash at one particular point followed by a retry and one more restart", "anchors": ["src/lib/device/device_manager.cpp: create_vdev, load_vdevs, load_devices", "src/lib/device/physical_dev.cpp: load_chunks, create_chunks"]}
{"id": "C45", "title": "A forced checkpoint trigger during a flush is not lost", "statement": "If trigger_cp_flush(force) is called while another checkpoint is being flushed and returns a pending future, then at every later moment until a new checkpoint has been triggered for it, either the flush is still in progress or some thread is committed to triggering the back-to-back checkpoint.", "quantifier": "all schedules of triggers, I/O and flush completions", "why_tests_cant": "needs a trigger at one particular point of the completion of another checkpoint", "anchors": ["src/lib/checkpoint/cp_mgr.cpp: do_trigger_cp_flush, on_cp_flush_done"]}
{"id": "C46", "title": "Checkpoint guards count exactly the I/O inside a checkpoint", "statement": "For every way of creating, nesting, copying, assigning, handing over between threads and destroying guards, the number of I/Os a checkpoint waits for equals the number of live guards on it, and a nested guard enters a checkpoint that is still held.", "quantifier": "all sequences of guard operations by any number of threads", "why_tests_cant": "leaks and stale entries show up only after particular sequences", "anchors": ["src/lib/checkpoint/cp_mgr.cpp: CPGuard"]}
{"id": "C47", "title": "Data written through a block id is read back and nothing else is touched", "statement": "For every block id whose blocks are distinct, every buffer of the id's size and every order in which the device executes the writes: if async_write reports success, async_read of the same id returns the buffer; whatever the outcome, no byte of any other block of any chunk changes.", "quantifier": "all ids, buffers, chunk layouts and completion orders", "why_tests_cant": "the buffer arithmetic has to be right for every combination of pieces and chunks", "anchors": ["src/lib/blkdata_svc/blkdata_service.cpp: async_write, async_read", "src/lib/device/virtual_dev.cpp: to_dev_offset, async_write, async_read"]}
{"id": "C48", "title": "A failed allocating write leaks no blocks", "statement": "If async_alloc_write reports an error because of the allocation, every block has the same status (free or not) as before the call.", "quantifier": "all allocator states, sizes and hints", "why_tests_cant": "depends on every reason for which an allocation can fail", "anchors": ["src/lib/blkdata_svc/blkdata_service.cpp: async_alloc_write"]}
{"id": "C49", "title": "Superblock space is neither leaked nor handed out twice", "statement": "At every moment the blocks the superblock store considers in use are exactly those reachable from the records a restart would find on the device; an operation (or an interrupted one followed by a restart) leaks no block and frees none that is in use.", "quantifier": "all histories of add, update, remove, crashes at any block write, and restarts", "why_tests_cant": "a leak or early free shows only after long histories that exhaust or reuse the space", "anchors": ["src/lib/meta/meta_blk_service.cpp: add_sub_sb, update_sub_sb, remove_sub_sb, free_ovf_blk_chain, scan_meta_blks"]}
{"id": "C50", "title": "Sequential reading of a journal stream delivers exactly its data", "statement": "Reading a journal stream sequentially from any of its offsets to the end, in pieces of any size, delivers every data byte from there on exactly once and in order, and never the unused end of a chunk; the offset computed for the n-th data byte is where that byte is.", "quantifier": "all stream states, start positions and read sizes", "why_tests_cant": "depends on where chunk ends fall relative to the read sizes", "anchors": ["src/lib/device/journal_vdev.cpp: sync_next_read, lseek, dev_offset"]}
{"id": "C51", "title": "Range updates and range removes change exactly the keys of the interval", "statement": "A range remove removes exactly the keys of the interval that its filter selects, wherever node boundaries fall; a range update that reports success treats every key of the interval as its filter decides (keep, replace, remove); neither touches a key outside the interval.", "quantifier": "all trees built by any history, intervals, filters and node capacities", "why_tests_cant": "the result depends on where node boundaries fall relative to the interval", "anchors": ["src/include/homestore/btree/btree.ipp: put, remove", "src/include/homestore/btree/detail/btree_mutate_impl.ipp: do_put", "src/include/homestore/btree/detail/btree_remove_impl.ipp: do_remove", "src/include/homestore/btree/detail/variant_node.hpp: multi_put, multi_remove"]}
{"id": "C52", "title": "get_any and remove_any find a key of the interval if there is one", "statement": "get_any and remove_any return a key of the interval with its value (the leftmost, rightmost or a middle one as asked) whenever the tree holds one, remove_any removes exactly that key, and both report not_found exactly when the interval is empty.", "quantifier": "all trees, intervals and match options", "why_tests_cant": "depends on where the interval's ends fall relative to keys and node boundaries", "anchors": ["src/include/homestore/btree/detail/variant_node.hpp: get_any", "src/include/homestore/btree/detail/btree_get_impl.ipp: do_get", "src/include/homestore/btree/detail/btree_remove_impl.ipp: do_remove"]}
{"id": "C53", "title": "Filtered range queries return exactly the selected keys", "statement": "A range query with a filter, read page by page with any page size, returns every key of the interval that the filter selects exactly once, in ascending order, and no other.", "quantifier": "all trees, intervals, filters and page sizes", "why_tests_cant": "depends on where rejected entries fall relative to page and node boundaries", "anchors": ["src/include/homestore/btree/detail/variant_node.hpp: multi_get", "src/include/homestore/btree/detail/btree_query_impl.ipp: do_sweep_query, do_traversal_query"]}
{"id": "C54", "title": "A new log store never gets the records of a removed one", "statement": "After a log store is removed, its records reach no user any more: a store created later, under whatever id, is after any restart given exactly the records that were appended to itself.", "quantifier": "all histories of create, append, flush, truncate, rollback, remove, crash and restart over any number of stores of one log device", "why_tests_cant": "depends on which truncation reclaims the id and on where the removed store's records lie relative to it", "anchors": ["src/lib/logstore/log_dev.cpp: remove_log_store, unreserve_store_id, truncate, on_logfound, handle_unopened_log_stores"]}
{"id": "C55", "title": "A device that takes part in a start is brought up to date", "statement": "After a start that includes a device of the newest generation, every device that took part in it carries the newest generation and the last device id given, so that any one of them can serve later starts.", "quantifier": "all sequences of starts with any sets and orders of devices, crash points and device replacements", "why_tests_cant": "depends on the order in which stale and current devices are listed", "anchors": ["src/lib/device/device_manager.cpp: load_devices, commit_formatting"]}
{"id": "C56", "title": "Virtual devices are found again after a device is replaced", "statement": "After a device is replaced by a blank one and the store has been started with it, every later start with all devices, in any order, succeeds and finds every virtual device and all chunks recorded on the devices.", "quantifier": "all histories of starts, chunk creations and removals, crashes and device replacements, and all orders of the devices", "why_tests_cant": "needs a particular order of devices two starts after a replacement", "anchors": ["src/lib/device/device_manager.cpp: load_devices, load_vdevs, read_vdev_infos"]}
{"id": "C57", "title": "The append allocator's count of freed blocks is exact and survives restarts", "statement": "At any time the reported number of freed blocks is the sum of the blocks of all free calls in effect (those flushed by a checkpoint, plus those since the last start); after a crash the used space is the end of the highest block committed before the last flush, and a block is reported allocated on disk exactly if it lies below that end.", "quantifier": "all histories of allocate, free, commit, checkpoint flush, crash and restart", "why_tests_cant": "depends on how frees, commits, flushes and crashes interleave; a flush skipped because nothing seemed dirty would lose counts", "anchors": ["src/lib/blkalloc/append_blk_allocator.cpp: free, cp_flush, reserve_on_disk, on_meta_blk_found, is_blk_alloced_on_disk, get_defrag_nblks"]}
{"id": "C58", "title": "Every checkpoint trigger completes", "statement": "Once every I/O that entered a checkpoint leaves and every consumer finishes its flush, the future returned by each accepted checkpoint trigger is fulfilled, forced triggers during a flush included; without new requests the system always comes to rest, with no flush in progress and nothing pending.", "quantifier": "all numbers of threads, consumers and triggers, and all schedules, crashes and restarts included", "why_tests_cant": "liveness over all interleavings: a lost wake-up would show only under one particular schedule", "anchors": ["src/lib/checkpoint/cp_mgr.cpp: do_trigger_cp_flush, cp_io_exit, cp_start_flush, on_cp_flush_done"]}
{"id": "C59", "title": "The Raft log store is a numbered list of entries", "statement": "Entries appended get consecutive indices; an entry is found under its index, with its term, type and data, until it is compacted or overwritten; overwriting entry i keeps the entries before i and drops those after; compaction up to i keeps those after i; start index, next slot, last entry, ranges of entries with or without a size hint all agree with that list, after any history of calls and crashes.", "quantifier": "all histories of append, write_at, end_of_append_batch, flush, compact, purge, apply_pack, reads and crashes", "why_tests_cant": "the answers depend on an in-memory cache of 100 entries, a durable-index hint, rollback records and truncation points, in any combination", "anchors": ["src/lib/replication/log_store/home_raft_log_store.cpp: HomeRaftLogStore", "src/lib/logstore/log_store.cpp: foreach, rollback, get_contiguous_issued_seq_num, get_contiguous_completed_seq_num"]}
{"id": "C60", "title": "Raft log entries reported durable survive crashes", "statement": "An entry at or below the index reported by last_durable_index, or present when end_of_append_batch, flush or write_at returned, is found unchanged after any further calls and crashes that do not ask for it to be compacted or overwritten; a crash inside write_at leaves the entries before the index and either the new entry or none.", "quantifier": "all histories, all entries, all crash points between records", "why_tests_cant": "needs a crash at every point of every history", "anchors": ["src/lib/replication/log_store/home_raft_log_store.cpp: last_durable_index, end_of_append_batch, write_at, flush"]}
{"id": "C61", "title": "Packed log entries arrive unchanged", "statement": "Applying at index i of one log store the pack of n entries from index i of another gives the first store the same entries under the same indices, keeps its entries before i, and lets it go on at i + n.", "quantifier": "all pairs of log stores with any histories, all i and n", "why_tests_cant": "depends on the relation of i and n to both logs' start, end and durable part", "anchors": ["src/lib/replication/log_store/home_raft_log_store.cpp: pack, apply_pack"]}
{"id": "C62", "title": "The journal entry of a replicated write is read back as written", "statement": "The entry that a write appends to a replication journal is read back after a restart with the same header, key and block ids (and trace id, server id and data sequence number for a Raft device); when a follower puts its own block id and server id into an entry received from the leader, the entry is read back with these two replaced and everything else unchanged.", "quantifier": "all headers, keys, numbers of block ids, numbers of runs in an id, and all pairs of leader and follower ids", "why_tests_cant": "depends on the sizes of ids with several runs, which need fragmented space; a particular test has one shape of id", "anchors": ["src/lib/replication/repl_dev/solo_repl_dev.cpp: write_journal, on_log_found", "src/lib/replication/repl_dev/common.cpp: repl_req_ctx::create_journal_entry, change_raft_journal_buf", "src/lib/replication/repl_dev/raft_repl_dev.cpp: on_log_found", "src/lib/replication/repl_dev/raft_state_machine.cpp: localize_journal_entry_prepare, localize_journal_entry_finish"]}
{"id": "C63", "title": "A single-copy device loses no committed write in a crash", "statement": "After any crash and restart of a single-copy replication device, every write that was ever reported committed is either part of the listener's last checkpoint or reported again, in the order of the writes, and all its blocks are allocated.", "quantifier": "all histories of writes, journal flushes, commits, checkpoints in stages and crashes", "why_tests_cant": "needs a crash at every point of a checkpoint relative to every stage of the commits running at the time", "anchors": ["src/lib/replication/repl_dev/solo_repl_dev.cpp: async_write, on_log_found, cp_flush, truncate"]}
{"id": "C64", "title": "A single-copy device's journal keeps what recovery needs", "statement": "Truncation of a single-copy device's journal never removes an entry above the committed number in the superblock on disk.", "quantifier": "all histories of writes, commits, checkpoints, truncations and crashes", "why_tests_cant": "depends on the order of superblock writes and truncations and on crashes between them", "anchors": ["src/lib/replication/repl_dev/solo_repl_dev.cpp: truncate, cp_flush"]}
{"id": "C65", "title": "A member of a replica set loses no committed write in a crash", "statement": "After any crash and restart of a Raft replication device, every write that was ever reported committed is either in the listener's state or beyond the commit number given to Raft and ready to be committed again; its blocks are allocated; a restart reports each entry between the checkpoint and the commit number once and in order; the member never meets a committed entry it has no request for.", "quantifier": "all histories of appends, removals of uncommitted entries, commits in stages, checkpoints in stages, timer saves of the commit number in stages, compactions and crashes", "why_tests_cant": "needs particular interleavings of the commit thread, the checkpoint thread, the timer thread and a crash", "anchors": ["src/lib/replication/repl_dev/raft_repl_dev.cpp: handle_commit, handle_config_commit, flush_durable_commit_lsn, cp_flush, get_cp_ctx, on_log_found", "src/lib/replication/repl_dev/raft_state_machine.cpp: commit_ext, last_commit_index"]}
{"id": "C66", "title": "Truncation of the Raft log removes no entry that recovery needs", "statement": "No entry above the saved checkpoint number is ever compacted, whatever is asked for; what each compacted write did is on disk; a compaction asked for beyond the boundary reaches the boundary.", "quantifier": "all histories of the same steps, all truncation boundaries and compaction requests", "why_tests_cant": "depends on when boundaries and compactions arrive relative to checkpoints and crashes", "anchors": ["src/lib/replication/repl_dev/raft_repl_dev.cpp: update_truncation_boundary, cp_flush", "src/lib/replication/log_store/repl_log_store.cpp: compact"]}
{"id": "C67", "title": "An index checkpoint writes every dirty node once and in the required order", "statement": "While the index is flushed for a checkpoint, each dirty node is written exactly once, a node only after all the nodes that must be on disk before it, the checkpoint is reported complete exactly when all are written, and the flush comes to an end; writes of the next checkpoint going on meanwhile do not disturb it.", "quantifier": "all sets of dirty nodes with acyclic order requirements, all batch sizes, all orders of write completions, all interleavings with the next checkpoint's writes", "why_tests_cant": "depends on the order in which the device completes writes and on the shape of the dependencies", "anchors": ["src/lib/index/wb_cache.cpp: async_cp_flush, do_flush_one_buf, process_write_completion, on_buf_flush_done_internal, get_next_bufs_internal", "src/lib/index/index_cp.cpp: add_to_dirty_list, next_dirty"]}
{"id": "C68", "title": "Structural changes of an index reach the disk in a safe order", "statement": "Whatever splits, merges, root splits and root collapses happen in a checkpoint, their flush comes to an end; the nodes that take entries of a node are on disk before that node without them, that node before the parent that knows both, and a root before the superblock that names it.", "quantifier": "all histories of structural changes in one checkpoint and all flush schedules", "why_tests_cant": "depends on long histories in which nodes take part in several changes, and on the order of write completions before a crash", "anchors": ["src/lib/index/wb_cache.cpp: transact_bufs, link_buf, write_buf, refresh_meta_buf", "src/include/homestore/index/index_table.hpp: transact_nodes, on_root_changed", "src/include/homestore/btree/detail/btree_mutate_impl.ipp: check_split_root, split_node", "src/include/homestore/btree/detail/btree_remove_impl.ipp: check_collapse_root, merge_nodes"]}
{"id": "C69", "title": "A cached index node loses no change, and a checkpoint holds exactly its changes", "statement": "Whatever the operations, cache evictions and checkpoints, a reader of an index node sees all changes made to it, in order; between checkpoints the disk holds exactly the changes of the completed ones; while one is being flushed the node on disk is the one before it or the one after it, never with a part of its changes or with a change of the next; and the flush can always go on.", "quantifier": "all histories of changes, reads, write locks without a change, evictions, switchovers and flush steps", "why_tests_cant": "needs an eviction, or an operation of the next checkpoint, exactly between two steps of the flush", "anchors": ["src/lib/index/wb_cache.cpp: read_buf, get_writable_buf, write_buf, do_flush_one_buf, on_buf_flush_done_internal", "src/include/homestore/index/index_table.hpp: write_node_impl, refresh_node"]}
{"id": "C70", "title": "The journal of an index checkpoint is read back as it was written", "statement": "Whatever structural changes an index checkpoint has, any number of them and of at most 255 nodes each, the journal holds them without a write beyond its buffer, and a restart in that checkpoint reads back every change, in order, with its table, parent, child, created and freed nodes; a restart in any other checkpoint ignores it.", "quantifier": "all lists of changes (up to 2^30 bytes of journal), all previous contents of the memory, all checkpoint numbers", "why_tests_cant": "depends on records of every size falling on every offset of a buffer that grows, and on fields of the record sharing bytes", "anchors": ["src/lib/index/index_cp.cpp: add_to_txn_journal, recover, process_txn_record", "src/lib/index/index_cp.hpp: txn_record, txn_journal"]}
{"id": "C71", "title": "Index blocks are neither used twice nor lost over checkpoints and crashes", "statement": "A block used by the index, or by the index as it is on disk and as a crash would bring it back, is never given to another node; a block that no tree uses can be allocated again, at the latest after the next checkpoint.", "quantifier": "all histories of node creations, removals, checkpoints in stages and crashes at any point, whatever recovery decides", "why_tests_cant": "needs a crash at particular points of a flush, or two crashes in a row", "anchors": ["src/lib/index/wb_cache.cpp: alloc_buf, free_buf, async_cp_flush, process_write_completion, recover", "src/lib/index/index_service.cpp: start", "src/lib/device/virtual_dev.cpp: free_blk, cp_flush", "src/lib/blkalloc/bitmap_blk_allocator.cpp: cp_flush, reserve_on_disk, free_on_disk"]}
{"id": "C72", "title": "Fixed-size blocks can be freed, allocated and committed concurrently", "statement": "While threads free, allocate and commit blocks of a fixed-size allocator, no call aborts the process, and the bitmap marks exactly the committed blocks.", "quantifier": "all interleavings of allocations, commits and the two parts of frees, any number of blocks", "why_tests_cant": "needs an allocation and a commit between two statements of a concurrent free", "anchors": ["src/lib/blkalloc/fixed_blk_allocator.cpp: alloc, free", "src/lib/blkalloc/bitmap_blk_allocator.cpp: reserve_on_disk, free_on_disk"]}
{"id": "C73", "title": "The superblock of an index names the right root", "statement": "Outside recovery the superblock of an index on disk names a root that is on disk: between checkpoints the root at the end of the last one, while one is being taken that root or the root at its end; so after a restart the index starts from the tree of its last checkpoint. The superblock in memory names the root that operations use.", "quantifier": "all histories of root changes (by operations of both checkpoints), checkpoints in stages, crashes at any point and recoveries that change the root", "why_tests_cant": "needs a root change by the next checkpoint in the middle of a flush, or a crash inside recovery", "anchors": ["src/include/homestore/index/index_table.hpp: on_root_changed, update_sb, update_root, repair_node", "src/lib/index/wb_cache.cpp: refresh_meta_buf, write_buf, process_write_completion", "src/lib/index/index_service.cpp: write_sb"]}
{"id": "C74", "title": "Recovery after splits and merges keeps the keys of an index", "statement": "After a crash while a checkpoint with splits and merges of nodes of an index is being flushed, the process starts, and the index holds exactly the keys and values that are in its leaves on disk, each found by a lookup; of the blocks of the nodes made and merged, those of nodes in the tree, and no others, stay in use.", "quantifier": "all contents of nodes, any splits and merges of leaves under one node (also of leaves just made), any subset of them on disk that the order of the flush allows, any order of the journal's buffers", "why_tests_cant": "needs a crash between the writes of particular nodes of one flush", "anchors": ["src/lib/index/wb_cache.cpp: recover, recover_buf, prune_up_buffers, update_up_buffer_counters, was_node_committed", "src/lib/index/index_cp.cpp: recover, process_txn_record", "src/include/homestore/index/index_table.hpp: repair_node, repair_links, true_sibling_first_child", "src/include/homestore/btree/detail/btree_common.ipp: validate_node"]}
{"id": "C75", "title": "Recovery after a split of the root keeps the keys of an index", "statement": "If the process crashes during a checkpoint in which the root of an index was split (and nothing else was), the index opens again at the next start with exactly the keys that are in its leaves on disk: through the old root if the superblock names that still, through the new root if it names the new one; and the block of the root that it opens with stays in use.", "quantifier": "all contents of the old root and of the two nodes after the split, leaf and interior roots, all subsets of the three nodes and the superblock that the flush may have written, all orders in which the recovery visits the nodes", "why_tests_cant": "the outcome depends on which of four writes were done at the crash and on whether the root was a leaf; the windows are single writes", "anchors": ["src/lib/index/wb_cache.cpp: recover, recover_buf, was_node_committed, update_up_buffer_counters", "src/include/homestore/index/index_table.hpp: repair_root_node, repair_index_node, repair_links, sanity_check"]}
{"id": "C76", "title": "A node with entries of variable size holds what was put into it", "statement": "In a tree with keys or values of variable size, every node reads back, position by position, the keys and values that its history of inserts, updates, removals, moves to and copies from other nodes leaves in it, whatever compactions happened on the way; its count of free space is exact; a put for which it reports room goes through; no byte outside its own records and entries is written; a node that is full can be split.", "quantifier": "all three kinds of records, all node sizes, all histories of operations on any number of nodes, all contents and sizes of keys and values, all initial contents of the buffers", "why_tests_cant": "depends on the sizes and the order of the puts, updates and removals before: where entries lie in the node and when it is compacted follow from the whole history", "anchors": ["src/include/homestore/btree/detail/varlen_node.hpp: VariableNode, VarKeySizeNode, VarValueSizeNode, VarObjSizeNode", "src/include/homestore/btree/detail/btree_mutate_impl.ipp: split_node"]}
{"id": "C77", "title": "A leaf node that shares prefixes holds what was put into it", "statement": "In a tree of interval keys whose leaf nodes store common prefixes of keys and values once, every node reads back exactly the keys and values that its history of puts, range puts, removals, range removals, moves to and copies from other nodes leaves in it; what these operations report is right; a node never takes entries that it has no room for, and space of entries that are gone can be used again.", "quantifier": "all sizes of nodes, prefixes and suffixes, all ways of splitting keys and values, all histories of operations on any number of nodes, all filters, all initial contents of the buffers", "why_tests_cant": "which prefix slots are free, shared or compacted depends on the whole history of the node", "anchors": ["src/include/homestore/btree/detail/prefix_node.hpp: FixedPrefixNode", "src/include/homestore/btree/detail/variant_node.hpp: put", "src/include/homestore/btree/detail/btree_remove_impl.ipp: merge_nodes", "src/include/homestore/btree/detail/btree_mutate_impl.ipp: split_node"]}
{"id": "C78", "title": "The data of replicated writes that are on disk can be read", "statement": "On every member of a replicated device, the data of each write whose log entry is on the member's disk, and of each write that its listener was told is committed and has not freed, can be read from the blocks named: they are allocated and hold that write's data. No failed, late, repeated, rolled back or timed out write changes this, no crash does, and none of them aborts the process.", "quantifier": "all histories of pushes, fetches, log entries, timeouts, write failures, rollbacks, commits, frees, garbage collections and crashes, in all interleavings, any numbers of writes and blocks, all answers of the listener to requests for hints", "why_tests_cant": "the failures need data that comes late by a particular amount, or in the window between two statements of another thread", "anchors": ["src/lib/replication/repl_dev/raft_repl_dev.cpp: async_alloc_write, on_push_data_received, applier_create_req, handle_fetch_data_response, handle_error, handle_rollback, handle_commit, gc_repl_reqs, clear_chunk_req", "src/lib/replication/repl_dev/common.cpp: alloc_local_blks, save_pushed_data, save_fetched_data", "src/lib/replication/log_store/repl_log_store.cpp: end_of_append_batch"]}
{"id": "C79", "title": "Replicated writes neither lose nor share blocks", "statement": "On every member of a replicated device a block is allocated exactly when the listener holds it (it was told of a committed write there and has not freed it) or a write under way uses it; two writes under way never use the same block unless both are of an object that the listener holds there; committed blocks are given back only when the user frees them.", "quantifier": "all histories of pushes, fetches, log entries, timeouts, write failures, rollbacks, commits, frees, garbage collections and crashes, in all interleavings", "why_tests_cant": "a block that is freed twice shows only when it was handed out in between", "anchors": ["src/lib/replication/repl_dev/raft_repl_dev.cpp: handle_error, gc_repl_reqs, clear_chunk_req, handle_rollback, async_free_blks", "src/lib/replication/repl_dev/common.cpp: alloc_local_blks"]}
{"id": "C80", "title": "Concurrent calls on one B-tree look as if done one after the other", "statement": "When any number of threads get, put (insert, update, upsert) and remove keys of one B-tree at the same time, the history of calls and returns is linearizable: each call seems to take effect at one instant between its call and its return, with the result a single map gives; a call that returns an error has no effect. Splits, merges, root changes, retries after lost lock upgrades and after checkpoint mismatches are invisible.", "quantifier": "all numbers of threads, keys, nodes and levels, all sequences of calls, all interleavings of their steps, all choices of where nodes are split and merged, all moments at which checkpoints begin", "why_tests_cant": "the failures would need particular interleavings of lock releases, splits and merges in several threads", "anchors": ["src/include/homestore/btree/btree.ipp: put, get, remove", "src/include/homestore/btree/detail/btree_mutate_impl.ipp: do_put, check_split_root, split_node", "src/include/homestore/btree/detail/btree_remove_impl.ipp: do_remove, check_collapse_root, merge_nodes", "src/include/homestore/btree/detail/btree_get_impl.ipp: do_get", "src/include/homestore/btree/detail/btree_node_mgr.ipp: upgrade_node_locks, read_and_lock_node", "src/include/homestore/index/index_table.hpp: put, remove, refresh_node"]}
{"id": "C81", "title": "Concurrent calls on one B-tree do not block one another for ever", "statement": "While calls of get, put and remove are in progress on one B-tree, at least one of them can go on without waiting for a lock, also when waiting writers are served before new readers. So no set of calls waits for one another for ever.", "quantifier": "all numbers of threads, keys, nodes and levels, all sequences of calls, all interleavings of their steps, all moments at which checkpoints begin", "why_tests_cant": "a deadlock shows only for particular interleavings; the leaked lock needs a checkpoint between two statements of a remove, and a root that must be split later", "anchors": ["src/include/homestore/btree/btree.ipp: put, get, remove", "src/include/homestore/btree/detail/btree_mutate_impl.ipp: check_split_root", "src/include/homestore/btree/detail/btree_remove_impl.ipp: merge_nodes", "src/include/homestore/btree/detail/btree_node_mgr.ipp: upgrade_node_locks", "src/include/homestore/index/index_table.hpp: remove, refresh_node", "src/lib/index/wb_cache.cpp: get_writable_buf"]}
{"id": "C82", "title": "A reduced commit quorum lasts as long as the call that asked for it", "statement": "A call that changes the members of a replication group may ask for a commit quorum other than the majority. While the call goes on after setting it, this quorum is in force on the node; when the call has returned, the majority is required again. So a node never commits entries with fewer acknowledgements than a majority unless such a call is in progress on it.", "quantifier": "all sequences and interleavings of calls on all nodes, with all quorums, all answers of the consensus layer, changes of the leader, restarts", "why_tests_cant": "each return path of each call, and what other calls on the same node do meanwhile, matters", "anchors": ["src/lib/replication/repl_dev/raft_repl_dev.cpp: start_replace_member, complete_replace_member, remove_member, flip_learner_flag, clean_replace_member_task, reset_quorum_size", "src/lib/replication/repl_dev/raft_repl_dev.cpp: monitor_replace_member_replication_status"]}
{"id": "C83", "title": "All nodes know which replacement of a member is in progress", "statement": "The replacement a node reports as ongoing is the one that was last started, and neither completed nor cleaned, in the part of the log it has applied; nodes that have applied as much agree. The status the leader reports for an id, and whether it refuses a new replacement, a repeated one, or a cleaning, follow from that: IN_PROGRESS for this id, TASK_MISMATCH for other ids, COMPLETED only if the old member is gone and the new one is there.", "quantifier": "all histories of calls on all nodes, all ids, all changes of the leader, lost entries, restarts with any part of the log applied again, snapshots", "why_tests_cant": "the record is written when entries are applied, on each node at its own time, and again after restarts", "anchors": ["src/lib/replication/repl_dev/raft_repl_dev.cpp: start_replace_member (commit), complete_replace_member (commit), clean_replace_member_task (commit), get_replace_member_status, get_ongoing_replace_member_task, create_snp_resync_data", "src/lib/replication/repl_dev/raft_repl_dev.h: replace_member_task_superblk, replace_member_ctx"]}
{"id": "C84", "title": "A replacement replaces one member and changes nothing else", "statement": "While member `out` of a group is being replaced by `inn`, however often the call is made, fails or is repeated on another leader: every other member stays as it is, nobody but `inn` comes in, and it takes over the priority of `out`; nobody is a member twice; the group never gets smaller than it was and never lacks more than one vote; once the replacement is completed, `out` is gone and `inn` is there, with a vote. Several replacements do not disturb one another, and one that was cleaned has no effect any more.", "quantifier": "all histories of calls on all nodes, all interleavings with the thread that completes replacements, all changes of the leader, lost entries, restarts, snapshots", "why_tests_cant": "a replacement takes several entries of the log and several calls, on several leaders; between any two of them anything may happen", "anchors": ["src/lib/replication/repl_dev/raft_repl_dev.cpp: start_replace_member, complete_replace_member, remove_member, flip_learner_flag, clean_replace_member_task, reset_quorum_size", "src/lib/replication/repl_dev/raft_repl_dev.cpp: do_add_member, do_remove_member, do_flip_learner, monitor_replace_member_replication_status, get_quorum_for_commit"]}
{"id": "C85", "title": "A change of members that was verified has happened", "statement": "When a call that changes the members returns OK after waiting for the change, the node's configuration had, at some time during the call, what was asked for: the member to be removed was gone, the member to be flipped had the flag asked for, the member to be replaced had no vote.", "quantifier": "all histories of calls on all nodes, all answers of the consensus layer, all changes of the leader, lost entries, restarts", "why_tests_cant": "the change and its verification race with other changes and with changes of the leader", "anchors": ["src/lib/replication/repl_dev/raft_repl_dev.cpp: do_flip_learner, do_remove_member, start_replace_member, complete_replace_member"]}
{"id": "C86", "title": "A range query tells of each key what the map was during the query", "statement": "While other calls put and remove keys, a range query answers with entries in order, in the range, accepted by the filter and not more than the batch size; has_more means the batch is full. Everything the answer says of a key in the range (up to the last key returned if there is more, all keys if not), its value or that there is no accepted value, is what the map was at some moment between the question and the answer, and later for greater keys. So a key that does not change during a sequence of pages is returned exactly once if it is accepted, and the others exactly never. Both kinds of query do so.", "quantifier": "all numbers of threads and queries, keys, nodes and levels, all ranges, batch sizes and filters, all interleavings of the steps of queries with those of gets, puts and removes, with all splits, merges and root changes, all nodes that cannot be read", "why_tests_cant": "keys move between leaves while a query goes from leaf to leaf; each interleaving of the moves with the query is a different case", "anchors": ["src/include/homestore/btree/btree.ipp: query", "src/include/homestore/btree/detail/btree_query_impl.ipp: do_sweep_query, do_traversal_query", "src/include/homestore/btree/detail/variant_node.hpp: multi_get", "src/include/homestore/btree/detail/btree_node.hpp: match_range, next_bnode", "src/include/homestore/btree/detail/btree_mutate_impl.ipp: split_node", "src/include/homestore/btree/detail/btree_remove_impl.ipp: merge_nodes"]}
{"id": "C87", "title": "Range queries and other calls on one B-tree do not block one another for ever", "statement": "While queries, gets, puts and removes are in progress on one B-tree, at least one of them can go on without waiting for a lock, also when waiting writers are served before new readers. So queries, which hold nodes of several levels or go from leaf to leaf, and merges, which lock several siblings, cannot wait for one another for ever.", "quantifier": "all numbers of threads and queries, keys, nodes and levels, all ranges and batch sizes, all interleavings of their steps, all moments at which checkpoints begin", "why_tests_cant": "a deadlock shows only for particular interleavings of queries with splits and merges", "anchors": ["src/include/homestore/btree/btree.ipp: query, put, get, remove", "src/include/homestore/btree/detail/btree_query_impl.ipp: do_sweep_query, do_traversal_query", "src/include/homestore/btree/detail/btree_mutate_impl.ipp: check_split_root", "src/include/homestore/btree/detail/btree_remove_impl.ipp: merge_nodes", "src/include/homestore/btree/detail/btree_node_mgr.ipp: upgrade_node_locks"]}
{"id": "C88", "title": "A member brought up to date by a snapshot misses no committed write", "statement": "A member that has fallen behind is sent a snapshot by the leader instead of log entries. However often such a transfer is interrupted and repeated, and whenever the member stops and restarts: when a transfer has completed, the listener holds every write the group committed up to the number of the snapshot, and each later write is given to on_commit, in order, when all earlier ones are there. After a crash this holds again at the commit number the restarted member reports, and the committed entries above it are in its log, ready to be committed.", "quantifier": "all histories of appends, commits, removals, checkpoints, compactions, transfers to any numbers and crashes at any point; everything the listener may do with incomplete snapshots", "why_tests_cant": "each crash point of a transfer, and each interleaving of a transfer with checkpoints and commits, is a different case", "anchors": ["src/lib/replication/repl_dev/raft_state_machine.cpp: save_logical_snp_obj, apply_snapshot, commit_ext, commit_config", "src/lib/replication/repl_dev/raft_repl_dev.cpp: save_snp_resync_data, on_log_found, cp_flush", "src/lib/replication/repl_dev/raft_repl_dev.h: need_skip_processing", "src/lib/replication/log_store/repl_log_store.cpp: compact"]}
{"id": "C89", "title": "A journal chunk is in one place at a time", "statement": "Whatever the number of journals that take chunks from the pool of journal chunks and give truncated ones back at the same time, each chunk created is, at every moment, in exactly one place: in the pool, with one caller, or removed from the device. No chunk is given to two journals, none is lost, and the pool never holds more chunks than its capacity.", "quantifier": "all capacities, all numbers of chunks in use at the start, all numbers of threads and all schedules of the pool's thread and the calls", "why_tests_cant": "schedules of any number of threads cannot be enumerated", "anchors": ["src/lib/device/device_manager.cpp: ChunkPool::producer, dequeue, enqueue", "src/lib/device/journal_vdev.cpp: append_chunk, truncate"]}
{"id": "C90", "title": "A journal that needs a chunk does not wait for ever", "statement": "A call that takes a chunk from the pool of journal chunks returns, as long as the device has space: whatever calls run beside it, the pool's thread is notified and makes another chunk.", "quantifier": "all capacities, all numbers of calls in progress at the same time, all schedules, all choices of the thread that a notification wakes", "why_tests_cant": "which waiting thread a notification wakes is the system's choice; a lost notification shows only in rare schedules", "anchors": ["src/lib/device/device_manager.cpp: ChunkPool::producer, dequeue, enqueue", "src/lib/common/homestore_config.fbs: journal_chunk_pool_capacity"]}
{"id": "C91", "title": "A removed replication group does not come back and leaves nothing behind", "statement": "Once a member has recorded that a group is removed, it does not load the group again, whenever it crashes or restarts, until somebody creates the group anew. When the collector has dealt with the group, or the next start has completed, nothing of it is left on disk: no superblock, no Raft configuration, no log device, no journal chunk. The listener is told with on_destroy, so that the application can drop what it stored for the group.", "quantifier": "all histories of creations, writes, removals, collections, checkpoints, restarts and crashes, with a crash before or after each write of a metadata block", "why_tests_cant": "each write of each metadata block is a different crash point, also those of the start after the crash", "anchors": ["src/lib/replication/repl_dev/raft_repl_dev.cpp: leave, permanent_destroy, cp_flush", "src/lib/replication/service/raft_repl_service.cpp: gc_repl_devs, load_repl_dev, raft_group_config_found, start", "src/lib/logstore/log_store_service.cpp: destroy_log_dev, delete_unopened_logdevs", "src/lib/logstore/log_dev.cpp: LogDevMetadata::destroy"]}
{"id": "C92", "title": "After a crash a start completes and finds a replication group whole or not at all", "statement": "Creating a group writes four metadata blocks. Wherever the machine fails, in a creation, in a removal or in a start, the next start of the member completes, and then the group is there with its superblock, Raft configuration, log device and listener, or nothing of it is there.", "quantifier": "all histories of creations, writes, removals, collections, checkpoints, restarts and crashes, with a crash before or after each write of a metadata block", "why_tests_cant": "each write of each metadata block is a different crash point, also those of the start after the crash", "anchors": ["src/lib/replication/service/raft_repl_service.cpp: create_state_mgr, start, load_repl_dev, raft_group_config_found", "src/lib/replication/repl_dev/raft_repl_dev.cpp: RaftReplDev, become_leader_cb", "src/lib/logstore/log_dev.cpp: LogDevMetadata::create, LogDevMetadata::load, LogDev::start", "src/lib/logstore/log_store_service.cpp: LogStoreService::start, open_logdev"]}
{"id": "C93", "title": "A call to remove a replication group removes it or leaves it as it was", "statement": "remove_repl_dev on a member either has the group removed, or fails and leaves the group as it was: if it was in use it takes writes as before, if it was removed it stays removed. A removed group takes no writes. Each call returns a result, also a second one.", "quantifier": "all numbers of calls, from all members at the same time, with all results of the proposal to Raft, beside removals committed for other members", "why_tests_cant": "the calls and the commits they race with come from different machines", "anchors": ["src/lib/replication/repl_dev/raft_repl_dev.cpp: destroy_group, leave, async_alloc_write", "src/lib/replication/service/raft_repl_service.cpp: remove_repl_dev, gc_repl_devs"]}
{"id": "C94", "title": "A log append that was acknowledged survives, as given, and is acknowledged once", "statement": "When the completion callback of append_async or write_async has run, every later start of the log device finds the record, with the size and the data it was given, and once. The callback runs at most once per call. This holds however many threads append and flush at the same time, and wherever the process ends.", "quantifier": "all numbers of threads that append, write_and_flush and flush, all schedules of their atomic steps, all orders of the callbacks, all crash points and all failures of writes to the device", "why_tests_cant": "the schedules of several threads, each with several atomic steps, with a crash after any of them", "anchors": ["src/lib/logstore/log_dev.cpp: append_async, prepare_flush, flush, on_flush_completion, do_load", "src/lib/logstore/log_store.cpp: write_async, append_async"]}
{"id": "C95", "title": "A log append is not found without those that had returned before it was made", "statement": "If an append had returned when another append to the same log device was made, a start that finds the second also finds the first. What a start would find is found by every start after it.", "quantifier": "all schedules of threads that append and flush, all crash points, all failures of writes, any number of restarts after the two appends", "why_tests_cant": "the second append may be written by any thread, in any group, after any failure", "anchors": ["src/lib/logstore/log_dev.cpp: append_async, prepare_flush, flush, on_flush_completion, do_load", "src/lib/logstore/log_stream.cpp: next_group"]}
{"id": "C96", "title": "What was flushed survives", "statement": "When write_and_flush has returned, its record is found by every later start. When flush has returned, so is every record whose append had returned before flush was called.", "quantifier": "all schedules of threads that append, write_and_flush and flush, all crash points and all failures of writes", "why_tests_cant": "a flush looks at what other threads are in the middle of adding", "anchors": ["src/lib/logstore/log_store.cpp: write_and_flush, flush", "src/lib/logstore/log_dev.cpp: flush_under_guard, prepare_flush, flush"]}
{"id": "C97", "title": "The log device does not stop the process and can always be flushed", "statement": "No schedule of appends and flushes makes the log device stop the process, and every start after a crash succeeds. When no other call is going on, a flush returns with every append on disk.", "quantifier": "all schedules of threads that append and flush, all crash points, all failures of writes, all sizes of groups and all places of chunk boundaries", "why_tests_cant": "the count of pending bytes and the chain of checksums depend on the whole history", "anchors": ["src/lib/logstore/log_dev.cpp: append_async, flush, start, do_load", "src/lib/logstore/log_stream.cpp: next_group", "src/lib/device/journal_vdev.cpp: process_pwrite_offset, is_offset_at_last_chunk"]}
{"id": "C98", "title": "What a stop has taken down is not touched any more", "statement": "The stop of a service, a device, a log store, an index table waits for the calls in progress. Once it has gone on, no call, no work that a call has handed to another thread and no completion touches the object; calls made from then on are refused.", "quantifier": "all numbers of threads, calls and stops, of all services and devices at the same time, all schedules, all outcomes of what the calls do", "why_tests_cant": "the window between a call's look at the stopping flag and its count is a few instructions; the completion of an I/O may come at any time", "anchors": ["src/lib/logstore/log_store.cpp: write_async, append_async, write_and_flush, read_sync, truncate, rollback, stop", "src/lib/logstore/log_dev.cpp: append_async, read, flush_if_necessary, truncate, stop", "src/lib/logstore/log_store_service.cpp: stop, destroy_log_dev, remove_log_store", "src/lib/blkdata_svc/blkdata_service.cpp: async_read, async_write, async_free_blk, stop", "src/lib/index/index_service.cpp: stop", "src/include/homestore/index/index_table.hpp: put, remove, get, stop", "src/lib/replication/repl_dev/solo_repl_dev.cpp", "src/lib/replication/service/raft_repl_service.cpp: stop, gc_repl_devs"]}
{"id": "C99", "title": "Stops return", "statement": "Each stop of a service, a device, a log store, an index table, and each removal of a log device or a replication device, returns, whatever calls and stops are in progress and however they end. No count of pending requests goes below zero.", "quantifier": "all numbers of threads, calls and stops, of all services and devices at the same time, all schedules, all outcomes of what the calls do, error paths included", "why_tests_cant": "a count that an error path does not give back shows only at the next stop, and then as a process that does not end", "anchors": ["src/lib/logstore/log_store.cpp: write_and_flush, stop", "src/lib/logstore/log_dev.cpp: read, stop", "src/lib/logstore/log_store_service.cpp: destroy_log_dev, remove_log_store, stop", "src/lib/replication/repl_dev/solo_repl_dev.cpp: async_write, write_journal", "src/include/homestore/replication/repl_dev.h: stop"]}
{"id": "C100", "title": "A member stores the data of a replicated write as it was written", "statement": "The data of a replicated write reaches a member by a push from the proposer or by a fetch from it, several writes in one message. Whatever messages are lost, cut, late or repeated and whatever reads fail at the proposer, when the member says that the data of a write is on its disk, reading the write's local blocks returns exactly the user's bytes; the data is written once, and no other block is touched. A member that asks and is answered gets the data.", "quantifier": "all sets of requests with any blocks in any pieces on both sides, all orders of pushes, fetches, answers and completions of disk writes, all block sizes and layouts of the devices, all contents", "why_tests_cant": "the answer to a fetch is the concatenation of the data of all requests with no lengths in it: both sides must walk it with the same sizes for every batch and every choice of pieces", "anchors": ["src/lib/replication/repl_dev/raft_repl_dev.cpp: push_data_to_all_followers, on_push_data_received, fetch_data_from_remote, on_fetch_data_received, handle_fetch_data_response", "src/lib/replication/repl_dev/common.cpp: save_pushed_data, save_fetched_data", "src/include/homestore/replication/repl_dev.h: on_fetch_data"]}
{"id": "C101", "title": "A fetch asks for each missing write once, in messages of bounded size", "statement": "When a member fetches the data of a set of writes of one proposer, it asks for every write whose data is missing exactly once, in order and for no other; no message is empty, and a message that asks for several writes asks for less data than the configured maximum.", "quantifier": "all lists of requests, all sizes of their data and of the maximum", "why_tests_cant": "the split into messages depends on all the sizes before; boundaries are hit by rare combinations", "anchors": ["src/lib/replication/repl_dev/raft_repl_dev.cpp: check_and_fetch_remote_data, fetch_data_from_remote"]}
{"id": "C102", "title": "Calls of the log service do not block one another for ever", "statement": "Threads append, write, read, flush, truncate, roll back and list log stores, create, open, look up, destroy and stop log devices and log stores, and stop the service, at the same time; callbacks of records make calls too. As long as a call has not returned, some thread can go on; executions end, with every call returned and every lock and count given back.", "quantifier": "all numbers of threads, calls, devices, stores, records and callbacks, all schedules, both ways of running callbacks", "why_tests_cant": "a deadlock needs several threads at exact places inside their calls, and locks that prefer writers block a reader that holds the lock already", "anchors": ["src/lib/logstore/log_store.cpp: write_async, append_async, write_and_flush, read_sync, truncate, foreach, flush, rollback, stop, dump_log_store, get_status", "src/lib/logstore/log_dev.cpp: stop, start, append_async, read, flush_if_necessary, flush_under_guard, on_flush_completion, truncate, rollback, create_new_log_store, open_log_store, remove_log_store, dump_log_store, get_status", "src/lib/logstore/log_store_service.cpp: stop, create_new_logdev, destroy_log_dev, create_new_log_store, open_log_store, remove_log_store, device_truncate, flush, dump_log_store, get_status"]}
{"id": "C103", "title": "After quiesce_reqs returns, no request gets blocks until resume_accepting_reqs", "statement": "A thread calls quiesce_reqs on a replicated device while other threads write, get pushed data or append entries. Once the call has returned, no request is given blocks until resume_accepting_reqs is called. The call returns as soon as no request is being initialized, and a request being initialized always ends.", "quantifier": "all numbers of threads, all schedules of their accesses to the flag and the counter, stores that reach other threads late", "why_tests_cant": "the gap between a store and its being seen by another processor is a few nanoseconds; a test cannot place a request in it", "anchors": ["src/lib/replication/repl_dev/raft_repl_dev.cpp: quiesce_reqs, resume_accepting_reqs, init_req_ctx", "src/lib/replication/repl_dev/common.h: init_req_counter"]}
{"id": "C104", "title": "Handling no_space_left does not abort the process", "statement": "A follower that finds no space for an entry tells the application the lsn, and takes no entry from this lsn on until a rollback, a change of leader or resume_accepting_reqs. The application refuses requests, waits for the entries before it, clears the requests on the full chunk and resumes. In no order of these calls with pushed data, batches from leaders, commits, rollbacks and proposals does the log find itself without a request for an entry it is to write, which would abort the process.", "quantifier": "all histories of pushes, batches, commits, rollbacks, changes of leader, proposals, refusing, clearing and resuming", "why_tests_cant": "the abort needs a batch between its two phases while another thread clears requests, after a particular history of leaders", "anchors": ["src/lib/replication/repl_dev/raft_repl_dev.cpp: raft_event, applier_create_req, clear_chunk_req, quiesce_reqs, resume_accepting_reqs, reset_latch_lsn, handle_rollback, handle_commit", "src/lib/replication/repl_dev/raft_state_machine.cpp: localize_journal_entry_prepare, localize_journal_entry_finish", "src/lib/replication/log_store/repl_log_store.cpp: append, write_at"]}
{"id": "C105", "title": "clear_chunk_req frees the blocks of requests that will not be used, and all of them", "statement": "Clearing the requests of a chunk frees no block that an entry of the log is later committed with. After it, while requests are refused, no request of the device has blocks on the chunk.", "quantifier": "all histories of pushes, batches, commits, rollbacks, changes of leader, proposals, refusing, clearing and resuming", "why_tests_cant": "the entry must be in the log, replaced by a new leader and committed after all; or a write must be between two lines of async_alloc_write", "anchors": ["src/lib/replication/repl_dev/raft_repl_dev.cpp: clear_chunk_req, async_alloc_write, applier_create_req, handle_commit", "include/homestore/replication/repl_dev.h: clear_chunk_req, on_no_space_left"]}
{"id": "C106", "title": "A leader that is ready for traffic has committed what it had when it became leader", "statement": "When is_leader() holds and is_ready_for_traffic() returns true, all entries that were in the member's log when it became leader are committed there. It returns true once they are. Changes of leader in any order do not abort the process.", "quantifier": "all histories of elections, appends, commits, truncations and snapshots, all places of the calls among them", "why_tests_cant": "the window between raft's change of role and its callback is a few instructions under raft's lock", "anchors": ["src/lib/replication/repl_dev/raft_repl_dev.cpp: become_leader_cb, is_ready_for_traffic, raft_event", "src/lib/replication/repl_dev/raft_repl_dev.h: become_follower_cb"]}
{"id": "C107", "title": "A first start that is interrupted leaves the whole store or none", "statement": "A start on new devices is interrupted at any time. The next start with these devices either creates the store as if the first had not been, with the same device ids, or finds the store that the first one created with all its devices and formats none.", "quantifier": "all numbers of devices and all points at which the first start is interrupted", "why_tests_cant": "the point between two writes of first blocks at the end of the first start", "anchors": ["src/lib/device/device_manager.cpp: format_devices, format_single_device, commit_formatting, load_devices", "src/lib/homestore.cpp: do_start"]}
{"id": "C108", "title": "A member that lags by no more than the reserve is brought up to date from the log", "statement": "A member of a group that is behind the group's commits by no more than raft_logstore_reserve_threshold finds the entries after those it has in the log of whichever member leads, so that it needs no snapshot. A member that is down does not keep the others' logs from being truncated beyond the reserve.", "quantifier": "all numbers of members, reserves, histories of appends, commits, checkpoints, proposals, compactions, crashes, joins and leaves", "why_tests_cant": "needs all interleavings of reading the peers' status, committing, applying boundaries late and compacting, over several leaders", "anchors": ["src/lib/replication/repl_dev/raft_repl_dev.cpp: propose_truncate_boundary, update_truncation_boundary, trigger_snapshot_creation, get_replication_status", "src/lib/replication/log_store/repl_log_store.cpp: compact", "src/lib/replication/repl_dev/raft_state_machine.cpp: save_logical_snp_obj"]}
{"id": "C109", "title": "A member votes once in a term, and what raft saved is there after a crash", "statement": "A member of a group gives its vote of a term to at most one candidate, whatever crashes and restarts come between. A start after a crash finds the last raft state (term, vote, flags) and the last cluster configuration that were saved, or those being saved when the machine failed; saving one does not lose the other. The state that an older version wrote is read.", "quantifier": "all histories of saves of state and configuration, votes, crashes before and after the write, and starts, from all superblocks that can be read", "why_tests_cant": "the crash must fall between the vote and the write, and the next election must offer another candidate in the same term", "anchors": ["src/lib/replication/repl_dev/raft_repl_dev.cpp: load_config, save_config, save_state, read_state, serialize_cluster_config, deserialize_cluster_config", "src/include/homestore/superblk_handler.hpp: json_superblk", "src/lib/replication/service/raft_repl_service.cpp: raft_group_config_found"]}
{"id": "C110", "title": "A new virtual device has the chunks it was created with, spread by the sizes of the devices", "statement": "When a service's space is created on the devices, the number of chunks that was worked out for it is created, each device getting a part in proportion to its size; no device gets more than fits, and the creation does not abort. A device added later gets as many chunks, in proportion to its size, as those that are there.", "quantifier": "all numbers and sizes of devices, numbers and sizes of chunks", "why_tests_cant": "the shares are computed with 32-bit floating point numbers; which sizes are rounded the wrong way is not visible in a test with a few devices", "anchors": ["src/lib/device/device_manager.cpp: calculate_vdev_chunk_num_on_new_pdevs, create_vdev, load_devices, add_pdev_to_vdev"]}
{"id": "C111", "title": "Formatting gives each service its percentage of the devices, or refuses before it writes", "statement": "Formatting with a percentage for each service either is refused with an error before anything is written, if the percentages on the devices add up to more than a hundred or no service has a percentage; or it succeeds and each service has its percentage of the capacity of the devices of its type, rounded by less than a block for each chunk. It neither fails half-way nor crashes.", "quantifier": "all capacities and numbers of fast and data devices, all lists of services with percentages, numbers of chunks, sizes of blocks and chunks", "why_tests_cant": "whether there is room for the last service depends on the rounding of all the sizes before it and of the shares of all the devices", "anchors": ["src/lib/homestore.cpp: format_and_start, pct_to_size", "src/lib/device/device_manager.cpp: create_vdev, compose_vparam, total_capacity, pdevs_by_type_internal", "src/lib/device/physical_dev.cpp: create_chunks, find_next_chunk_area"]}
{"id": "C112", "title": "A replacement is only begun if the group can commit without the two members concerned", "statement": "A call to replace a member that does not ask for a quorum of its own changes nothing and returns QUORUM_NOT_MET unless the leader together with the members that are up to date, not counting the one who leaves and the one who comes, are a majority of those who have a vote. If it goes on, they are a majority in every configuration the replacement goes through, so that it does not block the group.", "quantifier": "all configurations of voters and learners, all sets of members that are up to date, all histories before the call", "why_tests_cant": "the check must agree with the majorities of four successive configurations for every size of the group", "anchors": ["src/lib/replication/repl_dev/raft_repl_dev.cpp: replace_member, get_active_peers, get_quorum_for_commit"]}
{"id": "C113", "title": "A checkpoint is asked for when the indexes have too much dirty memory", "statement": "At every moment the store knows exactly how much memory is held by index nodes that were changed and are not written yet. A change of an index that takes it over the configured share of the memory has a checkpoint in progress when it returns, and outside of checkpoints the dirty memory stays within that share.", "quantifier": "all interleavings of changes of indexes, triggers, flushes and crashes, all sizes of nodes and limits", "why_tests_cant": "the counter is changed by threads and by completions of two checkpoints at once, and the request meets the checkpoint manager in any of its phases", "anchors": ["src/lib/common/resource_mgr.cpp: inc_dirty_buf_size, dec_dirty_buf_size, get_dirty_buf_limit", "src/lib/index/wb_cache.cpp: write_buf, process_write_completion", "src/lib/checkpoint/cp_mgr.cpp: CPManager, do_trigger_cp_flush"]}
{"id": "C114", "title": "Destroying an index frees its nodes, and a crash finds it whole or not at all", "statement": "Destroying an index frees every block of it exactly once and no block of another; once the checkpoint is completed all of them can be allocated again. A crash at any point of the destruction finds the index as it was, with all its nodes at least as new as the last completed checkpoint, or does not find it. No flush uses the table or its superblock after it is gone.", "quantifier": "all trees, all failures of reads, all interleavings of a destruction with changes and checkpoints, all crash points", "why_tests_cant": "the freed nodes, the dirty lists of two checkpoints and the superblock change independently, and every crash point between their steps matters", "anchors": ["src/include/homestore/index/index_table.hpp: destroy, update_sb", "src/include/homestore/btree/btree.ipp: destroy_btree", "src/include/homestore/btree/detail/btree_common.ipp: post_order_traversal, do_destroy", "src/lib/index/wb_cache.cpp: free_buf, async_cp_flush, do_flush_one_buf, process_write_completion"]}
{"id": "C115", "title": "Every index is found again by its names, and no two share them", "statement": "An index that was created and added is found by its uuid and by its number until it is removed, and what is found by a name is the index that has it. No two indexes of a store share a number. After a stop or a crash every index that was created and not destroyed is found by both names, whatever the order in which the store finds them, and nothing else is.", "quantifier": "all histories of creations, additions, removals, destructions and restarts, all orders of superblocks", "why_tests_cant": "names collide only after particular histories and crash points, of which there are unboundedly many", "anchors": ["src/include/homestore/index/index_table.hpp: IndexTable, destroy", "src/lib/index/index_service.cpp: start, reserve_ordinal, unreserve_ordinal, add_index_table, remove_index_table, get_index_table"]}
{"id": "C116", "title": "The space reported as used is the space that is used", "statement": "The number of blocks that the data service reports as used is the number of blocks that are allocated, at any time and also after restarts; used and available blocks add up to the capacity. The log service and the index service report the space of their devices that is in use.", "quantifier": "all histories of allocations, frees, commits, checkpoints, crashes and replays, all numbers of chunks and sizes", "why_tests_cant": "the counter is kept beside the bitmaps and restored from one of them, so that it can only drift over histories with restarts and large devices", "anchors": ["src/lib/blkalloc/bitmap_blk_allocator.cpp: on_meta_blk_found, reserve_on_disk, free_on_disk", "src/lib/blkalloc/varsize_blk_allocator.cpp: alloc, free, reserve_on_cache, get_used_blks, available_blks", "src/lib/device/virtual_dev.cpp: commit_blk, used_size, available_blks", "src/lib/blkdata_svc/blkdata_service.cpp: get_used_capacity", "src/lib/logstore/log_store_service.cpp: used_size, total_size", "src/lib/index/index_service.cpp: used_size"]}
{"id": "C117", "title": "After a chunk is reset only what was stored since counts", "statement": "When the reset of a chunk returns, none of its blocks is in use, also if the process crashes at that moment. From then on, whatever the schedule of checkpoints, I/O and crashes, no block that was only stored before the reset counts as used, a block committed after it and covered by a checkpoint that completed counts as used after a restart, no such block is given out again, and neither the reset nor a checkpoint uses memory that is gone or stops the process.", "quantifier": "all interleavings of a reset with checkpoints and I/O, all crash points, all three kinds of allocators", "why_tests_cant": "the tests put three chosen orders of one reset and one checkpoint on one kind of allocator; the statement is about every order, repeated resets and every crash point", "anchors": ["src/lib/device/vchunk.cpp: reset", "src/lib/device/chunk.cpp: reset_block_allocator", "src/lib/device/virtual_dev.cpp: reset_chunk_blk_allocator, cp_flush, free_blk", "src/lib/blkalloc/append_blk_allocator.cpp: reset, cp_flush", "src/lib/blkalloc/bitmap_blk_allocator.cpp: reset, cp_flush, on_meta_blk_found"]}
{"id": "C118", "title": "A solo replication device is found again until it is removed", "statement": "In a store that uses replication devices without peers: a group whose create_repl_dev has returned success is found by get_repl_dev, also after any restart, with a journal of its own that holds exactly the entries it acknowledged, until remove_repl_dev is called for it. A group whose removal has returned, or that was never created, is not found. Wherever the machine fails, in a creation or a removal too, the next start completes and finds each group whole or not at all. A call that is refused changes nothing, and nothing of a group that is not there stays on disk.", "quantifier": "all numbers of groups, all interleavings of creations, removals, writes and checkpoints, all crash points, any number of restarts", "why_tests_cant": "each creation writes five metadata blocks and each removal removes four; a test cannot stop between every two of them, in every interleaving of calls, with every history before", "anchors": ["src/lib/replication/service/generic_repl_svc.cpp: SoloReplService::create_repl_dev, remove_repl_dev, load_repl_dev, start, SoloReplServiceCPHandler::cp_flush", "src/lib/replication/repl_dev/solo_repl_dev.cpp: SoloReplDev, destroy, write_journal, cp_flush", "src/lib/logstore/log_store_service.cpp: create_new_logdev, open_logdev, destroy_log_dev, start", "src/lib/logstore/log_dev.cpp: start, stop, truncate, LogDevMetadata::create, load, destroy"]}
{"id": "C119", "title": "An index reports the number of its keys, nodes and levels", "statement": "count_keys returns the number of keys for which a get finds a value. compute_node_count, and get_num_nodes at any time, return the number of interior nodes and the number of leaves of the tree, and get_btree_depth the number of levels above the leaves. All this holds after every history of calls, checkpoints, shutdowns, failures and restarts, and beside other calls count_keys returns a number of keys that the index had at some moment of the call.", "quantifier": "all trees of any depth and fanout, all histories of puts and removes with their splits, merges and changes of root, all places of checkpoints, shutdowns, failures and restarts, all indexes of a store", "why_tests_cant": "the counters change at each split, merge and given-up merge of every level, and are saved by other code at other moments; a test compares them after a few histories, most often for one index and in one run", "anchors": ["src/include/homestore/btree/detail/btree_common.ipp: compute_node_count, compute_btree_depth, get_child_node_count, count_keys", "src/include/homestore/btree/btree.ipp: get_num_nodes, get_btree_depth", "src/include/homestore/btree/detail/btree_node_mgr.ipp: alloc_leaf_node, alloc_interior_node, free_node", "src/include/homestore/index/index_table.hpp: on_root_changed, update_sb, load_metrics", "src/lib/index/index_service.cpp: start, write_sb", "src/lib/index/wb_cache.cpp: process_write_completion, refresh_meta_buf"]}
{"id": "C120", "title": "The check of the metadata store accepts what the service wrote and finds what is broken", "statement": "verify_metablk_store returns true whenever the metadata store is as the service wrote it, after any history of registrations and deregistrations, adds, updates, removals, crashes and starts. If it returns true, the records on the device are those of the service, linked in the same order in both directions, with whole overflow chains, and the next start will find all of them with their contents. If the store is damaged it returns false, and it never ends the process.", "quantifier": "all histories of the service with crashes at every block write, all contents inline and overflowing, all damages of the device between the last write and the check", "why_tests_cant": "a test can check a store after a few histories and a few damages; the damages that are not noticed, or that end the process instead of being reported, are a matter of every block and every field", "anchors": ["src/lib/meta/meta_blk_service.cpp: verify_metablk_store, sanity_check, ssb_sanity_check, _cookie_sanity_check, register_handler, deregister_handler, add_sub_sb, remove_sub_sb, scan_and_load_meta_blks"]}
{"id": "C121", "title": "A superblock object stands for exactly one record of the metadata store", "statement": "What is stored for a superblock object (superblk, json_superblk) is what its buffer held at its last write, under the name it was first written with, until it is destroyed; then nothing is. Moving an object takes its record along. The metadata store holds one record for each object that was written and not destroyed and no other; a crash during a call leaves all as before the call or all as after it, and a start hands every record to one object. No sequence of these calls ends the process.", "quantifier": "all numbers of objects, all sequences of creations, resizings, changes, writes, moves, destructions, crashes at every block write and starts, all sizes and contents", "why_tests_cant": "ownership is a matter of every sequence of calls on every object; a test writes and destroys a few objects in the usual order, and records that nobody owns any more are not seen", "anchors": ["src/include/homestore/superblk_handler.hpp: superblk (load, create, resize, destroy, write, move assignment), json_superblk (destroy, write)", "src/lib/meta/meta_blk_service.cpp: add_sub_sb, update_sub_sb, remove_sub_sb", "src/lib/replication/service/raft_repl_service.cpp: raft_group_config_found"]}
{"id": "C122", "title": "A value written over several block ids is on each of them in its part, or the call tells that it is not", "statement": "When one value is written to a list of block ids and the call reports success, each id read by itself returns its part of the value, in the order of the list, whatever the order in which the device executes the requests. A call changes no block that belongs to none of the ids. A value that does not match the ids is refused, and a refused call writes nothing. A value of any size can be written to the ids that were allocated for that size.", "quantifier": "all lists of ids, all numbers of pieces, all values of all sizes, all device contents, all orders of completion and all failures of requests", "why_tests_cant": "the split depends on the pieces of every id, on sizes near the limits of the counters and on values that end anywhere; a test writes aligned values to a few ids", "anchors": ["src/lib/replication/repl_dev/solo_repl_dev.cpp: SoloReplDev::async_write, SoloReplDev::alloc_blks", "src/lib/blkdata_svc/blkdata_service.cpp: BlkDataService::async_write", "src/lib/blkalloc/blk.cpp: MultiBlkId::blk_count"]}
{"id": "C123", "title": "Reconciliation gives the leadership to the member of the highest priority and keeps it there", "statement": "reconcile_leader() requests the leadership if the member should have it and yields it if another member should. After a call on the leader, a member of the highest priority among those that can lead is the leader. No number of calls, on whichever members and with whatever outcome, moves the leadership to a member of a lower priority, or from a member of the highest priority. A group that was created goes back to its creator. With every setting of the rounds of an election a follower may stand within that number of rounds.", "quantifier": "all groups, all priorities, all leaders, all sequences of calls on all members, all outcomes of requests, all settings", "why_tests_cant": "the calls of the members interact: whether the leadership comes to rest depends on the priorities of all members and on who calls when; a test looks at one call in one group", "anchors": ["src/lib/replication/repl_dev/raft_repl_dev.cpp: RaftReplDev::reconcile_leader, get_replication_status, load_config", "src/lib/replication/service/raft_repl_service.cpp: compute_raft_follower_priority, create_repl_dev"]}
{"id": "C124", "title": "A member is replaced only while a majority has caught up, and data is pushed only to members that have", "statement": "The leader pushes data to exactly those other members that lag behind its commits by no more than laggy_threshold and find the entry after their last in its log. replace_member() without a forced quorum goes on only if the leader and the members that have caught up, without the old and the new one, are a majority of the members with a vote, before and after each change of the configuration that the replacement makes; otherwise it is refused. Members that do not answer or do not vote do not count.", "quantifier": "all groups, all indices of members, all commit indices, logs and settings, all old and new members, first and repeated tries", "why_tests_cant": "the count depends on the lags, votes and ids of all members and must fit the quorum of four configurations; a test tries a group of three with one member down", "anchors": ["src/lib/replication/repl_dev/raft_repl_dev.cpp: RaftReplDev::get_active_peers, get_quorum_for_commit, start_replace_member, push_data_to_all_followers"]}
{"id": "C125", "title": "A follower that cannot take an entry takes those before it", "statement": "When a follower cannot take an entry of a batch (no space, requests are refused, its data does not come), the leader's next batches are cut so that the follower gets every entry before this one, after a bounded number of messages, and nothing from it on. Once no entry is refused any more the follower gets the whole log, and after five batches the leader sends full batches again.", "quantifier": "all logs, entries that cannot be taken, hints, batch limits, growth of the leader's log and numbers of messages", "why_tests_cant": "progress over any number of messages, from any hint, and the interplay of hint, latch and changes of leader; a test runs into one refusal and is retried until it passes", "anchors": ["src/lib/replication/repl_dev/raft_repl_dev.cpp: RaftReplDev::raft_event, applier_create_req, reset_latch_lsn", "src/lib/replication/repl_dev/raft_state_machine.cpp: inc_next_batch_size_hint, reset_next_batch_size_hint", "src/lib/replication/log_store/home_raft_log_store.cpp: HomeRaftLogStore::log_entries_ext"]}
{"id": "C126", "title": "An allocation is refused only when every chunk refuses it", "statement": "On a device whose user gives no chunk selector: an allocation that may look at other chunks is refused only if every chunk of the device, in the state in which the allocation found it, cannot serve the request by itself; if any chunk can, it is served. Allocations are spread evenly over the chunks.", "quantifier": "all numbers of chunks and states of them, all positions of the thread's index, request sizes, hints and numbers of calls and threads", "why_tests_cant": "depends on the index that earlier calls of the thread left behind and on the number of chunks; a test has few chunks and one thread", "anchors": ["src/lib/device/round_robin_chunk_selector.cpp: RoundRobinChunkSelector::select_chunk", "src/lib/device/virtual_dev.cpp: VirtualDev::alloc_blks"]}
