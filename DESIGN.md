# Formal model of eBay/HomeStore in Lean 4

## 1. What this is

`lean/Verif/` contains a Lean 4 model of parts of eBay/HomeStore (source read as
text from `/repo`), and theorems about that model.  `properties.jsonl` lists the
properties in terms of the API; `MANIFEST.json` maps each property to the theorems
that prove it, prove part of it (`_partial`), or refute it for the code as it is
(`_violated`, always with a concrete witness execution that the kernel evaluates).

Layout, one directory per subsystem:

* `Verif/<Sub>/Model.lean`  - the model: each definition cites the file and lines it
  models and says what is simplified.
* `Verif/<Sub>/Spec.lean`   - (where the statement needs vocabulary) the small
  specification the theorems are stated with; it does not use the model's helpers.
* `Verif/<Sub>/Lemmas.lean` - proofs' helper lemmas (nobody needs to read these).
* `Verif/<Sub>/Props.lean`  - the property theorems `Cnn_...`, each followed by an
  `example` exhibiting a concrete non-trivial case that meets its hypotheses.

## 2. Trusted base

* Lean 4.33.0's kernel.
* Axioms: at most `propext`, `Classical.choice`, `Quot.sound` (Lean's standard ones).
  No axiom is added, no `sorry`/`admit`, no `native_decide`/`bv_decide`.
* The correspondence between the C++ text and the Lean definitions, which is by
  reading: each definition's comment gives the lines.  Nothing was compiled or run.
* Modelling conventions:
  - A failed `RELEASE_ASSERT`/`HS_REL_ASSERT` or undefined behaviour (out-of-range
    index, null dereference) is a distinct outcome (`none`/`.abort`), never totalised.
  - `DEBUG_ASSERT`/`HS_DBG_ASSERT` are absent from release builds: treated as no-ops
    unless the comment says otherwise.
  - Machine integers are `BitVec`/`UInt` or explicit `% 2^k` where wrap-around matters
    to the property; otherwise `Nat` with the bound as hypothesis.
  - Concurrency is modelled by small-step interleaving (sequentially consistent
    atomics; the C++ memory model is not modelled).
  - Crashes: the persistent state is what block writes completed before the crash left;
    each device write of the code is one atomic step unless the comment says otherwise.

## 3. Plan per property

| id | modelled (directory) | proof |
|---|---|---|
| C01 | `BlkId` bit-fields as `BitVec 64` packing (`Blk`) | bit-vector/Nat arithmetic, all fields |
| C02 | `MultiBlkId` bytes, serialize/deserialize/add (`Blk`) | round-trip by cases on piece list |
| C03 | iterator and 16-bit `blk_count` (`Blk`) | induction on pieces; wrap-around refuted by witness |
| C04 | `BlkId::compare`, `MultiBlkId::compare` (`Blk`, `Blk/Order`) | order laws; for several pieces, interval sets are canonical and their comparison is a total order |
| C05-C07 | append allocator as transition system: sequential, crash, and small-step concurrent (`Append`) | invariants by induction over histories; C07 refuted |
| C08 | fixed allocator queue + states (`Fixed`) | invariant over histories; pre-recovery free refuted |
| C09, C10, C15 | bitmap allocator disk bitmap, dirty flag, deferred list, flush phases, multi-piece commits in small steps (`Vdev`) | inductive invariant over all interleavings; refutations |
| C11, C12 | varsize allocator: slab cache, break-up, merge-down, sweep, direct path (`Varsize`) | conservation invariant, refinement to a set of free blocks |
| C13 | slab tables (`Slab`) | for all 16-bit counts by arithmetic |
| C14, C30, C47, C48 | `VirtualDev` allocation loop (`VAlloc`), data service arithmetic, scatter writes and reads (`DataSvc`) | outcome specification, order-independence of disjoint writes |
| C16, C17 | physical device chunk slots, interval gaps, persisted image (`Pdev`) | invariant over histories with crash steps |
| C18, C55 | first-block headers, format and load of devices (`DevMgr/Boot*`) | invariant over boot histories with crashes |
| C19 | `compose_vparam` arithmetic, 32- and 64-bit (`DevMgr/Size*`) | Nat arithmetic |
| C44, C56 | vdev and chunk records over all devices, `create_vdev`, load, step 4 of `load_devices` (`DevMgr/Vdevs*`) | invariant over histories with crashes at every write |
| C20, C21, C23, C49 | meta block list on disk, write by write, overflow chains, restart (`Meta`) | crash invariant over write sequences; boundary refutations |
| C22 | Kahn's algorithm and its caller (`Topo`) | invariant of the loop |
| C24-C27, C45, C46 | CP manager small-step concurrent system, watchdog decision, guards (`Cp`) | inductive invariant over all schedules |
| C57 | append allocator, calls in effect after flushes and crashes (`Append/Freed`) | invariant against a specification of histories |
| C58 | liveness of the CP system (`Cp/Live`) | well-founded measure on internal steps, analysis of states at rest |
| C59 | `HomeRaftLogStore` over the log device (`RaftLog/Model`), with its cache and durable hint | refinement of a numbered list (`RaftLog/Spec`) over all histories |
| C60 | the same, with crashes between records and inside `write_at` | preserved by every accepted step of the list, then C59 |
| C61 | `pack`, `apply_pack` on two stores | from C59 |
| C62 | bytes of the journal entry, both decoders, localization of a received entry (`Repl/Entry`) | byte-level round trip for all lists of ids |
| C63, C64 | single-copy device: journal, superblock, commit and checkpoint in stages, replay (`Repl/Solo`) | invariant over all histories with crashes |
| C65, C66 | Raft device of one member: log, request map, commit, checkpoint and timer in stages, truncation boundary, replay (`Repl/Raft`); NuRaft by what it may call | invariant over all histories with crashes |
| C67 | flush of the dirty index nodes: list, counters, completions handing on the next node, fibers (`Index/Flush`) | invariant over all schedules |
| C68 | links made by splits, merges, root changes (`Index/Link`), then the flush of C67 | invariant over all histories of one checkpoint; links survive later operations; C67 |
| C69 | one node: buffer in the cache, older copies on the dirty list, disk, phases of a checkpoint (`Index/Cow`) | invariant over all histories relating cache, copies and disk to the list of changes |
| C70 | the bytes of the journal, its growth, the packed record, the reading loop (`Index/Journal`) | round trip: writing then reading, for all lists of changes and all previous memory contents |
| C71 | bitmap in memory and on disk, the two contexts of checkpoints, the journal, stages of a flush, crash with any decision of recovery (`Index/Space`) | invariant over all histories relating bitmaps to trees |
| C72 | the free queue and the bitmap, a free as two steps (`Fixed/Race`) | invariant over all interleavings |
| C73 | root changes, stages of a checkpoint, crash, recovery's root changes (`Index/Root`) | invariant over all histories |
| C74 | journal records to buffers, the passes of recovery, `repair_links`, sanity check (`Index/Recover`) | `repair_links` on any split and merged leaves by induction over the chain; counters of the passes as invariants over the order of buffers and the journal |
| C75 | the same for the records of a root split, with `repair_root_node` (`Index/Recover`) | counters of the passes over any order of the four buffers, by case of what is on disk |
| C76 | the bytes of a node's data area and the 16-bit counters of `VariableNode` (`Varlen/`) | layout invariant (records below the tail, objects above it, disjoint, sizes add up); every operation refines the one on lists (`Varlen/Spec`), also in when it fails; induction over histories of any number of nodes |
| C77 | the prefix slots, the bitset and the suffix entries of `FixedPrefixNode` (`Prefix/`), one definition per member function, with single and range puts, range removals, copies and moves | invariant (set bits below the tail, counts of prefixes not below the number of entries naming them, areas disjoint); every operation refines the one on sorted lists (`Prefix/Spec`); induction over histories of any number of nodes |
| C78 | request objects with their states, the two tables of requests, the log with its durable part, blocks and their content, the listener's index, threads that have decided to fail a request (`Repl/Data`); one step per callback | invariant over all steps (`InvC`: links, exclusive blocks, writes under way only into blocks of live requests) under side conditions `Fair`; witnesses for each side condition |
| C79 | the same model | the same invariant: allocated blocks = blocks of the listener and of live requests |
| C80 | threads on one B-tree: nodes with locks, generations and children; one step between two waits for a lock; splits, merges and root changes at any time; checkpoint numbers of nodes and calls (`Conc`) | the linearization point is the step at the leaf; invariant over all interleavings: the live nodes form a tree that partitions the keys, each thread is at a node that covers its key (or will notice by the generation that it is not), the entries of the leaves are the map |
| C81 | the same model, with who waits for which lock | among the threads that wait for a node take one whose node is lowest: its holder cannot be waiting; C81 refuted, with the lock leaked by `remove` |
| C82 | `Member`: any number of nodes and calls; a call is a program counter of `start_replace_member`, `complete_replace_member`, `remove_member`, `flip_learner_flag` or `clean_replace_member_task`; one log, of which a new leader may drop what is not committed; the quorum of each node | invariant: an override belongs to a call in progress or to one that left it; refuted by the three return paths that do not reset it, and by the reaper |
| C83 | the same model: the superblock with the task, the bytes of its id, entries applied again after restarts | what a node has recorded, folded over what it will apply again, is the fold over the log; refuted for long and empty ids, and snapshots |
| C84 | the same model, members after each beginning of the log | invariant over the log, the pending changes and the calls; refuted for two replacements at the same time, snapshots, and cleaning |
| C85 | the same model | invariant: past its check, a call has seen its effect in a configuration since its beginning; refuted for flips to voter |
| C86 | the model of C80 with the links between nodes of a level, and threads that query: sweeps from leaf to leaf, traversals from parent to child, one step between two waits for a lock (`Scan`) | invariant: links follow the order of the live nodes of a level through splits and merges; a query that has passed key `p` has said of every smaller key what the map was at a moment, in order; the leaf it holds cannot change, and the next one begins where it ends |
| C87 | the same model, with what threads and queries wait for | whoever holds a node waits for a node below it or, of the same level, to its right; those who wait are finitely many, so one of them waits for nobody; refuted where C81 is |
| C88 | one member of a group with the library's commit index, the transfer of a snapshot in stages (first message, objects, last object, checkpoint, compaction, apply), the saved numbers and the log beside a ghost of what the group committed (`Snap`) | invariant: with no transfer pending, the listener's state, what the running checkpoint will save and what is saved hold everything up to the numbers that say so; while one is pending, the stage reached; refuted for an abandoned transfer and for an older snapshot |
| C89, C90 | the pool of journal chunks with its thread and any number of calls, each step as long as the mutex is held; `notify_one` wakes any of those who wait (`Pool`) | C89: the number of places of each chunk is invariant; C90: invariant that relates chunks in the pool, notifications under way and waiting calls, and a measure that every step of calls already made decreases; refuted for every capacity with one call more |
| C91, C92, C93 | one group on one member: the four metadata blocks and the chunks on disk, each write a step; creation, `remove_repl_dev`, `leave`, the collector, a checkpoint's write and the start, each in its steps, with crashes between any two (`Life`) | C91: invariant of all histories after the record; C92, C91 (collection), C93: invariant of fair histories, and the start run to its end from it; violations by concrete runs, with invariants for "ever after" |
| C94, C95, C96, C97 | one log device used by any number of threads: each atomic access of `append_async`, `flush`, `on_flush_completion` is a step, writes may fail (and be on disk or not), the process may end after each step; the start reads the groups that follow each other (`Pipe`) | invariant of all states (`Inv`: index = place of the record, what is on disk is a prefix of the records), a second one of histories without failed writes (`Sound`: the count of pending bytes balances, the disk has no hole); C95: by induction over the history after the second call, with the crash that loses it; C96: an invariant of the flushing call; C97: the loop of `flush` run to its end. Witnesses for failed writes and for appends between index and record |
| C98, C99 | every guarded function of the log, data, index and replication services as the order in which it looks at stopping flags, counts itself, touches objects, hands work to other threads and gives counts back, on every path; any number of threads (`Stop`) | each thread has a bound on the counts it will yet give back (`owed`) and must give back (`back`), computed from what it still has to do; invariants of all interleavings relate their sums to the counts. A stop that waits has the counted threads before it; stops wait in the order of a rank, so that a stuck state is one in which all has returned |
| C100, C101 | requests with remote and local pieces, messages as bytes, batches, both ends of a fetch, pushes, writes under way, on top of the device and data service of C47 (`Fetch`) | invariant over all runs: answers are empty or the concatenation of the data, writes under way carry the user's data and are unique, what is marked as written can be read; the frame of C47 keeps it. C101 by induction over the loop |
| C102 | the mutexes, counts and callbacks of the log service as programs of threads that lock, count, wait and start others; readers wait behind queued writers (`Lock`) | an order of all locks and counts that every call follows (locks that are only taken shared are left out), proved call by call; in a stuck state the thread that waits for the last thing gives a contradiction. Sizes of programs go down with every step, so executions end. Deadlocks as concrete schedules |
| C103 | the flag and the counter of `quiesce_reqs`, one access per step, with a buffer of stores per thread (`Quiesce/Gate`) | the counter is the number of threads inside (a list without duplicates), only threads in `resume` have a late `false`; once the store is in memory and the counter 0, nobody is past the check and every later check reads true |
| C104, C105 | one member's map of requests, log, batch, own proposals and latch; creating, preparing and finishing a request (`Quiesce/Latch`) | invariant: a batch in progress ends before the latch, and every entry prepared, not written and not committed has its request; clearing comes when the entries before the latch are committed, so touches none of them. C105: requests with blocks were not freed, nor entries not committed. Aborts and lost blocks as concrete runs |
| C106 | role, pending callback, log, committed lsn and gate of one member; asking in two reads (`Ready/Model`); raft's order of role change, callback and log changes is a contract | invariant: the gate is at least the log of the last election once the callback has run, and never past the log (`Ready/Props`) |
| C107 | first blocks of `DevMgr/Boot`, a first start cut after any number of writes | exact form of the writes of a first start; the next start computed from each prefix (`DevMgr/FirstProps`) |
| C108 | per member: log acknowledged, commit, checkpoint, boundary, truncated prefix; reading the peers' status and proposing as two steps; boundaries applied late (`Reserve/Model`) | invariant, for each pair of members: boundary and truncated prefix are at most the larger of commit minus reserve and what the other has (`Reserve/Props`) |
| C109 | JSON superblock in memory and on disk: configuration as named fields, state of both formats; saves with a crash before or after the write; NuRaft's codec and voting rule as contracts (`Vote/Model`) | invariant: disk and memory hold the last saved state and configuration, and the state covers all votes given (`Vote/Props`) |
| C110 | `calculate_vdev_chunk_num_on_new_pdevs` with rounding to 24-bit floats, and the loops that create the chunks (`Spread/Model`) | bounds of the rounding error (`Spread/Lemmas`), summed over the devices (`Spread/Props`) |
| C111 | `format_and_start`, `pct_to_size`, `create_vdev` on blank devices, with C19's sizing and C110's spreading (`Format/Model`); percentages in quarters | for each device the bytes used are the sum of the shares; induction over the services with the bound of the shares summed (`Format/Props`) |
| C112 | `get_quorum_for_commit`, `get_active_peers` and the check in `replace_member` (`Member/Model`) | counting: the check against the voters of the configuration; the voters of the configurations that follow (`Member/QuorumProps`) |
| C113 | `inc_dirty_buf_size`, `dec_dirty_buf_size`, `get_dirty_buf_limit`, their callers in the write-back cache and the callback of the checkpoint manager, interleaved with the steps of `Cp/` (`Dirty/Model`) | invariant by induction over the steps, with the invariant of `Cp/Lemmas` (`Dirty/Lemmas`, `Dirty/Props`) |
| C114 | `IndexTable::destroy`, `destroy_btree`, `do_destroy`, `post_order_traversal`, `free_buf`, and the treatment of freed nodes and of superblock buffers by the flush (`Drop/Model`) | structural induction over trees; invariants by induction over the interleavings of a destruction with checkpoints (`Drop/Props`) |
| C115 | the constructor of `IndexTable`, `reserve_ordinal`, `unreserve_ordinal`, `start`, `add_index_table`, `remove_index_table`, `get_index_table` (`Catalog/Model`) | invariant by induction over calls and restarts, the loop of `start` by induction over the superblocks (`Catalog/Props`) |
| C116 | the counter of the variable-size allocator through allocations, frees, commits, checkpoints and restarts; `get_used_blks`, `available_blks`, `used_size` of device and services (`Usage/Model`) | invariant by induction over the steps, sums over the chunks (`Usage/Props`) |
| C117 | allocator objects of one chunk, super blocks, the flushing, the resetting and the I/O threads (`Reset/Model`) | invariants by induction over the steps, for the append allocator (`Reset/Props`) and the bitmap allocators (`Reset/Bitmap`); cases and failing runs in `Reset/Cases` |
| C118 | the log devices and superblocks on disk, the map of groups, calls under way with one step for each metadata block (`SoloSvc/Model`) | invariants by induction over the steps: of any history in `SoloSvc/Props`, of careful histories in `SoloSvc/Careful`; nothing left behind, and failing histories, in `SoloSvc/Clean` |
| C119 | puts and removes of the B-tree model with the counters beside, the superblock of an index, checkpoints, shutdowns and restarts, and `count_keys` with its two moments (`Count/Model`) | that the counters change as the number of nodes does, by induction over the calls, with what a merge does to the children (`Count/Exact`); invariants over histories, and failing histories (`Count/Props`) |
| C120 | the check over the model of the metadata store, with the map of types and ids that the service keeps in memory (`MetaCheck/Model`); executions with that map, and what it means that a device holds a list of records (`MetaCheck/Spec`) | that the map holds exactly the records, by induction over histories, and the walk of the check over the invariant of C20 (`MetaCheck/Lemmas`); what an accepted device holds, by induction over the walk on any device; damages and failing cases (`MetaCheck/Props`) |
| C121 | superblock objects as name, cookie and buffer, with the operations of the metadata store that their calls make (`SbObj/Model`); what their owners expect, and executions with crashes and starts (`SbObj/Spec`) | invariant over executions: each object has the record that is expected and no two have the same; crashes by C20 (`SbObj/Props`) |
| C122 | the loops over ids of `SoloReplDev::async_write` and of the data service, with 16-bit counts and 32-bit sizes, on top of the writes of one id (`MultiWrite/Model`) | a call over ids is a call over all their pieces (`MultiWrite/Lemmas`), then C47 (`MultiWrite/Props`) |
| C123 | the decision of `reconcile_leader` on any member, the priorities of a new group, and what NuRaft may make of a request, as a contract (`Prio/Model`) | decision logic over every status, invariants over any number of calls with any outcome (`Prio/Props`) |
| C124 | `get_active_peers` with its two bounds, the safety check of `replace_member` (`Member/Model`), and the configurations a replacement goes through (`Active/Model`) | the active peers are those that have caught up; counting of votes at each stage (`Active/Props`) |
| C125 | the append branch of `raft_event`, the batch size hint, the latch and `log_entries_ext`, with the leader's use of the hint as the comments describe it (`Batch/Model`) | a measure on the messages until the refused entry is reached; five doublings of the hint; invariants of the stuck states (`Batch/Props`) |
| C126 | `RoundRobinChunkSelector` with its index per thread (`Rr/Model`), as the selector of the allocation loop of `VAlloc/Model` | a round of calls is a permutation of the chunks; induction over the loop with the chunks not yet asked unchanged; counting by division (`Rr/Props`) |
| C28, C29 | read tracker (`Tracker`) | inductive invariant over events |
| C31-C33, C50 | journal virtual device with chunk chain and metadata writes (`Journal`) | invariant over histories; crash points of each call |
| C34-C37, C54 | log group bytes, flush, stream reader, recovery (`Log`), log device with several stores (`Log/Dev*`) | byte-level round trips; refinement to a specification of histories |
| C38-C40, C51-C53 | node operations, tree operations with split and merge, queries (`Btree`) | refinement to finite maps |
| C41, C42 | refill sessions, exhaustion of cache and bitmap (`Varsize/Session`, `Varsize/Space`) | invariants of the loops |
| C43 | CRC-16 of the device records (`Crc`) | linearity of the CRC over GF(2), burst errors |

## 4. Disagreements found between the code and the properties

Each has a theorem with the suffix `_violated`: a concrete execution of the model that the kernel
evaluates, or a general statement that covers every such execution.  Line numbers are those of `/repo/src`.

| id | what happens | where |
|---|---|---|
| C03 | `MultiBlkId::blk_count()` is a 16-bit sum: two pieces of 32768 blocks count 0 | `include/homestore/blk.h` |
| C06 | a commit that has returned is not persisted by the next flush, when another thread has published a higher offset but not yet set the dirty flag | `append_blk_allocator.cpp` |
| C07 | two concurrent appends both pass the space check; the second is outside the chunk, and from then on the unsigned free count wraps | `append_blk_allocator.cpp` alloc |
| C08 | a block reserved by replay and freed before `recovery_completed` is handed out twice | `fixed_blk_allocator.cpp` |
| C09 | frees do not set the dirty flag: a freed block may stay marked on disk for ever | `bitmap_blk_allocator.cpp` `free_on_disk` |
| C10 | an immediate free of a block committed during a flush aborts the flush or resurrects the block | `bitmap_blk_allocator.cpp` |
| C11 | `min_blks_per_piece` larger than the request: the slab index runs below 0 | `blk_cache_queue.cpp` `try_alloc_blks`, merge-down |
| C12 | an id with a small first and a large later piece is freed through the slab path: slab index out of range | `varsize_blk_allocator.cpp` 660-695 |
| C13 | a run of 65535 blocks: 16-bit increment wraps to 0, shift by -1 | `blk_allocator.h`/`blk_cache.h` slab tables |
| C14 | pieces given back after a failed attempt on one chunk stay in the id; the next chunk frees them again in its own bitmap, or a release assertion fails | `virtual_dev.cpp` alloc loop, `varsize_blk_allocator.cpp` 437-449 |
| C14 | vector overload: the last piece leaks on failure; `pop_back` on an empty vector | `virtual_dev.cpp` |
| C17, C16 | a `create_chunk` that fails for lack of space leaves its slot bit set; the next creation persists it: a removed chunk comes back and overlaps a live one, or the restart aborts | `physical_dev.cpp` create_chunk |
| C19 | above 2^48 bytes the chunk size is cut to 32 bits; a device smaller than its chunk size is accepted with no chunks | `device_manager.cpp` 451 |
| C20, C21 | an overflow chain with one data id more than a multiple of the ids per header writes past its last block over another record | `meta_blk_service.cpp` overflow write |
| C21 | `read_sub_sb` hands out compressed bytes | `meta_blk_service.cpp` read_sub_sb |
| C22 | a consumer registered with an empty dependency list, or depending on a deregistered one, is never recovered | `meta_blk_service.cpp` recovery order |
| C23 | add, remove, add dereferences null; restart with no record aborts | `meta_blk_service.cpp` |
| C24 | check-then-act in `cp_io_exit`: flush with I/O inside, flush twice, use after free | `cp_mgr.cpp` |
| C25 | a consumer's failed flush is ignored and the trigger's future says true | `cp_mgr.cpp` |
| C27 | the watchdog's condition is always true: it never reacts | `cp_mgr.cpp` 466 |
| C30 | `alloc_blks(size)` cuts the block count to 16 bits; `async_alloc_write` then overwrites foreign blocks | `blkdata_service.cpp` |
| C32 | truncation at an offset inside a chunk's unused end subtracts that end twice | `journal_vdev.cpp` truncate |
| C33 | crash between the journal's truncation and the log device's super block write: old start with the shortened list | `log_dev.cpp` 662-684 |
| C34 | a flush with no contiguous record after 408 reserved indices reads behind its buffer | `log_group.cpp`, `log_dev.cpp` |
| C35 | a torn group whose header and footer sectors were written aborts every restart | `log_stream.cpp` / `log_dev.cpp` load |
| C36 | racing or out-of-order appends: truncation removes a group that is still needed | `log_store.cpp` 149-176 |
| C37 | a rollback is forgotten after a truncation (`<=`); a rollback to the last flushed number leaves pending appends; racing appends | `log_dev.cpp` 1049, `log_store.cpp` 362-394 |
| C39 | a merge that cannot make progress is retried for ever; a second update with a large value aborts | `btree_remove_impl.ipp`, `btree_mutate_impl.ipp` |
| C40 | sweep query stops at an emptied leaf with a signed key type; traversal query with a reused vector never advances | `btree_query_impl.ipp` |
| C41 | the session's vector has no entry for a slab that needs nothing: index out of range, or another slab is charged | `blk_cache_queue.cpp` 264-271 |
| C42 | requests above the largest slab search only the bitmap: `SPACE_FULL` although all free blocks are cached | `varsize_blk_allocator.cpp` 398-449 |
| C43 | a vdev record whose checksum is 0 is not checked | `device_manager.cpp` 787 |
| C44 | starting without a device gives its chunk ids away; a crash inside `create_vdev` makes every restart fail | `device_manager.cpp` 593, 609 |
| C46 | guard assignment leaks an entry; destruction out of order leaves a stale entry on the thread's stack | `cp_mgr.cpp` `CPGuard` |
| C48 | with `partial_alloc_ok` a failed allocating write keeps the blocks | `blkdata_service.cpp` |
| C50 | a cursor exactly at the end of a chunk's data skips the unused end twice | `journal_vdev.cpp` sync_next_read |
| C51 | range update: the `remove` decision runs past the interval; it stops at a leaf without keys; range remove of an empty interval reports success | `simple_node.hpp`/`btree_node.hpp`, `btree_mutate_impl.ipp` |
| C52 | `get_any`/`remove_any` miss keys in other leaves, return keys outside, read past the end | `btree_get_impl.ipp`, `btree_remove_impl.ipp`, `btree_node.hpp` |
| C53 | entries rejected by the filter use up the page, the rest of the leaf is skipped | `btree_query_impl.ipp` |
| C54 | a removed store's id is reclaimed one record too early (`>`) | `log_dev.cpp` 675 |
| C55 | the stale-header flag is overwritten by later devices: two devices get one id, unnoticed | `device_manager.cpp` 228, 308, 121 |
| C56 | the journal's record is not written to a replacement device: the next start dies or forgets the journal | `device_manager.cpp` 256-264, 785, 593, 609 |
| C59 | `log_entries` below the start index gives later entries as if they were the asked ones; it leaves out unflushed ones that `next_slot` counts; compacted entries are found while cached; `write_at` over an unflushed entry aborts; a durable hint beyond the end breaks `next_slot` | `home_raft_log_store.cpp` |
| C61 | `apply_pack` over existing entries leaves `next_slot` and the durable index too high and stale cache entries; beyond the end it does not fill the gap; `pack` writes the asked count, not the packed one | `home_raft_log_store.cpp` pack, apply_pack |
| C62 | the single-copy device reads every id with the size of a one-run id; the Raft device reads one id only; a follower's id of another size leaves runs of the leader's id behind or overruns the buffer | `solo_repl_dev.cpp` on_log_found; `raft_repl_dev.cpp` on_log_found; `raft_state_machine.cpp` localize_journal_entry_finish |
| C63 | a new device's committed number is 0, the number of its first write, which is lost in a crash before the first checkpoint; the committed number is sampled when the checkpoint flushes, after the data service, and advanced before `on_commit` | `solo_repl_dev.cpp` cp_flush, on_log_found, async_write |
| C65, C66 | `flush_durable_commit_lsn` stores the number it read before calling the listener, without a maximum: it can fall below the checkpoint number; after a restart the next commit dereferences a null request, or a later checkpoint saves a number below the compacted entries | `raft_repl_dev.cpp` 2480-2495 |
| C67 | with two flush fibers a node handed out by a completion is picked a second time; the checkpoint ends with a node unwritten | `wb_cache.cpp` 959, 1023-1055 |
| C68 | a root split that finds no space for the second node leaves the superblock waiting for a root that is never written: the checkpoint hangs | `btree_mutate_impl.ipp` 228-240 |
| C68 | root collapse after a merge in the same checkpoint: the child is linked to the freed root, not to the superblock, which can be written first; a crash then loses the merged entries | `wb_cache.cpp` 407-425, `btree_remove_impl.ipp` 218-233 |
| C69 | a node locked for writing in the next checkpoint but not changed is a clean copy: it can be evicted before the older, dirty buffer is written; it is then read back without the changes of that checkpoint, and the next write of the node loses them | `wb_cache.cpp` 53-56, 182-196 |
| C71 | the checkpoint forced after a recovery has no dirty node and is completed without writing the bitmap; after a second crash the blocks of the recovered nodes are free, and are given to other nodes | `index_service.cpp` 112-124, `wb_cache.cpp` 841-850 |
| C71 | a bitmap is written before the frees of its checkpoint are applied, and the frees do not mark it dirty: after a crash the blocks stay allocated for good | `virtual_dev.cpp` 740-769, `bitmap_blk_allocator.cpp` 125-146 |
| C71 | a checkpoint's bitmap has the blocks allocated meanwhile by the next one; after a crash nothing frees them | `wb_cache.cpp` 960-977 |
| C71 | the blocks that recovery frees are on the list of the forced checkpoint, which is never applied | `wb_cache.cpp` 841-850 |
| C72 | `FixedBlkAllocator::free` publishes the block before it resets its bit: an allocation and commit in between abort the process | `fixed_blk_allocator.cpp` 103-117, `bitmap_blk_allocator.cpp` 102-107 |
| C72 | the same while initializing: the assertion is off, and the bit of the newly committed block is reset | same |
| C73 | the end of a flush writes the live superblock of the table with ordinal 0, which may already name the next checkpoint's root | `index_table.hpp` 396-405, `wb_cache.cpp` 954-966 |
| C73 | recovery writes the superblock with a new root before the root; a crash in between leaves no tree | `index_table.hpp` 562, 871, 904 |
| C73 | after recovery made a new root, `repair_node` names the old root in the superblock again | `index_table.hpp` 277-283 |
| C73 | a second root change in the checkpoint in which recovery changed the root is not put on the dirty list | `wb_cache.cpp` 202-208 |
| C74 | a leaf made by a split and emptied before the flush ends the repair of the parent: `repair_links` finds no key for it and stops, the sanity check fails, the process aborts at every start | `index_table.hpp` 842-856, `wb_cache.cpp` 744-756 |
| C74 | a leaf that was split and emptied gets the parent's old key, which is above those of the next leaf: abort at every start | `index_table.hpp` 842-849, `btree_common.ipp` 252-325 |
| C75 | the old root (a leaf) and its other half written, the superblock not: `repair_root_node` cuts the link to the other half and makes it the edge of a leaf, where it is never read; its keys are lost and the start succeeds | `index_table.hpp` 201-236, `wb_cache.cpp` 797-808 |
| C75 | the same with an interior root: the other half becomes the last child of a node on its own level, the sanity check fails, the process aborts at every start | `index_table.hpp` 201-236, `wb_cache.cpp` 744-756 |
| C75 | the superblock with the new root written: recovery marks only the other half as used, as the record of the new root has no child; the block of the root may be allocated again | `wb_cache.cpp` 640-672 |
| C76 | offsets of entries have 14 bits, node sizes 16: in a node with 16 KiB or more of data the first entry is not read back | `varlen_node.hpp` 28-31, `btree_node.hpp` 68 |
| C76 | `move_out_to_right_by_entries` of all entries returns one less than it moved | `varlen_node.hpp` 256 |
| C76 | a node whose last entry is larger than half of what is filled cannot be split: nothing is moved, the release assertion aborts the process; such entries are accepted by `put` | `btree_mutate_impl.ipp` 268-274 |
| C77 | an update takes a new prefix slot and leaks the old one: 27 puts of one key fill a node of 300 bytes; the split then leaves the left node empty | `prefix_node.hpp` 507-530, `btree_mutate_impl.ipp` 278 |
| C77 | a range update goes on by one index for a key that is not there, and so skips keys that are | `prefix_node.hpp` 226-272 |
| C77 | a range put that continues in a further node writes two prefixes, one of them never used or freed, with room for one | `prefix_node.hpp` 254-263 |
| C77 | a merge into a node with holes does not compact it and lets suffixes overwrite prefixes | `prefix_node.hpp` 598-603, 630, 668, `btree_remove_impl.ipp` 529-532 |
| C77 | a copy stops when there is no room for a prefix although the next entry needs none: not all entries of a full node are copied | `prefix_node.hpp` 630 |
| C77 | the bitset can have fewer bits than the node has prefix slots: a prefix is then written outside the node | `prefix_node.hpp` 720-734, 854-858 |
| C77 | `remove(idx_s, idx_e)` removes every other entry and not the last one | `prefix_node.hpp` 554-558 |
| C78 | `handle_fetch_data_response` does not look whether the request was failed: data that comes after the timeout is written to a block that was given back, and that another write may hold | `raft_repl_dev.cpp` 1624-1640, 2453-2456, `common.cpp` 183-218 |
| C78 | data that comes between the test for DATA_RECEIVED and `handle_error` is written to the freed block; with the entry on disk by then the process aborts | `raft_repl_dev.cpp` 1388-1394, 1499-1501, 1777-1833 |
| C78 | a push that comes again after the commit makes a request with the listener's block; garbage collection frees the committed data | `common.cpp` 140-150, `raft_repl_dev.cpp` 2614-2696 |
| C78 | rollback of an entry whose block the listener holds already (`committed_blk_id`) frees the committed data | `raft_repl_dev.cpp` 1683-1701 |
| C78 | `clear_chunk_req` frees blocks of requests whose entries are on disk | `raft_repl_dev.cpp` 2899-2933 |
| C78 | the user frees a block while a request still names it as `committed_blk_id`: the next commit names a free block | `common.cpp` 140-150 |
| C79 | garbage collection and `clear_chunk_req` do not mark the request as failed: a later `handle_error` frees the block a second time | `raft_repl_dev.cpp` 2614-2696, 2899-2933 |
| C81 | `remove` jumps behind the release of the tree lock if the root, a leaf, cannot be locked for writing because it belongs to a later checkpoint (`cp_mismatch`): the next split or collapse of the root waits for ever | `btree.ipp` 190-191, 228-230; `index_table.hpp` 172-190, 363-367 |
| C82 | `flip_learner_flag` that succeeds, and `start_replace_member` that finds its intent fulfilled, return without resetting the commit and election quorum they have set: the node goes on committing with the reduced quorum. (So does `start_replace_member` with NOT_LEADER, which a comment explains: the caller is to retry.) Every `complete_replace_member` of the reaper resets the quorum of whatever other call is in progress | `raft_repl_dev.cpp` 246, 267, 673-684, 390-453, 834-840 |
| C83 | Ids of tasks are cut to 63 characters when recorded, but compared with the full id: status, retries and cleaning are refused for ever. A task with the empty id is never cleared. A snapshot does not carry the recorded task | `raft_repl_dev.h` 52-58; `raft_repl_dev.cpp` 455-524, 251, 747-756, 1850, 2800-2845 |
| C84 | The check for another replacement in progress is made long before the start is logged: two replacements may both pass it, and the second overwrites the record of the first. After a snapshot a stale record makes the reaper of a new leader remove a member. A replacement cleaned while the reaper is completing it is completed nevertheless | `raft_repl_dev.cpp` 251-258, 342, 1829-1842, 2496-2553, 374-453 |
| C85 | The verification of `flip_learner_flag` waits for the learner flag to be set, also when it is to be cleared; it dereferences the member without checking that it is still there | `raft_repl_dev.cpp` 719-726 |
| C86 | with a filter, `multi_get` takes the first entries of the range and then filters them; if fewer than wanted remain, the query goes on in the next leaf, and reports success without the rest of the leaf | `variant_node.hpp` 59-79, `btree_query_impl.ipp` 38-61 |
| C86 | `do_traversal_query` leaves the loop only for has_more; an error of one subtree is overwritten by the success of the next | `btree_query_impl.ipp` 127-139 |
| C88 | `last_snapshot_lsn` is saved when the first message of a snapshot arrives. If the transfer is abandoned (the leader changes, and the new one still has the log entries), commits and replay of entries up to that number are skipped, and the listener never gets them, while later entries are committed | `raft_repl_dev.cpp` 2831-2838, `raft_state_machine.cpp` 207-212, 226-230 |
| C88 | A snapshot with a smaller number lowers `last_snapshot_lsn`; entries that replay has skipped under the larger one have no request, and their commit dereferences null | `raft_repl_dev.cpp` 2706-2710, 2836; `raft_state_machine.cpp` 213-219 |
| C90 | The thread that fills the pool of journal chunks and the calls that take chunks wait on one condition variable, and every notification is a `notify_one`. The notifications meant for the thread may wake a call, which finds the pool empty and waits again: then both wait, and nobody notifies them. Half the capacity and one calls at the same time are enough (three, with the default 5); with capacity 0 or 1 one call is | `device_manager.cpp` 879-883, 897, 906, 912, 935; `homestore_config.fbs` 156 |
| C91 | If the machine fails after `leave` has written `destroy_pending` and before the collector gets to the group, the next start removes the superblock without calling the listener's `on_destroy`: the application's structures for the group stay for ever. `C91_application_not_told_violated`. |
| C91, C92 | `LogDevMetadata::create` writes the superblock of a log device and then its rollback block, `destroy` removes the rollback block and then the superblock. After a crash in between, `LogDevMetadata::load` follows the null pointer of the missing rollback block, in `LogStoreService::start`, before `delete_unopened_logdevs` could remove the log device: no start succeeds any more. `C92_failure_between_log_blocks_violated`, `C91_failure_in_collection_violated`. |
| C92 | `create_state_mgr` writes the group's superblock (in the constructor) before the Raft configuration. After a crash in between, the start loads the device, finds no configuration and so attaches no listener; the device joins Raft, and the first callback follows the null listener. `C92_failure_before_configuration_violated`. |
| C91 | `cp_flush` looks at the stage and later writes the superblock; `permanent_destroy` in between sets the stage and destroys the superblock without the mutex `m_sb_mtx`: a null pointer is followed. `C91_checkpoint_beside_collection_violated`. |
| C93 | `destroy_group` sets the stage to `DESTROYING` whatever it was, and back to `ACTIVE` when Raft refuses the proposal (a follower always does): a removed group is active again in memory, is not collected, takes writes, and is gone after a restart. `C93_refused_call_revives_violated`, `C93_overlapping_call_revives_violated`. |
| C93 | When `init_req_ctx` fails (the group is quiesced), `destroy_group` returns without setting the stage back: the group takes no writes until the next start. `C93_failed_call_locks_violated`. |
| C93 | A second removal: `getSemiFuture` throws in the call, and the commit of its entry calls `setValue` on a fulfilled promise in Raft's commit thread. `C93_second_removal_violated`. |
| C94 | When the write of a group fails, its place in the journal is used up and `flush` returns; the records stay to be flushed. If a later flush gets through (see C97), they and all later ones are written behind the hole with the checksum of the group before it: their callbacks run, and a start never finds them. `C94_failed_write_violated`. |
| C96 | An append takes its index, then creates its record. A flush at that time finds nothing contiguous to write and returns false; `write_and_flush` and `HomeLogStore::flush` ignore it and return as if the record was written. `C96_unfiled_neighbour_violated`, `C96_unfiled_neighbour_flush_violated`. |
| C96 | The error of a failed write is also ignored. `C96_failed_write_violated`. |
| C97 | A failed write's records are subtracted from the pending size and stay to be flushed, so that the next flush subtracts them again and fails the release assertion. With a fault containment service each flush returns false for good, and `write_and_flush` returns with nothing written. `C97_failed_write_stops_violated`, `C97_failed_write_stays_violated`. |
| C97 | If the write reported as failed is on disk, the retry in the next place has the checksum of the group before both. A start takes this for the end of the log only in the last chunk; once the log has another chunk, every start stops itself. `C97_start_stops_violated`. |
| C98 | Calls look at the stopping flag and then count themselves. A stop that begins, and finds the count at zero, in between goes on, and the call then touches what the stop takes down. `C98_not_touched_after_stop_violated`. The group reaper (`gc_repl_devs`) counts first and is safe. |
| C98 | `BlkDataService::async_read` and `async_write` give the count back before, or right after, the I/O is issued: the completion of a read touches the service's read tracker after the stop; the issue of a one-piece access may come after it. `async_free_blk` gives it back before the blocks are freed. `C98_read_completion_violated`, `C98_write_issue_violated`, `C98_free_violated`. |
| C98 | Queries of index tables and `SoloReplDev::async_alloc_write` do not look at the flag and are let in after the stop. `C98_let_in_after_stop_violated`. |
| C99 | `write_and_flush` on a thread that cannot block (with fault containment), `destroy_log_dev` and `remove_log_store` on a device that does not exist, a failed `LogDev::read` and `SoloReplDev::async_write` with sizes that do not match return without giving the count back: from then on no stop of the object returns. `C99_stops_return_violated`. |
| C99 | `SoloReplDev::write_journal` gives the count back in the callback of the append. A log store or device that is stopping refuses the append and never calls back. `C99_journal_violated`. |
| C100 | `blk_count()` has 16 bits and sizes have 32: a request of 65536 blocks is answered with nothing, and the answer is dropped without an error. `C100_large_violated`. |
| C100 | a pushed write whose size is not a multiple of the block size passes the size test; with several local pieces `async_write` reads past the end of the received buffer. `C100_ragged_violated`. |
| C100 | the originator reads whatever its blocks hold now; after it has freed and reused them the member stores other data, as nothing in the answer tells. `C100_reused_violated`. |
| C101 | `check_and_fetch_remote_data` compares the state with `==` instead of testing a flag: writes that have their data are asked for again, errored ones too. `C101_only_missing_violated`. |
| C102 | `LogDev::stop` and `LogDev::dump_log_store` hold the map of stores shared while they wait for the flush lock and (stop) take the map again; `truncate` takes them in the other order, and a queued writer blocks readers. Callbacks are run, or waited for, under the flush lock. `C102_violated_list_truncate_create`, `_stop_open`, `_callback_flush`, `_callback_flush_stop`, `_callback_lookup`. |
| C103 | `quiesce_reqs` stores the flag with release order and reads the counter with acquire order: the read may be done before the store is seen, and a request that starts then gets blocks after `quiesce_reqs` has returned. `C103_store_delayed_violated`. |
| C104 | Control requests are not in the map and are created again when appended, which is refused while requests are refused, and the log aborts (`C104_control_aborts_violated`); `remove_member` does not even ask (`C104_remove_member_aborts_violated`); a leader's write that is cleared before it is appended aborts (`C104_write_cleared_aborts_violated`); the latch is reset by `become_leader` and rollbacks while the application is still handling the lack of space (`C104_latch_reset_aborts_violated`). |
| C105 | An entry of the log at the lsn without space (a new leader sent another one) loses its blocks and may be committed later (`C105_commits_freed_blocks_violated`); if it is rolled back its blocks are freed twice. `async_alloc_write` allocates blocks before its request is in the map (`C105_clear_misses_write_violated`). The callbacks of `clear_chunk_req` hold references to variables of the loop and erase from the map it goes over (not modelled). |
| C106 | Raft changes the role before it calls `become_leader_cb`; in between `is_leader()` and `is_ready_for_traffic()` both return true although entries of the log are not committed, because the gate is still 0 (`C106_early_violated`). |
| C107 | `commit_formatting` marks the devices one by one. Interrupted in between, the next start is not a first one; it formats the devices not marked again under new ids, while the services look for what the first start had put there (`C107_half_violated`). |
| C108 | `propose_truncate_boundary` reads the status of the peers after `is_leader()`; a member that does not lead just then sees only itself and, leading again, proposes its commit index (`C108_lost_lead_violated`). A member that received a snapshot, once leader, lacks entries that members within the reserve need (`C108_after_snapshot_violated`); so does any for a new member (`C108_new_member_violated`). |
| C109 | `read_state` catches `std::out_of_range`, but a missing field throws `nlohmann::type_error`: the start fails instead of taking the default (`C109_missing_field_violated`). A state that cannot be deserialized becomes term 0 without a vote; the member can vote twice in a term (`C109_undecodable_violated`). After a run of the older version, which writes only "state", the older "nuraft_state" is read (`C109_rollback_violated`). |
| C110 | shares are computed with `float`: on three equal devices (one in seven of a sample of sizes from 4 GiB to 8 TiB) each gets one chunk less than its share, with three chunks none at all (`C110_equal_devices_violated`, `C110_missing_violated`); on devices of different sizes the remainders are not given to anyone (`C110_uneven_violated`) |
| C111 | sizes are rounded up to pages, so that 100 % can be too much (`C111_hundred_violated`); without fast devices the percentages of both types go to the same devices, the check for that is disabled (`#if 0`, homestore.cpp:227-234) and the formatting throws `out_of_range` half-way (`C111_no_fast_violated`); the sum of percentages is an `int`: services with less than 1 % on each type are refused as none (`C111_small_violated`); a service smaller than the smallest chunk is a division by zero (`C111_tiny_violated`); with the default of one chunk a service larger than 4 GiB on two devices can get two of three chunks (`C111_third_lost_violated`), and on three devices none (`C111_none_violated`) |
| C112 | `get_active_peers` contains learners, the quorum counts only voters (raft_repl_dev.cpp:275-289, 2099-2136): a replacement passes the check although too few voters are up to date (`C112_learner_counts_violated`) |
| C113 | `trigger_cp_flush(false)` during a flush is refused and not remembered (cp_mgr.cpp:204-219): dirty memory grows without bound while a flush lasts (`C113_unbounded_violated`), and what is over the limit when it ends asks for no checkpoint (`C113_left_over_violated`) |
| C114 | the result of `destroy_btree` is dropped and a child that cannot be read ends its parent's loop (btree_common.ipp:58-73, index_table.hpp:141-148): blocks that belong to nothing, success returned (`C114_read_fails_violated`); an unread root is dereferenced (`C114_root_read_fails_violated`). The flush of the previous checkpoint skips nodes freed meanwhile (`C114_skipped_violated`, wb_cache.cpp:926); checkpoints between the release of the guard and `m_sb.destroy()` free the nodes of an index that a restart finds (`C114_between_violated`); the superblock goes at once, the blocks two checkpoints later (`C114_leak_violated`); with no dirty buffers in the checkpoint the frees are dropped (`C114_idle_violated`, wb_cache.cpp:841-850); only the newest superblock buffer is invalidated (`C114_meta_violated`), and of an index that the service still has only after the superblock is gone (`C114_null_violated`); a destroyed index cannot be taken off the service (`C114_order_violated`) |
| C115 | `remove_index_table` must come before `destroy` (`C115_order_violated`) and gives the number back while the superblock is still on disk: an index created in between shares it after a crash (`C115_reuse_violated`). A number given by the user is only checked against tables already added, the refusal of `reserve_ordinal` is not looked at (index_table.hpp:67-71; `C115_given_violated`). A second `remove_index_table` takes the number of another table (`C115_twice_violated`). A constructor that throws leaves its superblock (index_table.hpp:85-92; `C115_failed_violated`) |
| C116 | `reserve_on_cache` counts blocks that are already set (varsize_blk_allocator.cpp:652-653): a block that is in the bitmap of the last checkpoint and committed again by the replay of a log is counted twice, the number of available blocks wraps (`C116_replay_violated`); `LogStoreService::used_size` and `total_size` return 32 bits (`C116_log_violated`); `index_size` is never changed, indexes are reported to use nothing (`C116_index_violated`), and their sum is kept in an `int` (`C116_index_sum_violated`) |
| C117 | for the bitmap allocators `reset` takes no lock and leaves the dirty flag (bitmap_blk_allocator.cpp:189-196): a checkpoint that took the allocator before the reset writes the old bitmap after it, the old blocks are in use again after a restart (`C117_bitmap_back_violated`) or hide those committed since (`C117_bitmap_lost_violated`); inside the reset a checkpoint stops the process or updates a super block that is gone (`C117_bitmap_window_violated`, `C117_bitmap_update_violated`). Releases that wait for the checkpoint (virtual_dev.cpp:347, 762-768) hit the new allocator: a block is given twice (`C117_bitmap_twice_violated`) or a release assert fails (`C117_bitmap_release_violated`). No super block is written by a reset: after a crash before the next checkpoint the bitmap is null and the first checkpoint of every restart uses it (`C117_bitmap_restart_violated`). Append: a release inside the reset makes the overlapping checkpoint use the destroyed super block (`C117_append_release_violated`). Both: an I/O thread that has the plain pointer uses freed memory (`C117_pointer_violated`) |
| C118 | `create_repl_dev` writes the log device and the superblock before it looks whether the group is there (generic_repl_svc.cpp:118-139): the refused call leaves a second superblock, and the next start puts one of the two into the map and lets the continuation of `open_log_store` run on the other, which is gone (`C118_exists_violated`); beside a removal the group is there again after a restart (`C118_returns_violated`). `destroy` removes the log device before the superblock (solo_repl_dev.cpp:89-92): after a failure in between no start completes, for all groups (`C118_remove_violated`), or the group comes without journal and entries (`C118_half_violated`). So does a failure between the two blocks of a new log device (log_dev.cpp:883-886, `C118_create_violated`). A checkpoint between the removal of the superblock and the removal from the map uses a null pointer (`C118_checkpoint_violated`). The map is changed by the id of the group: the second of two removals takes out a device created after the first (`C118_twice_violated`). The solo service never calls `delete_unopened_logdevs`: a log device of a creation that a failure cut off stays for ever (`C118_leak_violated`) |
| C119 | Buffers written at run time have ordinal 0 whatever their index (index_internal.hpp:137 is set only in recovery), so that the end of a checkpoint saves the counters of the index with ordinal 0 alone (wb_cache.cpp:957-966); others are saved when the root changes, before the old root is split (btree_mutate_impl.ipp 232-244): after a restart two leaves are reported as one (`C119_restart_other_ordinal_violated`). A shutdown stops the index service before its checkpoint, in which `write_sb` then does nothing (index_service.cpp:127): what changed last is not counted, for any index (`C119_restart_after_shutdown_violated`). Counters that are too small fall below 0 and wrap (`C119_counter_wraps_violated`). `count_keys` reads the id of the root without the lock of the tree (btree_common.ipp 230-233): beside a put that splits the root it counts the left half (`C119_count_keys_root_split_violated`). |
| C120 | `sanity_check` "should not do release assert, but return failure to caller" (meta_blk_service.cpp 1341), but it calls `_cookie_sanity_check` (1369), whose release assertions end the process when the block of a record is not one any more (`C120_broken_record_violated`, for every record of every store) or when a type that has records was deregistered (`C120_deregister_violated`). It walks from the first link in memory (1356) and looks at links only: a store whose first link on the device is lost (`C120_first_link_violated`, for every store), whose only record was removed (`C120_empty_violated`), or with a damaged content, checksum or size in an overflow header (`C120_content_violated`) is accepted and does not start; in general every damage that keeps the links is accepted (`C120_links_only_violated`). |
| C121 | The move assignment of `superblk` (superblk_handler.hpp 48-58) forgets the cookie of its target without removing the record: the record has no object any more (`C121_move_violated`), and no later call changes or removes it (`C121_orphan_stays`). `json_superblk` can be copied, and a copy of a destroyed one uses the cookie of a record that is gone (`C121_copy_violated`). An object without a name gets one that is not registered, and its first write ends the process (`C121_no_name_violated`). A `json_superblk` that is written after its destruction stores a new record (`C121_json_revived_violated`), or ends the process if a start loaded it, because raft_repl_service.cpp:308 constructs it without a name (`C121_json_unnamed_violated`). |
| C122 | `SoloReplDev::async_write` compares sizes inside the loop (solo_repl_dev.cpp 129-142), so a refused call has overwritten the ids before the one that does not fit (`C122_refused_writes_violated`). It does not look for bytes that are left over (`C122_dropped_violated`). `alloc_blks` rounds up to blocks and `async_write` does not, so a size that is no multiple of a block is always refused (`C122_unaligned_violated`). The data service compares nothing (blkdata_service.cpp 219-224): a short value is a success and leaves the old bytes (`C122_service_short_violated`). `MultiBlkId::blk_count` adds in 16 bits (`C122_wrap_violated`). An empty list of ids ends the process (`C122_no_ids_violated`). |
| C123 | A follower compares its priority with the constant 100 and not with that of the leader (raft_repl_dev.cpp 2057-2059): two members of priority 100 take the leadership from each other for ever (`C123_tie_violated`), which is every group created with `max_wait_rounds_of_priority_election` 0 (`C123_zero_rounds_violated`); it takes it from a leader of a higher priority (`C123_above_violated`); a member that should lead with another priority never asks (`C123_silent_violated`). A leader yields to the highest priority without looking whether that member answers or votes, although the status has both (2071-2080), so that a better member that is up is never tried (`C123_unable_violated`). |
| C124 | The safety check of `replace_member` counts every active peer, with or without a vote (raft_repl_dev.cpp 275-281), against a majority of those with a vote (2129-2136): each learner that has caught up makes up for a missing voter (`C124_learner_violated`). It does not look at when a peer last answered (`C124_silent_violated`; the TODO at 274). Tried again after the old member became a learner it counts the votes without the old member while the new one brings one, so in a group with an odd number of votes left it goes on although no majority is caught up after the addition, where it had refused at first (`C124_again_violated`). |
| C125 | A batch that reaches the latch of no_space_left is refused as a whole, and unlike a refusal of the entry itself this does not lower the batch size hint (raft_repl_dev.cpp 2392-2403 against 2437). When a new leader with a shorter log sends its entries first, the hint grows past the latch (or to no limit), and each later batch from below the latch goes beyond it: the entries before the latch never come (`C125_latched_violated`, reached in `C125_latched_reached`), while the application waits for the one before the latch to be committed before it lifts the latch. A batch with an entry whose data is late does not lower the hint either (2444-2450): the entries before it wait with it (`C125_late_violated`). |
| C126 | The index of the round-robin selector is per thread and begins at zero in each (round_robin_chunk_selector.h 42): threads that make few allocations each all use the first chunks and never the others (`C126_threads_violated`). On a device without chunks `select_chunk` reads the first element of an empty vector (.cpp 26-27), before the caller tests for no chunk (virtual_dev.cpp 257-260). |

Further observations without a theorem: the first cache fill (`request_more_blks(…, fill_entire)` in the
INIT state) is ignored because the state is not WAITING (`varsize_blk_allocator.cpp`); `find_slab` gets
runs above 65535 blocks cut to 16 bits; `SoloReplDev::async_alloc_write` declares a second `rreq` inside
`if (!rreq)`, so that a call without a request dereferences null; `SoloReplDev::async_write` returns
`invalid_argument` without taking back the pending request, so that `stop` waits for ever.

## 5. What is not modelled

* Device I/O below `DriveInterface` (iomgr, SPDK, io_uring): a write is one step per block (meta), per
  record (device manager, chunks), or an arbitrary subset of sectors (log groups).
* The C++ memory model: atomics are sequentially consistent; each model says what one step is.
* Failure of memory allocation, exceptions thrown by third-party libraries, integer configuration limits
  outside the ranges given as hypotheses.
* sisl's bitset: only the contract `FindOk`/`FindFirst` of its search is assumed (and shown to be met by a
  simple search); boost::icl's interval sets (`Blk/Order.lean` states their documented behaviour: maximal intervals in
  ascending order, compared like words) and sisl's ID reserver are modelled by their contract.
* Replication (`lib/replication`) except the Raft log store (`HomeRaftLogStore`), journal entries, and
  recovery, checkpoints, truncation and the requests with their data (`Repl/Data`) of the devices; pushes and fetches over the data channel are modelled as bytes (`Fetch/`), the RPC layer below them is a contract;
  leader election and NuRaft itself are not modelled; of snapshots (`Snap/`) the stages of a transfer are, the objects' content is the listener's; of the calls that change the members (`Member/`) what they do to the log, the recorded
  task and the quorum is, with NuRaft's one-change-at-a-time rule, its single log and its results as assumptions listed in `Member/Model.lean`. HTTP, metrics, fault injection, logging, settings, and of `resource_mgr` all but the dirty memory (`Dirty/`) are not modelled.
* B-tree: concurrent range puts and removes (single-key calls: C80, C81; queries beside them: C86); of the on-disk index table and its write-back cache
  (`lib/index`) only the flush, the links between nodes, the copies of one node, the journal's bytes, the use of blocks, the root in the superblock and recovery after splits and merges of leaves under one node and after root splits (`Index/`; not: merges of interior nodes, several levels changed in one checkpoint); interior prefix nodes (of nodes with entries of variable size also the bytes are modelled, `Varlen/`, without generation numbers and next pointers; of prefix leaf nodes the slots and entries, not their bytes, `Prefix/`); journal of the copy-on-write B-tree.
* Shutdown (`Stop/`): mutexes, time and what the calls compute; the wait for callbacks and the flush in `LogDev::stop`; the timers;
  `LogStoreService::flush`, `get_status` and `dump_log_store` go over the map of devices without its lock. The locks of the log service are modelled (`Lock/`), those of the other services are not.
* CRC32 of log groups and CRC of meta blocks are opaque functions (the theorems say what is assumed of
  them); CRC-16 of device records is modelled bit by bit.
