import Verif.Common
/-!
# Model of block commit, deferred free and checkpoint flush of one chunk

Models `src/lib/blkalloc/bitmap_blk_allocator.cpp` (commit, free, flush of the persistent
bitmap) together with the deferral of frees in `src/lib/device/virtual_dev.cpp`
(`VirtualDev::free_blk`, `VirtualDev::cp_flush`), as an interleaving of I/O threads with the one
flushing thread (that there is only one is property C24).

Simplifications:
* one chunk; blocks are numbers (chunks of a virtual device do not share any of this state);
* which free block `alloc` picks is left open (`alloc x` for any free `x`): the in-memory
  allocators are modelled in `Verif.Fixed` and `Verif.Varsize`;
* the metablk write of the bitmap is one atomic step (crash atomicity of that is C20);
* `synchronize_rcu()` is modelled by its guarantee: it returns only when every read section that
  was open when it was called has been closed.
-/
namespace HS.Vdev

abbrev Blk := Nat

/-- Phase of the flushing thread. -/
inductive Phase where
  | idle                     -- no checkpoint in progress
  | prepared                 -- cp switched over; I/O of the old cp may still be running
  | started                  -- VirtualDev::cp_flush entered (all I/O of the old cp has left)
  | xchgd                    -- bitmap_blk_allocator.cpp:156 done, inside synchronize_rcu (157)
  | img (image : Blk → Bool) -- line 162: copy of the bitmap taken
  | written                  -- line 63/65: metablk written
  | clean                    -- line 67: dirty flag cleared
  | unlinked                 -- line 168 done, inside synchronize_rcu (169)
  | replaying (todo : List (List Blk)) -- loop of lines 172-176
  | frees (todo : List Blk)  -- loop of virtual_dev.cpp:762-768

/-- An open RCU read section of `reserve_on_disk` (bitmap_blk_allocator.cpp:91-124):
`direct` = the list pointer read at line 92 was null. -/
structure Sec where
  todo : List Blk
  all : List Blk
  direct : Bool
  deriving DecidableEq, Repr

/-- History variable: what the clients did with a block. -/
inductive Own where
  | free | alloc | committing | live | freeing
  deriving DecidableEq, Repr

structure St where
  cacheFree : Blk → Bool            -- blocks the in-memory allocator can hand out
  bm : Blk → Bool                   -- `m_disk_bm`
  disk : Blk → Bool                 -- bitmap in the metablk on disk
  dirty : Bool                      -- `m_is_disk_bm_dirty`
  listOn : Bool                     -- `m_alloc_blkid_list != nullptr`
  lst : List (List Blk)             -- contents of that list (also after it was unlinked)
  phase : Phase
  sec : Nat → Option Sec            -- open read sections, by thread
  freeCur : List Blk                -- `m_free_blkid_list` of the current cp
  freeFl : List Blk                 -- `m_free_blkid_list` of the cp being flushed
  initializing : Bool               -- `hs()->is_initializing()`
  aborted : Bool                    -- a release assertion has failed
  -- history variables, never read by the code:
  own : Blk → Own
  com : Blk → Bool                  -- a commit of the block has returned, free not yet executed
  late : Blk → Bool                 -- ... and that commit began after the snapshot was ordered
  snap : Blk → Bool                 -- blocks live as of the checkpoint being flushed
  durable : Blk → Bool              -- blocks live as of the last completed checkpoint

def upd {α : Type} (f : Nat → α) (x : Nat) (v : α) : Nat → α := fun y => if y = x then v else f y
def updAll {α : Type} (f : Nat → α) (xs : List Nat) (v : α) : Nat → α :=
  fun y => if y ∈ xs then v else f y

inductive Act where
  | alloc (x : Blk)
  | commitBegin (t : Nat) (xs : List Blk)
  | commitStep (t : Nat)
  | freeReq (x : Blk) (oldCp : Bool)
  | freeNow (x : Blk)
  | switchover | flushStart | acquire | sync1 | write | clear | release | sync2 | replay | doFree | flushDone
  | initDone
  | crash

/-- Is the flusher between ordering the snapshot and unlinking the list? -/
def Phase.snapshotting : Phase → Bool
  | .xchgd | .img _ | .written | .clean => true
  | _ => false

/-- Set the bits of one block; the release assertion of bitmap_blk_allocator.cpp:101-106. -/
def St.setBit (s : St) (x : Blk) : St :=
  if s.initializing = false ∧ s.bm x = true then { s with aborted := true }
  else { s with bm := upd s.bm x true }

/-- `BitmapBlkAllocator::free_on_disk`, bitmap_blk_allocator.cpp:129-150 plus the release of the
block in the in-memory allocator (e.g. fixed_blk_allocator.cpp:106 / varsize_blk_allocator.cpp:660):
the dirty flag is *not* set. -/
def St.freeBlk (s : St) (x : Blk) : St :=
  { s with bm := upd s.bm x false, cacheFree := upd s.cacheFree x true,
           own := upd s.own x .free, com := upd s.com x false, late := upd s.late x false }

/-- The replay of one commit in `release_underlying_buffer`, bitmap_blk_allocator.cpp:174-176
(calls `reserve_on_disk`, whose list pointer is null now, lines 97-122). -/
def St.replayOne (s : St) (xs : List Blk) : St :=
  { (xs.foldl St.setBit s) with dirty := true }

def step (s : St) : Act → Option St
  /- Allocation of a free block (see the simplifications above). -/
  | .alloc x =>
    if s.cacheFree x then
      some { s with cacheFree := upd s.cacheFree x false, own := upd s.own x .alloc }
    else none
  /- `VirtualDev::commit_blk`, virtual_dev.cpp:167-189, then `reserve_on_disk`,
     bitmap_blk_allocator.cpp:91-92: enter the read section and read the list pointer.
     Client obligation: commit what was allocated, once; during initialization replay may name any
     block that is not being committed or freed, and `reserve_on_cache` marks it used. -/
  | .commitBegin t xs =>
    if s.sec t = none ∧ xs.Nodup ∧
        (∀ x ∈ xs, s.own x = .alloc ∨ (s.initializing = true ∧ (s.own x = .free ∨ s.own x = .live))) then
      some { s with sec := upd s.sec t (some ⟨xs, xs, ! s.listOn⟩),
                    own := updAll s.own xs .committing,
                    cacheFree := updAll s.cacheFree xs false,
                    late := updAll s.late xs s.phase.snapshotting }
    else none
  /- Lines 93-95 (append to the list) or 97-122 (set the bits one by one, then dirty). -/
  | .commitStep t =>
    match s.sec t with
    | some ⟨todo, all, false⟩ =>
      let _ := todo
      some { s with lst := s.lst ++ [all], sec := upd s.sec t none,
                    own := updAll s.own all .live, com := updAll s.com all true }
    | some ⟨x :: todo, all, true⟩ => some ({ s with sec := upd s.sec t (some ⟨todo, all, true⟩) }.setBit x)
    | some ⟨[], all, true⟩ =>
      some { s with dirty := true, sec := upd s.sec t none,
                    own := updAll s.own all .live, com := updAll s.com all true }
    | none => none
  /- `VirtualDev::free_blk`, virtual_dev.cpp:343-368, deferred branch (345-347).  `oldCp`: the caller
     still holds the checkpoint that has been switched over. -/
  | .freeReq x oldCp =>
    if s.own x = .live ∨ s.own x = .alloc then
      if oldCp then
        match s.phase with
        | .prepared => some { s with freeFl := s.freeFl ++ [x], own := upd s.own x .freeing }
        | _ => none
      else some { s with freeCur := s.freeCur ++ [x], own := upd s.own x .freeing }
    else none
  /- same function, immediate branch (`free_now`, virtual_dev.cpp:348-356) -/
  | .freeNow x =>
    if s.own x = .live ∨ s.own x = .alloc then
      some { s.freeBlk x with snap := upd s.snap x false, durable := upd s.durable x false }
    else none
  /- checkpoint switchover (cp_mgr.cpp:201-270): new frees go to the new context -/
  | .switchover =>
    match s.phase with
    | .idle => if s.initializing then none
               else some { s with phase := .prepared, freeFl := s.freeCur, freeCur := [] }
    | _ => none
  /- `VirtualDev::cp_flush` entered, virtual_dev.cpp:740 (history: snapshot of what must survive) -/
  | .flushStart =>
    match s.phase with
    | .prepared => some { s with phase := .started, snap := fun x => s.com x && ! s.freeFl.contains x }
    | _ => none
  /- `BitmapBlkAllocator::cp_flush`, bitmap_blk_allocator.cpp:60, and
     `acquire_underlying_buffer`, line 155-156 -/
  | .acquire =>
    match s.phase with
    | .started => if s.dirty then some { s with phase := .xchgd, listOn := true, lst := [] }
                  else some { s with phase := .frees s.freeFl }
    | _ => none
  /- `synchronize_rcu` of line 157 returns (no section that saw a null list is open); line 162 -/
  | .sync1 =>
    match s.phase with
    | .xchgd => some { s with phase := .img s.bm }
    | _ => none
  | .write =>                         -- lines 62-66
    match s.phase with
    | .img i => some { s with phase := .written, disk := i }
    | _ => none
  | .clear =>                         -- line 67
    match s.phase with
    | .written => some { s with phase := .clean, dirty := false }
    | _ => none
  | .release =>                       -- line 168
    match s.phase with
    | .clean => some { s with phase := .unlinked, listOn := false }
    | _ => none
  | .sync2 =>                         -- `synchronize_rcu` of line 169 returns
    match s.phase with
    | .unlinked => some { s with phase := .replaying s.lst, lst := [] }
    | _ => none
  | .replay =>                        -- lines 172-178
    match s.phase with
    | .replaying (xs :: rest) => some { s.replayOne xs with phase := .replaying rest }
    | .replaying [] => some { s with phase := .frees s.freeFl }
    | _ => none
  | .doFree =>                        -- virtual_dev.cpp:762-768
    match s.phase with
    | .frees (x :: rest) => some { s.freeBlk x with phase := .frees rest }
    | _ => none
  | .flushDone =>                     -- checkpoint complete
    match s.phase with
    | .frees [] => some { s with phase := .idle, freeFl := [], durable := s.snap,
                                 late := fun _ => false }
    | _ => none
  | .initDone => some { s with initializing := false }
  /- Crash and restart: constructor, bitmap_blk_allocator.cpp:23-45, and `on_meta_blk_found`, 47-55;
     `m_is_disk_bm_dirty` starts true (bitmap_blk_allocator.h:126). -/
  | .crash =>
    some { s with
      cacheFree := fun x => ! s.disk x, bm := s.disk, dirty := true, listOn := false, lst := [],
      phase := .idle, sec := fun _ => none, freeCur := [], freeFl := [], initializing := true,
      own := fun x => if s.disk x then .live else .free, com := s.disk, late := fun _ => false,
      snap := fun _ => false }

/-- Waiting conditions, kept apart because they quantify over all threads: the guarantee of
`synchronize_rcu`, and that initialization ends only after replay has finished its commits. -/
def waitOk (s : St) : Act → Prop
  | .sync1 => ∀ t sc, s.sec t = some sc → sc.direct = false
  | .sync2 => ∀ t sc, s.sec t = some sc → sc.direct = true
  | .initDone => ∀ t, s.sec t = none
  | _ => True

/-- Fresh chunk: nothing allocated (constructor with `is_fresh`). -/
def init : St :=
  { cacheFree := fun _ => true, bm := fun _ => false, disk := fun _ => false, dirty := true,
    listOn := false, lst := [], phase := .idle, sec := fun _ => none, freeCur := [], freeFl := [],
    initializing := false, aborted := false, own := fun _ => .free, com := fun _ => false,
    late := fun _ => false, snap := fun _ => false, durable := fun _ => false }

/-- Executions: sequences of enabled actions that additionally satisfy `ok`. -/
inductive Exec (ok : St → Act → Prop) : St → List Act → St → Prop where
  | nil (s : St) : Exec ok s [] s
  | cons {s s' s'' : St} {a : Act} {as : List Act} :
      ok s a → waitOk s a → step s a = some s' → Exec ok s' as s'' → Exec ok s (a :: as) s''

theorem Exec.inv {ok : St → Act → Prop} {P : St → Prop}
    (hstep : ∀ s a s', P s → ok s a → waitOk s a → step s a = some s' → P s')
    {s s' : St} {as : List Act} (h : Exec ok s as s') (h0 : P s) : P s' := by
  induction h with
  | nil => exact h0
  | cons hk hr hs _ ih => exact ih (hstep _ _ _ h0 hk hr hs)

end HS.Vdev
