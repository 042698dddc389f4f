/-!
# One index node in the write-back cache: copies, eviction, checkpoints

Models `/repo/src/lib/index/wb_cache.cpp`: the cache with its eviction test (46-57), `read_buf` (145-169),
`get_writable_buf` (171-198), `write_buf` (127-143), and what the flush does to one buffer (`Verif.Index.Flush`
has the whole list): `do_flush_one_buf` (888-942), `on_buf_flush_done_internal` (989-1007); and
`/repo/src/include/homestore/index/index_table.hpp`: `write_node_impl` (296-322), `refresh_node` (363-367).

Simplifications.

* One node; the nodes share nothing here but the checkpoint.
* The content of a node is the sequence of the changes made to it, which are numbers.
* An operation that locks a node for writing either changes it (`put`) or not (`touch`); either is one
  step, because the node is locked.
* The cache does not evict a node that an operation has in its hands (the cache is a library; the test
  it is given here only asks whether the buffer is clean).
* Failed device reads and the debug assertions are left out.
-/
namespace HS.Index.Cow

/-- `index_buf_state_t` (index_internal.hpp:104-108). -/
inductive BState where
  | clean
  | dirty
  | flushing
  deriving DecidableEq, Repr

/-- `IndexBuffer` (index_internal.hpp:115-163). -/
structure Buf where
  val : List Nat
  cp : Int              -- `m_dirtied_cp_id`, -1 for a buffer that was read
  st : BState
  deriving DecidableEq, Repr

/-- A checkpoint: none under way; operations of the previous one still running; being flushed. -/
inductive Phase where
  | idle
  | drain
  | flush
  deriving DecidableEq, Repr

structure St where
  disk : List Nat
  cur : Nat                   -- the id of the current checkpoint
  phase : Phase               -- of the checkpoint `cur - 1`
  cache : Option Buf          -- the node's buffer, if the node is in the cache
  old : List Buf              -- buffers on a dirty list that are no node's buffer any more
  log : List (Nat × Nat)      -- ghost: the changes made, with the checkpoint they belong to

def St.init : St := { disk := [], cur := 0, phase := .idle, cache := none, old := [], log := [] }

/-- `read_buf` (wb_cache.cpp:145-169): the buffer in the cache, or a new one read from the device. -/
def St.load (s : St) : Buf :=
  match s.cache with
  | some b => b
  | none => { val := s.disk, cp := -1, st := .clean }

/-- `get_writable_buf` (wb_cache.cpp:171-198) in the context of checkpoint `c`: `none` is `false`
(`cp_mismatch`); else the buffer to write to and, if it was copied, the buffer it was copied from. -/
def writable (b : Buf) (c : Nat) : Option (Buf × List Buf) :=
  if b.cp = c then some (b, [])
  else if b.cp > c then none
  else if b.st = .clean then some ({ b with cp := c }, [])
  else some ({ val := b.val, cp := c, st := .clean }, [b])

/-- What can happen. -/
inductive Op where
  | put (c x : Nat)      -- an operation of checkpoint `c` changes the node
  | touch (c : Nat)      -- an operation of checkpoint `c` locks it for writing and changes nothing
  | read
  | evict
  | switchover           -- a checkpoint is triggered
  | startFlush           -- its last operation has left
  | begin                -- the write of the node's buffer is submitted
  | finish               -- … and completes
  | beginOld (i : Nat)   -- the same for a buffer that was copied from
  | finishOld (i : Nat)
  | endFlush             -- the checkpoint is completed
  deriving DecidableEq, Repr

/-- The contexts that operations can have: the current checkpoint, and the previous one as long as its
operations are still running. -/
def St.ctx (s : St) (c : Nat) : Prop := c = s.cur ∨ (s.phase = .drain ∧ c + 1 = s.cur)

instance (s : St) (c : Nat) : Decidable (s.ctx c) := by unfold St.ctx; infer_instance

/-- A buffer of the checkpoint being flushed. -/
def St.mine (s : St) (b : Buf) : Prop := s.phase = .flush ∧ b.cp + 1 = s.cur

instance (s : St) (b : Buf) : Decidable (s.mine b) := by unfold St.mine; infer_instance

/-- One step; `none`: not possible now. -/
def St.step (s : St) : Op → Option St
  | .put c x =>
    if s.ctx c then
      match writable s.load c with
      | none => some { s with cache := some s.load }      -- cp_mismatch: the operation is tried again
      | some (b, o) =>
        -- `write_node_impl`: DIRTY; on the dirty list if it was CLEAN
        some { s with cache := some { b with val := b.val ++ [x], st := .dirty }, old := o ++ s.old,
                      log := s.log ++ [(c, x)] }
    else none
  | .touch c =>
    if s.ctx c then
      match writable s.load c with
      | none => some { s with cache := some s.load }
      | some (b, o) => some { s with cache := some b, old := o ++ s.old }
    else none
  | .read => some { s with cache := some s.load }
  | .evict =>
    -- wb_cache.cpp:53-56
    match s.cache with
    | some b => if b.st = .clean then some { s with cache := none } else none
    | none => none
  | .switchover =>
    if s.phase = .idle then some { s with cur := s.cur + 1, phase := .drain } else none
  | .startFlush => if s.phase = .drain then some { s with phase := .flush } else none
  | .begin =>
    match s.cache with
    | some b => if s.mine b ∧ b.st = .dirty then some { s with cache := some { b with st := .flushing } } else none
    | none => none
  | .finish =>
    match s.cache with
    | some b => if b.st = .flushing then some { s with cache := some { b with st := .clean }, disk := b.val } else none
    | none => none
  | .beginOld i =>
    match s.old[i]? with
    | some b => if s.mine b ∧ b.st = .dirty then some { s with old := s.old.set i { b with st := .flushing } } else none
    | none => none
  | .finishOld i =>
    match s.old[i]? with
    | some b => if b.st = .flushing then some { s with old := s.old.eraseIdx i, disk := b.val } else none
    | none => none
  | .endFlush =>
    if s.phase = .flush ∧ (∀ b ∈ s.old, ¬ s.mine b) ∧ (∀ b ∈ s.cache, s.mine b → b.st = .clean) then
      some { s with phase := .idle }
    else none

/-- A history. -/
def St.run (s : St) : List Op → Option St
  | [] => some s
  | op :: ops => (s.step op).bind (fun s' => s'.run ops)

/-- What a reader sees now. -/
def St.value (s : St) : List Nat := s.load.val

/-! ## Specification -/

/-- All the changes made, in order. -/
def St.all (s : St) : List Nat := s.log.map (·.2)

/-- The changes made by the checkpoints before `k`. -/
def St.upTo (s : St) (k : Nat) : List Nat := (s.log.filter (fun e => e.1 < k)).map (·.2)

/-- The node is not evicted while a buffer it was copied from is still to be written. -/
def NoEarlyEvict (s : St) : List Op → Prop
  | [] => True
  | op :: ops => (op = .evict → s.old = []) ∧ ∀ s', s.step op = some s' → NoEarlyEvict s' ops

end HS.Index.Cow
