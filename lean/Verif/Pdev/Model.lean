/-!
# Physical device: chunk areas and chunk records (C16, C17)

Models `PhysicalDev` chunk creation, removal and loading, src/lib/device/physical_dev.cpp:261-485.
-/
namespace HS.Pdev

/-- `chunk_info` (physical_dev.hpp:76-90), the fields that matter here.  Simplification: ordinal, private
data and checksum are left out; a record that was written carries its valid checksum
(`compute_checksum`/`free_chunk_info`), see `HS.Crc.C43_chunk` for what the checksum buys. -/
structure Info where
  start : Nat
  size : Nat
  id : Nat
  vdev : Nat
  allocated : Bool
deriving DecidableEq, Repr

/-- The chunk part of the super block on disk: the slot bitmap and the record slots
(hs_super_blk.h:27-36).  `none` = the slot was never written since the device was formatted: formatting
zeroes the area (device_manager.cpp:130-131). -/
structure Disk where
  bm : List Bool
  slots : List (Option Info)
deriving DecidableEq, Repr

/-- One `write_super_block` call.  Simplification: a write of several consecutive records
(physical_dev.cpp:291) is split into one write per record, which only adds crash points; the bitmap write is
one atomic write. -/
inductive Write where
  | bitmap (bm : List Bool)
  | slot (i : Nat) (info : Info)
deriving DecidableEq, Repr

def Disk.apply (d : Disk) : Write → Disk
  | .bitmap bm => { d with bm := bm }
  | .slot i info => { d with slots := d.slots.set i (some info) }

def Disk.applyAll (d : Disk) (ws : List Write) : Disk := ws.foldl Disk.apply d

/-- In-memory state (physical_dev.hpp:125-140): `m_chunk_data_area`, `m_chunk_info_slots`, `m_chunk_start`
and the chunks in `m_streams` with their slot numbers. -/
structure Mem where
  areas : List (Nat × Nat)
  bm : List Bool
  starts : List Nat
  chunks : List (Nat × Info)
deriving DecidableEq, Repr

/-- Device geometry: `data_start_offset()`, `data_end_offset()`, physical_dev.hpp:219-222.  Offsets are
natural numbers: devices are far smaller than 2^64 bytes. -/
structure Geo where
  dataStart : Nat
  dataEnd : Nat

/-- `boost::icl::split_interval_set::insert` of `[l, h)` into a sorted list of disjoint intervals: overlapping
intervals are split at each other's borders, touching ones are not joined. -/
def insertIval (l h : Nat) : List (Nat × Nat) → List (Nat × Nat)
  | [] => if l < h then [(l, h)] else []
  | (a, b) :: t =>
    if ¬ l < h then (a, b) :: t
    else if h ≤ a then (l, h) :: (a, b) :: t
    else if b ≤ l then (a, b) :: insertIval l h t
    else
      (if l < a then [(l, a)] else if a < l then [(a, l)] else []) ++ [(max l a, min h b)] ++
      (if b < h then insertIval b h t else if h < b then (h, b) :: t else t)

/-- `split_interval_set::erase` of `[l, h)`. -/
def eraseIval (l h : Nat) : List (Nat × Nat) → List (Nat × Nat)
  | [] => []
  | (a, b) :: t =>
    (if ¬ l < h ∨ h ≤ a ∨ b ≤ l then [(a, b)]
     else (if a < l then [(a, l)] else []) ++ (if h < b then [(h, b)] else [])) ++ eraseIval l h t

/-- The loop of `find_next_chunk_area`, physical_dev.cpp:475-479. -/
def nextArea (size : Nat) : Nat → List (Nat × Nat) → Nat
  | lo, [] => lo
  | lo, (a, b) :: t => if lo + size ≤ a then lo else nextArea size b t

/-- `find_next_chunk_area`, physical_dev.cpp:474-485; `none` = `std::out_of_range`. -/
def findArea (g : Geo) (m : Mem) (size : Nat) : Option Nat :=
  let lo := nextArea size g.dataStart m.areas
  if lo + size > g.dataEnd then none else some lo

/-- Outcome of a call that may fail. -/
inductive Res (α : Type) where
  | ok (a : α)        -- normal return
  | noRoom (m : Mem)  -- `std::out_of_range` left the function, with the in-memory state left behind
  | abort             -- failed RELEASE_ASSERT
deriving DecidableEq

/-- `populate_chunk_info`, physical_dev.cpp:446-462. -/
def populate (g : Geo) (m : Mem) (vdev size id : Nat) : Res (Info × Mem) :=
  match findArea g m size with
  | none => .noRoom m
  | some lo =>
    if lo ∈ m.starts then .abort
    else .ok (⟨lo, size, id, vdev, true⟩,
      { m with areas := insertIval lo (lo + size) m.areas, starts := lo :: m.starts })

/-- `get_next_reset_bit(0)`. -/
def firstReset : List Bool → Option Nat
  | [] => none
  | false :: _ => some 0
  | true :: t => (firstReset t).map (· + 1)

/-- `PhysicalDev::create_chunk`, physical_dev.cpp:311-346.  When there is no data area left the exception is
rethrown, but the slot bit set at line 318 stays set. -/
def createChunk (g : Geo) (m : Mem) (id vdev size : Nat) : Res (Mem × List Write) :=
  match firstReset m.bm with
  | none => .noRoom m
  | some s =>
    let bm' := m.bm.set s true
    match populate g { m with bm := bm' } vdev size id with
    | .abort => .abort
    | .noRoom m1 => .noRoom m1
    | .ok (info, m1) => .ok ({ m1 with chunks := (s, info) :: m1.chunks }, [.slot s info, .bitmap bm'])

/-- The in-memory part of `free_chunk_info` and `do_remove_chunk`, and its two writes,
physical_dev.cpp:421-439 and 464-472.  The chunk map is keyed by chunk id; here a chunk is identified by its
slot. -/
def removeChunk (m : Mem) (c : Nat × Info) : Mem × List Write :=
  let info' := { c.2 with allocated := false }
  let bm' := m.bm.set c.1 false
  ({ areas := eraseIval c.2.start (c.2.start + c.2.size) m.areas, bm := bm',
     starts := m.starts.erase c.2.start, chunks := m.chunks.filter (fun x => x.1 ≠ c.1) },
   [.slot c.1 info', .bitmap bm'])

/-- The `for` loop over the slots of one run, physical_dev.cpp:279-288.  Returns the chunks created (also if it
stops early because of an exception, second component `true`). -/
def fillRun (g : Geo) (vdev size : Nat) : Nat → List Nat → Mem → List (Nat × Info) → Option (Mem × List (Nat × Info) × Bool)
  | _, [], m, out => some (m, out, false)
  | s, id :: ids, m, out =>
    match populate g m vdev size id with
    | .abort => none
    | .noRoom m1 => some (m1, out, true)
    | .ok (info, m1) =>
      fillRun g vdev size (s + 1) ids { m1 with chunks := (s, info) :: m1.chunks } (out ++ [(s, info)])

/-- `m_chunk_info_slots->set_bits(start, n)`. -/
def setRun (bm : List Bool) (start : Nat) : Nat → List Bool
  | 0 => bm
  | n + 1 => setRun (bm.set start true) (start + 1) n

/-- Roll back: `do_remove_chunk` on every chunk created so far, physical_dev.cpp:305-307. -/
def removeAll (m : Mem) : List (Nat × Info) → Mem × List Write
  | [] => (m, [])
  | c :: cs =>
    let r := removeChunk m c
    let q := removeAll r.1 cs
    (q.1, r.2 ++ q.2)

/-- `get_next_contiguous_n_reset_bits(0, nullopt, 1, max)` of the bitset: a run of between 1 and `max` clear
bits, `none` only if no bit is clear.  The choice of run is left open. -/
def PickOk (pick : List Bool → Nat → Option (Nat × Nat)) : Prop :=
  ∀ bm k, 1 ≤ k → match pick bm k with
    | none => ∀ i : Nat, bm[i]? ≠ some false
    | some (s, n) => 1 ≤ n ∧ n ≤ k ∧ ∀ i, i < n → bm[s + i]? = some false

/-- The `while (chunks_remaining > 0)` loop, physical_dev.cpp:271-296.  `out` = `ret_chunks`.  `true` = an
exception was thrown. -/
def createLoop (pick : List Bool → Nat → Option (Nat × Nat)) (g : Geo) (vdev size : Nat) :
    Nat → List Nat → Mem → List (Nat × Info) → List Write → Option (Mem × List (Nat × Info) × List Write × Bool)
  | 0, _, m, out, ws => some (m, out, ws, false)
  | fuel + 1, ids, m, out, ws =>
    if ids.length = 0 then some (m, out, ws, false)
    else
      match pick m.bm ids.length with
      | none => some (m, out, ws, true)
      | some (s, n) =>
        match fillRun g vdev size s (ids.take n) m [] with
        | none => none
        | some (m1, new, true) => some (m1, out ++ new, ws, true)
        | some (m1, new, false) =>
          createLoop pick g vdev size fuel (ids.drop n) { m1 with bm := setRun m1.bm s n } (out ++ new)
            (ws ++ new.map fun c => .slot c.1 c.2)

/-- `PhysicalDev::create_chunks`, physical_dev.cpp:261-309.  The last component tells whether the call
succeeded (`true`) or threw after rolling back (`false`); `none` = abort. -/
def createChunks (pick : List Bool → Nat → Option (Nat × Nat)) (g : Geo) (m : Mem) (ids : List Nat)
    (vdev size : Nat) : Option (Mem × List Write × Bool) :=
  match createLoop pick g vdev size ids.length ids m [] [] with
  | none => none
  | some (m1, _, ws, false) => some (m1, ws ++ [.bitmap m1.bm], true)
  | some (m1, out, ws, true) =>
    let r := removeAll m1 out
    some (r.1, ws ++ r.2, false)

/-- The body of `load_chunks` for the slots from `i` on, physical_dev.cpp:375-406.  A slot whose bit is set but
which was never written is all zeros, its checksum test fails (`HS.Crc.zero_record_rejected`) and the start is
aborted (`none`).  `chunk_allocated` is not looked at.  The callback's answer (is the vdev known?) is left to
the device manager; here every chunk is kept. -/
def loadFrom : Nat → List Bool → List (Option Info) → Mem → Option Mem
  | _, [], _, m => some m
  | i, false :: bm, sl, m => loadFrom (i + 1) bm sl.tail m
  | i, true :: bm, sl, m =>
    match sl.head? with
    | some (some info) =>
      loadFrom (i + 1) bm sl.tail
        { m with areas := insertIval info.start (info.start + info.size) m.areas, chunks := (i, info) :: m.chunks }
    | _ => none

/-- `load_chunks`, physical_dev.cpp:365-407: `m_chunk_start` is not filled. -/
def load (d : Disk) : Option Mem := loadFrom 0 d.bm d.slots ⟨[], d.bm, [], []⟩

/-- `format_chunks`, physical_dev.cpp:252-259, on a zeroed super block. -/
def formatted (n : Nat) : Disk := ⟨List.replicate n false, List.replicate n none⟩

end HS.Pdev
