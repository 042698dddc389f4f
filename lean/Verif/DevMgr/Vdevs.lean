/-!
# Virtual devices and their chunks over any history of starts (C44, C56)

`DeviceManager::create_vdev`, `load_devices`, `load_vdevs`, `add_pdev_to_vdev`, `create_chunk`, `remove_chunk_locked`,
`commit_formatting`: `src/lib/device/device_manager.cpp` 191-413, 513-703, 776-800.

Simplifications.  All devices have one type.  Of a chunk record only the chunk id and the vdev id are kept, of a vdev
record only the vdev id and whether its size is dynamic; all vdevs are striped over all devices, as the services create
them (`blkdata_service.cpp` 56, `meta_blk_service.cpp` 63, `log_store_service.cpp` 94, `index_service.cpp` 61).  How many
chunks of a new vdev go to which device (513-551) is left open: the theorems hold for every distribution.  The chunk
records of one device are written as one atomic write: `HS.Pdev` shows this of `create_chunks` and `do_remove_chunk`
(C17).  There are always enough slots for vdevs and chunks.
-/

namespace HS.DevMgr

/-- What the super block of a device holds: whether its first block is valid, the vdev records (id, dynamic size), the
chunk records (chunk id, vdev id).  `hs_super_blk.h` 27-157. -/
structure Dev where
  valid : Bool
  infos : List (Nat × Bool)
  chunks : List (Nat × Nat)
  deriving DecidableEq, Repr

/-- A device without any of them. -/
def Dev.empty : Dev := ⟨false, [], []⟩

/-- All devices in the world, by name. -/
abbrev World := Nat → Dev

/-- One `write_super_block`. -/
inductive Wr where
  /-- `format_single_device` and `format_chunks`: the whole area is zeroed (`device_manager.cpp` 130-156) -/
  | format (d : Nat)
  /-- chunk records, `physical_dev.cpp` 291-301 and 328-337 -/
  | chunks (d : Nat) (l : List (Nat × Nat))
  /-- a chunk record is freed, `physical_dev.cpp` 427-432 -/
  | rm (d : Nat) (id : Nat)
  /-- a vdev record, `device_manager.cpp` 298, 404, 657, 694 -/
  | info (d : Nat) (v : Nat) (dyn : Bool)
  /-- the first block with `formatting_done`, `device_manager.cpp` 329 -/
  | commit (d : Nat)
  deriving DecidableEq, Repr

/-- What one write changes. -/
def Wr.change (dev : Dev) : Wr → Dev
  | .format _ => .empty
  | .chunks _ l => { dev with chunks := dev.chunks ++ l }
  | .rm _ id => { dev with chunks := dev.chunks.filter (fun c => decide (c.1 ≠ id)) }
  | .info _ v dyn => { dev with infos := dev.infos.filter (fun i => decide (i.1 ≠ v)) ++ [(v, dyn)] }
  | .commit _ => { dev with valid := true }

def Wr.dev : Wr → Nat
  | .format d => d
  | .chunks d _ => d
  | .rm d _ => d
  | .info d _ _ => d
  | .commit d => d

def Wr.apply (w : World) (x : Wr) : World := fun d => if d = x.dev then x.change (w d) else w d

def applyAll (w : World) (ws : List Wr) : World := ws.foldl Wr.apply w

/-- A running device manager: `m_pdevs_by_type`, `m_vdevs` (a null pointer: `none`; otherwise whether the size is
dynamic), `m_chunk_id_bm`, `m_chunks` (chunk id, device, vdev), and whether the devices have their `m_chunk_info_slots`. -/
structure Mem where
  order : List Nat
  vd : List (Option Bool)
  used : List Nat
  chunks : List (Nat × Nat × Nat)
  slots : Bool
  deriving DecidableEq, Repr

/-- Access to a `sisl::sparse_vector` makes it long enough, with null pointers. -/
def grow (vd : List (Option Bool)) (n : Nat) : List (Option Bool) := vd ++ List.replicate (n - vd.length) none

/-- `m_vdevs[v] = ...`. -/
def setVd (vd : List (Option Bool)) (i : Nat × Bool) : List (Option Bool) := (grow vd (i.1 + 1)).set i.1 (some i.2)

/-- `m_chunk_id_bm.get_next_reset_bit(0)`. -/
def nextFree (used : List Nat) : Nat := ((List.range (used.length + 1)).find? (fun i => decide (i ∉ used))).getD 0

/-- The ids for `n` new chunks, 557-562. -/
def takeIds : Nat → List Nat → List Nat
  | 0, _ => []
  | n + 1, used => nextFree used :: takeIds n (nextFree used :: used)

/-- `add_pdev_to_vdev`, 553-571: the chunks of `v` on `d`. -/
def addPdev (v : Nat) (m : Mem) (d n : Nat) : Mem × List Wr :=
  let ids := takeIds n m.used
  ({ m with used := ids.reverse ++ m.used, chunks := m.chunks ++ ids.map (fun i => (i, d, v)) },
   [.chunks d (ids.map (fun i => (i, v)))])

/-- The callback for one chunk, 589-605. -/
def foundChunk (d : Nat) (m : Mem) (c : Nat × Nat) : Mem :=
  let vd := grow m.vd (c.2 + 1)
  if vd[c.2]? = some none then { m with vd }
  else { m with vd, used := c.1 :: m.used
                chunks := m.chunks.filter (fun x => decide (x.1 ≠ c.1)) ++ [(c.1, d, c.2)] }

/-- `load_vdevs`, 573-610: the vdev records of the first device only (785), then the chunks of all.  `none`: the null
pointer of a missing vdev is used (609). -/
def loadVdevs (w : World) (pd news : List Nat) : Option Mem :=
  let vd := (match pd.head? with
    | some d => (w d).infos
    | none => []).foldl setVd []
  let m : Mem := ⟨pd, vd, [], [], decide (∀ d ∈ pd, d ∈ news)⟩
  if vd.length = 0 then some m
  else
    let m := pd.foldl (fun m d => (w d).chunks.foldl (foundChunk d) m) { m with slots := true }
    if none ∈ m.vd then none else some m

/-- Step 4 for one vdev and one device, 288-299: only devices without a chunk of the vdev get some, and the record. -/
def growOne (cnt : Nat → Nat) (had : List (Nat × Nat × Nat)) (v : Nat) (acc : Mem × List Wr) (d : Nat) : Mem × List Wr :=
  if had.any (fun c => decide (c.2.1 = d ∧ c.2.2 = v)) then acc
  else
    let (m, ws) := addPdev v acc.1 d (cnt d)
    (m, acc.2 ++ ws ++ [.info d v false])

/-- Step 4 of `load_devices`, 253-302: vdevs of dynamic size are left out (256-264). -/
def growVdevs (cnt : Nat → Nat → Nat) (acc : Mem × List Wr) : Nat → Mem × List Wr
  | 0 => acc
  | n + 1 =>
    let acc := growVdevs cnt acc n
    match acc.1.vd[n]? with
    | some (some false) => acc.1.order.foldl (growOne (cnt n) acc.1.chunks n) acc
    | _ => acc

inductive Op where
  /-- start with these devices: `format_devices` when none is valid (the caller then creates vdevs and calls `commit`),
  otherwise `load_devices`; `cnt v d`: how many chunks of the vdev a new device gets -/
  | boot (order : List Nat) (cnt : Nat → Nat → Nat)
  /-- `create_vdev`: dynamic size or not, number of chunks on each device -/
  | mkVdev (dyn : Bool) (cnt : Nat → Nat)
  /-- `create_chunk` for a vdev; `d` is the first device with room, a device that is not there when none has -/
  | mkChunk (v d : Nat)
  /-- `remove_chunk` -/
  | rmChunk (id : Nat)
  /-- `commit_formatting` at the end of the first start -/
  | commit

/-- One device of `create_vdev`, 377-394. -/
def spreadOne (cnt : Nat → Nat) (v : Nat) (acc : Mem × List Wr) (d : Nat) : Mem × List Wr :=
  let (m, ws) := addPdev v acc.1 d (cnt d)
  (m, acc.2 ++ ws)

/-- What an operation writes, and the state after it; `none`: the process dies. -/
def Op.run (w : World) (m : Option Mem) : Op → List Wr × Option Mem
  | .boot order cnt =>
    let olds := order.filter (fun d => (w d).valid)
    let news := order.filter (fun d => ! (w d).valid)
    let fmt := news.map Wr.format
    let pd := olds ++ news
    match loadVdevs (applyAll w fmt) pd news with
    | none => (fmt, none)
    | some m =>
      if olds = [] then (fmt, some m)
      else if news = [] then (fmt, some m)
      else
        let (m, ws) := growVdevs cnt (m, []) m.vd.length
        (fmt ++ ws ++ pd.map Wr.commit, some m)
  | .mkVdev dyn cnt =>
    match m with
    | none => ([], none)
    | some m =>
      let v := m.vd.length
      if dyn then
        (m.order.map (fun d => Wr.info d v true), some { m with vd := m.vd ++ [some true] })
      else if ¬ m.slots then ([], none)
      else
        let (m1, ws) := m.order.foldl (spreadOne cnt v) ({ m with vd := m.vd ++ [some false] }, [])
        (ws ++ m.order.map (fun d => Wr.info d v false), some m1)
  | .mkChunk v d =>
    match m with
    | none => ([], none)
    | some m =>
      if ¬ m.slots then ([], none)
      else if d ∉ m.order then ([], some { m with used := nextFree m.used :: m.used })
      else
        match m.vd[v]? with
        | some (some dyn) =>
          let (m1, ws) := addPdev v m d 1
          (ws ++ [.info d v dyn], some m1)
        | _ => ([], none)
  | .rmChunk id =>
    match m with
    | none => ([], none)
    | some m =>
      match m.chunks.find? (fun c => decide (c.1 = id)) with
      | none => ([], some m)
      | some c =>
        match m.vd[c.2.2]? with
        | some (some dyn) =>
          ([.rm c.2.1 id, .info c.2.1 c.2.2 dyn],
           some { m with used := m.used.filter (fun i => decide (i ≠ id))
                         chunks := m.chunks.filter (fun x => decide (x.1 ≠ id)) })
        | _ => ([], none)
  | .commit =>
    match m with
    | none => ([], none)
    | some m => (m.order.map Wr.commit, some m)

/-- What happens: an operation, a crash after the first `k` writes of one, a device is replaced by a blank one while the
system is down, or the system goes down. -/
inductive VEv where
  | run (op : Op)
  | crash (op : Op) (k : Nat)
  | wipe (d : Nat)
  | down

structure Sys where
  world : World
  mem : Option Mem

def VEv.step (s : Sys) : VEv → Sys
  | .run op => ⟨applyAll s.world (op.run s.world s.mem).1, (op.run s.world s.mem).2⟩
  | .crash op k => ⟨applyAll s.world ((op.run s.world s.mem).1.take k), none⟩
  | .wipe d => ⟨fun x => if x = d then .empty else s.world x, none⟩
  | .down => ⟨s.world, none⟩

def Sys.blank : Sys := ⟨fun _ => .empty, none⟩

def Sys.after (s : Sys) (evs : List VEv) : Sys := evs.foldl VEv.step s

end HS.DevMgr
