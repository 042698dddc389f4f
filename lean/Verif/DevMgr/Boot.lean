/-!
# Booting with a set of devices (C18)

`DeviceManager` constructor, `format_devices`, `load_devices`, `commit_formatting`: `src/lib/device/device_manager.cpp`
67-160, 191-309, 311-334, and `populate_pdev_info`, 700-718.  Of the first block of a device only
the fields that take part in giving out device ids are modelled.  A write of a first block is atomic (it has at most 512
bytes, `hs_super_blk.h` 122-157).  All devices belong to one system: the check of the system uuid (213-216) is left out.
Chunks and virtual devices are in `Vdevs`.
-/

namespace HS.DevMgr

/-- `first_block`: `hdr.gen_number`, `hdr.cur_pdev_id`, `this_pdev_hdr.pdev_id`, `formatting_done`.
`hs_super_blk.h` 76-157. -/
structure FB where
  gen : Nat
  cur : Nat
  id : Nat
  done : Bool
  deriving DecidableEq, Repr

/-- The first blocks of all devices in the world, by device name.  `none`: a device without a HomeStore first block. -/
abbrev Disks := Nat → Option FB

/-- `first_block::is_valid`. -/
def validFB : Option FB → Option FB
  | some f => if f.done then some f else none
  | none => none

/-- `m_first_blk_hdr`: generation and last id given. -/
structure Hdr where
  gen : Nat
  cur : Nat
  deriving DecidableEq, Repr

/-- The constructor, 90-99: the header of the first valid device of the list; the search stops there.
The second component is `m_first_time_boot`. -/
def ctorHdr (disk : Disks) : List Nat → Hdr × Bool
  | [] => (⟨0, 0⟩, true)
  | d :: ds =>
    match validFB (disk d) with
    | some f => (if 0 < f.gen then ⟨f.gen, f.cur⟩ else ⟨0, 0⟩, false)
    | none => ctorHdr disk ds

/-- `m_all_pdevs`: a table by id, in the order of the ids; a device with the same id replaces the one before. -/
abbrev Pdevs := List (Nat × Nat)

def Pdevs.set : Pdevs → Nat → Nat → Pdevs
  | [], id, d => [(id, d)]
  | (i, e) :: t, id, d =>
    if id < i then (id, d) :: (i, e) :: t
    else if id = i then (id, d) :: t
    else (i, e) :: Pdevs.set t id d

/-- What a boot does: the first blocks it writes in order, and the table of devices it ends with. -/
structure Run where
  hdr : Hdr
  pdevs : Pdevs
  writes : List (Nat × FB)
  deriving Repr

/-- `format_single_device`, 124-160: the header is copied (136) before the id is drawn (137, 704). -/
def formatOne (r : Run) (d : Nat) : Run :=
  let id := r.hdr.cur + 1
  { hdr := { r.hdr with cur := id }
    pdevs := r.pdevs.set id d
    writes := r.writes ++ [(d, ⟨r.hdr.gen, r.hdr.cur, id, false⟩)] }

/-- The loop over the devices, 205-237.  `stale` is `stale_first_blk_found`, which the last valid device decides
(228). -/
def loadLoop (disk : Disks) : List Nat → Run → Bool → List Nat → Run × Bool × List Nat
  | [], r, stale, toFormat => (r, stale, toFormat)
  | d :: ds, r, stale, toFormat =>
    match validFB (disk d) with
    | none => loadLoop disk ds r stale (toFormat ++ [d])
    | some f =>
      loadLoop disk ds
        { r with pdevs := r.pdevs.set f.id d
                 hdr := if r.hdr.gen < f.gen then ⟨f.gen, f.cur⟩ else r.hdr }
        (decide (f.gen ≠ r.hdr.gen)) toFormat

/-- What is on a device after some writes. -/
def applyWrites (disk : Disks) (ws : List (Nat × FB)) : Disks :=
  ws.foldl (fun k w => fun d => if d = w.1 then some w.2 else k d) disk

/-- `commit_formatting`, 311-334, over the devices of the table. -/
def commitWrites (disk : Disks) (h : Hdr) : Pdevs → List (Nat × FB)
  | [] => []
  | (_, d) :: t =>
    (match disk d with
      | some f => [(d, { f with gen := h.gen, cur := h.cur, done := true })]
      | none => []) ++ commitWrites disk h t

/-- A boot on the devices `devs`, up to and including `commit_formatting`.  First boot: `format_devices`, 102-122, and
`commit_formatting` at the end of the start (`homestore.cpp` 305-310).  Otherwise `load_devices`, 191-309. -/
def bootRun (disk : Disks) (devs : List Nat) : Run :=
  let (h, first) := ctorHdr disk devs
  if first then
    let r := devs.foldl formatOne ⟨{ h with gen := h.gen + 1 }, [], []⟩
    { r with writes := r.writes ++ commitWrites (applyWrites disk r.writes) r.hdr r.pdevs }
  else
    let (r, stale, toFormat) := loadLoop disk devs ⟨h, [], []⟩ false []
    let r := toFormat.foldl formatOne r
    if toFormat = [] ∧ stale = false then r
    else
      let r := if toFormat = [] then r else { r with hdr := { r.hdr with gen := r.hdr.gen + 1 } }
      { r with writes := r.writes ++ commitWrites (applyWrites disk r.writes) r.hdr r.pdevs }

/-- What happens to the devices. -/
inductive Ev where
  /-- a boot with these devices -/
  | boot (devs : List Nat)
  /-- a boot with these devices that crashes when only its first `k` writes are done -/
  | crash (devs : List Nat) (k : Nat)
  /-- a device is replaced by a blank one or destroyed -/
  | wipe (d : Nat)
  deriving Repr

def Ev.apply (disk : Disks) : Ev → Disks
  | .boot devs => applyWrites disk (bootRun disk devs).writes
  | .crash devs k => applyWrites disk ((bootRun disk devs).writes.take k)
  | .wipe d => fun x => if x = d then none else disk x

def blank : Disks := fun _ => none

end HS.DevMgr
