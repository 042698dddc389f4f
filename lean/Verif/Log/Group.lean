/-!
# Log groups: the bytes of one group commit

Sources: `src/lib/logstore/log_dev.hpp` 40-290 (formats), `src/lib/logstore/log_group.cpp`,
`src/lib/logstore/log_dev.cpp` 303-377 (`read`, `verify_log_group_header`).

A group is built in memory by `reset`, `add_record` and `finish` and written in one piece.  Bytes that the code
never writes (unused record slots, padding) hold whatever the buffer held: here an arbitrary function `J`.  The
checksum is an arbitrary function `crc` of the bytes after the header.  Out-of-bounds accesses are `.error .ub`,
release assertions `.error .abort`.  32-bit sums are natural numbers here and are cut to their width where they
are stored.
-/

namespace HS.Log

abbrev Bytes := List UInt8

inductive Fault where
  | ub
  | abort
  deriving DecidableEq, Repr

/-! ## Little-endian fields -/

def le : Nat → Nat → Bytes
  | 0, _ => []
  | k + 1, x => UInt8.ofNat (x % 256) :: le k (x / 256)

def unle : Bytes → Nat
  | [] => 0
  | b :: bs => b.toNat + 256 * unle bs

/-- The field of `n` bytes at an offset; out of bounds is `none`. -/
def fld (b : Bytes) (off n : Nat) : Option Nat :=
  if off + n ≤ b.length then some (unle ((b.drop off).take n)) else none

def slice (b : Bytes) (off n : Nat) : Except Fault Bytes :=
  if off + n ≤ b.length then .ok ((b.drop off).take n) else .error .ub

def roundUp (x m : Nat) : Nat := (x + m - 1) / m * m

def hdrMagic : Nat := 0xF00D1E
def footMagic : Nat := 0xB00D1E
/-- `sizeof(log_group_header)`, `log_dev.hpp` 124-141, packed. -/
def hdrSize : Nat := 48
/-- `sizeof(serialized_log_record)`, `log_dev.hpp` 70-76, packed. -/
def slotSize : Nat := 20
/-- `sizeof(log_group_footer)`, `log_dev.hpp` 184-193, packed. -/
def footSize : Nat := 24
def initialRead : Nat := 4096
/-- `max_records_in_a_batch`, `log_dev.hpp` 238-239: 202. -/
def maxBatch : Nat := (initialRead - hdrSize) / slotSize
/-- `inline_log_buf_size`, `log_dev.hpp` 237. -/
def inlineBuf : Nat := 512 * 16

/-! ## Header, slots, footer -/

/-- `log_group_header`, `log_dev.hpp` 124-141. -/
structure Hdr where
  magic : Nat
  version : Nat
  nrec : Nat
  startIdx : Nat
  groupSize : Nat
  inlineOff : Nat
  oobOff : Nat
  footOff : Nat
  prevCrc : Nat
  curCrc : Nat
  logdev : Nat
  deriving DecidableEq, Repr

def Hdr.enc (h : Hdr) : Bytes :=
  le 4 h.magic ++ le 4 h.version ++ le 4 h.nrec ++ le 8 h.startIdx ++ le 4 h.groupSize ++ le 4 h.inlineOff ++
    le 4 h.oobOff ++ le 4 h.footOff ++ le 4 h.prevCrc ++ le 4 h.curCrc ++ le 4 h.logdev

/-- Reading the header through a pointer to its first byte. -/
def Hdr.dec (b : Bytes) : Option Hdr := do
  pure { magic := ← fld b 0 4, version := ← fld b 4 4, nrec := ← fld b 8 4, startIdx := ← fld b 12 8,
         groupSize := ← fld b 20 4, inlineOff := ← fld b 24 4, oobOff := ← fld b 28 4, footOff := ← fld b 32 4,
         prevCrc := ← fld b 36 4, curCrc := ← fld b 40 4, logdev := ← fld b 44 4 }

/-- `serialized_log_record`, `log_dev.hpp` 70-76: the offset has 31 bits, the flag is the top bit. -/
structure Slot where
  size : Nat
  offset : Nat
  inlined : Bool
  seq : Nat
  store : Nat
  deriving DecidableEq, Repr

def Slot.enc (s : Slot) : Bytes :=
  le 4 s.size ++ le 4 (s.offset % 2 ^ 31 + if s.inlined then 2 ^ 31 else 0) ++ le 8 s.seq ++ le 4 s.store

/-- `nth_record`, `log_dev.hpp` 156-158. -/
def Slot.dec (b : Bytes) (n : Nat) : Option Slot := do
  let o := hdrSize + slotSize * n
  let w ← fld b (o + 4) 4
  pure { size := ← fld b o 4, offset := w % 2 ^ 31, inlined := decide (w / 2 ^ 31 = 1), seq := ← fld b (o + 8) 8,
         store := ← fld b (o + 16) 4 }

/-- `log_group_footer`, `log_dev.hpp` 184-193: magic (24 bits), version (8 bits), index, 12 bytes never written. -/
def footEnc (startIdx : Nat) (pad : Bytes) : Bytes := le 3 footMagic ++ le 1 0 ++ le 8 startIdx ++ pad

/-! ## Building a group -/

/-- `log_record`, `log_dev.hpp` 95-121; `aligned` is `data.cbytes() % flush_size_multiple == 0 &&
data.is_aligned()`. -/
structure Rec where
  data : Bytes
  store : Nat
  seq : Nat
  aligned : Bool := false
  deriving DecidableEq, Repr

/-- `is_inlineable`, `log_dev.hpp` 110-118. -/
def Rec.inlineable (fm opt : Nat) (r : Rec) : Bool :=
  decide (r.data.length < opt) || decide (r.data.length % fm ≠ 0) || !r.aligned

/-- `LogGroup`.  `inl` are the bytes between the first inline position and `m_inline_data_pos`; `oob` those of the
out-of-band records. -/
structure LG where
  bufLen : Nat
  inlinePos0 : Nat
  inlinePos : Nat
  oobPos : Nat
  maxRec : Nat
  startIdx : Nat
  slots : List Slot
  inl : Bytes
  oob : Bytes
  dataSize : Nat
  deriving Repr

/-- `reset`, `log_group.cpp` 45-60. -/
def LG.reset (fm est : Nat) : LG :=
  { bufLen := roundUp inlineBuf fm, inlinePos0 := hdrSize + slotSize * est, inlinePos := hdrSize + slotSize * est,
    oobPos := 0, maxRec := min est maxBatch, startIdx := 0, slots := [], inl := [], oob := [], dataSize := 0 }

/-- `create_overflow_buf`, `log_group.cpp` 62-74: a larger buffer with the same content. -/
def LG.overflow (fm : Nat) (g : LG) (need : Nat) : LG :=
  { g with bufLen := roundUp (max need (g.bufLen * 2)) fm }

/-- The slot that `add_record` fills, `log_group.cpp` 94-109. -/
def LG.slotFor (fm opt : Nat) (g : LG) (r : Rec) : Slot :=
  { size := r.data.length, store := r.store, seq := r.seq, inlined := r.inlineable fm opt,
    offset := if r.inlineable fm opt then g.inlinePos else g.oobPos }

/-- `add_record` after the buffer is large enough, `log_group.cpp` 88-112. -/
def LG.place (fm opt : Nat) (g : LG) (r : Rec) (idx : Nat) : Except Fault LG :=
  if g.bufLen < hdrSize + slotSize * (g.slots.length + 1) then .error .ub
  else
    let g1 := { g with dataSize := g.dataSize + r.data.length,
                       startIdx := if g.slots.length = 0 then idx else g.startIdx,
                       slots := g.slots ++ [g.slotFor fm opt r] }
    if r.inlineable fm opt then
      if g.bufLen < g.inlinePos + r.data.length then .error .ub
      else .ok { g1 with inlinePos := g.inlinePos + r.data.length, inl := g.inl ++ r.data }
    else .ok { g1 with oobPos := g.oobPos + r.data.length, oob := g.oob ++ r.data }

/-- `add_record`, `log_group.cpp` 76-117.  `none`: it returned false. -/
def LG.add (fm opt : Nat) (g : LG) (r : Rec) (idx : Nat) : Except Fault (Option LG) :=
  if g.maxRec ≤ g.slots.length then .ok none
  else
    let g := if g.bufLen ≤ g.inlinePos + r.data.length then g.overflow fm (g.inlinePos + r.data.length) else g
    (g.place fm opt r idx).map some

/-- The loop of `prepare_flush`, `log_dev.cpp` 413-421, over the contiguous active records. -/
def LG.addAll (fm opt : Nat) : LG → List Rec → Nat → Except Fault LG
  | g, [], _ => .ok g
  | g, r :: rs, idx =>
    match g.add fm opt r idx with
    | .error e => .error e
    | .ok none => .ok g
    | .ok (some g') => LG.addAll fm opt g' rs (idx + 1)

/-- Bytes that the code never writes: positions `a`, …, `a + n - 1`. -/
def junk (J : Nat → UInt8) (a n : Nat) : Bytes := (List.range n).map (fun i => J (a + i))

/-- `new_iovec_for_footer`, `log_group.cpp` 119-121. -/
def LG.newFoot (g : LG) : Bool := decide (g.bufLen ≤ g.inlinePos + footSize) || decide (g.oobPos ≠ 0)

/-- The length of the first piece after rounding, `log_group.cpp` 162-163 and 127. -/
def LG.len0 (fm : Nat) (g : LG) : Nat := roundUp (g.inlinePos + if g.newFoot then 0 else footSize) fm

/-- The bytes after the header, in the order in which the pieces are written. -/
def LG.body (fm : Nat) (g : LG) (J : Nat → UInt8) : Bytes :=
  let slots := (g.slots.map Slot.enc).flatten
  let gap := junk J (hdrSize + slots.length) (g.inlinePos0 - (hdrSize + slots.length))
  if g.newFoot then
    slots ++ gap ++ g.inl ++ junk J g.inlinePos (g.len0 fm - g.inlinePos) ++ g.oob ++
      footEnc g.startIdx (junk J (g.len0 fm + g.oobPos + 12) 12) ++
        junk J (g.len0 fm + g.oobPos + footSize) (roundUp footSize fm - footSize)
  else
    slots ++ gap ++ g.inl ++ footEnc g.startIdx (junk J (g.inlinePos + 12) 12) ++
      junk J (g.inlinePos + footSize) (g.len0 fm - (g.inlinePos + footSize))

/-- `finish`, `log_group.cpp` 123-156: the bytes that `sync_pwritev` writes. -/
def LG.finish (fm : Nat) (crc : Bytes → UInt32) (g : LG) (logdev prevCrc : Nat) (J : Nat → UInt8) :
    Except Fault Bytes :=
  if g.bufLen < g.len0 fm then .error .ub
  else
    let hdr : Hdr :=
      { magic := hdrMagic, version := 0, nrec := g.slots.length, startIdx := g.startIdx,
        groupSize := if g.newFoot then g.len0 fm + g.oobPos + roundUp footSize fm else g.len0 fm,
        inlineOff := hdrSize + g.maxRec * slotSize, oobOff := g.len0 fm,
        footOff := if g.newFoot then g.len0 fm + g.oobPos else g.inlinePos,
        prevCrc := prevCrc, curCrc := (crc (g.body fm J)).toNat, logdev := logdev }
    .ok (hdr.enc ++ g.body fm J)

/-- `prepare_flush`, `log_dev.cpp` 408-430: the bytes of the group and the number of records in it. -/
def buildGroup (fm opt : Nat) (crc : Bytes → UInt32) (est : Nat) (rs : List Rec) (idx logdev prevCrc : Nat)
    (J : Nat → UInt8) : Except Fault (Bytes × Nat) :=
  match LG.addAll fm opt (LG.reset fm est) rs idx with
  | .error e => .error e
  | .ok g =>
    match g.finish fm crc logdev prevCrc J with
    | .error e => .error e
    | .ok b => .ok (b, g.slots.length)

/-! ## Reading a record -/

/-- `verify_log_group_header`, `log_dev.cpp` 355-377.  `buf`: what the first read returned. -/
def verifyHdr (crc : Bytes → UInt32) (buf : Bytes) (h : Hdr) (idx : Nat) : Except Fault Unit :=
  if h.magic ≠ hdrMagic then .error .abort
  else if h.version % 256 ≠ 0 then .error .abort
  else if idx < h.startIdx then .error .abort
  else if h.startIdx + h.nrec ≤ idx then .error .abort
  else if h.groupSize ≤ initialRead then
    match slice buf hdrSize (h.groupSize - hdrSize) with
    | .error e => .error e
    | .ok b => if h.curCrc = (crc b).toNat then .ok () else .error .abort
  else .ok ()

/-- `LogDev::read`, `log_dev.cpp` 303-333.  `dev`: the device's bytes from `key.dev_offset` on.  The second read
is at an aligned position and is cut to the record: the same bytes of the device. -/
def readRec (crc : Bytes → UInt32) (dev : Bytes) (idx : Nat) : Except Fault Bytes :=
  match Hdr.dec (dev.take initialRead) with
  | none => .error .ub
  | some h =>
    match verifyHdr crc (dev.take initialRead) h idx with
    | .error e => .error e
    | .ok () =>
      match Slot.dec (dev.take initialRead) (idx - h.startIdx) with
      | none => .error .ub
      | some s =>
        let off := s.offset + if s.inlined then 0 else h.oobOff
        if off + s.size < initialRead then slice (dev.take initialRead) off s.size else slice dev off s.size

end HS.Log
