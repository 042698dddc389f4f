/-!
# The journal of structural changes of a checkpoint, as bytes

Models `/repo/src/lib/index/index_cp.hpp` 32-135 (`txn_record`, `txn_journal`, both packed) and
`/repo/src/lib/index/index_cp.cpp`: `add_to_txn_journal` (29-65), the reading loop of `recover` (232-253)
and the reading of one record in `process_txn_record` (378-400).  The buffer goes to a meta block as it is
(wb_cache.cpp:856-866; meta blocks are `Verif.Meta`).

Simplifications.

* An access beyond the end of the buffer is the outcome `none`.
* The fields of the record being built are a structure `Hdr` until the record is closed; then its 8 bytes are
  placed in the buffer.  The block ids are written to their slots one by one, as in the code.
* `cp_id` is not negative.
-/
namespace HS.Index.Journal

/-- `compact_blkid_t`: block number (32 bits), chunk number (16 bits) (index_cp.hpp:34). -/
abbrev Id := Nat × Nat

/-- What the journal uses of an `IndexBuffer`; `ptr` is its address. -/
structure Buf where
  ptr : Nat
  id : Id
  isMeta : Bool
  level : Nat
  deriving DecidableEq, Repr

/-- The arguments of `add_to_txn_journal`. -/
structure Change where
  ordinal : Nat
  parent : Option Buf
  child : Option Buf
  created : List Buf
  freed : List Buf
  deriving DecidableEq, Repr

/-- A buffer: its size and its bytes. -/
structure Mem where
  cap : Nat
  byte : Nat → Nat

/-- The little-endian bytes of a number. -/
def le : Nat → Nat → List Nat
  | 0, _ => []
  | n + 1, v => v % 256 :: le n (v / 256)

/-- Reading `n` bytes at `off` as a number. -/
def rd (f : Nat → Nat) (off : Nat) : Nat → Nat
  | 0 => 0
  | n + 1 => f off % 256 + 256 * rd f (off + 1) n

def Mem.read (m : Mem) (off n : Nat) : Option Nat :=
  if off + n ≤ m.cap then some (rd m.byte off n) else none

/-- Storing bytes at `off`. -/
def put (f : Nat → Nat) (off : Nat) (bs : List Nat) : Nat → Nat :=
  fun i => if off ≤ i ∧ i < off + bs.length then bs.getD (i - off) 0 else f i

def Mem.write (m : Mem) (off : Nat) (bs : List Nat) : Option Mem :=
  if off + bs.length ≤ m.cap then some { m with byte := put m.byte off bs } else none

/-- The fields of a `txn_record` (index_cp.hpp:36-44); the counts are 8 bits wide, the level 4 bits. -/
structure Hdr where
  hasParent : Bool
  hasChild : Bool
  isMeta : Bool
  level : Nat
  numNew : Nat
  numFreed : Nat
  ordinal : Nat
  deriving DecidableEq, Repr

/-- The constructor (index_cp.hpp:47-54). -/
def Hdr.init (ordinal : Nat) : Hdr :=
  { hasParent := false, hasChild := false, isMeta := false, level := 0, numNew := 0, numFreed := 0, ordinal }

/-- `total_ids` and `next_slot` (index_cp.hpp:56-67). -/
def Hdr.total (h : Hdr) : Nat :=
  h.numNew + h.numFreed + h.hasParent.toNat + h.hasChild.toNat

/-- `size` (index_cp.hpp:61): 14 + (n - 1) * 6. -/
def Hdr.size (h : Hdr) : Nat := 8 + 6 * h.total

/-- `size_for_num_ids` (index_cp.hpp:62); its argument is a `uint8_t`. -/
def sizeForNumIds (n : Nat) : Nat := 8 + 6 * (n % 256)

/-- `op_t` (index_cp.hpp:35). -/
inductive Kind where
  | childNew
  | childFreed
  | parentInplace
  | childInplace
  deriving DecidableEq, Repr

/-- The change of the fields in `append` (index_cp.hpp:71-90). -/
def Hdr.add (h : Hdr) : Kind → Hdr
  | .parentInplace => { h with hasParent := true }
  | .childInplace => { h with hasChild := true }
  | .childNew => { h with numNew := (h.numNew + 1) % 256 }
  | .childFreed => { h with numFreed := (h.numFreed + 1) % 256 }

/-- The bytes of an id. -/
def idBytes (i : Id) : List Nat := le 4 i.1 ++ le 2 i.2

/-- `append` (index_cp.hpp:71-91) to the record at `off`. -/
def append (off : Nat) (r : Hdr × Mem) (k : Kind) (i : Id) : Option (Hdr × Mem) :=
  (r.2.write (off + 8 + 6 * r.1.total) (idBytes i)).map (fun m => (r.1.add k, m))

/-- The 8 bytes before the ids; bit 7 of the first is not initialised and keeps what the memory held. -/
def Hdr.bytes (h : Hdr) (junk : Nat) : List Nat :=
  (h.hasParent.toNat + 2 * h.hasChild.toNat + 4 * h.isMeta.toNat +
    8 * (h.level % 16) + 128 * (junk / 128 % 2)) :: h.numNew % 256 :: h.numFreed % 256 :: 0 :: le 4 h.ordinal

/-- The loops over the created (index_cp.cpp:57-59) and freed buffers (60-63). -/
def appendNew (off : Nat) : Hdr × Mem → List Buf → Option (Hdr × Mem)
  | r, [] => some r
  | r, b :: bs => (append off r .childNew b.id).bind (fun r' => appendNew off r' bs)

def appendFreed (off : Nat) : Hdr × Mem → List Buf → Option (Hdr × Mem)
  | r, [] => some r
  | r, b :: bs =>
    (append off ({ r.1 with level := b.level % 16 }, r.2) .childFreed b.id).bind (fun r' => appendFreed off r' bs)

/-- index_cp.cpp:50-53. -/
def appendParent (off : Nat) (r : Hdr × Mem) : Option Buf → Option (Hdr × Mem)
  | none => some r
  | some b => (append off r .parentInplace b.id).map (fun r' => (if b.isMeta then { r'.1 with isMeta := true } else r'.1, r'.2))

/-- index_cp.cpp:54-56. -/
def appendChild (off : Nat) (r : Hdr × Mem) (parent : Option Buf) : Option Buf → Option (Hdr × Mem)
  | none => some r
  | some b => if parent.map (·.ptr) = some b.ptr then some r else append off r .childInplace b.id

/-- The journal buffer while the checkpoint goes on, with the fields of its header (index_cp.hpp:111-114). -/
structure Jrn where
  numTxns : Nat
  size : Nat
  mem : Mem

/-- index_cp.cpp:36-41: the first buffer of a checkpoint. -/
def Jrn.init (junk : Nat → Nat) : Jrn := { numTxns := 0, size := 16, mem := { cap := max 16 512, byte := junk } }

/-- index_cp.cpp:44-47: the buffer is enlarged; what it holds stays. -/
def Mem.grow (m : Mem) (need : Nat) : Mem :=
  if m.cap < need then { m with cap := (m.cap + max need 512) % 2 ^ 32 } else m

/-- Number of ids counted for the size of the record (index_cp.cpp:32-33). -/
def Change.count (c : Change) : Nat :=
  c.created.length + c.freed.length + (if c.child.isSome then 1 else 0) + (if c.parent.isSome then 1 else 0)

/-- `add_to_txn_journal` (index_cp.cpp:29-65). -/
def Jrn.add (j : Jrn) (c : Change) : Option Jrn :=
  let need := (j.size + sizeForNumIds c.count) % 2 ^ 32
  let m := j.mem.grow need
  (appendParent j.size (Hdr.init c.ordinal, m) c.parent).bind fun r1 =>
  (appendChild j.size r1 c.parent c.child).bind fun r2 =>
  (appendNew j.size r2 c.created).bind fun r3 =>
  (appendFreed j.size r3 c.freed).bind fun r4 =>
  (r4.2.write j.size (r4.1.bytes (r4.2.byte j.size))).map fun m' =>
    { numTxns := (j.numTxns + 1) % 2 ^ 32, size := (j.size + r4.1.size) % 2 ^ 32, mem := m' }

def Jrn.addAll : Jrn → List Change → Option Jrn
  | j, [] => some j
  | j, c :: cs => (j.add c).bind (fun j' => j'.addAll cs)

/-- The bytes that go to the meta block for checkpoint `cp` (index_cp.hpp:111-114: 8, 4 and 4 bytes). -/
def Jrn.image (j : Jrn) (cp : Nat) : Option Mem := j.mem.write 0 (le 8 cp ++ le 4 j.numTxns ++ le 4 j.size)

/-! ## Reading -/

/-- What is read from a record: the parent and whether it is the superblock, the child, the created and the
freed nodes, and the level of the freed ones. -/
structure Rec where
  ordinal : Nat
  parent : Option (Bool × Id)
  child : Option Id
  created : List Id
  freed : List Id
  level : Nat
  deriving DecidableEq, Repr

/-- `blk_id` (index_cp.hpp:93-96); its argument is a `uint8_t`. -/
def blkId (m : Mem) (off idx : Nat) : Option Id :=
  (m.read (off + 8 + 6 * (idx % 256)) 4).bind fun b => (m.read (off + 8 + 6 * (idx % 256) + 4) 2).map fun c => (b, c)

/-- `n` ids from slot `idx` on. -/
def blkIds (m : Mem) (off idx : Nat) : Nat → Option (List Id)
  | 0 => some []
  | n + 1 => (blkId m off idx).bind fun i => (blkIds m off (idx + 1) n).map fun l => i :: l

/-- The fields of the record at `off`. -/
def readHdr (m : Mem) (off : Nat) : Option Hdr :=
  (m.read off 1).bind fun b => (m.read (off + 1) 1).bind fun nn => (m.read (off + 2) 1).bind fun nf =>
  (m.read (off + 4) 4).map fun o =>
    { hasParent := decide (b % 2 = 1), hasChild := decide (b / 2 % 2 = 1), isMeta := decide (b / 4 % 2 = 1),
      level := b / 8 % 16, numNew := nn, numFreed := nf, ordinal := o }

/-- `process_txn_record` (index_cp.cpp:378-400), what it reads; and the size of the record. -/
def readRec (m : Mem) (off : Nat) : Option (Rec × Nat) :=
  (readHdr m off).bind fun h =>
  let ip := h.hasParent.toNat
  let ic := h.hasChild.toNat
  (if h.hasParent then (blkId m off 0).map (fun i => some (h.isMeta, i)) else some none).bind fun p =>
  (if h.hasChild then (blkId m off ip).map some else some none).bind fun c =>
  (blkIds m off (ip + ic) h.numNew).bind fun n =>
  (blkIds m off (ip + ic + h.numNew) h.numFreed).map fun f =>
    ({ ordinal := h.ordinal, parent := p, child := c, created := n, freed := f, level := h.level }, h.size)

/-- The loop over the records (index_cp.cpp:246-253). -/
def readRecs (m : Mem) (off : Nat) : Nat → Option (List Rec)
  | 0 => some []
  | n + 1 => (readRec m off).bind fun r => (readRecs m (off + r.2) n).map fun l => r.1 :: l

/-- `recover` (index_cp.cpp:232-253) in a checkpoint with number `id`. -/
def recover (m : Mem) (id : Nat) : Option (List Rec) :=
  (m.read 0 8).bind fun cp => if cp = id then (m.read 8 4).bind (fun n => readRecs m 16 n) else some []

/-! ## Specification -/

/-- What a restart has to learn from a change. -/
def Change.info (c : Change) : Rec :=
  { ordinal := c.ordinal
    parent := c.parent.map (fun b => (b.isMeta, b.id))
    child := match c.child with
      | none => none
      | some b => if c.parent.map (·.ptr) = some b.ptr then none else some b.id
    created := c.created.map (·.id)
    freed := c.freed.map (·.id)
    level := (c.freed.getLast?.map (·.level)).getD 0 }

def Buf.ok (b : Buf) : Prop := b.id.1 < 2 ^ 32 ∧ b.id.2 < 2 ^ 16 ∧ b.level < 16

/-- A change of at most 255 nodes, with ids and levels in range. -/
def Change.ok (c : Change) : Prop :=
  c.ordinal < 2 ^ 32 ∧ c.count ≤ 255 ∧ (∀ b ∈ c.parent, b.ok) ∧ (∀ b ∈ c.child, b.ok) ∧
  (∀ b ∈ c.created, b.ok) ∧ (∀ b ∈ c.freed, b.ok)

end HS.Index.Journal
