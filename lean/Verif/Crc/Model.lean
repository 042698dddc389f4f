/-!
# Checksum of device metadata records (C43)

`crc16_t10dif` (src/lib/crc.cpp:11-26; on x86 the Intel ISA-L routine of the same name computes the same
function) protects `chunk_info` (src/lib/device/physical_dev.hpp:76-114) and `vdev_info`
(src/lib/device/device.h:45-92) records.
-/
namespace HS.Crc

/-- The t10dif polynomial, crc.cpp:15. -/
def poly : BitVec 16 := 0x8bb7#16

/-- One round of the inner loop, crc.cpp:19-22: `rem = rem << 1; rem = (rem & 0x10000) ? rem ^ poly : rem`.
Only the low 16 bits of `rem` are kept: bits above 16 never influence lower ones and are cut off by the
return type. -/
def step (r : BitVec 16) : BitVec 16 := (r <<< 1) ^^^ (if r.msb then poly else 0#16)

/-- One byte, crc.cpp:18-22. -/
def byte (r : BitVec 16) (b : BitVec 8) : BitVec 16 :=
  Nat.repeat step 8 (r ^^^ (b.setWidth 16 <<< 8))

/-- `crc16_t10dif(seed, buf, len)`, crc.cpp:11-26. -/
def crc16 (seed : BitVec 16) (buf : List (BitVec 8)) : BitVec 16 := buf.foldl byte seed

/-- `hs_init_crc_16`, src/include/homestore/homestore_decl.hpp:131. -/
def hsInit : BitVec 16 := 0x8005#16

/-- A persisted record: its bytes before the checksum field, the little-endian checksum field, and the
bytes after it.  For `chunk_info` the field is at byte 29 of 256 (physical_dev.hpp:81-90); for `vdev_info`
see device.h:45-80. -/
structure Rec where
  pre  : List (BitVec 8)
  csum : BitVec 16
  post : List (BitVec 8)
deriving DecidableEq

/-- The record with its checksum field zeroed, as the checksum routine reads it
(physical_dev.hpp:109-112, physical_dev.cpp:390-392). -/
def Rec.zeroed (r : Rec) : List (BitVec 8) := r.pre ++ [0#8, 0#8] ++ r.post

/-- `compute_checksum()`, physical_dev.hpp:109-112 and device.h:86-89. -/
def Rec.sealed (r : Rec) : Rec := { r with csum := crc16 hsInit r.zeroed }

/-- Acceptance test for a chunk record when loading, physical_dev.cpp:390-397 (`false` aborts the start). -/
def chunkAccepted (r : Rec) : Bool := crc16 hsInit r.zeroed == r.csum

/-- Acceptance test for a vdev record when loading, device_manager.cpp:786-794: the checksum is checked only
if the stored one is not zero (`false` aborts the start). -/
def vdevAccepted (r : Rec) : Bool :=
  if r.csum ≠ 0 then crc16 hsInit r.zeroed == r.csum else true

end HS.Crc
