import Verif.Common
/-!
# Model of the slab tables of the free-block cache

Models `src/lib/blkalloc/blk_cache.h`.  Slab `i` holds runs of `2^i` blocks
(varsize_blk_allocator.h:83, `slab_size = 1 << slab_idx`).
-/
namespace HS.Slab

/-- `nblks_to_slab_tbl`, blk_cache.h:38-45 (copied by script). -/
def slabTbl : List Nat := [
    0, 0, 1, 2, 2, 3, 3, 3, 3, 4, 4, 4, 4, 4, 4, 4, 4, 5, 5, 5, 5, 5, 5, 5, 5, 5, 5, 5, 5, 5, 5,
    5, 5, 6, 6, 6, 6, 6, 6, 6, 6, 6, 6, 6, 6, 6, 6, 6, 6, 6, 6, 6, 6, 6, 6, 6, 6, 6, 6, 6, 6, 6,
    6, 6, 6, 7, 7, 7, 7, 7, 7, 7, 7, 7, 7, 7, 7, 7, 7, 7, 7, 7, 7, 7, 7, 7, 7, 7, 7, 7, 7, 7, 7,
    7, 7, 7, 7, 7, 7, 7, 7, 7, 7, 7, 7, 7, 7, 7, 7, 7, 7, 7, 7, 7, 7, 7, 7, 7, 7, 7, 7, 7, 7, 7,
    7, 7, 7, 7, 7, 8, 8, 8, 8, 8, 8, 8, 8, 8, 8, 8, 8, 8, 8, 8, 8, 8, 8, 8, 8, 8, 8, 8, 8, 8, 8,
    8, 8, 8, 8, 8, 8, 8, 8, 8, 8, 8, 8, 8, 8, 8, 8, 8, 8, 8, 8, 8, 8, 8, 8, 8, 8, 8, 8, 8, 8, 8,
    8, 8, 8, 8, 8, 8, 8, 8, 8, 8, 8, 8, 8, 8, 8, 8, 8, 8, 8, 8, 8, 8, 8, 8, 8, 8, 8, 8, 8, 8, 8,
    8, 8, 8, 8, 8, 8, 8, 8, 8, 8, 8, 8, 8, 8, 8, 8, 8, 8, 8, 8, 8, 8, 8, 8, 8, 8, 8, 8, 8, 8, 8,
    8, 8, 8, 8, 8, 8, 8, 8, 8]

/-- `nblks_to_round_down_slab_tbl`, blk_cache.h:48-73 (copied by script). -/
def downTbl : List (Nat × Nat) := [
    (0, 0), (0, 0), (1, 0), (1, 1), (2, 0), (2, 1), (2, 2), (2, 3), (3, 0), (3, 1), (3, 2),
    (3, 3), (3, 4), (3, 5), (3, 6), (3, 7), (4, 0), (4, 1), (4, 2), (4, 3), (4, 4), (4, 5),
    (4, 6), (4, 7), (4, 8), (4, 9), (4, 10), (4, 11), (4, 12), (4, 13), (4, 14), (4, 15), (5, 0),
    (5, 1), (5, 2), (5, 3), (5, 4), (5, 5), (5, 6), (5, 7), (5, 8), (5, 9), (5, 10), (5, 11),
    (5, 12), (5, 13), (5, 14), (5, 15), (5, 16), (5, 17), (5, 18), (5, 19), (5, 20), (5, 21),
    (5, 22), (5, 23), (5, 24), (5, 25), (5, 26), (5, 27), (5, 28), (5, 29), (5, 30), (5, 31),
    (6, 0), (6, 1), (6, 2), (6, 3), (6, 4), (6, 5), (6, 6), (6, 7), (6, 8), (6, 9), (6, 10),
    (6, 11), (6, 12), (6, 13), (6, 14), (6, 15), (6, 16), (6, 17), (6, 18), (6, 19), (6, 20),
    (6, 21), (6, 22), (6, 23), (6, 24), (6, 25), (6, 26), (6, 27), (6, 28), (6, 29), (6, 30),
    (6, 31), (6, 32), (6, 33), (6, 34), (6, 35), (6, 36), (6, 37), (6, 38), (6, 39), (6, 40),
    (6, 41), (6, 42), (6, 43), (6, 44), (6, 45), (6, 46), (6, 47), (6, 48), (6, 49), (6, 50),
    (6, 51), (6, 52), (6, 53), (6, 54), (6, 55), (6, 56), (6, 57), (6, 58), (6, 59), (6, 60),
    (6, 61), (6, 62), (6, 63), (7, 0), (7, 1), (7, 2), (7, 3), (7, 4), (7, 5), (7, 6), (7, 7),
    (7, 8), (7, 9), (7, 10), (7, 11), (7, 12), (7, 13), (7, 14), (7, 15), (7, 16), (7, 17),
    (7, 18), (7, 19), (7, 20), (7, 21), (7, 22), (7, 23), (7, 24), (7, 25), (7, 26), (7, 27),
    (7, 28), (7, 29), (7, 30), (7, 31), (7, 32), (7, 33), (7, 34), (7, 35), (7, 36), (7, 37),
    (7, 38), (7, 39), (7, 40), (7, 41), (7, 42), (7, 43), (7, 44), (7, 45), (7, 46), (7, 47),
    (7, 48), (7, 49), (7, 50), (7, 51), (7, 52), (7, 53), (7, 54), (7, 55), (7, 56), (7, 57),
    (7, 58), (7, 59), (7, 60), (7, 61), (7, 62), (7, 63), (7, 64), (7, 65), (7, 66), (7, 67),
    (7, 68), (7, 69), (7, 70), (7, 71), (7, 72), (7, 73), (7, 74), (7, 75), (7, 76), (7, 77),
    (7, 78), (7, 79), (7, 80), (7, 81), (7, 82), (7, 83), (7, 84), (7, 85), (7, 86), (7, 87),
    (7, 88), (7, 89), (7, 90), (7, 91), (7, 92), (7, 93), (7, 94), (7, 95), (7, 96), (7, 97),
    (7, 98), (7, 99), (7, 100), (7, 101), (7, 102), (7, 103), (7, 104), (7, 105), (7, 106),
    (7, 107), (7, 108), (7, 109), (7, 110), (7, 111), (7, 112), (7, 113), (7, 114), (7, 115),
    (7, 116), (7, 117), (7, 118), (7, 119), (7, 120), (7, 121), (7, 122), (7, 123), (7, 124),
    (7, 125), (7, 126), (7, 127), (8, 0)]

theorem slabTbl_length : slabTbl.length = 257 := by decide +kernel
theorem downTbl_length : downTbl.length = 257 := by decide +kernel

/-- `slab_tbl_size`, blk_cache.h:35. -/
abbrev tblSize : Nat := 257

/-- `FreeBlkCache::find_slab`, blk_cache.h:303-308.  The argument is 16 bits wide (`blk_count_t`): `n % 2^16` is the conversion at the call.
`sisl::logBase2` is the position of the highest set bit.  The table lookup cannot be out of range. -/
def findSlab (n : Nat) : Nat :=
  let n := n % 2 ^ 16
  if h : n ≥ tblSize then (if n > 1 then Nat.log2 (n - 1) + 1 else 0)
  else slabTbl[n]'(by rw [slabTbl_length]; simp [tblSize] at h; omega)

/-- `FreeBlkCache::find_round_down_slab`, blk_cache.h:310-316.  `none`: `s` would be -1, and the shift
`1 << s` is undefined. -/
def findRoundDownSlab (n : Nat) : Option (Nat × Nat) :=
  let n := n % 2 ^ 16
  if h : n ≥ tblSize then
    let f := findSlab (n + 1)
    if f = 0 then none else some (f - 1, n - 2 ^ (f - 1))
  else some (downTbl[n]'(by rw [downTbl_length]; simp [tblSize] at h; omega))

end HS.Slab
