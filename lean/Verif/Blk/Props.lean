import Verif.Blk.Lemmas
/-!
# Properties of block ids (C01-C04)

A *piece* is a `BlkId`; in the statements it is always given through its three observable
numbers: `blk_num()`, `blk_count()`, `chunk_num()`.
-/
namespace HS.Blk

/-- **C01** `BlkId(BlkId(num,cnt,chunk).to_integer())` has the same block number, count and
chunk, for all in-range values; as an equation on the natural numbers a caller sees. -/
theorem C01_to_integer_roundtrip (num cnt chunk : Nat)
    (hnum : num < 2 ^ 31) (hcnt : cnt < 2 ^ 16) (hchunk : chunk < 2 ^ 16) :
    let id := BlkId.mk3 (BitVec.ofNat 32 num) (BitVec.ofNat 16 cnt) (BitVec.ofNat 16 chunk)
    let id' := BlkId.ofInteger id.toInteger
    id'.blkNum.toNat = num ∧ id'.nblks.toNat = cnt ∧ id'.chunk.toNat = chunk ∧
      id'.isMulti = 0 := by
  simp only [ofInteger_toInteger, BlkId.mk3]
  simp
  omega

example : (5 : Nat) < 2 ^ 31 ∧ (65535 : Nat) < 2 ^ 16 ∧ (77 : Nat) < 2 ^ 16 := by decide

/-- **C01** The numeric layout: block number in bits 1-31, count in 32-47, chunk in 48-63. -/
theorem C01_integer_layout (num cnt chunk : Nat)
    (hnum : num < 2 ^ 31) (hcnt : cnt < 2 ^ 16) (hchunk : chunk < 2 ^ 16) :
    (BlkId.mk3 (BitVec.ofNat 32 num) (BitVec.ofNat 16 cnt) (BitVec.ofNat 16 chunk)).toInteger.toNat
      = chunk * 2 ^ 48 + cnt * 2 ^ 32 + num * 2 := by
  simp only [BlkId.toInteger, BlkId.mk3, BitVec.toNat_append]
  simp only [BitVec.toNat_setWidth, BitVec.toNat_ofNat]
  have e1 : num % 2 ^ 32 % 2 ^ 31 = num := by omega
  have e2 : cnt % 2 ^ 16 = cnt := by omega
  have e3 : chunk % 2 ^ 16 = chunk := by omega
  rw [e1, e2, e3]
  rw [← Nat.shiftLeft_add_eq_or_of_lt (b := cnt) (i := 16) (by omega)]
  rw [← Nat.shiftLeft_add_eq_or_of_lt (b := num) (i := 31) (by omega)]
  simp only [Nat.shiftLeft_eq]
  simp
  omega

example : (BlkId.mk3 3 2 1).toInteger.toNat = 2 ^ 48 + 2 * 2 ^ 32 + 6 := by decide

/-- **C01** Two ids have the same integer form only if they are the same id. -/
theorem C01_to_integer_injective (a b : BlkId) (h : a.toInteger = b.toInteger) : a = b := by
  rw [← ofInteger_toInteger a, h, ofInteger_toInteger]

example : (BlkId.mk3 9 4 2).toInteger = (BlkId.mk3 9 4 2).toInteger := rfl

/-- **C01** Every 64-bit value is the integer form of the id built from it. -/
theorem C01_of_integer_roundtrip (v : BitVec 64) : (BlkId.ofInteger v).toInteger = v :=
  toInteger_ofInteger v

/-- Specification vocabulary: what a caller sees of a piece. -/
def view (b : BlkId) : Nat × Nat × Nat := (b.blkNum.toNat, b.nblks.toNat, b.chunk.toNat)

/-- **C02** Build a MultiBlkId from 1 to 6 non-empty pieces of one chunk: the calls
succeed, and deserializing the serialized bytes yields the very same id; the number of bytes is
`expected_serialized_size(#pieces)`, at most `max_serialized_size()`. -/
theorem C02_serialize_roundtrip (ps : List BlkId) (chunk : BitVec 16)
    (hne : ps ≠ []) (hlen : ps.length ≤ 6)
    (hch : ∀ p ∈ ps, p.chunk = chunk) (hpos : ∀ p ∈ ps, 0 < p.nblks.toNat) :
    ∃ m, MultiBlkId.empty.addAll ps = some m ∧
      MultiBlkId.deserialize m.serialize = some m ∧
      m.serialize.length = m.serializedSize ∧
      m.serializedSize = expectedSerializedSize ps.length ∧
      m.serializedSize ≤ maxSerializedSize ∧
      (∀ m', MultiBlkId.deserialize m.serialize = some m' →
        m'.pieces.1.map view = ps.map view) := by
  obtain ⟨b, bs, rfl⟩ := List.exists_cons_of_ne_nil hne
  simp only [List.length_cons] at hlen
  have hv : b.isValid = true := by simpa [BlkId.isValid] using hpos b (by simp)
  have hadd := addAll_empty b bs hv
    (fun b' hb' => by rw [hch b' (by simp [hb']), hch b (by simp)])
    (by simp [maxAddlnPieces]; omega)
  refine ⟨_, hadd, ?_, ?_, ?_, ?_, ?_⟩
  · exact deserialize_serialize _ (by simp [maxAddlnPieces]; omega)
  · simp only [MultiBlkId.serialize, MultiBlkId.serializedSize, List.length_take,
      List.length_append, serialize_base_length, leBytes_length, flatMap_chain_length,
      List.length_map]
    split <;> omega
  · simp only [MultiBlkId.serializedSize, expectedSerializedSize, List.length_map,
      List.length_cons]
    split <;> split <;> omega
  · simp only [MultiBlkId.serializedSize, maxSerializedSize, expectedSerializedSize,
      List.length_map, maxAddlnPieces]
    split <;> simp <;> omega
  · intro m' hm'
    rw [deserialize_serialize _ (by simp [maxAddlnPieces]; omega), Option.some.injEq] at hm'
    subst hm'
    rw [pieces_valid _ (by simpa [BlkId.isValid] using hv)]
    simp only [List.map_cons, List.map_map, List.cons.injEq]
    constructor
    · have := b.blkNum.isLt
      simp [view, BlkId.mk3]
    · apply List.map_congr_left
      intro c hc
      have := c.blkNum.isLt
      have h1 := hch c (by simp [hc])
      have h2 := hch b (by simp)
      simp [view, BlkId.mk3, chainOf, h1, h2]

example : let ps := [BlkId.mk3 10 2 7, BlkId.mk3 100 3 7, BlkId.mk3 5 1 7]
    ps ≠ [] ∧ ps.length ≤ 6 ∧ (∀ p ∈ ps, p.chunk = 7) ∧ (∀ p ∈ ps, 0 < p.nblks.toNat) := by
  decide

/-- **C03** (iteration) After adding 1 to 6 non-empty pieces of one chunk, iterating yields
exactly those pieces in order and stops by itself, and `num_pieces()` is their number. -/
theorem C03_iteration_yields_added_pieces (ps : List BlkId) (chunk : BitVec 16)
    (hne : ps ≠ []) (hlen : ps.length ≤ 6)
    (hch : ∀ p ∈ ps, p.chunk = chunk) (hpos : ∀ p ∈ ps, 0 < p.nblks.toNat) :
    ∃ m, MultiBlkId.empty.addAll ps = some m ∧
      m.pieces.1.map view = ps.map view ∧ m.pieces.2 = true ∧ m.numPieces = ps.length := by
  obtain ⟨m, h1, h2, -, -, -, h6⟩ := C02_serialize_roundtrip ps chunk hne hlen hch hpos
  obtain ⟨b, bs, rfl⟩ := List.exists_cons_of_ne_nil hne
  simp only [List.length_cons] at hlen
  have hv : b.isValid = true := by simpa [BlkId.isValid] using hpos b (by simp)
  have hadd := addAll_empty b bs hv
    (fun b' hb' => by rw [hch b' (by simp [hb']), hch b (by simp)])
    (by simp [maxAddlnPieces]; omega)
  have hm : m = ⟨{ b with isMulti := 1 }, bs.map chainOf⟩ := by
    rw [hadd] at h1; exact (Option.some.inj h1).symm
  have hvm : m.base.isValid = true := by subst hm; simpa [BlkId.isValid] using hv
  refine ⟨m, h1, h6 m h2, ?_, ?_⟩
  · rw [pieces_valid m hvm]
  · simp [MultiBlkId.numPieces, hvm]; subst hm; simp

/-- **C03** (count) `blk_count()` is the sum of the pieces' counts *modulo 2^16*; hence it
is the sum whenever the sum fits 16 bits.  The unrestricted claim is false of the code, see
`C03_blk_count_violated`. -/
theorem C03_blk_count_partial (ps : List BlkId) (chunk : BitVec 16)
    (hne : ps ≠ []) (hlen : ps.length ≤ 6)
    (hch : ∀ p ∈ ps, p.chunk = chunk) (hpos : ∀ p ∈ ps, 0 < p.nblks.toNat) :
    ∃ m, MultiBlkId.empty.addAll ps = some m ∧
      m.blkCount.toNat = (ps.map (fun p => p.nblks.toNat)).sum % 65536 ∧
      ((ps.map (fun p => p.nblks.toNat)).sum < 65536 →
        m.blkCount.toNat = (ps.map (fun p => p.nblks.toNat)).sum) := by
  obtain ⟨m, h1, h2, -, -⟩ := C03_iteration_yields_added_pieces ps chunk hne hlen hch hpos
  have key : m.blkCount.toNat = (ps.map (fun p => p.nblks.toNat)).sum % 65536 := by
    rw [MultiBlkId.blkCount, foldl_add_toNat]
    have : m.pieces.1.map (fun b => b.nblks.toNat) = ps.map (fun b => b.nblks.toNat) := by
      have := congrArg (List.map (fun t : Nat × Nat × Nat => t.2.1)) h2
      simpa [List.map_map, Function.comp_def, view] using this
    simp [this]
  exact ⟨m, h1, key, fun h => by omega⟩

/-- **C03** is violated by the code when the pieces total 65536 blocks or more: two legal
pieces of 32768 blocks report a `blk_count()` of 0. -/
theorem C03_blk_count_violated :
    ∃ (ps : List BlkId) (m : MultiBlkId), ps.length ≤ 6 ∧ (∀ p ∈ ps, p.chunk = 1) ∧
      (∀ p ∈ ps, 0 < p.nblks.toNat) ∧ MultiBlkId.empty.addAll ps = some m ∧
      m.blkCount.toNat ≠ (ps.map (fun p => p.nblks.toNat)).sum := by
  refine ⟨[BlkId.mk3 0 32768 1, BlkId.mk3 40000 32768 1], 
    ⟨⟨1, 0, 32768, 1⟩, [⟨40000, 32768⟩]⟩, ?_⟩
  decide

/-- **C02/C03** A seventh piece, or a piece of another chunk, is rejected by a release
assertion rather than silently dropped. -/
theorem C03_add_rejects (m : MultiBlkId) (b : BlkId) (hv : 0 < m.base.nblks.toNat) :
    m.addBlkId b = none ↔ (b.chunk ≠ m.base.chunk ∨ 5 ≤ m.addln.length) := by
  have hb : m.base.isValid = true := by simpa [BlkId.isValid] using hv
  have h5 : maxAddlnPieces = 5 := rfl
  simp only [MultiBlkId.addBlkId, MultiBlkId.add, hb, if_true]
  grind

example : (0 : Nat) < (MultiBlkId.ofBlkId (BlkId.mk3 1 3 2)).base.nblks.toNat := by decide

/-- **C04** `BlkId::compare(a,b) < 0` exactly when (chunk, block number, count) of `a` is
lexicographically smaller; `= 0` exactly when the three agree; `> 0` otherwise. -/
theorem C04_compare_lexicographic (a b : BlkId) :
    (BlkId.compare a b < 0 ↔
      (a.chunk.toNat < b.chunk.toNat ∨ (a.chunk.toNat = b.chunk.toNat ∧
        (a.blkNum.toNat < b.blkNum.toNat ∨ (a.blkNum.toNat = b.blkNum.toNat ∧
          a.nblks.toNat < b.nblks.toNat))))) ∧
    (BlkId.compare a b = 0 ↔
      (a.chunk.toNat = b.chunk.toNat ∧ a.blkNum.toNat = b.blkNum.toNat ∧
        a.nblks.toNat = b.nblks.toNat)) ∧
    (0 < BlkId.compare a b ↔ BlkId.compare b a < 0) := by
  simp only [BlkId.compare, BitVec.lt_def, gt_iff_lt]
  refine ⟨?_, ?_, ?_⟩ <;> (repeat' split) <;> omega

/-- **C04** Transitivity, so `operator<` can key ordered containers. -/
theorem C04_compare_trans (a b c : BlkId) (h1 : BlkId.compare a b < 0)
    (h2 : BlkId.compare b c < 0) : BlkId.compare a c < 0 := by
  rw [(C04_compare_lexicographic _ _).1] at *
  omega

example : BlkId.compare (BlkId.mk3 1 1 1) (BlkId.mk3 1 2 1) < 0 ∧
    BlkId.compare (BlkId.mk3 1 2 1) (BlkId.mk3 0 1 2) < 0 := by decide

/-- **C04** Trichotomy on the observable fields. -/
theorem C04_compare_total (a b : BlkId) :
    BlkId.compare a b < 0 ∨ view a = view b ∨ BlkId.compare b a < 0 := by
  have h := C04_compare_lexicographic a b
  have h' := C04_compare_lexicographic b a
  rw [h.1, h'.1]
  simp only [view, Prod.mk.injEq]
  omega

end HS.Blk
