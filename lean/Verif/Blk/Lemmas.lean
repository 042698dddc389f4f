import Verif.Blk.Model
/-! Helper lemmas for block ids. -/
namespace HS.Blk

theorem ofInteger_toInteger (b : BlkId) : BlkId.ofInteger b.toInteger = b := by
  obtain ⟨m, n, c, k⟩ := b
  simp only [BlkId.ofInteger, BlkId.toInteger, BlkId.mk.injEq]
  refine ⟨?_, ?_, ?_, ?_⟩ <;>
  · apply BitVec.eq_of_getLsbD_eq
    intro i hi
    simp [BitVec.getLsbD_append, BitVec.getLsbD_extractLsb', hi]
    grind

theorem toInteger_ofInteger (v : BitVec 64) : (BlkId.ofInteger v).toInteger = v := by
  apply BitVec.eq_of_getLsbD_eq
  intro i hi
  simp only [BlkId.ofInteger, BlkId.toInteger, BitVec.getLsbD_append, BitVec.getLsbD_extractLsb']
  grind

theorem leBytes_length (v : BitVec n) (k : Nat) : (leBytes v k).length = k := by
  induction k generalizing v with
  | zero => rfl
  | succ k ih => simp [leBytes, ih]

theorem ofLe_getLsbD (w : Nat) (v : BitVec w) (k i : Nat) :
    (ofLeBytes w (leBytes v k)).getLsbD i = (v.getLsbD i && decide (i < 8 * k)) := by
  induction k generalizing v i with
  | zero => simp [leBytes, ofLeBytes]
  | succ k ih =>
    simp only [leBytes, ofLeBytes, BitVec.getLsbD_or, BitVec.getLsbD_setWidth,
      BitVec.getLsbD_shiftLeft, ih, BitVec.getLsbD_ushiftRight]
    by_cases h : i < 8
    · have : i < 8 * (k+1) := by omega
      by_cases hw : i < w
      · simp [h, this, hw]
      · have : v.getLsbD i = false := BitVec.getLsbD_of_ge _ _ (by omega)
        simp [h, hw, this]
    · have e : 8 + (i - 8) = i := by omega
      have e2 : (i - 8 < 8 * k) ↔ (i < 8 * (k+1)) := by omega
      by_cases hw : i < w
      · simp [h, hw, e, e2]
      · have : v.getLsbD i = false := BitVec.getLsbD_of_ge _ _ (by omega)
        simp [h, hw, e, this]

theorem ofLe_leBytes (w : Nat) (v : BitVec w) (k : Nat) (h : w ≤ 8 * k) :
    ofLeBytes w (leBytes v k) = v := by
  apply BitVec.eq_of_getLsbD_eq
  intro i hi
  rw [ofLe_getLsbD]
  have : i < 8 * k := by omega
  simp [this]

theorem chainBytes_length (c : ChainBlkId) : c.bytes.length = 6 := by
  simp [ChainBlkId.bytes, leBytes_length]

theorem flatMap_chain_length (l : List ChainBlkId) :
    (l.flatMap ChainBlkId.bytes).length = l.length * 6 := by
  induction l with
  | nil => rfl
  | cons c cs ih => simp [chainBytes_length, ih]; omega

theorem parseChain_bytes (l : List ChainBlkId) :
    parseChain l.length (l.flatMap ChainBlkId.bytes) = some l := by
  induction l with
  | nil => rfl
  | cons c cs ih =>
    simp only [List.flatMap_cons, List.length_cons, parseChain]
    rw [if_neg (by simp [chainBytes_length])]
    have h6 : (c.bytes ++ cs.flatMap ChainBlkId.bytes).drop 6 = cs.flatMap ChainBlkId.bytes := by
      rw [List.drop_append_of_le_length (by simp [chainBytes_length])]
      rw [List.drop_of_length_le (by simp [chainBytes_length])]; rfl
    rw [h6, ih]
    have h4 : (c.bytes ++ cs.flatMap ChainBlkId.bytes).take 4 = leBytes c.blkNum 4 := by
      rw [ChainBlkId.bytes, List.append_assoc]
      exact List.take_left' (leBytes_length _ _)
    have h2 : ((c.bytes ++ cs.flatMap ChainBlkId.bytes).drop 4).take 2 = leBytes c.nblks 2 := by
      rw [ChainBlkId.bytes, List.append_assoc, List.drop_left' (leBytes_length _ _)]
      exact List.take_left' (leBytes_length _ _)
    rw [h4, h2, ofLe_leBytes 32 _ 4 (by omega), ofLe_leBytes 16 _ 2 (by omega)]
    rfl

theorem serialize_base_length (b : BlkId) : b.serialize.length = 8 := leBytes_length _ _

theorem deserialize_serialize (m : MultiBlkId) (h : m.addln.length ≤ maxAddlnPieces) :
    MultiBlkId.deserialize m.serialize = some m := by
  obtain ⟨base, addln⟩ := m
  simp only [maxAddlnPieces] at h
  simp only [MultiBlkId.serialize, MultiBlkId.serializedSize]
  by_cases h0 : addln.length = 0
  · have : addln = [] := by simpa using h0
    subst this
    simp only [List.length_nil, ne_eq, not_true_eq_false, if_false, List.append_assoc]
    rw [List.take_left' (by simp [serialize_base_length])]
    simp only [MultiBlkId.deserialize, serialize_base_length]
    simp only [Nat.lt_irrefl, if_false, if_true, Option.some.injEq, MultiBlkId.mk.injEq, and_true]
    rw [List.take_of_length_le (by simp [serialize_base_length])]
    rw [BlkId.serialize, ofLe_leBytes 64 _ 8 (by omega), ofInteger_toInteger]
  · rw [if_pos h0, List.take_of_length_le (by
      simp only [List.length_append, serialize_base_length, leBytes_length, flatMap_chain_length]
      omega)]
    have len : (base.serialize ++ leBytes (BitVec.ofNat 16 addln.length) 2 ++
        addln.flatMap ChainBlkId.bytes).length = 10 + addln.length * 6 := by
      simp only [List.length_append, serialize_base_length, leBytes_length, flatMap_chain_length]
    simp only [MultiBlkId.deserialize, len]
    rw [if_neg (by omega), if_neg (by omega), if_neg (by omega)]
    rw [List.append_assoc, List.take_left' (serialize_base_length _),
      List.drop_left' (serialize_base_length _), List.take_left' (leBytes_length _ _)]
    have d10 : (base.serialize ++ (leBytes (BitVec.ofNat 16 addln.length) 2 ++
        addln.flatMap ChainBlkId.bytes)).drop 10 = addln.flatMap ChainBlkId.bytes := by
      rw [← List.append_assoc]
      exact List.drop_left' (by simp [serialize_base_length, leBytes_length])
    rw [d10, ofLe_leBytes 16 _ 2 (by omega)]
    have hn : (BitVec.ofNat 16 addln.length).toNat = addln.length := by
      simp only [BitVec.toNat_ofNat]; omega
    rw [hn, if_pos (by simpa [maxAddlnPieces] using h), parseChain_bytes]
    simp only [Option.map_some]
    rw [BlkId.serialize, ofLe_leBytes 64 _ 8 (by omega), ofInteger_toInteger]

/-- Chained additional pieces of a list of block ids. -/
def chainOf (b : BlkId) : ChainBlkId := ⟨b.blkNum.setWidth 32, b.nblks⟩

theorem addAll_valid (m : MultiBlkId) (bs : List BlkId) (hv : m.base.isValid = true)
    (hc : ∀ b ∈ bs, b.chunk = m.base.chunk) (hl : m.addln.length + bs.length ≤ maxAddlnPieces) :
    m.addAll bs = some { m with addln := m.addln ++ bs.map chainOf } := by
  induction bs generalizing m with
  | nil => simp [MultiBlkId.addAll]
  | cons b bs ih =>
    simp only [List.length_cons] at hl
    have hb := hc b (by simp)
    simp only [MultiBlkId.addAll, MultiBlkId.addBlkId, MultiBlkId.add, hv, if_true, hb,
      show m.addln.length < maxAddlnPieces by omega, Option.bind_some]
    rw [ih]
    · simp [chainOf]
    · exact hv
    · intro b' hb'; exact hc b' (by simp [hb'])
    · simp; omega

theorem addAll_empty (b : BlkId) (bs : List BlkId) (hv : b.isValid = true)
    (hc : ∀ b' ∈ bs, b'.chunk = b.chunk) (hl : bs.length ≤ maxAddlnPieces) :
    MultiBlkId.empty.addAll (b :: bs) = some ⟨{ b with isMulti := 1 }, bs.map chainOf⟩ := by
  have he : MultiBlkId.empty.base.isValid = false := by decide
  simp only [MultiBlkId.addAll, MultiBlkId.addBlkId, MultiBlkId.add, he, Bool.false_eq_true,
    if_false, Option.bind_some]
  have hb : (BitVec.setWidth 31 (BitVec.setWidth 32 b.blkNum)) = b.blkNum := by
    apply BitVec.eq_of_toNat_eq; have := b.blkNum.isLt; simp
  rw [hb, addAll_valid]
  · simp [MultiBlkId.empty]
  · simpa [BlkId.isValid] using hv
  · intro b' hb'; simpa using hc b' hb'
  · simpa [MultiBlkId.empty] using hl

theorem iterLoop_tail (m : MultiBlkId) (hv : m.base.isValid = true) (k fuel : Nat)
    (hk : k ≤ m.addln.length) (hf : m.addln.length - k < fuel) :
    m.iterLoop fuel (k + 1) =
      ((m.addln.drop k).map (fun c => BlkId.mk3 c.blkNum c.nblks m.base.chunk), true) := by
  induction fuel generalizing k with
  | zero => omega
  | succ fuel ih =>
    simp only [MultiBlkId.iterLoop, MultiBlkId.iterNext, Nat.add_eq_zero_iff, Nat.one_ne_zero,
      and_false, if_false, MultiBlkId.numPieces, hv, if_true, Nat.add_lt_add_iff_right,
      Nat.add_sub_cancel]
    by_cases h : k < m.addln.length
    · simp only [h, if_true, List.getElem?_eq_getElem]
      rw [ih (k+1) (by omega) (by omega), List.drop_eq_getElem_cons h]
      simp only [List.map_cons]
    · simp [h, List.drop_of_length_le (Nat.le_of_not_lt h)]

theorem pieces_valid (m : MultiBlkId) (hv : m.base.isValid = true) :
    m.pieces = (BlkId.mk3 (m.base.blkNum.setWidth 32) m.base.nblks m.base.chunk ::
      m.addln.map (fun c => BlkId.mk3 c.blkNum c.nblks m.base.chunk), true) := by
  have hn : m.numPieces = m.addln.length + 1 := by simp [MultiBlkId.numPieces, hv]
  have h1 : m.iterNext 0 =
      (some (BlkId.mk3 (m.base.blkNum.setWidth 32) m.base.nblks m.base.chunk), 1) := by
    simp [MultiBlkId.iterNext, hv]
  have h2 := iterLoop_tail m hv 0 (m.addln.length + 1) (by omega) (by omega)
  rw [MultiBlkId.pieces, hn, MultiBlkId.iterLoop, h1]
  simp only [Nat.zero_add] at h2
  simp [h2]

theorem foldl_add_toNat (l : List BlkId) (a : BitVec 16) :
    (l.foldl (fun acc b => acc + b.nblks) a).toNat =
      (a.toNat + (l.map (fun b => b.nblks.toNat)).sum) % 65536 := by
  induction l generalizing a with
  | nil => simp; omega
  | cons b bs ih => simp [ih]; omega

end HS.Blk
