import Verif.Crc.Model
/-!
# C43: corruption of a persisted device record is noticed

Specification: a record is a sequence of bytes; `bits` lists its bits, most significant first.  `Burst n x y`
says that `y` is `x` with some bits changed, all of them inside a window of at most `n` bits.
-/
namespace HS.Crc

def bitsOfByte (b : BitVec 8) : List Bool := (List.range 8).map fun i => b.getMsbD i
def bits (l : List (BitVec 8)) : List Bool := l.flatMap bitsOfByte

def Burst (n : Nat) (x y : List Bool) : Prop :=
  ∃ p w w' s, x = p ++ w ++ s ∧ y = p ++ w' ++ s ∧ w.length = w'.length ∧ w.length ≤ n ∧ w ≠ w'

/-! ## linearity and injectivity of the round -/

theorem step_xor (a b : BitVec 16) : step (a ^^^ b) = step a ^^^ step b := by
  unfold step
  rw [BitVec.shiftLeft_xor_distrib, BitVec.msb_xor]
  have h : (if (a.msb ^^ b.msb) = true then poly else 0#16) =
      (if a.msb = true then poly else 0#16) ^^^ (if b.msb = true then poly else 0#16) := by
    cases a.msb <;> cases b.msb <;> decide
  rw [h]
  ac_rfl

theorem step_zero : step 0#16 = 0#16 := by decide

theorem step_eq_zero {a : BitVec 16} (h : step a = 0#16) : a = 0#16 := by
  unfold step at h
  cases hm : a.msb with
  | true =>
    rw [hm] at h
    have := congrArg (fun v : BitVec 16 => v.getLsbD 0) h
    simp [poly] at this
  | false =>
    rw [hm] at h
    simp at h
    apply BitVec.eq_of_getLsbD_eq
    intro i hi
    by_cases h15 : i = 15
    · subst h15
      simp only [BitVec.msb_eq_getLsbD_last] at hm
      simpa using hm
    · have := congrArg (fun v : BitVec 16 => v.getLsbD (i + 1)) h
      simp only [BitVec.getLsbD_shiftLeft] at this
      simp at this
      have h2 := this (by omega)
      simpa using h2

def steps (n : Nat) (r : BitVec 16) : BitVec 16 := Nat.repeat step n r

theorem steps_succ (n : Nat) (r : BitVec 16) : steps (n + 1) r = steps n (step r) := by
  induction n with
  | zero => rfl
  | succ n ih => show step (steps (n + 1) r) = step (steps n (step r)); rw [ih]

theorem steps_xor (n : Nat) (a b : BitVec 16) : steps n (a ^^^ b) = steps n a ^^^ steps n b := by
  induction n generalizing a b with
  | zero => rfl
  | succ n ih => rw [steps_succ, steps_succ, steps_succ, step_xor, ih]

theorem steps_zero (n : Nat) : steps n 0#16 = 0#16 := by
  induction n with
  | zero => rfl
  | succ n ih => rw [steps_succ, step_zero, ih]

theorem steps_eq_zero {n : Nat} {a : BitVec 16} (h : steps n a = 0#16) : a = 0#16 := by
  induction n generalizing a with
  | zero => exact h
  | succ n ih => rw [steps_succ] at h; exact step_eq_zero (ih h)

/-! ## bit-serial form -/

def top (b : Bool) : BitVec 16 := if b then 0x8000#16 else 0#16
def bitStep (r : BitVec 16) (b : Bool) : BitVec 16 := step (r ^^^ top b)
def crcBits (r : BitVec 16) (l : List Bool) : BitVec 16 := l.foldl bitStep r

theorem top_xor (a b : Bool) : top (a ^^ b) = top a ^^^ top b := by
  cases a <;> cases b <;> decide

theorem crcBits_xor {a b : List Bool} (h : a.length = b.length) (r s : BitVec 16) :
    crcBits (r ^^^ s) (List.zipWith (· ^^ ·) a b) = crcBits r a ^^^ crcBits s b := by
  induction a generalizing b r s with
  | nil => cases b <;> simp_all [crcBits]
  | cons x a ih =>
    cases b with
    | nil => simp at h
    | cons y b =>
      simp only [crcBits, List.zipWith_cons_cons, List.foldl_cons] at *
      rw [← ih (by simpa using h)]
      congr 1
      simp only [bitStep, top_xor, ← step_xor]
      congr 1
      ac_rfl

theorem crcBits_append (r : BitVec 16) (a b : List Bool) : crcBits r (a ++ b) = crcBits (crcBits r a) b := by
  simp [crcBits, List.foldl_append]

theorem crcBits_inj (l : List Bool) {r s : BitVec 16} (h : crcBits r l = crcBits s l) : r = s := by
  induction l generalizing r s with
  | nil => exact h
  | cons x l ih =>
    have h1 : bitStep r x = bitStep s x := ih h
    unfold bitStep at h1
    have h2 : step ((r ^^^ top x) ^^^ (s ^^^ top x)) = 0#16 := by rw [step_xor, h1]; simp
    have h3 := step_eq_zero h2
    have h4 : (r ^^^ top x) ^^^ (s ^^^ top x) = r ^^^ s := by
      rw [BitVec.xor_assoc, BitVec.xor_comm s, ← BitVec.xor_assoc (top x)]; simp
    rw [h4] at h3
    exact BitVec.xor_eq_zero_iff.1 h3

/-- The first 16 bits of a list as a word, first bit highest. -/
def word : List Bool → BitVec 16
  | [] => 0#16
  | b :: l => top b ^^^ (word l >>> 1)

theorem word_low {l : List Bool} : ∀ {i : Nat}, l.length + i < 16 → (word l).getLsbD i = false := by
  induction l with
  | nil => intro i _; simp [word]
  | cons b l ih =>
    intro i h
    simp only [List.length_cons] at h
    simp only [word, BitVec.getLsbD_xor, BitVec.getLsbD_ushiftRight]
    rw [ih (i := 1 + i) (by omega)]
    have hi : i < 15 := by omega
    cases b
    · simp [top]
    · have : ∀ i : Fin 15, (0x8000#16).getLsbD i = false := by decide
      simpa [top] using this ⟨i, hi⟩

theorem word_msb (b : Bool) (l : List Bool) : (word (b :: l)).getLsbD 15 = b := by
  simp only [word, BitVec.getLsbD_xor, BitVec.getLsbD_ushiftRight]
  rw [BitVec.getLsbD_of_ge (word l) (1 + 15) (by omega)]
  cases b <;> decide

theorem step_shift {x : BitVec 16} (h : x.getLsbD 0 = false) : step (x >>> 1) = x := by
  unfold step
  have hm : (x >>> 1).msb = false := by simp [BitVec.msb_eq_getLsbD_last, BitVec.getLsbD_ushiftRight]
  rw [hm]
  simp
  apply BitVec.eq_of_getLsbD_eq
  intro i hi
  simp only [BitVec.getLsbD_shiftLeft, BitVec.getLsbD_ushiftRight]
  by_cases h0 : i = 0
  · subst h0; rw [h]; simp
  · have h1 : 1 + (i - 1) = i := by omega
    have h2 : ¬ i < 1 := by omega
    simp only [h1, hi, h2, decide_true, decide_false, Bool.not_false, Bool.true_and]

theorem crcBits_word {l : List Bool} : ∀ (r : BitVec 16), l.length ≤ 16 →
    crcBits r l = steps l.length (r ^^^ word l) := by
  induction l with
  | nil => intro r _; simp [crcBits, word, steps, Nat.repeat]
  | cons b l ih =>
    intro r h
    simp only [List.length_cons] at h
    have e : crcBits r (b :: l) = crcBits (bitStep r b) l := rfl
    rw [e, ih _ (by omega), List.length_cons, steps_succ]
    congr 1
    simp only [word, bitStep]
    rw [← BitVec.xor_assoc r, step_xor _ (word l >>> 1), step_shift (word_low (l := l) (i := 0) (by omega))]

theorem word_eq_zero {l : List Bool} : l.length ≤ 16 → word l = 0#16 → ∀ b ∈ l, b = false := by
  induction l with
  | nil => simp
  | cons b l ih =>
    intro h hw
    simp only [List.length_cons] at h
    have hb : b = false := by rw [← word_msb b l, hw]; rfl
    subst hb
    have h2 : word l >>> 1 = 0#16 := by simpa [word, top] using hw
    have h3 : word l = 0#16 := by
      rw [← step_shift (word_low (l := l) (i := 0) (by omega)), h2, step_zero]
    intro x hx
    rcases List.mem_cons.1 hx with hx | hx
    · exact hx
    · exact ih (by omega) h3 x hx

theorem zip_ne {w w' : List Bool} (h : w.length = w'.length) (hz : ∀ b ∈ List.zipWith (· ^^ ·) w w', b = false) :
    w = w' := by
  induction w generalizing w' with
  | nil => cases w' <;> simp_all
  | cons x w ih =>
    cases w' with
    | nil => simp at h
    | cons y w' =>
      simp only [List.zipWith_cons_cons, List.mem_cons, forall_eq_or_imp] at hz
      rw [ih (by simpa using h) hz.2]
      have : x = y := by cases x <;> cases y <;> simp_all
      rw [this]

/-- Two bit strings that differ in a window of at most 16 bits have different checksums. -/
theorem burst_detected {r : BitVec 16} {x y : List Bool} (h : Burst 16 x y) : crcBits r x ≠ crcBits r y := by
  obtain ⟨p, w, w', s, hx, hy, hl, h16, hne⟩ := h
  subst hx; subst hy
  intro he
  rw [crcBits_append, crcBits_append, crcBits_append, crcBits_append] at he
  have h1 := crcBits_inj _ he
  have h2 := crcBits_xor hl (crcBits r p) (crcBits r p)
  rw [h1] at h2
  simp only [BitVec.xor_self] at h2
  have hz : (List.zipWith (· ^^ ·) w w').length ≤ 16 := by rw [List.length_zipWith]; omega
  rw [crcBits_word _ hz] at h2
  have h3 := steps_eq_zero h2
  have h4 := word_eq_zero hz (by simpa using h3)
  exact hne (zip_ne hl h4)

/-! ## bytes -/

theorem word_bits (b : BitVec 8) : word (bitsOfByte b) = b.setWidth 16 <<< 8 := by
  have h : ∀ n : Fin 256, word (bitsOfByte (BitVec.ofFin (w := 8) n)) =
      (BitVec.ofFin (w := 8) n).setWidth 16 <<< 8 := by
    decide +kernel
  exact h b.toFin

theorem byte_bits (r : BitVec 16) (b : BitVec 8) : byte r b = crcBits r (bitsOfByte b) := by
  rw [crcBits_word _ (by simp [bitsOfByte]), word_bits]
  simp [bitsOfByte, byte, steps]

theorem crc16_bits (r : BitVec 16) (l : List (BitVec 8)) : crc16 r l = crcBits r (bits l) := by
  induction l generalizing r with
  | nil => rfl
  | cons b l ih =>
    have : bits (b :: l) = bitsOfByte b ++ bits l := by simp [bits]
    rw [this, crcBits_append, ← byte_bits]
    exact ih _

/-! ## the property -/

/-- **C43** for chunk records: an intact record is accepted; if up to 16 consecutive bits of the record
(outside its checksum field) are changed, or the checksum field itself is changed in any way, the record is
rejected. -/
theorem C43_chunk (r : Rec) :
    chunkAccepted r.sealed = true ∧
    (∀ r' : Rec, r'.csum = r.sealed.csum → Burst 16 (bits r.zeroed) (bits r'.zeroed) → chunkAccepted r' = false) ∧
    (∀ c, c ≠ r.sealed.csum → chunkAccepted { r.sealed with csum := c } = false) := by
  refine ⟨by simp [chunkAccepted, Rec.sealed, Rec.zeroed], ?_, ?_⟩
  · intro r' hc hb
    simp only [chunkAccepted, hc, Rec.sealed, beq_eq_false_iff_ne]
    rw [crc16_bits, crc16_bits]
    exact (burst_detected hb).symm
  · intro c hc
    simp only [chunkAccepted, Rec.sealed, Rec.zeroed, beq_eq_false_iff_ne] at *
    exact hc.symm

/-- A chunk record as `populate_chunk_info` writes it: 29 bytes of fields, checksum, 225 more bytes. -/
def exRec : Rec := ⟨List.replicate 9 0x41#8 ++ List.replicate 20 0x00#8, 0, List.replicate 225 0x07#8⟩

/-- Non-vacuity: a flip of 9 consecutive bits across a byte boundary is a burst. -/
example : ∃ r' : Rec, r'.csum = exRec.sealed.csum ∧ Burst 16 (bits exRec.zeroed) (bits r'.zeroed) ∧
    chunkAccepted exRec.sealed = true ∧ chunkAccepted r' = false := by
  refine ⟨⟨[0x41#8, 0x5E#8, 0x89#8] ++ exRec.pre.drop 3, exRec.sealed.csum, exRec.post⟩, by simp only, ?_, ?_, ?_⟩
  · refine ⟨(bits exRec.zeroed).take 11, ((bits exRec.zeroed).drop 11).take 10,
      [true, true, true, true, false, true, false, false, false, true],
      (bits exRec.zeroed).drop 21, ?_, ?_, ?_, ?_, ?_⟩ <;> decide +kernel
  · exact (C43_chunk exRec).1
  · decide +kernel

/-- A slot that was never written (all zeros) is rejected, whatever the record length: CRC registers with a
non-zero seed never become zero on zero bytes. -/
theorem zero_record_rejected (n m : Nat) :
    chunkAccepted ⟨List.replicate n 0#8, 0#16, List.replicate m 0#8⟩ = false := by
  have hz : ∀ k (r : BitVec 16), r ≠ 0#16 → crc16 r (List.replicate k 0#8) ≠ 0#16 := by
    intro k
    induction k with
    | zero => intro r h; exact h
    | succ k ih =>
      intro r h
      show crc16 (byte r 0#8) (List.replicate k 0#8) ≠ 0#16
      apply ih
      intro hb
      have : steps 8 r = 0#16 := by simpa [byte, steps] using hb
      exact h (steps_eq_zero this)
  have e : Rec.zeroed ⟨List.replicate n 0#8, 0#16, List.replicate m 0#8⟩ = List.replicate (n + 2 + m) 0#8 := by
    have : [0#8, 0#8] = List.replicate 2 0#8 := rfl
    rw [Rec.zeroed]
    simp only [this, List.replicate_append_replicate]
  simp only [chunkAccepted, e, beq_eq_false_iff_ne]
  exact hz _ _ (by decide)

/-- **C43** for vdev records, partial: the same holds for records whose checksum is not zero (and as long
as the stored checksum is not changed to zero).  Missing: the one record in 65536 with checksum zero, see
`C43_vdev_violated`. -/
theorem C43_vdev_partial (r : Rec) (h0 : r.sealed.csum ≠ 0) :
    vdevAccepted r.sealed = true ∧
    (∀ r' : Rec, r'.csum = r.sealed.csum → Burst 16 (bits r.zeroed) (bits r'.zeroed) → vdevAccepted r' = false) ∧
    (∀ c, c ≠ 0 → c ≠ r.sealed.csum → vdevAccepted { r.sealed with csum := c } = false) := by
  obtain ⟨h1, h2, h3⟩ := C43_chunk r
  refine ⟨?_, ?_, ?_⟩
  · simp only [vdevAccepted, if_pos h0]; exact h1
  · intro r' hc hb
    have : r'.csum ≠ 0 := by rw [hc]; exact h0
    simp only [vdevAccepted, if_pos this]; exact h2 r' hc hb
  · intro c hc hne
    simp only [vdevAccepted, ne_eq, hc, not_false_eq_true, if_true]
    exact h3 c hne

/-- Non-vacuity of `C43_vdev_partial`. -/
example : exRec.sealed.csum ≠ 0 := by decide +kernel

/-- A vdev record (1 GiB vdev 1 named "index", chunk size 32 MiB, block size 4096) whose owner stored private
data ending in the bytes d2 3b; its checksum is zero. -/
def zRec : Rec :=
  ⟨[0, 0, 0, 0x40, 0, 0, 0, 0,  1, 0, 0, 0,  0, 0, 0, 0,  0, 0x10, 0, 0,  1, 0, 0, 0,  0, 0, 0, 2,  0, 1, 0, 0, 0,
    0x69, 0x6e, 0x64, 0x65, 0x78] ++ List.replicate 59 0, 0,
   [1, 1, 1] ++ List.replicate 408 0 ++ [0xd2, 0x3b]⟩

/-- **C43** is violated for vdev records: `zRec` is sealed with checksum zero, and after a single flipped bit
(the vdev size becomes 1 GiB + 1 byte) the record is still accepted, because a stored checksum of zero is not
checked (device_manager.cpp:787). -/
theorem C43_vdev_violated :
    zRec.sealed.csum = 0 ∧ ∃ r' : Rec, r'.csum = zRec.sealed.csum ∧ Burst 1 (bits zRec.zeroed) (bits r'.zeroed) ∧
      vdevAccepted r' = true := by
  refine ⟨by decide +kernel, ⟨[1] ++ zRec.pre.drop 1, zRec.sealed.csum, zRec.post⟩, by simp only, ?_, ?_⟩
  · have e1 : zRec.zeroed = 0#8 :: zRec.zeroed.tail := by decide +kernel
    have e2 : Rec.zeroed ⟨[1] ++ zRec.pre.drop 1, zRec.sealed.csum, zRec.post⟩ = 1#8 :: zRec.zeroed.tail := by
      decide +kernel
    have e3 : ∀ (b : BitVec 8) l, bits (b :: l) = bitsOfByte b ++ bits l := by intro b l; simp [bits]
    rw [e2, e1, e3, e3]
    exact ⟨List.replicate 7 false, [false], [true], bits zRec.zeroed.tail,
      congrArg (· ++ bits zRec.zeroed.tail) (by decide), congrArg (· ++ bits zRec.zeroed.tail) (by decide),
      rfl, by decide, by decide⟩
  · decide +kernel

end HS.Crc
