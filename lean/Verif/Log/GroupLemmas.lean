import Verif.Log.Group
import Mathlib.Tactic.Ring

/-!
# Lemmas about the bytes of a group
-/

namespace HS.Log

theorem le_length (k x : Nat) : (le k x).length = k := by
  induction k generalizing x with
  | zero => rfl
  | succ k ih => simp [le, ih]

theorem unle_le (k x : Nat) : unle (le k x) = x % 256 ^ k := by
  induction k generalizing x with
  | zero => simp [le, unle, Nat.mod_one]
  | succ k ih =>
    simp only [le, unle, ih]
    rw [Nat.pow_succ']
    have h1 : (UInt8.ofNat (x % 256)).toNat = x % 256 := by
      simp [UInt8.toNat_ofNat']
    rw [h1, Nat.mod_mul]

theorem unle_le_lt {k x : Nat} (h : x < 256 ^ k) : unle (le k x) = x := by
  rw [unle_le, Nat.mod_eq_of_lt h]

/-- A field that starts after a prefix of known length. -/
theorem fld_at {a b c : Bytes} {off n : Nat} (ha : a.length = off) (hb : b.length = n) :
    fld (a ++ b ++ c) off n = some (unle b) := by
  unfold fld
  rw [if_pos (by simp; omega)]
  subst ha hb
  simp

theorem fld_le {a c : Bytes} {off k x : Nat} (ha : a.length = off) (hx : x < 256 ^ k) :
    fld (a ++ le k x ++ c) off k = some x := by
  rw [fld_at ha (le_length k x), unle_le_lt hx]

theorem fld_take {b : Bytes} {off n m : Nat} (h : off + n ≤ m) : fld (b.take m) off n = fld b off n := by
  unfold fld
  by_cases hb : off + n ≤ b.length
  · rw [if_pos (by simp; omega), if_pos hb, List.drop_take, List.take_take, min_eq_left (by omega)]
  · rw [if_neg (by simp; omega), if_neg hb]

theorem fld_append {b c : Bytes} {off n : Nat} (h : off + n ≤ b.length) : fld (b ++ c) off n = fld b off n := by
  unfold fld
  rw [if_pos (by simp; omega), if_pos h, List.drop_append_of_le_length (by omega), List.take_append_of_le_length (by simp; omega)]

theorem slice_append {b c : Bytes} {off n : Nat} (h : off + n ≤ b.length) : slice (b ++ c) off n = slice b off n := by
  unfold slice
  rw [if_pos (by simp; omega), if_pos h, List.drop_append_of_le_length (by omega), List.take_append_of_le_length (by simp; omega)]

theorem slice_take {b : Bytes} {off n m : Nat} (h : off + n ≤ m) : slice (b.take m) off n = slice b off n := by
  unfold slice
  by_cases hb : off + n ≤ b.length
  · rw [if_pos (by simp; omega), if_pos hb, List.drop_take, List.take_take, min_eq_left (by omega)]
  · rw [if_neg (by simp; omega), if_neg hb]

theorem slice_at {a b c : Bytes} {off n : Nat} (ha : a.length = off) (hb : b.length = n) :
    slice (a ++ b ++ c) off n = .ok b := by
  unfold slice
  rw [if_pos (by simp; omega)]
  subst ha hb
  simp

/-- The values that fit their fields. -/
structure Hdr.Fits (h : Hdr) : Prop where
  magic : h.magic < 256 ^ 4
  version : h.version < 256 ^ 4
  nrec : h.nrec < 256 ^ 4
  startIdx : h.startIdx < 256 ^ 8
  groupSize : h.groupSize < 256 ^ 4
  inlineOff : h.inlineOff < 256 ^ 4
  oobOff : h.oobOff < 256 ^ 4
  footOff : h.footOff < 256 ^ 4
  prevCrc : h.prevCrc < 256 ^ 4
  curCrc : h.curCrc < 256 ^ 4
  logdev : h.logdev < 256 ^ 4

theorem Hdr.enc_length (h : Hdr) : h.enc.length = hdrSize := by
  simp [Hdr.enc, le_length, hdrSize]

theorem Hdr.dec_enc {h : Hdr} (hf : h.Fits) (c : Bytes) : Hdr.dec (h.enc ++ c) = some h := by
  have f1 : fld (h.enc ++ c) 0 4 = some h.magic := by
    have := fld_le (a := []) (c := le 4 h.version ++ le 4 h.nrec ++ le 8 h.startIdx ++ le 4 h.groupSize ++ le 4 h.inlineOff ++
      le 4 h.oobOff ++ le 4 h.footOff ++ le 4 h.prevCrc ++ le 4 h.curCrc ++ le 4 h.logdev ++ c) (off := 0) rfl hf.magic
    simpa [Hdr.enc, List.append_assoc] using this
  have f2 : fld (h.enc ++ c) 4 4 = some h.version := by
    have := fld_le (a := le 4 h.magic) (c := le 4 h.nrec ++ le 8 h.startIdx ++ le 4 h.groupSize ++ le 4 h.inlineOff ++
      le 4 h.oobOff ++ le 4 h.footOff ++ le 4 h.prevCrc ++ le 4 h.curCrc ++ le 4 h.logdev ++ c) (off := 4)
      (by simp [le_length]) hf.version
    simpa [Hdr.enc, List.append_assoc] using this
  have f3 : fld (h.enc ++ c) 8 4 = some h.nrec := by
    have := fld_le (a := le 4 h.magic ++ le 4 h.version) (c := le 8 h.startIdx ++ le 4 h.groupSize ++ le 4 h.inlineOff ++
      le 4 h.oobOff ++ le 4 h.footOff ++ le 4 h.prevCrc ++ le 4 h.curCrc ++ le 4 h.logdev ++ c) (off := 8)
      (by simp [le_length]) hf.nrec
    simpa [Hdr.enc, List.append_assoc] using this
  have f4 : fld (h.enc ++ c) 12 8 = some h.startIdx := by
    have := fld_le (a := le 4 h.magic ++ le 4 h.version ++ le 4 h.nrec) (c := le 4 h.groupSize ++ le 4 h.inlineOff ++
      le 4 h.oobOff ++ le 4 h.footOff ++ le 4 h.prevCrc ++ le 4 h.curCrc ++ le 4 h.logdev ++ c) (off := 12)
      (by simp [le_length]) hf.startIdx
    simpa [Hdr.enc, List.append_assoc] using this
  have f5 : fld (h.enc ++ c) 20 4 = some h.groupSize := by
    have := fld_le (a := le 4 h.magic ++ le 4 h.version ++ le 4 h.nrec ++ le 8 h.startIdx) (c := le 4 h.inlineOff ++
      le 4 h.oobOff ++ le 4 h.footOff ++ le 4 h.prevCrc ++ le 4 h.curCrc ++ le 4 h.logdev ++ c) (off := 20)
      (by simp [le_length]) hf.groupSize
    simpa [Hdr.enc, List.append_assoc] using this
  have f6 : fld (h.enc ++ c) 24 4 = some h.inlineOff := by
    have := fld_le (a := le 4 h.magic ++ le 4 h.version ++ le 4 h.nrec ++ le 8 h.startIdx ++ le 4 h.groupSize) (c :=
      le 4 h.oobOff ++ le 4 h.footOff ++ le 4 h.prevCrc ++ le 4 h.curCrc ++ le 4 h.logdev ++ c) (off := 24)
      (by simp [le_length]) hf.inlineOff
    simpa [Hdr.enc, List.append_assoc] using this
  have f7 : fld (h.enc ++ c) 28 4 = some h.oobOff := by
    have := fld_le (a := le 4 h.magic ++ le 4 h.version ++ le 4 h.nrec ++ le 8 h.startIdx ++ le 4 h.groupSize ++
      le 4 h.inlineOff) (c := le 4 h.footOff ++ le 4 h.prevCrc ++ le 4 h.curCrc ++ le 4 h.logdev ++ c) (off := 28)
      (by simp [le_length]) hf.oobOff
    simpa [Hdr.enc, List.append_assoc] using this
  have f8 : fld (h.enc ++ c) 32 4 = some h.footOff := by
    have := fld_le (a := le 4 h.magic ++ le 4 h.version ++ le 4 h.nrec ++ le 8 h.startIdx ++ le 4 h.groupSize ++
      le 4 h.inlineOff ++ le 4 h.oobOff) (c := le 4 h.prevCrc ++ le 4 h.curCrc ++ le 4 h.logdev ++ c) (off := 32)
      (by simp [le_length]) hf.footOff
    simpa [Hdr.enc, List.append_assoc] using this
  have f9 : fld (h.enc ++ c) 36 4 = some h.prevCrc := by
    have := fld_le (a := le 4 h.magic ++ le 4 h.version ++ le 4 h.nrec ++ le 8 h.startIdx ++ le 4 h.groupSize ++
      le 4 h.inlineOff ++ le 4 h.oobOff ++ le 4 h.footOff) (c := le 4 h.curCrc ++ le 4 h.logdev ++ c) (off := 36)
      (by simp [le_length]) hf.prevCrc
    simpa [Hdr.enc, List.append_assoc] using this
  have f10 : fld (h.enc ++ c) 40 4 = some h.curCrc := by
    have := fld_le (a := le 4 h.magic ++ le 4 h.version ++ le 4 h.nrec ++ le 8 h.startIdx ++ le 4 h.groupSize ++
      le 4 h.inlineOff ++ le 4 h.oobOff ++ le 4 h.footOff ++ le 4 h.prevCrc) (c := le 4 h.logdev ++ c) (off := 40)
      (by simp [le_length]) hf.curCrc
    simpa [Hdr.enc, List.append_assoc] using this
  have f11 : fld (h.enc ++ c) 44 4 = some h.logdev := by
    have := fld_le (a := le 4 h.magic ++ le 4 h.version ++ le 4 h.nrec ++ le 8 h.startIdx ++ le 4 h.groupSize ++
      le 4 h.inlineOff ++ le 4 h.oobOff ++ le 4 h.footOff ++ le 4 h.prevCrc ++ le 4 h.curCrc) (c := c) (off := 44)
      (by simp [le_length]) hf.logdev
    simpa [Hdr.enc, List.append_assoc] using this
  unfold Hdr.dec
  rw [f1, f2, f3, f4, f5, f6, f7, f8, f9, f10, f11]
  rfl

theorem Hdr.dec_take {b : Bytes} {m : Nat} (h : hdrSize ≤ m) : Hdr.dec (b.take m) = Hdr.dec b := by
  unfold hdrSize at h
  unfold Hdr.dec
  rw [fld_take (by omega), fld_take (by omega), fld_take (by omega), fld_take (by omega), fld_take (by omega),
    fld_take (by omega), fld_take (by omega), fld_take (by omega), fld_take (by omega), fld_take (by omega),
    fld_take (by omega)]

theorem Slot.enc_length (s : Slot) : s.enc.length = slotSize := by
  simp [Slot.enc, le_length, slotSize]

structure Slot.Fits (s : Slot) : Prop where
  size : s.size < 256 ^ 4
  offset : s.offset < 2 ^ 31
  seq : s.seq < 256 ^ 8
  store : s.store < 256 ^ 4

theorem flatten_enc_length (l : List Slot) : ((l.map Slot.enc).flatten).length = slotSize * l.length := by
  induction l with
  | nil => rfl
  | cons s l ih =>
    simp only [List.map_cons, List.flatten_cons, List.length_append, List.length_cons, ih, Slot.enc_length]
    rw [Nat.mul_succ, Nat.add_comm]

theorem Slot.dec_enc {pre post : List Slot} {s : Slot} (hs : s.Fits) {h c : Bytes} (hh : h.length = hdrSize) :
    Slot.dec (h ++ ((pre ++ s :: post).map Slot.enc).flatten ++ c) pre.length = some s := by
  have hb : ∃ p q : Bytes, p.length = hdrSize + slotSize * pre.length ∧
      h ++ ((pre ++ s :: post).map Slot.enc).flatten ++ c = p ++ s.enc ++ q := by
    refine ⟨h ++ (pre.map Slot.enc).flatten, (post.map Slot.enc).flatten ++ c, ?_, ?_⟩
    · simp only [List.length_append]
      rw [flatten_enc_length, hh]
    · simp [List.append_assoc]
  obtain ⟨p, q, hp, he⟩ := hb
  rw [he]
  have g1 : fld (p ++ s.enc ++ q) (hdrSize + slotSize * pre.length) 4 = some s.size := by
    have := fld_le (a := p) (c := le 4 (s.offset % 2 ^ 31 + if s.inlined then 2 ^ 31 else 0) ++ le 8 s.seq ++ le 4 s.store ++ q)
      hp hs.size
    simpa [Slot.enc, List.append_assoc] using this
  have hw : s.offset % 2 ^ 31 + (if s.inlined then 2 ^ 31 else 0) < 256 ^ 4 := by
    have := Nat.mod_lt s.offset (show 0 < 2 ^ 31 by decide)
    have e : (256 : Nat) ^ 4 = 2 ^ 31 + 2 ^ 31 := by decide
    rw [e]
    split <;> omega
  have g2 : fld (p ++ s.enc ++ q) (hdrSize + slotSize * pre.length + 4) 4 =
      some (s.offset % 2 ^ 31 + if s.inlined then 2 ^ 31 else 0) := by
    have := fld_le (a := p ++ le 4 s.size) (c := le 8 s.seq ++ le 4 s.store ++ q)
      (off := hdrSize + slotSize * pre.length + 4) (by simp [le_length, hp]) hw
    simpa [Slot.enc, List.append_assoc] using this
  have g3 : fld (p ++ s.enc ++ q) (hdrSize + slotSize * pre.length + 8) 8 = some s.seq := by
    have := fld_le (a := p ++ le 4 s.size ++ le 4 (s.offset % 2 ^ 31 + if s.inlined then 2 ^ 31 else 0))
      (c := le 4 s.store ++ q) (off := hdrSize + slotSize * pre.length + 8) (by simp [le_length, hp]) hs.seq
    simpa [Slot.enc, List.append_assoc] using this
  have g4 : fld (p ++ s.enc ++ q) (hdrSize + slotSize * pre.length + 16) 4 = some s.store := by
    have := fld_le (a := p ++ le 4 s.size ++ le 4 (s.offset % 2 ^ 31 + if s.inlined then 2 ^ 31 else 0) ++ le 8 s.seq)
      (c := q) (off := hdrSize + slotSize * pre.length + 16) (by simp [le_length, hp]) hs.store
    simpa [Slot.enc, List.append_assoc] using this
  unfold Slot.dec
  simp only [g1, g2, g3, g4]
  have hm : s.offset % 2 ^ 31 = s.offset := Nat.mod_eq_of_lt hs.offset
  obtain ⟨sz, off, inl, sq, st⟩ := s
  simp only [Option.bind_eq_bind, Option.bind_some, Option.pure_def, Option.some.injEq, Slot.mk.injEq, true_and, and_true]
  simp only at hm
  have ho := hs.offset
  simp only at ho
  rw [hm]
  cases inl
  · simp only [Bool.false_eq_true, if_false, Nat.add_zero, decide_eq_false_iff_not]
    exact ⟨hm, by omega⟩
  · simp only [if_true, decide_eq_true_eq]
    constructor <;> omega

theorem Slot.dec_take {b : Bytes} {m n : Nat} (h : hdrSize + slotSize * n + slotSize ≤ m) :
    Slot.dec (b.take m) n = Slot.dec b n := by
  unfold slotSize hdrSize at *
  unfold Slot.dec
  simp only [hdrSize, slotSize]
  rw [fld_take (by omega), fld_take (by omega), fld_take (by omega), fld_take (by omega)]

theorem junk_length (J : Nat → UInt8) (a n : Nat) : (junk J a n).length = n := by simp [junk]

theorem le_roundUp {x m : Nat} (hm : 0 < m) : x ≤ roundUp x m := by
  unfold roundUp
  have := Nat.div_add_mod (x + m - 1) m
  have h2 := Nat.mod_lt (x + m - 1) hm
  rw [Nat.mul_comm] at this
  omega

theorem roundUp_dvd (x m : Nat) : m ∣ roundUp x m := Dvd.intro_left _ rfl

theorem roundUp_le {x y m : Nat} (hm : 0 < m) (hxy : x ≤ y) (hy : m ∣ y) : roundUp x m ≤ y := by
  obtain ⟨k, rfl⟩ := hy
  unfold roundUp
  rw [Nat.mul_comm m k]
  refine Nat.mul_le_mul_right m ?_
  rw [← Nat.lt_succ_iff, Nat.div_lt_iff_lt_mul hm, Nat.succ_mul, Nat.mul_comm k m]
  omega

end HS.Log
