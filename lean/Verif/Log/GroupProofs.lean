import Verif.Log.GroupLemmas

/-!
# What `add_record` and `finish` build, and that every record of it is read back
-/

namespace HS.Log

variable {fm opt : Nat}

/-- The slot of `r` in a group whose first inline position is `p0` and that holds the inline bytes `inl` and the
out-of-band bytes `oob`. -/
def SlotOk (fm opt p0 : Nat) (inl oob : Bytes) (s : Slot) (r : Rec) : Prop :=
  s.size = r.data.length ∧ s.store = r.store ∧ s.seq = r.seq ∧ s.inlined = r.inlineable fm opt ∧
  ∃ p q : Bytes, (if r.inlineable fm opt then inl else oob) = p ++ r.data ++ q ∧
    s.offset = p.length + if r.inlineable fm opt then p0 else 0

theorem SlotOk.grow {p0 : Nat} {inl oob x y : Bytes} {s : Slot} {r : Rec} (h : SlotOk fm opt p0 inl oob s r) :
    SlotOk fm opt p0 (inl ++ x) (oob ++ y) s r := by
  obtain ⟨h1, h2, h3, h4, p, q, h5, h6⟩ := h
  refine ⟨h1, h2, h3, h4, p, q ++ (if r.inlineable fm opt then x else y), ?_, h6⟩
  by_cases hr : r.inlineable fm opt = true
  · simp only [hr, if_true] at h5 ⊢
    rw [h5]
    simp
  · simp only [hr] at h5 ⊢
    simp only [Bool.false_eq_true, if_false] at h5 ⊢
    rw [h5]
    simp

def dataLen (rs : List Rec) : Nat := (rs.map (fun r => r.data.length)).sum

/-- The state after the records `done` were added. -/
structure LG.Inv (fm opt est idx : Nat) (done : List Rec) (g : LG) : Prop where
  pos0 : g.inlinePos0 = hdrSize + slotSize * est
  pos : g.inlinePos = g.inlinePos0 + g.inl.length
  oob : g.oobPos = g.oob.length
  maxRec : g.maxRec = min est maxBatch
  len : g.slots.length = done.length
  lenMax : done.length ≤ g.maxRec
  buf : fm ∣ g.bufLen
  bufMin : inlineBuf ≤ g.bufLen
  started : done ≠ [] → g.inlinePos ≤ g.bufLen ∧ g.startIdx = idx
  total : g.inl.length + g.oob.length = dataLen done
  mul : fm ∣ g.oob.length
  slot : ∀ (i : Nat) s r, g.slots[i]? = some s → done[i]? = some r → SlotOk fm opt g.inlinePos0 g.inl g.oob s r

theorem LG.reset_inv (hfm : 0 < fm) (est idx : Nat) : LG.Inv fm opt est idx [] (LG.reset fm est) where
  pos0 := rfl
  pos := by simp [LG.reset]
  oob := rfl
  maxRec := rfl
  len := rfl
  lenMax := by simp
  buf := roundUp_dvd _ _
  bufMin := le_roundUp hfm
  started := fun h => absurd rfl h
  total := rfl
  mul := by simp [LG.reset]
  slot := by intro i s r h; simp [LG.reset] at h

theorem getElem?_snoc {α : Type _} {l : List α} {x y : α} {i : Nat} (h : (l ++ [x])[i]? = some y) :
    l[i]? = some y ∨ i = l.length ∧ x = y := by
  rcases Nat.lt_trichotomy i l.length with h1 | h1 | h1
  · rw [List.getElem?_append_left h1] at h; exact Or.inl h
  · subst h1; simp at h; exact Or.inr ⟨rfl, h⟩
  · rw [List.getElem?_eq_none (by simp; omega)] at h; cases h

theorem dataLen_snoc (l : List Rec) (r : Rec) : dataLen (l ++ [r]) = dataLen l + r.data.length := by
  simp [dataLen]

theorem LG.place_inv {est idx : Nat} {done : List Rec} {g : LG} (h : LG.Inv fm opt est idx done g) (r : Rec)
    (hroom : g.inlinePos + r.data.length ≤ g.bufLen) (hmax : g.slots.length < g.maxRec) :
    ∃ g', g.place fm opt r (idx + done.length) = .ok g' ∧ LG.Inv fm opt est idx (done ++ [r]) g' := by
  have hl : g.slots.length = done.length := h.len
  have hm := h.maxRec
  have hm1 : g.maxRec ≤ maxBatch := by rw [hm]; exact Nat.min_le_right _ _
  have hmb : maxBatch = 202 := by decide
  have hb := h.bufMin
  have hib : inlineBuf = 8192 := by decide
  have c1 : ¬ g.bufLen < hdrSize + slotSize * (g.slots.length + 1) := by
    unfold hdrSize slotSize; omega
  have st : (if g.slots.length = 0 then idx + done.length else g.startIdx) = idx := by
    by_cases hz : g.slots.length = 0
    · rw [if_pos hz]; omega
    · rw [if_neg hz]
      exact (h.started (by intro hd; rw [hd] at hl; exact hz hl)).2
  unfold LG.place
  rw [if_neg c1]
  by_cases hr : r.inlineable fm opt = true
  · simp only [hr, if_true]
    rw [if_neg (by omega)]
    refine ⟨_, rfl, ?_⟩
    refine ⟨h.pos0, ?_, h.oob, h.maxRec, ?_, ?_, h.buf, h.bufMin, ?_, ?_, h.mul, ?_⟩
    · show g.inlinePos + r.data.length = g.inlinePos0 + (g.inl ++ r.data).length
      rw [h.pos, List.length_append]; omega
    · simp [hl]
    · show (done ++ [r]).length ≤ g.maxRec
      simp; omega
    · intro _
      exact ⟨hroom, st⟩
    · show (g.inl ++ r.data).length + g.oob.length = _
      rw [dataLen_snoc, List.length_append, ← h.total]; omega
    · intro i s r' hs hr'
      show SlotOk fm opt g.inlinePos0 (g.inl ++ r.data) g.oob s r'
      rcases getElem?_snoc hs with h1 | ⟨h1, h2⟩
      · rcases getElem?_snoc hr' with h3 | ⟨h3, h4⟩
        · have := (h.slot i s r' h1 h3).grow (x := r.data) (y := [])
          rwa [List.append_nil] at this
        · rw [List.getElem?_eq_none (by omega)] at h1; cases h1
      · rcases getElem?_snoc hr' with h3 | ⟨h3, h4⟩
        · rw [List.getElem?_eq_none (by omega)] at h3; cases h3
        · subst h2 h4
          refine ⟨rfl, rfl, rfl, rfl, g.inl, [], ?_, ?_⟩
          · simp [hr]
          · simp only [LG.slotFor, hr, if_true]
            rw [h.pos]; omega
  · simp only [hr]
    simp only [Bool.false_eq_true, if_false]
    refine ⟨_, rfl, ?_⟩
    refine ⟨h.pos0, h.pos, ?_, h.maxRec, ?_, ?_, h.buf, h.bufMin, ?_, ?_, ?_, ?_⟩
    · show g.oobPos + r.data.length = (g.oob ++ r.data).length
      rw [h.oob, List.length_append]
    · simp [hl]
    · show (done ++ [r]).length ≤ g.maxRec
      simp; omega
    · intro _
      exact ⟨by show g.inlinePos ≤ g.bufLen; omega, st⟩
    · show g.inl.length + (g.oob ++ r.data).length = _
      rw [dataLen_snoc, List.length_append, ← h.total]; omega
    · show fm ∣ (g.oob ++ r.data).length
      rw [List.length_append]
      refine Nat.dvd_add h.mul (Nat.dvd_of_mod_eq_zero ?_)
      unfold Rec.inlineable at hr
      simp only [Bool.or_eq_true, decide_eq_true_eq, not_or, not_not] at hr
      exact hr.1.2
    · intro i s r' hs hr'
      show SlotOk fm opt g.inlinePos0 g.inl (g.oob ++ r.data) s r'
      rcases getElem?_snoc hs with h1 | ⟨h1, h2⟩
      · rcases getElem?_snoc hr' with h3 | ⟨h3, h4⟩
        · have := (h.slot i s r' h1 h3).grow (x := []) (y := r.data)
          rwa [List.append_nil] at this
        · rw [List.getElem?_eq_none (by omega)] at h1; cases h1
      · rcases getElem?_snoc hr' with h3 | ⟨h3, h4⟩
        · rw [List.getElem?_eq_none (by omega)] at h3; cases h3
        · subst h2 h4
          refine ⟨rfl, rfl, rfl, rfl, g.oob, [], ?_, ?_⟩
          · simp [hr]
          · simp only [LG.slotFor, hr]
            simp only [Bool.false_eq_true, if_false, Nat.add_zero]
            exact h.oob

theorem LG.add_inv (hfm : 0 < fm) {est idx : Nat} {done : List Rec} {g : LG} (h : LG.Inv fm opt est idx done g)
    (r : Rec) :
    (g.maxRec ≤ done.length ∧ g.add fm opt r (idx + done.length) = .ok none) ∨
    (done.length < g.maxRec ∧ ∃ g', g.add fm opt r (idx + done.length) = .ok (some g') ∧
      LG.Inv fm opt est idx (done ++ [r]) g') := by
  have hl := h.len
  unfold LG.add
  by_cases hm : g.maxRec ≤ g.slots.length
  · left
    exact ⟨by omega, by rw [if_pos hm]⟩
  right
  refine ⟨by omega, ?_⟩
  rw [if_neg hm]
  by_cases hb : g.bufLen ≤ g.inlinePos + r.data.length
  · simp only [if_pos hb]
    have hge : g.inlinePos + r.data.length ≤ (g.overflow fm (g.inlinePos + r.data.length)).bufLen := by
      refine Nat.le_trans (Nat.le_max_left _ (g.bufLen * 2)) (le_roundUp hfm)
    have hge2 : g.bufLen ≤ (g.overflow fm (g.inlinePos + r.data.length)).bufLen := Nat.le_trans hb hge
    have hi : LG.Inv fm opt est idx done (g.overflow fm (g.inlinePos + r.data.length)) := by
      refine ⟨h.pos0, h.pos, h.oob, h.maxRec, h.len, h.lenMax, roundUp_dvd _ _, Nat.le_trans h.bufMin hge2, ?_, h.total,
        h.mul, h.slot⟩
      intro hd
      exact ⟨Nat.le_trans (h.started hd).1 hge2, (h.started hd).2⟩
    obtain ⟨g', e, hg⟩ := LG.place_inv hi r hge (by show g.slots.length < g.maxRec; omega)
    exact ⟨g', by rw [e]; rfl, hg⟩
  · simp only [if_neg hb]
    obtain ⟨g', e, hg⟩ := LG.place_inv h r (by omega) (by omega)
    exact ⟨g', by rw [e]; rfl, hg⟩

theorem LG.addAll_inv (hfm : 0 < fm) {est idx : Nat} (rs : List Rec) : ∀ {done : List Rec} {g : LG},
    LG.Inv fm opt est idx done g →
    ∃ g', g.addAll fm opt rs (idx + done.length) = .ok g' ∧
      LG.Inv fm opt est idx (done ++ rs.take (min est maxBatch - done.length)) g' := by
  induction rs with
  | nil =>
    intro done g h
    exact ⟨g, rfl, by simpa using h⟩
  | cons r rs ih =>
    intro done g h
    have hm := h.maxRec
    unfold LG.addAll
    rcases LG.add_inv hfm h r with ⟨h1, e⟩ | ⟨h1, g', e, hg⟩
    · rw [e]
      refine ⟨g, rfl, ?_⟩
      rw [show min est maxBatch - done.length = 0 by omega]
      simpa using h
    · rw [e]
      obtain ⟨g2, e2, h2⟩ := ih hg
      refine ⟨g2, ?_, ?_⟩
      · rw [← e2]
        simp [Nat.add_assoc]
      · rw [show min est maxBatch - done.length = (min est maxBatch - (done ++ [r]).length) + 1 by simp; omega]
        rw [List.take_succ_cons]
        simpa using h2

/-- `b` is one complete group with header `h` that holds the records `rs`: what the readers of a group rely on. -/
structure Encodes (fm : Nat) (crc : Bytes → UInt32) (b : Bytes) (h : Hdr) (rs : List Rec) : Prop where
  dec : Hdr.dec b = some h
  magic : h.magic = hdrMagic
  version : h.version = 0
  nrec : h.nrec = rs.length
  size : h.groupSize = b.length
  mult : fm ∣ b.length
  curCrc : h.curCrc = (crc (b.drop hdrSize)).toNat
  footIn : h.footOff + footSize ≤ b.length
  footMagic : fld b h.footOff 3 = some footMagic
  footVersion : fld b (h.footOff + 3) 1 = some 0
  footIdx : fld b (h.footOff + 4) 8 = some h.startIdx
  slots : hdrSize + slotSize * rs.length ≤ b.length
  recs : ∀ (i : Nat) r, rs[i]? = some r → ∃ s, Slot.dec b i = some s ∧ s.size = r.data.length ∧ s.store = r.store ∧
    s.seq = r.seq ∧ slice b (s.offset + if s.inlined then 0 else h.oobOff) s.size = .ok r.data

theorem list_split {α : Type _} {l : List α} {i : Nat} {x : α} (h : l[i]? = some x) :
    l = l.take i ++ x :: l.drop (i + 1) ∧ (l.take i).length = i := by
  have hi : i < l.length := by
    rcases Nat.lt_or_ge i l.length with h1 | h1
    · exact h1
    · rw [List.getElem?_eq_none h1] at h; cases h
  constructor
  · rw [List.getElem?_eq_getElem hi] at h
    injection h with h
    rw [← h, List.getElem_cons_drop, List.take_append_drop]
  · simp; omega

/-- The records fit the on-disk fields. -/
structure Rec.Fits (r : Rec) : Prop where
  seq : r.seq < 256 ^ 8
  store : r.store < 256 ^ 4

theorem footEnc_length (x : Nat) {pad : Bytes} (h : pad.length = 12) : (footEnc x pad).length = footSize := by
  simp [footEnc, le_length, h, footSize]

theorem foot_fields {a c pad : Bytes} {x off : Nat} (ha : a.length = off) (hx : x < 256 ^ 8) (hp : pad.length = 12) :
    fld (a ++ footEnc x pad ++ c) off 3 = some footMagic ∧ fld (a ++ footEnc x pad ++ c) (off + 3) 1 = some 0 ∧
    fld (a ++ footEnc x pad ++ c) (off + 4) 8 = some x := by
  refine ⟨?_, ?_, ?_⟩
  · have := fld_le (a := a) (c := le 1 0 ++ le 8 x ++ pad ++ c) ha (show footMagic < 256 ^ 3 by decide)
    simpa [footEnc, List.append_assoc] using this
  · have := fld_le (a := a ++ le 3 footMagic) (c := le 8 x ++ pad ++ c) (off := off + 3) (by simp [le_length, ha])
      (show 0 < 256 ^ 1 by decide)
    simpa [footEnc, List.append_assoc] using this
  · have := fld_le (a := a ++ le 3 footMagic ++ le 1 0) (c := pad ++ c) (off := off + 4) (by simp [le_length, ha]) hx
    simpa [footEnc, List.append_assoc] using this

theorem LG.slots_le {est idx : Nat} {done : List Rec} {g : LG} (h : LG.Inv fm opt est idx done g) :
    done.length ≤ est := by
  have := h.lenMax
  rw [h.maxRec] at this
  exact Nat.le_trans this (Nat.min_le_left _ _)

theorem LG.len0_bounds (hfm : 0 < fm) {est idx : Nat} {done : List Rec} {g : LG}
    (h : LG.Inv fm opt est idx done g) (hd : done ≠ []) :
    g.inlinePos + (if g.newFoot then 0 else footSize) ≤ g.len0 fm ∧ g.len0 fm ≤ g.bufLen ∧
    g.len0 fm < g.inlinePos + footSize + fm := by
  refine ⟨le_roundUp hfm, roundUp_le hfm ?_ h.buf, ?_⟩
  · by_cases hn : g.newFoot = true
    · rw [if_pos hn]; exact (h.started hd).1
    · rw [if_neg hn]
      unfold LG.newFoot at hn
      simp only [Bool.or_eq_true, decide_eq_true_eq, not_or] at hn
      omega
  · unfold LG.len0 roundUp
    have := Nat.div_mul_le_self (g.inlinePos + (if g.newFoot then 0 else footSize) + fm - 1) fm
    have h2 : (if g.newFoot = true then 0 else footSize) ≤ footSize := by split <;> omega
    omega

/-- `finish` on a non-empty group: no access outside the buffers, and the bytes are one complete group. -/
theorem LG.finish_ok (hfm : 0 < fm) {est idx : Nat} {done : List Rec} {g : LG} (h : LG.Inv fm opt est idx done g)
    (hd : done ≠ []) (crc : Bytes → UInt32) {logdev prevCrc : Nat} (J : Nat → UInt8)
    (hfit : ∀ r ∈ done, r.Fits) (hidx : idx < 256 ^ 8) (hld : logdev < 256 ^ 4) (hpc : prevCrc < 256 ^ 4)
    (hsz : hdrSize + slotSize * est + dataLen done + 2 * footSize + 2 * fm < 2 ^ 31) :
    ∃ b hd, g.finish fm crc logdev prevCrc J = .ok b ∧ Encodes fm crc b hd done ∧ hd.startIdx = idx ∧
      hd.prevCrc = prevCrc ∧ hd.logdev = logdev := by
  obtain ⟨hb1, hb2, hb3⟩ := LG.len0_bounds hfm h hd
  have hst := (h.started hd).2
  have hse := LG.slots_le h
  have hl := h.len
  have hpos0 := h.pos0
  have hpos := h.pos
  have hoobl := h.oob
  have htot := h.total
  have hsl := flatten_enc_length g.slots
  have hgapn : hdrSize + slotSize * g.slots.length ≤ g.inlinePos0 := by
    rw [hpos0, hl]
    exact Nat.add_le_add_left (Nat.mul_le_mul_left _ hse) _
  have hru : footSize ≤ roundUp footSize fm := le_roundUp hfm
  have hru2 : roundUp footSize fm < footSize + fm := by
    unfold roundUp
    have := Nat.div_mul_le_self (footSize + fm - 1) fm
    omega
  have hdvd0 : fm ∣ g.len0 fm := roundUp_dvd _ _
  have hslots : slotSize * done.length ≤ slotSize * est := Nat.mul_le_mul_left _ hse
  have hfs : footSize = 24 := rfl
  have hhs : hdrSize = 48 := rfl
  have hss : slotSize = 20 := rfl
  -- the shape of the bytes: up to the end of the inline data they are the same in both cases
  obtain ⟨H, hH⟩ : ∃ H : Hdr, H =
      { magic := hdrMagic, version := 0, nrec := g.slots.length, startIdx := g.startIdx,
        groupSize := if g.newFoot then g.len0 fm + g.oobPos + roundUp footSize fm else g.len0 fm,
        inlineOff := hdrSize + g.maxRec * slotSize, oobOff := g.len0 fm,
        footOff := if g.newFoot then g.len0 fm + g.oobPos else g.inlinePos,
        prevCrc := prevCrc, curCrc := (crc (g.body fm J)).toNat, logdev := logdev } := ⟨_, rfl⟩
  have e256 : (256 : Nat) ^ 4 = 2 * 2 ^ 31 := by decide
  have a1 : slotSize * est = 20 * est := rfl
  have a2 : slotSize * done.length = 20 * done.length := rfl
  have a3 : g.maxRec * slotSize = g.maxRec * 20 := rfl
  have hmr : g.maxRec ≤ est := by rw [h.maxRec]; exact Nat.min_le_left _ _
  have hHfit : H.Fits := by
    subst hH
    refine ⟨show hdrMagic < 256 ^ 4 by decide, show 0 < 256 ^ 4 by decide, ?_, ?_, ?_, ?_, ?_, ?_, hpc, ?_, hld⟩
    · show g.slots.length < _
      omega
    · show g.startIdx < _
      rw [hst]; exact hidx
    · show (if g.newFoot then g.len0 fm + g.oobPos + roundUp footSize fm else g.len0 fm) < _
      split <;> omega
    · show hdrSize + g.maxRec * slotSize < _
      omega
    · show g.len0 fm < _
      omega
    · show (if g.newFoot then g.len0 fm + g.oobPos else g.inlinePos) < _
      split <;> omega
    · show (crc (g.body fm J)).toNat < _
      exact UInt32.toNat_lt _
  have hHl := H.enc_length
  have hfin : g.finish fm crc logdev prevCrc J = .ok (H.enc ++ g.body fm J) := by
    unfold LG.finish
    rw [if_neg (by omega)]
    subst hH
    rfl
  -- the body as `slots ++ gap ++ inl ++ tail`
  obtain ⟨gap, hgap⟩ : ∃ x, x = junk J (hdrSize + ((g.slots.map Slot.enc).flatten).length)
      (g.inlinePos0 - (hdrSize + ((g.slots.map Slot.enc).flatten).length)) := ⟨_, rfl⟩
  have hgapl : gap.length = g.inlinePos0 - (hdrSize + slotSize * g.slots.length) := by
    rw [hgap, junk_length, hsl]
  obtain ⟨pre, hpre⟩ : ∃ x, x = H.enc ++ (g.slots.map Slot.enc).flatten ++ gap := ⟨_, rfl⟩
  have hprel : pre.length = g.inlinePos0 := by
    rw [hpre]
    simp only [List.length_append]
    rw [hHl, hsl, hgapl]; omega
  -- the two shapes
  obtain ⟨tail, htail, hfootLen, hfootParts, hoobParts⟩ : ∃ tail : Bytes, H.enc ++ g.body fm J = pre ++ g.inl ++ tail ∧
      (pre ++ g.inl ++ tail).length = H.groupSize ∧
      (∃ a pad c : Bytes, pre ++ g.inl ++ tail = a ++ footEnc g.startIdx pad ++ c ∧ a.length = H.footOff ∧
        pad.length = 12) ∧
      (g.oobPos ≠ 0 → ∃ a c : Bytes, pre ++ g.inl ++ tail = a ++ g.oob ++ c ∧ a.length = H.oobOff) := by
    by_cases hn : g.newFoot = true
    · obtain ⟨j1, hj1⟩ : ∃ x, x = junk J g.inlinePos (g.len0 fm - g.inlinePos) := ⟨_, rfl⟩
      obtain ⟨pad, hpad⟩ : ∃ x, x = junk J (g.len0 fm + g.oobPos + 12) 12 := ⟨_, rfl⟩
      obtain ⟨j2, hj2⟩ : ∃ x, x = junk J (g.len0 fm + g.oobPos + footSize) (roundUp footSize fm - footSize) := ⟨_, rfl⟩
      have l1 : j1.length = g.len0 fm - g.inlinePos := by rw [hj1, junk_length]
      have l2 : pad.length = 12 := by rw [hpad, junk_length]
      have l3 : j2.length = roundUp footSize fm - footSize := by rw [hj2, junk_length]
      have lf := footEnc_length g.startIdx l2
      rw [if_pos hn] at hb1
      refine ⟨j1 ++ g.oob ++ footEnc g.startIdx pad ++ j2, ?_, ?_, ?_, ?_⟩
      · unfold LG.body
        rw [if_pos hn, hpre, hgap, hj1, hpad, hj2]
        simp only [List.append_assoc]
      · rw [hH]
        simp only [List.length_append, if_pos hn]
        rw [hprel, l1, lf, l3]; omega
      · refine ⟨pre ++ g.inl ++ j1 ++ g.oob, pad, j2, by simp only [List.append_assoc], ?_, l2⟩
        rw [hH]
        simp only [List.length_append, if_pos hn]
        rw [hprel, l1]; omega
      · intro _
        refine ⟨pre ++ g.inl ++ j1, footEnc g.startIdx pad ++ j2, by simp only [List.append_assoc], ?_⟩
        rw [hH]
        simp only [List.length_append]
        rw [hprel, l1]; omega
    · obtain ⟨pad, hpad⟩ : ∃ x, x = junk J (g.inlinePos + 12) 12 := ⟨_, rfl⟩
      obtain ⟨j2, hj2⟩ : ∃ x, x = junk J (g.inlinePos + footSize) (g.len0 fm - (g.inlinePos + footSize)) := ⟨_, rfl⟩
      have l2 : pad.length = 12 := by rw [hpad, junk_length]
      have l3 : j2.length = g.len0 fm - (g.inlinePos + footSize) := by rw [hj2, junk_length]
      have lf := footEnc_length g.startIdx l2
      rw [if_neg hn] at hb1
      refine ⟨footEnc g.startIdx pad ++ j2, ?_, ?_, ?_, ?_⟩
      · unfold LG.body
        rw [if_neg hn, hpre, hgap, hpad, hj2]
        simp only [List.append_assoc]
      · rw [hH]
        simp only [List.length_append, if_neg hn]
        rw [hprel, lf, l3]; omega
      · refine ⟨pre ++ g.inl, pad, j2, by simp only [List.append_assoc], ?_, l2⟩
        rw [hH]
        simp only [List.length_append, if_neg hn]
        rw [hprel]; omega
      · intro ho
        exfalso
        apply hn
        unfold LG.newFoot
        simp [ho]
  refine ⟨H.enc ++ g.body fm J, H, hfin, ?_, ?_, ?_, ?_⟩
  rotate_left
  · rw [hH]; exact hst
  · rw [hH]
  · rw [hH]
  have hblen : (H.enc ++ g.body fm J).length = H.groupSize := by rw [htail, hfootLen]
  obtain ⟨fa, fp, fc, hf1, hf2, hf3⟩ := hfootParts
  have hstart : H.startIdx = g.startIdx := by rw [hH]
  obtain ⟨ff1, ff2, ff3⟩ := foot_fields (c := fc) hf2 (show g.startIdx < 256 ^ 8 by rw [hst]; exact hidx) hf3
  rw [← hf1, ← htail] at ff1 ff2 ff3
  refine ⟨Hdr.dec_enc hHfit _, by rw [hH], by rw [hH], ?_, hblen.symm, ?_, ?_, ?_, ff1, ff2, ?_, ?_, ?_⟩
  · rw [hH]; exact hl
  · rw [hblen, hH]
    simp only
    split
    · refine Nat.dvd_add (Nat.dvd_add hdvd0 ?_) (roundUp_dvd _ _)
      rw [hoobl]; exact h.mul
    · exact hdvd0
  · rw [← hHl, List.drop_left, hH]
  · rw [htail, hf1]
    simp only [List.length_append]
    rw [footEnc_length g.startIdx hf3, hf2]; omega
  · rw [hstart]; exact ff3
  · rw [hblen, hH, ← hl]
    show _ ≤ (if g.newFoot then g.len0 fm + g.oobPos + roundUp footSize fm else g.len0 fm)
    split <;> omega
  · intro i r hr
    have hi : i < done.length := by
      rcases Nat.lt_or_ge i done.length with h1 | h1
      · exact h1
      · rw [List.getElem?_eq_none h1] at hr; cases hr
    obtain ⟨s, hs⟩ : ∃ s, g.slots[i]? = some s := ⟨_, List.getElem?_eq_getElem (by omega)⟩
    obtain ⟨o1, o2, o3, o4, p, q, o5, o6⟩ := h.slot i s r hs hr
    have hrin : r ∈ done := List.mem_of_getElem? hr
    have hrf := hfit r hrin
    have hplen : p.length + r.data.length ≤ dataLen done := by
      have := congrArg List.length o5
      simp only [List.length_append] at this
      split at this <;> omega
    have hsfit : s.Fits := by
      refine ⟨by rw [o1]; omega, ?_, by rw [o3]; exact hrf.seq, by rw [o2]; exact hrf.store⟩
      rw [o6]
      split <;> omega
    obtain ⟨hsp, hspl⟩ := list_split hs
    refine ⟨s, ?_, o1, o2, o3, ?_⟩
    · have := Slot.dec_enc (pre := g.slots.take i) (post := g.slots.drop (i + 1)) hsfit (h := H.enc)
        (c := gap ++ g.inl ++ tail) hHl
      rw [← hsp, hspl] at this
      rw [htail, hpre]
      simpa only [List.append_assoc] using this
    · rw [htail, o4]
      by_cases hr2 : r.inlineable fm opt = true
      · simp only [hr2, if_true] at o5 o6 ⊢
        have := slice_at (a := pre ++ p) (b := r.data) (c := q ++ tail) (off := s.offset + 0) (n := s.size)
          (by simp [hprel, o6, Nat.add_comm]) o1.symm
        rw [o5]
        simpa only [List.append_assoc] using this
      · simp only [hr2] at o5 o6 ⊢
        simp only [Bool.false_eq_true, if_false, Nat.add_zero] at o5 o6 ⊢
        by_cases hz : g.oobPos = 0
        · have hoe : g.oob = [] := List.length_eq_zero_iff.1 (by omega)
          rw [hoe] at o5
          have h0 := congrArg List.length o5
          simp only [List.length_append, List.length_nil] at h0
          have hrd : r.data = [] := List.length_eq_zero_iff.1 (by omega)
          unfold slice
          rw [o1, hrd, o6]
          have : (pre ++ g.inl ++ tail).length = H.groupSize := hfootLen
          have hle : H.oobOff ≤ H.groupSize := by
            rw [hH]
            show g.len0 fm ≤ (if g.newFoot then g.len0 fm + g.oobPos + roundUp footSize fm else g.len0 fm)
            split <;> omega
          rw [if_pos (by rw [this]; simp; omega)]
          simp
        · obtain ⟨a, c, ho1, ho2⟩ := hoobParts hz
          rw [ho1, o5]
          have := slice_at (a := a ++ p) (b := r.data) (c := q ++ c) (off := s.offset + H.oobOff) (n := s.size)
            (by simp [ho2, o6, Nat.add_comm]) o1.symm
          simpa only [List.append_assoc] using this

end HS.Log

namespace HS.Log

variable {fm opt : Nat}

/-- `prepare_flush` on at least one record: it stays inside its buffers and produces one complete group with a
non-empty prefix of the records. -/
theorem buildGroup_ok (hfm : 0 < fm) (crc : Bytes → UInt32) {est : Nat} (hest : 0 < est) {rs : List Rec} (hrs : rs ≠ [])
    {idx logdev prevCrc : Nat} (J : Nat → UInt8) (hfit : ∀ r ∈ rs, r.Fits) (hidx : idx < 256 ^ 8)
    (hld : logdev < 256 ^ 4) (hpc : prevCrc < 256 ^ 4)
    (hsz : hdrSize + slotSize * est + dataLen rs + 2 * footSize + 2 * fm < 2 ^ 31) :
    ∃ b h, buildGroup fm opt crc est rs idx logdev prevCrc J = .ok (b, (rs.take (min est maxBatch)).length) ∧
      Encodes fm crc b h (rs.take (min est maxBatch)) ∧ h.startIdx = idx ∧ h.prevCrc = prevCrc ∧ h.logdev = logdev := by
  obtain ⟨g, e, hg⟩ := LG.addAll_inv (opt := opt) hfm rs (LG.reset_inv hfm est idx)
  simp only [List.length_nil, Nat.add_zero, List.nil_append, Nat.sub_zero] at e hg
  have hmb : maxBatch = 202 := by decide
  have hne : rs.take (min est maxBatch) ≠ [] := by
    intro h
    have := congrArg List.length h
    have h2 : 0 < rs.length := List.length_pos_iff.2 hrs
    rw [List.length_take, List.length_nil] at this
    omega
  have hdl : dataLen (rs.take (min est maxBatch)) ≤ dataLen rs := by
    have h1 : dataLen rs = dataLen (rs.take (min est maxBatch)) + dataLen (rs.drop (min est maxBatch)) := by
      unfold dataLen
      rw [← List.sum_append, ← List.map_append, List.take_append_drop]
    omega
  obtain ⟨b, h, e2, h2, h3, h4, h5⟩ := LG.finish_ok hfm hg hne crc (logdev := logdev) (prevCrc := prevCrc) J
    (fun r hr => hfit r (List.mem_of_mem_take hr)) hidx hld hpc (by omega)
  refine ⟨b, h, ?_, h2, h3, h4, h5⟩
  unfold buildGroup
  rw [e, ← hg.len]
  simp only [e2]

/-- Every record of a complete group is read back, whatever follows the group on the device. -/
theorem readRec_ok {crc : Bytes → UInt32} {b : Bytes} {h : Hdr} {rs : List Rec} (he : Encodes fm crc b h rs)
    (hn : rs.length ≤ maxBatch) (rest : Bytes) {i : Nat} {r : Rec} (hr : rs[i]? = some r) :
    readRec crc (b ++ rest) (h.startIdx + i) = .ok r.data := by
  have hi : i < rs.length := by
    rcases Nat.lt_or_ge i rs.length with h1 | h1
    · exact h1
    · rw [List.getElem?_eq_none h1] at hr; cases hr
  have hmb : maxBatch = 202 := by decide
  have hslots := he.slots
  have hir : initialRead = 4096 := rfl
  have hhs : hdrSize = 48 := rfl
  have hss : ∀ n, slotSize * n = 20 * n := fun _ => rfl
  have hs1 := hss rs.length
  have hs2 := hss i
  have hs20 : slotSize = 20 := rfl
  obtain ⟨s, d1, d2, d3, d4, d5⟩ := he.recs i r hr
  have hdapp : ∀ {n : Nat}, hdrSize + slotSize * n + slotSize ≤ b.length → Slot.dec (b ++ rest) n = Slot.dec b n := by
    intro n hb
    have h0 := hss n
    unfold Slot.dec
    simp only
    rw [fld_append (by omega), fld_append (by omega), fld_append (by omega), fld_append (by omega)]
  have hhapp : Hdr.dec (b ++ rest) = Hdr.dec b := by
    unfold Hdr.dec
    rw [fld_append (by omega), fld_append (by omega), fld_append (by omega), fld_append (by omega),
      fld_append (by omega), fld_append (by omega), fld_append (by omega), fld_append (by omega),
      fld_append (by omega), fld_append (by omega), fld_append (by omega)]
  have hin : s.offset + (if s.inlined then 0 else h.oobOff) + s.size ≤ b.length := by
    unfold slice at d5
    by_contra hc
    rw [if_neg hc] at d5
    cases d5
  unfold readRec
  rw [Hdr.dec_take (by omega), hhapp, he.dec]
  have hv : verifyHdr crc ((b ++ rest).take initialRead) h (h.startIdx + i) = .ok () := by
    unfold verifyHdr
    rw [if_neg (by rw [he.magic]; simp), if_neg (by rw [he.version]; simp), if_neg (by omega),
      if_neg (by rw [he.nrec]; omega)]
    by_cases hg : h.groupSize ≤ initialRead
    · rw [if_pos hg]
      have hsz := he.size
      rw [slice_take (by omega), slice_append (by omega)]
      unfold slice
      rw [if_pos (by omega)]
      have hdrop : (b.drop hdrSize).take (h.groupSize - hdrSize) = b.drop hdrSize := by
        rw [List.take_of_length_le (by simp; omega)]
      simp only [hdrop]
      rw [if_pos he.curCrc]
    · rw [if_neg hg]
  simp only [hv]
  rw [show h.startIdx + i - h.startIdx = i by omega, Slot.dec_take (by omega), hdapp (by omega), d1]
  simp only
  by_cases hc : s.offset + (if s.inlined = true then 0 else h.oobOff) + s.size < initialRead
  · rw [if_pos hc, slice_take (by omega), slice_append hin, d5]
  · rw [if_neg hc, slice_append hin, d5]

end HS.Log
