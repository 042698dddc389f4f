import Verif.Index.Journal
/-!
# C70: the journal of structural changes is read back as it was made
-/
namespace HS.Index.Journal

/-! ## Bytes -/

@[simp] theorem le_length (n v : Nat) : (le n v).length = n := by
  induction n generalizing v with
  | zero => rfl
  | succ n ih => simp [le, ih]

theorem rd_congr {f g : Nat → Nat} {off n : Nat} (h : ∀ i, off ≤ i → i < off + n → f i = g i) :
    rd f off n = rd g off n := by
  induction n generalizing off with
  | zero => rfl
  | succ n ih =>
    simp only [rd]
    rw [h off (Nat.le_refl _) (by omega), ih (fun i h1 h2 => h i (by omega) (by omega))]

/-- Reading elsewhere is not affected. -/
theorem rd_put_of_disjoint {f : Nat → Nat} {off n p : Nat} {bs : List Nat} (h : off + n ≤ p ∨ p + bs.length ≤ off) :
    rd (put f p bs) off n = rd f off n := by
  apply rd_congr
  intro i h1 h2
  unfold put
  rw [if_neg (by omega)]

theorem rd_le {f : Nat → Nat} {off n v : Nat} {bs : List Nat} {p : Nat} (hp : p + n ≤ bs.length)
    (hb : ∀ i, i < n → bs.getD (p + i) 0 = (le n v).getD i 0) :
    rd (put f off bs) (off + p) n = v % 256 ^ n := by
  induction n generalizing p v with
  | zero => simp [rd, Nat.mod_one]
  | succ n ih =>
    simp only [rd]
    have h0 := hb 0 (by omega)
    simp only [le, List.getD_cons_zero, Nat.add_zero] at h0
    have e0 : put f off bs (off + p) = v % 256 := by
      unfold put
      rw [if_pos (by omega), show off + p - off = p by omega, h0]
    rw [e0, show off + p + 1 = off + (p + 1) by omega, ih (v := v / 256) (p := p + 1) (by omega) ?_]
    · rw [Nat.mod_mod, Nat.pow_succ, Nat.mul_comm (256 ^ n) 256, Nat.mod_mul]
    · intro i hi
      have := hb (i + 1) (by omega)
      simp only [le, List.getD_cons_succ] at this
      rw [show p + 1 + i = p + (i + 1) by omega, this]

/-! ## One record -/

/-- The slots of the record at `off` hold `ids`. -/
def Slots (f : Nat → Nat) (off : Nat) (ids : List Id) : Prop :=
  ∀ k i, ids[k]? = some i → rd f (off + 8 + 6 * k) 4 = i.1 ∧ rd f (off + 8 + 6 * k + 4) 2 = i.2

theorem Slots.put {f : Nat → Nat} {off p : Nat} {ids : List Id} {bs : List Nat} (h : Slots f off ids)
    (hd : off + 8 + 6 * ids.length ≤ p ∨ p + bs.length ≤ off + 8) : Slots (put f p bs) off ids := by
  intro k i hk
  have hlt : k < ids.length := by
    rcases Nat.lt_or_ge k ids.length with h1 | h1
    · exact h1
    · rw [List.getElem?_eq_none h1] at hk; cases hk
  rw [rd_put_of_disjoint (by omega), rd_put_of_disjoint (by omega)]
  exact h k i hk

def IdOk (i : Id) : Prop := i.1 < 2 ^ 32 ∧ i.2 < 2 ^ 16

theorem rd_id_fst (f : Nat → Nat) (off : Nat) {i : Id} (hi : IdOk i) :
    rd (put f off (idBytes i)) off 4 = i.1 := by
  have := rd_le (f := f) (off := off) (n := 4) (v := i.1) (bs := idBytes i) (p := 0) (by simp [idBytes])
    (by intro k hk
        match k, hk with
        | 0, _ => rfl
        | 1, _ => rfl
        | 2, _ => rfl
        | 3, _ => rfl)
  rw [Nat.add_zero] at this
  rw [this, Nat.mod_eq_of_lt (by have := hi.1; omega)]

theorem rd_id_snd (f : Nat → Nat) (off : Nat) {i : Id} (hi : IdOk i) :
    rd (put f off (idBytes i)) (off + 4) 2 = i.2 := by
  have := rd_le (f := f) (off := off) (n := 2) (v := i.2) (bs := idBytes i) (p := 4) (by simp [idBytes])
    (by intro k hk
        match k, hk with
        | 0, _ => rfl
        | 1, _ => rfl)
  rw [this, Nat.mod_eq_of_lt (by have := hi.2; omega)]

@[simp] theorem idBytes_length (i : Id) : (idBytes i).length = 6 := by simp [idBytes]

theorem Slots.snoc {f : Nat → Nat} {off : Nat} {ids : List Id} {i : Id} (h : Slots f off ids) (hi : IdOk i) :
    Slots (Journal.put f (off + 8 + 6 * ids.length) (idBytes i)) off (ids ++ [i]) := by
  intro k j hk
  rcases Nat.lt_trichotomy k ids.length with h1 | h1 | h1
  · rw [List.getElem?_append_left h1] at hk
    exact (h.put (p := off + 8 + 6 * ids.length) (bs := idBytes i) (Or.inl (Nat.le_refl _))) k j hk
  · subst h1
    simp at hk
    subst hk
    exact ⟨rd_id_fst _ _ hi, rd_id_snd _ _ hi⟩
  · rw [List.getElem?_eq_none (by simp; omega)] at hk
    cases hk

/-- A record being built at `off` in a buffer of size `cap`, with everything before `off` as in `f0`. -/
structure Build (f0 : Nat → Nat) (cap off : Nat) (r : Hdr × Mem) (ids : List Id) : Prop where
  cap : r.2.cap = cap
  before : ∀ i, i < off → r.2.byte i = f0 i
  slots : Slots r.2.byte off ids
  total : r.1.total = ids.length

theorem Build.append {f0 : Nat → Nat} {cap off : Nat} {r : Hdr × Mem} {ids : List Id} (h : Build f0 cap off r ids)
    {k : Kind} {i : Id} (hi : IdOk i) (hc : off + 8 + 6 * (ids.length + 1) ≤ cap)
    (hk : (r.1.add k).total = ids.length + 1) :
    ∃ r', Journal.append off r k i = some r' ∧ r'.1 = r.1.add k ∧ Build f0 cap off r' (ids ++ [i]) := by
  have hw : r.2.write (off + 8 + 6 * r.1.total) (idBytes i) =
      some { r.2 with byte := put r.2.byte (off + 8 + 6 * r.1.total) (idBytes i) } := by
    unfold Mem.write
    rw [if_pos]
    rw [h.total, idBytes_length, h.cap]; omega
  refine ⟨(r.1.add k, { r.2 with byte := put r.2.byte (off + 8 + 6 * r.1.total) (idBytes i) }), ?_, rfl, ?_⟩
  · unfold Journal.append
    rw [hw]; rfl
  · refine ⟨h.cap, ?_, ?_, by simp [hk]⟩
    · intro j hj
      show put r.2.byte (off + 8 + 6 * r.1.total) (idBytes i) j = f0 j
      unfold put
      rw [if_neg (by omega)]
      exact h.before j hj
    · show Slots (put r.2.byte (off + 8 + 6 * r.1.total) (idBytes i)) off (ids ++ [i])
      rw [h.total]
      exact h.slots.snoc hi

theorem Buf.ok.id {b : Buf} (h : b.ok) : IdOk b.id := ⟨h.1, h.2.1⟩

theorem total_addNew {h : Hdr} (hn : h.numNew < 255) : (h.add .childNew).total = h.total + 1 := by
  obtain ⟨p, c, mt, lv, nn, nf, o⟩ := h
  rcases p <;> rcases c <;> simp [Hdr.add, Hdr.total] at * <;> omega

theorem total_addFreed {h : Hdr} (hn : h.numFreed < 255) : (h.add .childFreed).total = h.total + 1 := by
  obtain ⟨p, c, mt, lv, nn, nf, o⟩ := h
  rcases p <;> rcases c <;> simp [Hdr.add, Hdr.total] at * <;> omega

theorem Build.new {f0 : Nat → Nat} {cap off : Nat} {ids : List Id} : ∀ (bs : List Buf) {r : Hdr × Mem} {ids : List Id},
    Build f0 cap off r ids → (∀ b ∈ bs, b.ok) → off + 8 + 6 * (ids.length + bs.length) ≤ cap →
    r.1.numNew + bs.length ≤ 255 →
    ∃ r', appendNew off r bs = some r' ∧ r'.1 = { r.1 with numNew := r.1.numNew + bs.length } ∧
      Build f0 cap off r' (ids ++ bs.map (·.id))
  | [], r, ids, h, _, _, _ => ⟨r, rfl, rfl, by simpa using h⟩
  | b :: bs, r, ids, h, hok, hc, hn => by
    simp only [List.length_cons] at hc hn
    obtain ⟨r1, e1, e2, h1⟩ := h.append (k := .childNew) (i := b.id) (hok b (by simp)).id (by omega)
      (by rw [total_addNew (by omega), h.total])
    have e3 : r1.1.numNew = r.1.numNew + 1 := by rw [e2]; simp only [Hdr.add]; omega
    obtain ⟨r2, e4, e5, h2⟩ := Build.new (ids := ids) bs h1 (fun x hx => hok x (by simp [hx]))
      (by simp only [List.length_append, List.length_singleton]; omega) (by omega)
    refine ⟨r2, ?_, ?_, by simpa using h2⟩
    · simp only [appendNew, e1, Option.bind_some]; exact e4
    · rw [e5, e3, e2]
      simp only [Hdr.add, List.length_cons]
      congr 1; omega

/-- The level in the record: that of the last freed buffer. -/
def lastLevel (l : Nat) (bs : List Buf) : Nat := (bs.getLast?.map (·.level)).getD l

theorem lastLevel_cons (l : Nat) (b : Buf) (bs : List Buf) : lastLevel l (b :: bs) = lastLevel b.level bs := by
  unfold lastLevel
  cases bs with
  | nil => rfl
  | cons c cs =>
    rw [List.getLast?_cons_cons]
    rcases h : (c :: cs).getLast? with _ | x
    · simp at h
    · rfl

theorem Build.freed {f0 : Nat → Nat} {cap off : Nat} : ∀ (bs : List Buf) {r : Hdr × Mem} {ids : List Id},
    Build f0 cap off r ids → (∀ b ∈ bs, b.ok) → off + 8 + 6 * (ids.length + bs.length) ≤ cap →
    r.1.numFreed + bs.length ≤ 255 →
    ∃ r', appendFreed off r bs = some r' ∧
      r'.1 = { r.1 with numFreed := r.1.numFreed + bs.length, level := lastLevel r.1.level bs } ∧
      Build f0 cap off r' (ids ++ bs.map (·.id))
  | [], r, ids, h, _, _, _ => ⟨r, rfl, rfl, by simpa using h⟩
  | b :: bs, r, ids, h, hok, hc, hn => by
    simp only [List.length_cons] at hc hn
    have hb := hok b (by simp)
    have h0 : Build f0 cap off ({ r.1 with level := b.level % 16 }, r.2) ids := ⟨h.cap, h.before, h.slots, h.total⟩
    obtain ⟨r1, e1, e2, h1⟩ := h0.append (k := .childFreed) (i := b.id) hb.id (by omega)
      (by rw [total_addFreed (by show r.1.numFreed < 255; omega), h0.total])
    have e3 : r1.1.numFreed = r.1.numFreed + 1 := by rw [e2]; simp only [Hdr.add]; omega
    have e3' : r1.1.level = b.level := by rw [e2]; exact Nat.mod_eq_of_lt hb.2.2
    obtain ⟨r2, e4, e5, h2⟩ := Build.freed bs h1 (fun x hx => hok x (by simp [hx]))
      (by simp only [List.length_append, List.length_singleton]; omega) (by omega)
    refine ⟨r2, ?_, ?_, by simpa using h2⟩
    · simp only [appendFreed, e1, Option.bind_some]; exact e4
    · rw [e5, e3, e3', e2, lastLevel_cons]
      simp only [Hdr.add, List.length_cons]
      congr 1; omega

/-- The record at `off` of a buffer is complete: its fields and its ids. -/
structure Full (m : Mem) (off : Nat) (h : Hdr) (ids : List Id) : Prop where
  fits : off + 8 + 6 * ids.length ≤ m.cap
  hdr : readHdr m off = some h
  slots : Slots m.byte off ids

theorem readHdr_congr {m m' : Mem} {off : Nat} (hc : off + 8 ≤ m.cap) (hc' : off + 8 ≤ m'.cap)
    (hb : ∀ i, off ≤ i → i < off + 8 → m'.byte i = m.byte i) : readHdr m' off = readHdr m off := by
  unfold readHdr Mem.read
  rw [if_pos (by omega), if_pos (by omega), if_pos (by omega), if_pos (by omega), if_pos (by omega), if_pos (by omega),
    if_pos (by omega), if_pos (by omega),
    rd_congr (f := m'.byte) (g := m.byte) (fun i h1 h2 => hb i (by omega) (by omega)),
    rd_congr (f := m'.byte) (g := m.byte) (off := off + 1) (fun i h1 h2 => hb i (by omega) (by omega)),
    rd_congr (f := m'.byte) (g := m.byte) (off := off + 2) (fun i h1 h2 => hb i (by omega) (by omega)),
    rd_congr (f := m'.byte) (g := m.byte) (off := off + 4) (fun i h1 h2 => hb i (by omega) (by omega))]

/-- A record stays as it is when the buffer is written elsewhere or enlarged. -/
theorem Full.mono {m m' : Mem} {off : Nat} {h : Hdr} {ids : List Id} (hf : Full m off h ids) (hc : m.cap ≤ m'.cap)
    (hb : ∀ i, off ≤ i → i < off + 8 + 6 * ids.length → m'.byte i = m.byte i) : Full m' off h ids := by
  have := hf.fits
  refine ⟨by omega, ?_, ?_⟩
  · rw [readHdr_congr (m := m) (by omega) (by omega) (fun i h1 h2 => hb i h1 (by omega))]
    exact hf.hdr
  · intro k i hk
    have hlt : k < ids.length := by
      rcases Nat.lt_or_ge k ids.length with h1 | h1
      · exact h1
      · rw [List.getElem?_eq_none h1] at hk; cases hk
    rw [rd_congr (f := m'.byte) (g := m.byte) (fun j h1 h2 => hb j (by omega) (by omega)),
      rd_congr (f := m'.byte) (g := m.byte) (off := off + 8 + 6 * k + 4) (fun j h1 h2 => hb j (by omega) (by omega))]
    exact hf.slots k i hk

theorem rd_one (f : Nat → Nat) (off : Nat) : rd f off 1 = f off % 256 := by simp [rd]

theorem readHdr_bytes {m : Mem} {off junk : Nat} {h : Hdr} (hc : off + 8 ≤ m.cap) (hl : h.level < 16)
    (hn : h.numNew < 256) (hf : h.numFreed < 256) (ho : h.ordinal < 2 ^ 32) :
    readHdr { m with byte := put m.byte off (h.bytes junk) } off = some h := by
  have hlen : (h.bytes junk).length = 8 := by simp [Hdr.bytes]
  have g : ∀ k, k < 8 → put m.byte off (h.bytes junk) (off + k) = (h.bytes junk).getD k 0 := by
    intro k hk
    unfold put
    rw [hlen, if_pos (by omega), show off + k - off = k by omega]
  unfold readHdr Mem.read
  simp only
  rw [if_pos (by omega), if_pos (by omega), if_pos (by omega), if_pos (by omega)]
  rw [rd_one, rd_one, rd_one]
  have g0 := g 0 (by omega)
  rw [Nat.add_zero] at g0
  rw [g0, g 1 (by omega), g 2 (by omega)]
  have ho' := rd_le (f := m.byte) (off := off) (n := 4) (v := h.ordinal) (bs := h.bytes junk) (p := 4) (by omega)
    (by intro k hk
        match k, hk with
        | 0, _ => rfl
        | 1, _ => rfl
        | 2, _ => rfl
        | 3, _ => rfl)
  rw [ho', Nat.mod_eq_of_lt (a := h.ordinal) (by omega)]
  simp only [Option.bind_some, Option.map_some, Option.some.injEq]
  obtain ⟨p, c, mt, lv, nn, nf, o⟩ := h
  simp only [Hdr.bytes, List.getD_cons_zero, List.getD_cons_succ] at *
  have hj : junk / 128 % 2 < 2 := Nat.mod_lt _ (by omega)
  generalize junk / 128 % 2 = j at hj
  rw [Nat.mod_eq_of_lt (a := lv) hl]
  rcases p <;> rcases c <;> rcases mt <;>
    simp only [Hdr.mk.injEq, Bool.toNat_true, Bool.toNat_false, decide_eq_true_eq, decide_eq_false_iff_not] <;>
    refine ⟨?_, ?_, ?_, ?_, ?_, ?_, trivial⟩ <;> omega

/-! ## Reading a complete record -/

theorem blkId_full {m : Mem} {off k : Nat} {h : Hdr} {ids : List Id} (hf : Full m off h ids) {i : Id}
    (hk : ids[k]? = some i) (hl : ids.length ≤ 255) : blkId m off k = some i := by
  have hlt : k < ids.length := by
    rcases Nat.lt_or_ge k ids.length with h1 | h1
    · exact h1
    · rw [List.getElem?_eq_none h1] at hk; cases hk
  have h1 := hf.fits
  obtain ⟨h2, h3⟩ := hf.slots k i hk
  unfold blkId Mem.read
  rw [Nat.mod_eq_of_lt (by omega), if_pos (by omega), if_pos (by omega), h2, h3]
  rfl

theorem blkIds_full {m : Mem} {off : Nat} {h : Hdr} {ids : List Id} (hf : Full m off h ids) (hl : ids.length ≤ 255) :
    ∀ (n k : Nat) (l : List Id), l.length = n → (∀ j i, l[j]? = some i → ids[k + j]? = some i) →
      blkIds m off k n = some l
  | 0, k, l, hn, _ => by
    rw [List.length_eq_zero_iff.mp hn]; rfl
  | n + 1, k, [], hn, _ => by simp at hn
  | n + 1, k, i :: l, hn, hj => by
    have h0 := hj 0 i rfl
    rw [Nat.add_zero] at h0
    simp only [blkIds, blkId_full hf h0 hl, Option.bind_some]
    rw [blkIds_full hf hl n (k + 1) l (by simpa using hn) (by
      intro j x hx
      have := hj (j + 1) x (by simpa using hx)
      rw [show k + 1 + j = k + (j + 1) by omega]; exact this)]
    rfl

/-- The ids of a change, in the order of the slots. -/
def Change.ids (c : Change) : List Id :=
  (c.info.parent.map (·.2)).toList ++ c.info.child.toList ++ c.info.created ++ c.info.freed

/-- The fields of the record of a change. -/
def Change.hdr (c : Change) : Hdr :=
  { hasParent := c.parent.isSome, hasChild := c.info.child.isSome,
    isMeta := (c.parent.map (·.isMeta)).getD false, level := c.info.level,
    numNew := c.created.length, numFreed := c.freed.length, ordinal := c.ordinal }

theorem Change.ids_length (c : Change) : c.ids.length = c.hdr.total := by
  unfold Change.ids Change.hdr Hdr.total
  rcases c with ⟨o, p, ch, cr, fr⟩
  simp only [Change.info, List.length_append, List.length_map]
  rcases p with _ | p <;> rcases ch with _ | b
  · simp
  · simp; omega
  · simp; omega
  · by_cases e : p.ptr = b.ptr
    · simp [e]; omega
    · simp [e]; omega

theorem Change.ids_le (c : Change) : c.ids.length ≤ c.count := by
  rw [Change.ids_length]
  unfold Change.hdr Hdr.total Change.count Change.info
  rcases c with ⟨o, p, ch, cr, fr⟩
  rcases p with _ | p <;> rcases ch with _ | b <;> simp <;> (try split) <;> simp <;> omega

theorem readRec_full {m : Mem} {off : Nat} {c : Change} (hf : Full m off c.hdr c.ids) (hl : c.count ≤ 255) :
    readRec m off = some (c.info, 8 + 6 * c.ids.length) := by
  have hle := c.ids_le
  have hsz : c.hdr.size = 8 + 6 * c.ids.length := by rw [Change.ids_length]; rfl
  unfold readRec
  rw [hf.hdr]
  simp only [Option.bind_some]
  have hpar : (if c.hdr.hasParent = true then (blkId m off 0).map (fun i => some (c.hdr.isMeta, i)) else some none) =
      some c.info.parent := by
    rcases hp : c.parent with _ | b
    · rw [if_neg (by simp [Change.hdr, hp])]; simp [Change.info, hp]
    · rw [if_pos (by simp [Change.hdr, hp]),
        blkId_full hf (i := b.id) (by simp [Change.ids, Change.info, hp]) (by omega)]
      simp [Change.info, Change.hdr, hp]
  rw [hpar, Option.bind_some]
  have hip : c.hdr.hasParent.toNat = (c.info.parent.map (·.2)).toList.length := by
    rcases hp : c.parent with _ | b <;> simp [Change.hdr, Change.info, hp]
  have hic : c.hdr.hasChild.toNat = c.info.child.toList.length := by
    rcases hp : c.info.child with _ | b <;> simp [Change.hdr, hp]
  rw [hip]
  have hch : (if c.hdr.hasChild = true then (blkId m off (c.info.parent.map (·.2)).toList.length).map some else some none) =
      some c.info.child := by
    rcases hp : c.info.child with _ | b
    · rw [if_neg (by simp [Change.hdr, hp])]
    · rw [if_pos (by simp [Change.hdr, hp]), blkId_full hf (i := b) ?_ (by omega)]
      · rfl
      · unfold Change.ids
        rw [hp, List.append_assoc, List.append_assoc, List.getElem?_append_right (Nat.le_refl _)]
        simp
  rw [hch, Option.bind_some, hic]
  have hnew : blkIds m off ((c.info.parent.map (·.2)).toList.length + c.info.child.toList.length) c.hdr.numNew =
      some c.info.created := by
    apply blkIds_full hf (by omega)
    · simp [Change.info, Change.hdr]
    · intro j i hj
      have hlt : j < c.info.created.length := by
        rcases Nat.lt_or_ge j c.info.created.length with h1 | h1
        · exact h1
        · rw [List.getElem?_eq_none h1] at hj; cases hj
      unfold Change.ids
      rw [List.append_assoc _ _ c.info.freed, List.getElem?_append_right (by simp), List.getElem?_append_left (by simp; omega),
        ← hj]
      congr 1
      simp
  have hfr : blkIds m off ((c.info.parent.map (·.2)).toList.length + c.info.child.toList.length + c.hdr.numNew)
      c.hdr.numFreed = some c.info.freed := by
    apply blkIds_full hf (by omega)
    · simp [Change.info, Change.hdr]
    · intro j i hj
      have hn : c.hdr.numNew = c.info.created.length := by simp [Change.hdr, Change.info]
      unfold Change.ids
      rw [hn, List.getElem?_append_right (by simp; omega), ← hj]
      congr 1
      simp only [List.length_append]
      omega
  rw [hnew, Option.bind_some, hfr]
  simp only [Option.map_some, hsz]
  rfl

/-! ## The journal -/

/-- The records of the changes lie one after the other from `off` on. -/
def Recs (m : Mem) : Nat → List Change → Prop
  | _, [] => True
  | off, c :: cs => Full m off c.hdr c.ids ∧ Recs m (off + (8 + 6 * c.ids.length)) cs

/-- The bytes of the records. -/
def used : List Change → Nat
  | [] => 0
  | c :: cs => 8 + 6 * c.ids.length + used cs

theorem used_append (a b : List Change) : used (a ++ b) = used a + used b := by
  induction a with
  | nil => simp [used]
  | cons c a ih => simp only [List.cons_append, used, ih]; omega

theorem Recs.mono {m m' : Mem} (hc : m.cap ≤ m'.cap) : ∀ {cs : List Change} {off : Nat}, Recs m off cs →
    (∀ i, off ≤ i → i < off + used cs → m'.byte i = m.byte i) → Recs m' off cs
  | [], _, _, _ => trivial
  | c :: cs, off, h, hb => by
    simp only [used] at hb
    exact ⟨h.1.mono hc (fun i h1 h2 => hb i h1 (by omega)), Recs.mono hc h.2 (fun i h1 h2 => hb i (by omega) (by omega))⟩

theorem Recs.append {m : Mem} : ∀ {a b : List Change} {off : Nat}, Recs m off a → Recs m (off + used a) b →
    Recs m off (a ++ b)
  | [], _, _, _, h => by simpa [used] using h
  | c :: a, b, off, h, hb => by
    refine ⟨h.1, Recs.append h.2 ?_⟩
    simp only [used] at hb
    rw [show off + (8 + 6 * c.ids.length) + used a = off + (8 + 6 * c.ids.length + used a) by omega]
    exact hb

theorem readRecs_ok {m : Mem} : ∀ {cs : List Change} {off : Nat}, Recs m off cs → (∀ c ∈ cs, c.ok) →
    readRecs m off cs.length = some (cs.map Change.info)
  | [], _, _, _ => rfl
  | c :: cs, off, h, hok => by
    simp only [List.length_cons, readRecs]
    rw [readRec_full h.1 (hok c (by simp)).2.1, Option.bind_some]
    simp only
    rw [readRecs_ok h.2 (fun x hx => hok x (by simp [hx]))]
    rfl

structure JInv (j : Jrn) (cs : List Change) : Prop where
  size : j.size = 16 + used cs
  num : j.numTxns = cs.length
  fits : j.size ≤ j.mem.cap
  cap : j.mem.cap ≤ 2 ^ 31
  recs : Recs j.mem 16 cs

/-- Bytes reserved for a change. -/
def Change.room (c : Change) : Nat := 8 + 6 * c.count

/-- Bytes reserved for the changes of a checkpoint. -/
def room (cs : List Change) : Nat := (cs.map Change.room).sum

theorem used_le_room (cs : List Change) : used cs ≤ room cs := by
  induction cs with
  | nil => simp [used, room]
  | cons c cs ih =>
    have := c.ids_le
    simp only [used, room, List.map_cons, List.sum_cons, Change.room] at *
    omega

theorem grow_cap {m : Mem} {need : Nat} (hm : m.cap ≤ 2 ^ 31) (hn : need ≤ 2 ^ 30) :
    m.cap ≤ (m.grow need).cap ∧ need ≤ (m.grow need).cap ∧ (m.grow need).cap ≤ 2 ^ 31 ∧
      (m.grow need).byte = m.byte := by
  unfold Mem.grow
  split
  · refine ⟨?_, ?_, ?_, rfl⟩ <;> simp only <;> rw [Nat.mod_eq_of_lt (by omega)] <;> omega
  · exact ⟨Nat.le_refl _, by omega, hm, rfl⟩

theorem JInv.add {j : Jrn} {cs : List Change} {c : Change} (h : JInv j cs) (hc : c.ok)
    (hr : j.size + c.room ≤ 2 ^ 30) (hlen : cs.length < 2 ^ 30) :
    ∃ j', j.add c = some j' ∧ JInv j' (cs ++ [c]) := by
  obtain ⟨ho, hcount, hokp, hokc, hokn, hokf⟩ := hc
  have hidle := c.ids_le
  unfold Change.room at hr
  have hneed : (j.size + sizeForNumIds c.count) % 2 ^ 32 = j.size + (8 + 6 * c.count) := by
    unfold sizeForNumIds
    rw [Nat.mod_eq_of_lt (a := c.count) (by omega), Nat.mod_eq_of_lt (by omega)]
  obtain ⟨g1, g2, g3, g4⟩ := grow_cap (need := j.size + (8 + 6 * c.count)) h.cap (by omega)
  obtain ⟨m, hm⟩ : ∃ m : Mem, m = j.mem.grow (j.size + (8 + 6 * c.count)) := ⟨_, rfl⟩
  rw [← hm] at g1 g2 g3 g4
  -- an empty record
  have b0 : Build j.mem.byte m.cap j.size (Hdr.init c.ordinal, m) [] :=
    ⟨rfl, fun i _ => by rw [g4], fun k i hk => by simp at hk, rfl⟩
  -- the parent
  obtain ⟨r1, e1, f1, b1⟩ : ∃ r1, appendParent j.size (Hdr.init c.ordinal, m) c.parent = some r1 ∧
      r1.1 = { Hdr.init c.ordinal with hasParent := c.parent.isSome, isMeta := (c.parent.map (·.isMeta)).getD false } ∧
      Build j.mem.byte m.cap j.size r1 (c.info.parent.map (·.2)).toList := by
    rcases hp : c.parent with _ | b
    · exact ⟨_, rfl, rfl, by simpa [Change.info, hp] using b0⟩
    · have hcn : 1 ≤ c.count := by unfold Change.count; simp [hp]
      obtain ⟨r, er, fr, br⟩ := b0.append (k := .parentInplace) (i := b.id) (hokp b (by rw [hp]; rfl)).id
        (by simp only [List.length_nil]; omega) rfl
      refine ⟨(if b.isMeta then { r.1 with isMeta := true } else r.1, r.2), ?_, ?_, ?_⟩
      · simp only [appendParent, er, Option.map_some]
      · rw [fr]; simp only [Option.map_some, Option.getD_some]; cases b.isMeta <;> rfl
      · refine ⟨br.cap, br.before, by simpa [Change.info, hp] using br.slots, ?_⟩
        have := br.total
        rw [fr] at this ⊢
        cases b.isMeta <;> simpa [Change.info, hp, Hdr.total] using this
  -- the child
  obtain ⟨r2, e2, f2, b2⟩ : ∃ r2, appendChild j.size r1 c.parent c.child = some r2 ∧
      r2.1 = { r1.1 with hasChild := c.info.child.isSome } ∧
      Build j.mem.byte m.cap j.size r2 ((c.info.parent.map (·.2)).toList ++ c.info.child.toList) := by
    have hno : c.info.child = none → r1.1 = { r1.1 with hasChild := c.info.child.isSome } := by
      intro e; rw [e, f1]; rfl
    rcases hp : c.child with _ | b
    · have e : c.info.child = none := by simp [Change.info, hp]
      exact ⟨r1, rfl, hno e, by rw [e]; simpa using b1⟩
    · by_cases hq : c.parent.map (·.ptr) = some b.ptr
      · have e : c.info.child = none := by simp [Change.info, hp, hq]
        exact ⟨r1, by simp only [appendChild]; rw [if_pos hq], hno e, by rw [e]; simpa using b1⟩
      · have e : c.info.child = some b.id := by simp [Change.info, hp, hq]
        have hl : ((c.info.parent.map (·.2)).toList ++ c.info.child.toList).length ≤ c.ids.length := by
          unfold Change.ids; simp only [List.length_append]; omega
        rw [e] at hl
        simp only [List.length_append, Option.toList_some, List.length_singleton] at hl
        obtain ⟨r, er, fr, br⟩ := b1.append (k := .childInplace) (i := b.id) (hokc b (by rw [hp]; rfl)).id (by omega)
          (by have := b1.total
              rw [f1] at this ⊢
              simp only [Hdr.add, Hdr.total, Hdr.init] at this ⊢
              simpa using this)
        refine ⟨r, by simp only [appendChild]; rw [if_neg hq]; exact er, ?_, by rw [e]; exact br⟩
        rw [fr, e]; rfl
  -- the created nodes
  have hl2 : ((c.info.parent.map (·.2)).toList ++ c.info.child.toList).length + c.created.length + c.freed.length =
      c.ids.length := by
    unfold Change.ids; simp only [List.length_append, Change.info, List.length_map]
  have hcr : c.created.length + c.freed.length ≤ c.count := by unfold Change.count; omega
  obtain ⟨r3, e3, f3, b3⟩ := Build.new (ids := []) c.created b2 hokn (by omega)
    (by rw [f2, f1]; simp only [Hdr.init]; omega)
  -- the freed nodes
  obtain ⟨r4, e4, f4, b4⟩ := Build.freed c.freed b3 hokf
    (by simp only [List.length_append, List.length_map] at hl2 ⊢; omega)
    (by rw [f3, f2, f1]; simp only [Hdr.init]; omega)
  have hids : (c.info.parent.map (·.2)).toList ++ c.info.child.toList ++ c.created.map (·.id) ++ c.freed.map (·.id) =
      c.ids := rfl
  rw [hids] at b4
  have hhdr : r4.1 = c.hdr := by
    rw [f4, f3, f2, f1]
    unfold Change.hdr
    simp only [Hdr.init, Nat.zero_add]
    rfl
  have hlv : c.hdr.level < 16 := by
    show (c.freed.getLast?.map (·.level)).getD 0 < 16
    rcases hg : c.freed.getLast? with _ | x
    · show 0 < 16; omega
    · exact (hokf x (List.mem_of_getLast? hg)).2.2
  have hfit : j.size + 8 + 6 * c.ids.length ≤ m.cap := by omega
  have hlen8 : ∀ k, (c.hdr.bytes k).length = 8 := by intro k; simp [Hdr.bytes]
  refine ⟨{ numTxns := cs.length + 1, size := 16 + used (cs ++ [c]),
            mem := { r4.2 with byte := put r4.2.byte j.size (c.hdr.bytes (r4.2.byte j.size)) } }, ?_, ?_⟩
  · unfold Jrn.add
    simp only [hneed, ← hm, e1, Option.bind_some, e2, e3, e4, hhdr]
    unfold Mem.write
    rw [if_pos (by rw [hlen8, b4.cap]; omega)]
    simp only [Option.map_some, Option.some.injEq, Jrn.mk.injEq, and_true]
    refine ⟨by rw [h.num]; exact Nat.mod_eq_of_lt (by omega), ?_⟩
    have : c.hdr.size = 8 + 6 * c.ids.length := by rw [Change.ids_length]; rfl
    rw [this, h.size, used_append]
    simp only [used]
    rw [Nat.mod_eq_of_lt (by have := h.size; omega)]
    omega
  · have hsz : 16 + used (cs ++ [c]) = j.size + 8 + 6 * c.ids.length := by
      rw [used_append, h.size]; simp only [used]; omega
    have hcap' : r4.2.cap = m.cap := b4.cap
    refine ⟨rfl, by simp, ?_, ?_, ?_⟩
    · show 16 + used (cs ++ [c]) ≤ r4.2.cap
      omega
    · show r4.2.cap ≤ 2 ^ 31
      omega
    · apply Recs.append
      · refine h.recs.mono (by show j.mem.cap ≤ r4.2.cap; omega) ?_
        intro i h1 h2
        show put r4.2.byte j.size _ i = j.mem.byte i
        have hs := h.size
        unfold put
        rw [if_neg (by omega)]
        exact b4.before i (by omega)
      · rw [← h.size]
        refine ⟨⟨by show j.size + 8 + 6 * c.ids.length ≤ r4.2.cap; omega, ?_, ?_⟩, trivial⟩
        · exact readHdr_bytes (by omega) hlv (by show c.created.length < 256; omega)
            (by show c.freed.length < 256; omega) ho
        · exact b4.slots.put (Or.inr (by rw [hlen8]; omega))

theorem JInv.addAll : ∀ (ds : List Change) {j : Jrn} {cs : List Change}, JInv j cs → (∀ c ∈ ds, c.ok) →
    j.size + room ds ≤ 2 ^ 30 → ∃ j', j.addAll ds = some j' ∧ JInv j' (cs ++ ds)
  | [], j, cs, h, _, _ => ⟨j, rfl, by simpa using h⟩
  | d :: ds, j, cs, h, hok, hr => by
    have hroom : room (d :: ds) = d.room + room ds := by simp [room]
    rw [hroom] at hr
    have hl : cs.length ≤ used cs := by
      clear h hr hok
      induction cs with
      | nil => simp
      | cons c cs ih => simp only [List.length_cons, used]; omega
    have hs := h.size
    obtain ⟨j1, e1, h1⟩ := h.add (hok d (by simp)) (by omega) (by omega)
    obtain ⟨j2, e2, h2⟩ := JInv.addAll ds h1 (fun x hx => hok x (by simp [hx])) (by
      have := h1.size
      have hd := d.ids_le
      rw [used_append] at this
      simp only [used] at this
      unfold Change.room at hr
      omega)
    exact ⟨j2, by simp only [Jrn.addAll, e1, Option.bind_some]; exact e2, by simpa using h2⟩

/-- **C70**.  The changes of a checkpoint, any number of them and each of at most 255 nodes, are written
without leaving the buffer, whatever the memory held before.  A restart in the same checkpoint reads them
back, all of them, in order, each with its table, its parent (and whether this is the superblock), its child,
its created and its freed nodes and their level; a restart in any other checkpoint ignores them. -/
theorem C70_round_trip (junk : Nat → Nat) (cp : Nat) (cs : List Change) (hcp : cp < 2 ^ 64)
    (hok : ∀ c ∈ cs, c.ok) (hr : 16 + room cs ≤ 2 ^ 30) :
    ∃ j m, (Jrn.init junk).addAll cs = some j ∧ j.image cp = some m ∧
      recover m cp = some (cs.map Change.info) ∧
      ∀ id, id ≠ cp → recover m id = some [] := by
  have h0 : JInv (Jrn.init junk) [] := ⟨rfl, rfl, by simp [Jrn.init], by simp [Jrn.init], trivial⟩
  obtain ⟨j, ej, h⟩ := JInv.addAll cs h0 hok (by show 16 + room cs ≤ 2 ^ 30; exact hr)
  simp only [List.nil_append] at h
  have hs := h.size
  have hf := h.fits
  have hlen : (le 8 cp ++ le 4 j.numTxns ++ le 4 j.size).length = 16 := by simp
  obtain ⟨bs, hbs⟩ : ∃ bs : List Nat, bs = le 8 cp ++ le 4 j.numTxns ++ le 4 j.size := ⟨_, rfl⟩
  rw [← hbs] at hlen
  have hcp' : rd (put j.mem.byte 0 bs) 0 8 = cp := by
    have := rd_le (f := j.mem.byte) (off := 0) (n := 8) (v := cp) (bs := bs) (p := 0) (by omega)
      (by intro i hi
          rw [Nat.zero_add, hbs, List.append_assoc]
          simp only [List.getD_eq_getElem?_getD]
          rw [List.getElem?_append_left (by simpa using hi)])
    rw [Nat.zero_add] at this
    rw [this, Nat.mod_eq_of_lt (by omega)]
  have hnum : rd (put j.mem.byte 0 bs) 8 4 = cs.length := by
    have hcl : cs.length < 2 ^ 32 := by
      have : cs.length ≤ room cs := by
        clear h hs hf hr hok ej
        induction cs with
        | nil => simp
        | cons c cs ih => simp only [List.length_cons, room, List.map_cons, List.sum_cons, Change.room] at *; omega
      omega
    have := rd_le (f := j.mem.byte) (off := 0) (n := 4) (v := j.numTxns) (bs := bs) (p := 8) (by omega)
      (by intro i hi
          rw [hbs]
          simp only [List.getD_eq_getElem?_getD]
          rw [List.append_assoc, List.getElem?_append_right (by simp), List.getElem?_append_left (by simp; omega)]
          simp)
    rw [Nat.zero_add] at this
    rw [this, h.num, Nat.mod_eq_of_lt (by omega)]
  refine ⟨j, { j.mem with byte := put j.mem.byte 0 bs }, ej, ?_, ?_, ?_⟩
  · unfold Jrn.image Mem.write
    rw [← hbs, if_pos (by omega)]
  · unfold recover Mem.read
    simp only
    rw [if_pos (by omega), Option.bind_some, hcp', if_pos rfl, if_pos (by omega), Option.bind_some, hnum]
    refine readRecs_ok (Recs.mono (m := j.mem) (m' := { j.mem with byte := put j.mem.byte 0 bs }) (Nat.le_refl _) h.recs ?_) hok
    intro i h1 h2
    show put j.mem.byte 0 bs i = j.mem.byte i
    unfold put
    rw [if_neg (by omega)]
  · intro id hid
    unfold recover Mem.read
    simp only
    rw [if_pos (by omega), Option.bind_some, hcp', if_neg (fun e => hid e.symm)]

/-- Non-vacuity: a split under the superblock, a merge that frees two nodes of level 1, and a change whose
child is its parent. -/
def someChanges : List Change :=
  [{ ordinal := 3, parent := some ⟨1, (0, 0), true, 0⟩, child := some ⟨2, (70000, 5), false, 1⟩,
     created := [⟨3, (80000, 5), false, 0⟩], freed := [] },
   { ordinal := 3, parent := some ⟨2, (70000, 5), false, 1⟩, child := some ⟨4, (9, 1), false, 0⟩,
     created := [⟨5, (10, 1), false, 0⟩], freed := [⟨6, (11, 1), false, 1⟩, ⟨7, (4294967295, 65535), false, 1⟩] },
   { ordinal := 4, parent := some ⟨8, (12, 1), false, 2⟩, child := some ⟨8, (12, 1), false, 2⟩,
     created := [⟨9, (13, 1), false, 2⟩], freed := [] }]

example : (∀ c ∈ someChanges, c.ok) ∧ 16 + room someChanges ≤ 2 ^ 30 ∧
    (someChanges.map Change.info).map (·.freed) = [[], [(11, 1), (4294967295, 65535)], []] ∧
    (someChanges.map Change.info).map (·.child) = [some (70000, 5), some (9, 1), none] := by
  refine ⟨?_, by decide, by decide, by decide⟩
  intro c hc
  simp only [someChanges, List.mem_cons, List.not_mem_nil, or_false] at hc
  rcases hc with rfl | rfl | rfl <;> simp [Change.ok, Change.count, Buf.ok]

end HS.Index.Journal
