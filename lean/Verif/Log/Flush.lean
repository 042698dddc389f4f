import Verif.Log.StreamProofs

/-!
# Flushing: the groups that `flush` writes one after the other

Source: `src/lib/logstore/log_dev.cpp` 491-552 (`flush`) and 557 (`m_last_crc` in `on_flush_completion`).
-/

namespace HS.Log

/-- The loop of `flush`, `log_dev.cpp` 507-549: the groups written for the pending records `rs`, the next index and
`m_last_crc`.  The fuel counts iterations.  Left out: the failures of the allocation and of the write (they end the
flush), records added by other threads while it runs. -/
def flushLoop (fm opt : Nat) (crc : Bytes → UInt32) (logdev : Nat) (J : Nat → Nat → UInt8) :
    Nat → List Rec → Nat → Nat → Except Fault (Option (List Bytes × Nat × Nat))
  | 0, _, _, _ => .ok none
  | fuel + 1, rs, idx, lastCrc =>
    if rs = [] then .ok (some ([], idx, lastCrc))
    else
      match buildGroup fm opt crc (rs.length + 4) rs idx logdev lastCrc (J idx) with
      | .error x => .error x
      | .ok (b, n) =>
        if n = 0 then .ok none
        else
          match Hdr.dec b with
          | none => .error .ub
          | some h =>
            match flushLoop fm opt crc logdev J fuel (rs.drop n) (idx + n) h.curCrc with
            | .ok (some (bs, i, c)) => .ok (some (b :: bs, i, c))
            | x => x

/-- Several flushes one after the other: the bytes they write. -/
def flushes (fm opt : Nat) (crc : Bytes → UInt32) (logdev : Nat) (J : Nat → Nat → UInt8) :
    List (List Rec) → Nat → Nat → Except Fault (Option (List Bytes × Nat × Nat))
  | [], idx, c => .ok (some ([], idx, c))
  | rs :: rest, idx, c =>
    match flushLoop fm opt crc logdev J (rs.length + 1) rs idx c with
    | .ok (some (bs, i, c')) =>
      match flushes fm opt crc logdev J rest i c' with
      | .ok (some (bs', i', c'')) => .ok (some (bs ++ bs', i', c''))
      | x => x
    | x => x

/-- The records of one flush fit the formats. -/
structure BatchFits (fm : Nat) (rs : List Rec) : Prop where
  recs : ∀ r ∈ rs, r.Fits
  size : hdrSize + slotSize * (rs.length + 4) + dataLen rs + 2 * footSize + 2 * fm < 2 ^ 31

theorem BatchFits.drop {fm : Nat} {rs : List Rec} (h : BatchFits fm rs) (n : Nat) : BatchFits fm (rs.drop n) := by
  refine ⟨fun r hr => h.recs r (List.mem_of_mem_drop hr), ?_⟩
  have h1 : dataLen rs = dataLen (rs.take n) + dataLen (rs.drop n) := by
    unfold dataLen
    rw [← List.sum_append, ← List.map_append, List.take_append_drop]
  have h2 := h.size
  have h3 : (rs.drop n).length ≤ rs.length := by simp
  have h4 : slotSize * ((rs.drop n).length + 4) ≤ slotSize * (rs.length + 4) := Nat.mul_le_mul_left _ (by omega)
  omega

theorem curCrc_lt {fm : Nat} {crc : Bytes → UInt32} {b : Bytes} {h : Hdr} {rs : List Rec} (he : Encodes fm crc b h rs) :
    h.curCrc < 256 ^ 4 := by
  rw [he.curCrc]; exact UInt32.toNat_lt _

theorem flushLoop_ok {e : Env} (hfm : 0 < e.fm) (hld : e.logdev < 256 ^ 4) {opt : Nat} (J : Nat → Nat → UInt8) :
    ∀ (fuel : Nat) (rs : List Rec) (idx c : Nat), rs.length < fuel → BatchFits e.fm rs → c < 256 ^ 4 →
    idx + rs.length < 256 ^ 8 →
    ∃ gs c', flushLoop e.fm opt e.crc e.logdev J fuel rs idx c = .ok (some (gs.map Prod.fst, idx + rs.length, c')) ∧
      Chain e idx c gs (idx + rs.length) c' ∧ (gs.map Prod.snd).flatten = rs ∧ c' < 256 ^ 4 ∧
      ∀ g ∈ gs, g.2.length ≤ maxBatch := by
  intro fuel
  induction fuel with
  | zero => intro rs idx c h; omega
  | succ fuel ih =>
    intro rs idx c hf hfit hc hidx
    unfold flushLoop
    by_cases hrs : rs = []
    · subst hrs
      exact ⟨[], c, by simp, .nil _ _, rfl, hc, by simp⟩
    rw [if_neg hrs]
    have hmb : maxBatch = 202 := by decide
    have hpos : 0 < rs.length := List.length_pos_iff.2 hrs
    obtain ⟨b, h, e1, he, h1, h2, h3⟩ := buildGroup_ok (opt := opt) hfm e.crc (est := rs.length + 4) (by omega) hrs
      (idx := idx) (logdev := e.logdev) (prevCrc := c) (J idx) hfit.recs (by omega) hld hc hfit.size
    obtain ⟨n, hn⟩ : ∃ n, n = (rs.take (min (rs.length + 4) maxBatch)).length := ⟨_, rfl⟩
    rw [← hn] at e1
    have hn2 : n = min rs.length maxBatch := by
      rw [hn, List.length_take]; omega
    have htake : rs.take (min (rs.length + 4) maxBatch) = rs.take n := by
      rw [hn2]
      by_cases hc2 : rs.length ≤ maxBatch
      · rw [List.take_of_length_le (by omega), List.take_of_length_le (by omega)]
      · rw [show min (rs.length + 4) maxBatch = min rs.length maxBatch by omega]
    rw [htake] at he
    rw [e1]
    simp only
    rw [if_neg (by omega), he.dec]
    simp only
    have hdl : (rs.drop n).length = rs.length - n := by simp
    obtain ⟨gs, c', e2, hch, hfl, hc', hmx⟩ := ih (rs.drop n) (idx + n) h.curCrc (by omega) (hfit.drop n) (curCrc_lt he)
      (by omega)
    have htl : (rs.take n).length = n := by rw [List.length_take]; omega
    refine ⟨(b, rs.take n) :: gs, c', ?_, ?_, ?_, hc', ?_⟩
    · rw [e2]
      simp only [List.map_cons]
      rw [show idx + n + (rs.drop n).length = idx + rs.length by omega]
    · refine .cons he ?_ h1 h3 (Or.inr h2.symm) ?_
      · intro h0
        rw [h0] at htl
        simp at htl
        omega
      · rw [htl]
        rw [show idx + n + (rs.drop n).length = idx + rs.length by omega] at hch
        exact hch
    · simp only [List.map_cons, List.flatten_cons, hfl, List.take_append_drop]
    · intro g hg
      rcases List.mem_cons.1 hg with rfl | hg
      · simp only [List.length_take]; omega
      · exact hmx g hg

theorem flushes_ok {e : Env} (hfm : 0 < e.fm) (hld : e.logdev < 256 ^ 4) {opt : Nat} (J : Nat → Nat → UInt8) :
    ∀ (rss : List (List Rec)) (idx c : Nat), (∀ rs ∈ rss, BatchFits e.fm rs) → c < 256 ^ 4 →
    idx + rss.flatten.length < 256 ^ 8 →
    ∃ gs c', flushes e.fm opt e.crc e.logdev J rss idx c =
        .ok (some (gs.map Prod.fst, idx + rss.flatten.length, c')) ∧
      Chain e idx c gs (idx + rss.flatten.length) c' ∧ (gs.map Prod.snd).flatten = rss.flatten ∧ c' < 256 ^ 4 ∧
      ∀ g ∈ gs, g.2.length ≤ maxBatch := by
  intro rss
  induction rss with
  | nil =>
    intro idx c _ hc _
    exact ⟨[], c, rfl, .nil _ _, rfl, hc, by simp⟩
  | cons rs rest ih =>
    intro idx c hfit hc hidx
    have hl : (rs :: rest).flatten.length = rs.length + rest.flatten.length := by simp
    rw [hl] at hidx ⊢
    obtain ⟨gs, c1, e1, h1, h2, h3, h4⟩ := flushLoop_ok hfm hld (opt := opt) J (rs.length + 1) rs idx c (by omega)
      (hfit rs (List.mem_cons_self ..)) hc (by omega)
    obtain ⟨gs', c2, e2, k1, k2, k3, k4⟩ := ih (idx + rs.length) c1 (fun r hr => hfit r (List.mem_cons_of_mem _ hr)) h3
      (by omega)
    refine ⟨gs ++ gs', c2, ?_, ?_, ?_, k3, ?_⟩
    · unfold flushes
      rw [e1]
      simp only
      rw [e2]
      simp [Nat.add_assoc]
    · rw [← Nat.add_assoc]
      exact h1.append k1
    · simp only [List.map_append, List.flatten_append, h2, k2, List.flatten_cons]
    · intro g hg
      rcases List.mem_append.1 hg with hg | hg
      · exact h4 g hg
      · exact k4 g hg

theorem Chain.start {e : Env} {idx c idx' c' : Nat} {gs : List (Bytes × List Rec)} (h : Chain e idx c gs idx' c') :
    (gs = [] ∧ idx' = idx ∧ c' = c) ∨ (gs ≠ [] ∧ Chain e idx 0 gs idx' c') := by
  cases h with
  | nil => exact Or.inl ⟨rfl, rfl, rfl⟩
  | cons a b c d f g => exact Or.inr ⟨by simp, .cons a b c d (Or.inl rfl) g⟩

/-! ## Torn writes -/

theorem tryGroup_abort {e : Env} (hfm : hdrSize ≤ e.fm) {pos prevCrc : Nat} {t : Bytes} {h : Hdr}
    (hdec : Hdr.dec t = some h) (hm : h.magic = hdrMagic) (hid : h.logdev = e.logdev)
    (hprev : prevCrc = 0 ∨ prevCrc = h.prevCrc) (hlen : h.groupSize ≤ t.length) (h48 : hdrSize ≤ h.groupSize)
    (hfo : h.footOff + 12 ≤ h.groupSize) (hf1 : fld t h.footOff 3 = some footMagic)
    (hf2 : fld t (h.footOff + 4) 8 = some h.startIdx)
    (hcrc : (e.crc ((t.take h.groupSize).drop hdrSize)).toNat ≠ h.curCrc) :
    ∀ (src : List Bytes) (buf : Bytes), e.fm ≤ buf.length → buf ++ src.flatten = t →
    tryGroup e pos prevCrc buf src = .error .abort := by
  have key : ∀ (src : List Bytes) (buf : Bytes), buf ++ src.flatten = t → h.groupSize ≤ buf.length →
      checkBody e ⟨buf, src, pos, prevCrc⟩ h = .error .abort := by
    intro src buf heq hb
    unfold checkBody
    simp only
    have g1 : fld buf h.footOff 3 = some footMagic := by
      rw [← hf1, ← heq]; exact (fld_append (by omega)).symm
    have g2 : fld buf (h.footOff + 4) 8 = some h.startIdx := by
      rw [← hf2, ← heq]; exact (fld_append (by omega)).symm
    rw [g1, g2]
    simp only [ne_eq, not_true_eq_false, or_self, if_false]
    have hsl : slice buf hdrSize (h.groupSize - hdrSize) = .ok ((t.take h.groupSize).drop hdrSize) := by
      unfold slice
      rw [if_pos (by omega), List.drop_take, ← heq, List.drop_append_of_le_length (by omega),
        List.take_append_of_le_length (by simp; omega)]
    rw [hsl]
    simp only
    rw [if_neg (by omega), if_pos hcrc]
  intro src
  induction src with
  | nil =>
    intro buf hl heq
    have hd : Hdr.dec buf = some h := by rw [← hdec, ← heq]; exact (Hdr.dec_append (by omega)).symm
    unfold tryGroup
    rw [if_neg (by omega), hd]
    simp only
    rw [if_neg (by simp [hm]), if_neg (by simp [hid]), if_neg (by rintro ⟨h1, h2⟩; rcases hprev with h | h <;> omega)]
    have hlt : t.length = buf.length := by rw [← heq]; simp
    rw [if_neg (by omega)]
    exact key [] buf heq (by omega)
  | cons p ps ih =>
    intro buf hl heq
    have hd : Hdr.dec buf = some h := by rw [← hdec, ← heq]; exact (Hdr.dec_append (by omega)).symm
    unfold tryGroup
    rw [if_neg (by omega), hd]
    simp only
    rw [if_neg (by simp [hm]), if_neg (by simp [hid]), if_neg (by rintro ⟨h1, h2⟩; rcases hprev with h | h <;> omega)]
    by_cases c4 : buf.length < h.groupSize
    · rw [if_pos c4]
      exact ih (buf ++ p) (by rw [List.length_append]; omega) (by rw [← heq]; simp)
    · rw [if_neg c4]
      exact key (p :: ps) buf heq (by omega)

theorem nextGroup_abort {e : Env} (hfm : hdrSize ≤ e.fm) {rd : Reader} {pos : Nat} {t : Bytes} (hat : rd.At e pos t)
    {h : Hdr}
    (hdec : Hdr.dec t = some h) (hm : h.magic = hdrMagic) (hid : h.logdev = e.logdev)
    (hprev : rd.prevCrc = 0 ∨ rd.prevCrc = h.prevCrc) (hlen : h.groupSize ≤ t.length) (h48 : hdrSize ≤ h.groupSize)
    (hfo : h.footOff + 12 ≤ h.groupSize) (hf1 : fld t h.footOff 3 = some footMagic)
    (hf2 : fld t (h.footOff + 4) 8 = some h.startIdx)
    (hcrc : (e.crc ((t.take h.groupSize).drop hdrSize)).toNat ≠ h.curCrc) : nextGroup e rd = .error .abort := by
  have hp := hat.pos
  unfold nextGroup
  by_cases hl : rd.buf.length < e.fm
  · rw [if_pos hl]
    rcases fillHdr_spec hfm rd.src rd.buf hat.buf hl hat.src with ⟨_, h0⟩ | ⟨b', s', h1, h2, h3, h4, h5⟩
    · rw [hat.eq] at h0
      have := congrArg List.length h0
      unfold hdrSize at h48
      simp only [List.length_nil] at this
      omega
    · rw [h1]
      exact tryGroup_abort hfm hdec hm hid hprev hlen h48 hfo hf1 hf2 hcrc s' b' h3 (h2.trans hat.eq)
  · rw [if_neg hl]
    exact tryGroup_abort hfm hdec hm hid hprev hlen h48 hfo hf1 hf2 hcrc rd.src rd.buf (by omega) hat.eq

/-- The load of a chain followed by bytes on which the reader aborts. -/
theorem doLoad_chain_abort {e : Env} (hfm : hdrSize ≤ e.fm) {t : Bytes} {idx prevCrc idx' crc' : Nat}
    {gs : List (Bytes × List Rec)} (hc : Chain e idx prevCrc gs idx' crc')
    (hend : ∀ (rd : Reader) (pos : Nat), rd.At e pos t → rd.prevCrc = crc' → nextGroup e rd = .error .abort) :
    ∀ (fuel : Nat) (rd : Reader) (first : Bool) (st : Loaded) (pos : Nat), gs.length < fuel →
    rd.At e pos (chainBytes gs ++ t) → rd.prevCrc = prevCrc → st.logIdx = idx →
    doLoad e fuel rd first st = .error .abort := by
  induction hc with
  | nil idx crc =>
    intro fuel rd first st pos hf hat hpc hidx
    obtain ⟨fuel, rfl⟩ : ∃ f, fuel = f + 1 := ⟨fuel - 1, by simp at hf; omega⟩
    unfold doLoad
    rw [hend rd pos (by simpa [chainBytes] using hat) hpc]
  | @cons idx prevCrc b h rs gs idx' crc' he hne hst hid hprev hch ih =>
    intro fuel rd first st pos hf hat hpc hidx
    obtain ⟨fuel, rfl⟩ : ∃ f, fuel = f + 1 := ⟨fuel - 1, by simp at hf; omega⟩
    have hb : chainBytes ((b, rs) :: gs) = b ++ chainBytes gs := by simp [chainBytes]
    rw [hb, List.append_assoc] at hat
    obtain ⟨rd', e1, hat', hcrc⟩ := nextGroup_group hfm he hid (by rw [hpc]; exact hprev) hat
    unfold doLoad
    rw [e1]
    simp only
    rw [if_neg (by rintro ⟨_, h2⟩; omega), if_neg (by omega), if_neg (by
      rw [he.nrec]; intro h0; exact hne (List.length_eq_zero_iff.1 h0))]
    rw [he.nrec, groupRecs_ok he rd.pos rs.length (Nat.le_refl _), List.take_length]
    simp only
    exact ih hend fuel rd' false _ (pos + b.length) (by simp at hf; omega) hat' hcrc (by show h.startIdx + _ = _; rw [hst])

/-- What the bytes at the place of a group can be after a crash during its write: everything, except that the first
`hdrSize` bytes (they are in one sector) are either the new ones or old ones that are not the header of a group of
this device that follows the last flushed one. -/
structure TornWrite (e : Env) (lastCrc : Nat) (new t : Bytes) : Prop where
  len : t.length = new.length
  hdr : t.take hdrSize = new.take hdrSize ∨
    ∃ h, Hdr.dec t = some h ∧ (h.magic ≠ hdrMagic ∨ h.logdev ≠ e.logdev ∨ (lastCrc ≠ 0 ∧ lastCrc ≠ h.prevCrc))

theorem TornWrite.cases {e : Env} {lastCrc : Nat} {b t rest : Bytes} {h : Hdr} {rs : List Rec}
    (he : Encodes e.fm e.crc b h rs) (hid : h.logdev = e.logdev) (hprev : lastCrc = 0 ∨ lastCrc = h.prevCrc)
    (ht : TornWrite e lastCrc b t) (hcoll : e.crc (t.drop hdrSize) = e.crc (b.drop hdrSize) → t = b)
    (hfm : hdrSize ≤ e.fm) :
    EndsHere e lastCrc (t ++ rest) ∨ t = b ∨
    ∀ (rd : Reader) (pos : Nat), rd.At e pos (t ++ rest) → rd.prevCrc = lastCrc → nextGroup e rd = .error .abort := by
  have hslots := he.slots
  have hfin := he.footIn
  have hfs : footSize = 24 := rfl
  have hlen := ht.len
  rcases ht.hdr with h1 | ⟨h', hd, hb⟩
  · have hdec : Hdr.dec (t ++ rest) = some h := by
      rw [Hdr.dec_append (by omega), ← Hdr.dec_take (Nat.le_refl _), h1, Hdr.dec_take (Nat.le_refl _), he.dec]
    by_cases hf : fld (t ++ rest) h.footOff 3 = some footMagic ∧ fld (t ++ rest) (h.footOff + 4) 8 = some h.startIdx
    · by_cases hcrc : (e.crc (t.drop hdrSize)).toNat = h.curCrc
      · right; left
        refine hcoll ?_
        rw [he.curCrc] at hcrc
        exact UInt32.toNat_inj.1 hcrc
      · right; right
        intro rd pos hat hpc
        refine nextGroup_abort hfm hat hdec he.magic hid (by rw [hpc]; exact hprev) ?_ ?_ ?_ hf.1 hf.2 ?_
        · rw [he.size, List.length_append]; omega
        · rw [he.size]; omega
        · rw [he.size]; omega
        · rw [he.size, ← hlen, List.take_left]; exact hcrc
    · left
      right
      refine ⟨h, hdec, Or.inr (Or.inr (Or.inr (Or.inr ⟨by rw [he.size]; omega, ?_⟩)))⟩
      exact not_and_or.1 hf
  · left
    right
    refine ⟨h', by rw [Hdr.dec_append (by omega), hd], ?_⟩
    rcases hb with hb | hb | hb
    · exact Or.inl hb
    · exact Or.inr (Or.inl hb)
    · exact Or.inr (Or.inr (Or.inl hb))

end HS.Log
