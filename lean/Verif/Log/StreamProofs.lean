import Verif.Log.GroupProofs
import Verif.Log.Stream

/-!
# The load finds exactly the groups that were written
-/

namespace HS.Log

def Pieces (fm : Nat) (src : List Bytes) : Prop := ∀ p ∈ src, fm ∣ p.length

/-- The reader is at the start of the data bytes `s`. -/
structure Reader.At (e : Env) (rd : Reader) (pos : Nat) (s : Bytes) : Prop where
  buf : e.fm ∣ rd.buf.length
  src : Pieces e.fm rd.src
  eq : rd.buf ++ rd.src.flatten = s
  pos : rd.pos = pos

theorem Hdr.dec_append {a c : Bytes} (h : hdrSize ≤ a.length) : Hdr.dec (a ++ c) = Hdr.dec a := by
  unfold hdrSize at h
  unfold Hdr.dec
  rw [fld_append (by omega), fld_append (by omega), fld_append (by omega), fld_append (by omega), fld_append (by omega),
    fld_append (by omega), fld_append (by omega), fld_append (by omega), fld_append (by omega), fld_append (by omega),
    fld_append (by omega)]

theorem fillHdr_spec {e : Env} (hfm : hdrSize ≤ e.fm) : ∀ (src : List Bytes) (buf : Bytes), e.fm ∣ buf.length →
    buf.length < e.fm → Pieces e.fm src →
    (fillHdr buf src = none ∧ buf ++ src.flatten = []) ∨
    ∃ b s, fillHdr buf src = some (b, s) ∧ b ++ s.flatten = buf ++ src.flatten ∧ e.fm ≤ b.length ∧ e.fm ∣ b.length ∧
      Pieces e.fm s := by
  intro src
  induction src with
  | nil =>
    intro buf hd hl _
    left
    have : buf.length = 0 := Nat.eq_zero_of_dvd_of_lt hd hl
    exact ⟨rfl, by simp [List.length_eq_zero_iff.1 this]⟩
  | cons p ps ih =>
    intro buf hd hl hp
    have hp1 : e.fm ∣ p.length := hp p (List.mem_cons_self ..)
    have hp2 : Pieces e.fm ps := fun q hq => hp q (List.mem_cons_of_mem _ hq)
    have hdl : e.fm ∣ (buf ++ p).length := by rw [List.length_append]; exact Nat.dvd_add hd hp1
    have hfl : buf ++ (p :: ps).flatten = (buf ++ p) ++ ps.flatten := by simp
    unfold fillHdr
    by_cases hc : (buf ++ p).length < hdrSize
    · rw [if_pos hc, hfl]
      exact ih (buf ++ p) hdl (by omega) hp2
    · right
      rw [if_neg hc]
      refine ⟨_, _, rfl, hfl.symm, ?_, hdl, hp2⟩
      have : (buf ++ p).length ≠ 0 := by unfold hdrSize at hc; omega
      exact Nat.le_of_dvd (by omega) hdl

theorem checkBody_ok {e : Env} {b rest : Bytes} {h : Hdr} {rs : List Rec} (he : Encodes e.fm e.crc b h rs) {rd : Reader}
    {s1 : Bytes} (hb : rd.buf = b ++ s1) (hrest : s1 ++ rd.src.flatten = rest) (hbuf : e.fm ∣ rd.buf.length)
    (hsrc : Pieces e.fm rd.src) :
    ∃ rd', checkBody e rd h = .ok (.group h b rd') ∧ rd'.At e (rd.pos + b.length) rest ∧ rd'.prevCrc = h.curCrc := by
  have hslots := he.slots
  have hfin := he.footIn
  have hhs : hdrSize = 48 := rfl
  have hfs : footSize = 24 := rfl
  unfold checkBody
  rw [hb, fld_append (by omega), fld_append (by omega), he.footMagic, he.footIdx]
  simp only [ne_eq, not_true_eq_false, or_self, if_false]
  rw [he.size, slice_append (by omega)]
  have hsl : slice b hdrSize (b.length - hdrSize) = .ok (b.drop hdrSize) := by
    unfold slice
    rw [if_pos (by omega), List.take_of_length_le (by simp)]
  rw [hsl]
  simp only
  rw [if_neg (by omega), if_neg (by rw [he.curCrc]; simp)]
  rw [List.take_left, List.drop_left]
  refine ⟨_, rfl, ⟨?_, hsrc, hrest, rfl⟩, he.curCrc.symm⟩
  rw [hb, List.length_append] at hbuf
  exact (Nat.dvd_add_right he.mult).1 hbuf

theorem tryGroup_group {e : Env} (hfm : hdrSize ≤ e.fm) {b rest : Bytes} {h : Hdr} {rs : List Rec}
    (he : Encodes e.fm e.crc b h rs) (hid : h.logdev = e.logdev) {pos prevCrc : Nat}
    (hprev : prevCrc = 0 ∨ prevCrc = h.prevCrc) : ∀ (src : List Bytes) (buf : Bytes), e.fm ∣ buf.length →
    e.fm ≤ buf.length → Pieces e.fm src → buf ++ src.flatten = b ++ rest →
    ∃ rd', tryGroup e pos prevCrc buf src = .ok (.group h b rd') ∧ rd'.At e (pos + b.length) rest ∧
      rd'.prevCrc = h.curCrc := by
  intro src
  induction src with
  | nil =>
    intro buf hd hl hp heq
    have hdec : Hdr.dec buf = some h := by
      have h1 : Hdr.dec (buf ++ ([] : List Bytes).flatten) = Hdr.dec buf := Hdr.dec_append (by omega)
      rw [← h1, heq, Hdr.dec_append (by have := he.slots; omega), he.dec]
    unfold tryGroup
    rw [if_neg (by omega), hdec]
    simp only
    rw [if_neg (by rw [he.magic]; simp), if_neg (by simp [hid]), if_neg (by rintro ⟨h1, h2⟩; rcases hprev with h | h <;> omega)]
    simp only [List.flatten_nil, List.append_nil] at heq
    rw [if_neg (by rw [he.size, heq, List.length_append]; omega)]
    exact checkBody_ok he (rd := ⟨buf, [], pos, prevCrc⟩) (s1 := rest) heq (by simp) hd hp
  | cons p ps ih =>
    intro buf hd hl hp heq
    have hp1 : e.fm ∣ p.length := hp p (List.mem_cons_self ..)
    have hp2 : Pieces e.fm ps := fun q hq => hp q (List.mem_cons_of_mem _ hq)
    have hdec : Hdr.dec buf = some h := by
      have h1 : Hdr.dec (buf ++ (p :: ps).flatten) = Hdr.dec buf := Hdr.dec_append (by omega)
      rw [← h1, heq, Hdr.dec_append (by have := he.slots; omega), he.dec]
    unfold tryGroup
    rw [if_neg (by omega), hdec]
    simp only
    rw [if_neg (by rw [he.magic]; simp), if_neg (by simp [hid]), if_neg (by rintro ⟨h1, h2⟩; rcases hprev with h | h <;> omega)]
    by_cases hc : buf.length < h.groupSize
    · rw [if_pos hc]
      refine ih (buf ++ p) (by rw [List.length_append]; exact Nat.dvd_add hd hp1) (by rw [List.length_append]; omega) hp2 ?_
      rw [← heq]
      simp
    · rw [if_neg hc]
      rw [he.size] at hc
      have hpre : buf = b ++ buf.drop b.length := by
        have h1 : buf.take b.length = b := by
          have := congrArg (List.take b.length) heq
          rwa [List.take_append_of_le_length (by omega), List.take_left] at this
        conv_lhs => rw [← List.take_append_drop b.length buf, h1]
      refine checkBody_ok he (rd := ⟨buf, p :: ps, pos, prevCrc⟩) (s1 := buf.drop b.length) hpre ?_ hd hp
      rw [hpre, List.append_assoc] at heq
      exact List.append_cancel_left heq

theorem nextGroup_group {e : Env} (hfm : hdrSize ≤ e.fm) {b rest : Bytes} {h : Hdr} {rs : List Rec}
    (he : Encodes e.fm e.crc b h rs) (hid : h.logdev = e.logdev) {rd : Reader} {pos : Nat}
    (hprev : rd.prevCrc = 0 ∨ rd.prevCrc = h.prevCrc) (hat : rd.At e pos (b ++ rest)) :
    ∃ rd', nextGroup e rd = .ok (.group h b rd') ∧ rd'.At e (pos + b.length) rest ∧ rd'.prevCrc = h.curCrc := by
  have hp := hat.pos
  unfold nextGroup
  by_cases hl : rd.buf.length < e.fm
  · rw [if_pos hl]
    rcases fillHdr_spec hfm rd.src rd.buf hat.buf hl hat.src with ⟨_, h0⟩ | ⟨b', s', h1, h2, h3, h4, h5⟩
    · rw [hat.eq] at h0
      have := congrArg List.length h0
      have h2 := he.slots
      unfold hdrSize at h2
      simp only [List.length_append, List.length_nil] at this
      omega
    · rw [h1]
      simp only
      rw [hp]
      exact tryGroup_group hfm he hid hprev s' b' h4 h3 h5 (h2.trans hat.eq)
  · rw [if_neg hl, hp]
    exact tryGroup_group hfm he hid hprev rd.src rd.buf hat.buf (by omega) hat.src hat.eq

/-- The data bytes `t` do not start with a group that continues a log of this device whose last group had the
checksum `prevCrc`: no bytes are left, or there is no header, or it is not of this log device or does not name
`prevCrc` as its predecessor, or the group is longer than what is left, or its footer is not there. -/
def EndsHere (e : Env) (prevCrc : Nat) (t : Bytes) : Prop :=
  t = [] ∨ ∃ h, Hdr.dec t = some h ∧
    (h.magic ≠ hdrMagic ∨ h.logdev ≠ e.logdev ∨ (prevCrc ≠ 0 ∧ prevCrc ≠ h.prevCrc) ∨ t.length < h.groupSize ∨
      (h.footOff + 12 ≤ h.groupSize ∧ (fld t h.footOff 3 ≠ some footMagic ∨ fld t (h.footOff + 4) 8 ≠ some h.startIdx)))

theorem checkBody_stop {e : Env} {h : Hdr} {rd : Reader} {t : Bytes} (ht : rd.buf ++ rd.src.flatten = t)
    (hlast : e.lastAt ≤ rd.pos) (hlen : h.groupSize ≤ rd.buf.length) (hf : h.footOff + 12 ≤ h.groupSize)
    (hbad : fld t h.footOff 3 ≠ some footMagic ∨ fld t (h.footOff + 4) 8 ≠ some h.startIdx) :
    checkBody e rd h = .ok .stop := by
  rw [← ht, fld_append (by omega), fld_append (by omega)] at hbad
  unfold checkBody
  have h1 : ∃ m, fld rd.buf h.footOff 3 = some m := by unfold fld; rw [if_pos (by omega)]; exact ⟨_, rfl⟩
  have h2 : ∃ i, fld rd.buf (h.footOff + 4) 8 = some i := by unfold fld; rw [if_pos (by omega)]; exact ⟨_, rfl⟩
  obtain ⟨m, h1⟩ := h1
  obtain ⟨i, h2⟩ := h2
  rw [h1, h2] at hbad ⊢
  simp only
  rw [if_pos (by
    rcases hbad with h | h
    · left; intro h'; rw [h'] at h; exact h rfl
    · right; intro h'; rw [h'] at h; exact h rfl), if_neg (by omega)]

theorem tryGroup_stop {e : Env} (hfm : hdrSize ≤ e.fm) {pos prevCrc : Nat} {t : Bytes} (hlast : e.lastAt ≤ pos)
    {h : Hdr} (hdec : Hdr.dec t = some h)
    (hbad : h.magic ≠ hdrMagic ∨ h.logdev ≠ e.logdev ∨ (prevCrc ≠ 0 ∧ prevCrc ≠ h.prevCrc) ∨ t.length < h.groupSize ∨
      (h.footOff + 12 ≤ h.groupSize ∧
        (fld t h.footOff 3 ≠ some footMagic ∨ fld t (h.footOff + 4) 8 ≠ some h.startIdx))) :
    ∀ (src : List Bytes) (buf : Bytes), e.fm ≤ buf.length → buf ++ src.flatten = t →
    tryGroup e pos prevCrc buf src = .ok .stop := by
  intro src
  induction src with
  | nil =>
    intro buf hl heq
    have hd : Hdr.dec buf = some h := by rw [← hdec, ← heq]; exact (Hdr.dec_append (by omega)).symm
    unfold tryGroup
    rw [if_neg (by omega), hd]
    simp only
    by_cases c1 : h.magic ≠ hdrMagic
    · rw [if_pos c1]
    rw [if_neg c1]
    by_cases c2 : h.logdev ≠ e.logdev
    · rw [if_pos c2]
    rw [if_neg c2]
    by_cases c3 : prevCrc ≠ 0 ∧ prevCrc ≠ h.prevCrc
    · rw [if_pos c3, if_neg (by omega)]
    rw [if_neg c3]
    by_cases c4 : buf.length < h.groupSize
    · rw [if_pos c4]
    rw [if_neg c4]
    have hlt : t.length = buf.length := by rw [← heq]; simp
    rcases hbad with hb | hb | hb | hb | ⟨hb1, hb2⟩
    · exact absurd hb c1
    · exact absurd hb c2
    · exact absurd hb c3
    · omega
    · exact checkBody_stop (rd := ⟨buf, [], pos, prevCrc⟩) heq hlast (by show _ ≤ buf.length; omega) hb1 hb2
  | cons p ps ih =>
    intro buf hl heq
    have hd : Hdr.dec buf = some h := by rw [← hdec, ← heq]; exact (Hdr.dec_append (by omega)).symm
    unfold tryGroup
    rw [if_neg (by omega), hd]
    simp only
    by_cases c1 : h.magic ≠ hdrMagic
    · rw [if_pos c1]
    rw [if_neg c1]
    by_cases c2 : h.logdev ≠ e.logdev
    · rw [if_pos c2]
    rw [if_neg c2]
    by_cases c3 : prevCrc ≠ 0 ∧ prevCrc ≠ h.prevCrc
    · rw [if_pos c3, if_neg (by omega)]
    rw [if_neg c3]
    by_cases c4 : buf.length < h.groupSize
    · rw [if_pos c4]
      exact ih (buf ++ p) (by rw [List.length_append]; omega) (by rw [← heq]; simp)
    rw [if_neg c4]
    have hlt : buf.length ≤ t.length := by rw [← heq]; simp
    rcases hbad with hb | hb | hb | hb | ⟨hb1, hb2⟩
    · exact absurd hb c1
    · exact absurd hb c2
    · exact absurd hb c3
    · omega
    · exact checkBody_stop (rd := ⟨buf, p :: ps, pos, prevCrc⟩) heq hlast (by show _ ≤ buf.length; omega) hb1 hb2

theorem nextGroup_stop {e : Env} (hfm : hdrSize ≤ e.fm) {rd : Reader} {pos : Nat} {t : Bytes} (hat : rd.At e pos t)
    (hlast : e.lastAt ≤ pos) (hend : EndsHere e rd.prevCrc t) : nextGroup e rd = .ok .stop := by
  have hp := hat.pos
  unfold nextGroup
  rcases hend with h0 | ⟨h, hdec, hbad⟩
  · have h1 : rd.buf = [] ∧ rd.src.flatten = [] := by
      have := hat.eq
      rw [h0] at this
      exact List.append_eq_nil_iff.1 this
    have hfm0 : 0 < e.fm := by unfold hdrSize at hfm; omega
    rw [if_pos (by rw [h1.1]; exact hfm0)]
    rcases fillHdr_spec hfm rd.src rd.buf hat.buf (by rw [h1.1]; exact hfm0) hat.src with ⟨h2, _⟩ | ⟨b', s', h2, h3, h4, h5, h6⟩
    · rw [h2]
    · exfalso
      rw [hat.eq, h0] at h3
      have := congrArg List.length h3
      simp only [List.length_append, List.length_nil] at this
      omega
  · by_cases hl : rd.buf.length < e.fm
    · rw [if_pos hl]
      rcases fillHdr_spec hfm rd.src rd.buf hat.buf hl hat.src with ⟨h1, h0⟩ | ⟨b', s', h1, h2, h3, h4, h5⟩
      · rw [h1]
      · rw [h1]
        simp only
        rw [hp]
        exact tryGroup_stop hfm hlast hdec hbad s' b' h3 (h2.trans hat.eq)
    · rw [if_neg hl, hp]
      exact tryGroup_stop hfm hlast hdec hbad rd.src rd.buf (by omega) hat.eq

/-! ## The records of a group -/

/-- What the load should report for the records `rs` whose first has the index `idx`, in a group at `pos`. -/
def foundOf (idx pos : Nat) : List Rec → List Found
  | [] => []
  | r :: rs => { idx := idx, store := r.store, seq := r.seq, data := r.data, pos := pos } :: foundOf (idx + 1) pos rs

theorem foundOf_append (idx pos : Nat) (a b : List Rec) :
    foundOf idx pos (a ++ b) = foundOf idx pos a ++ foundOf (idx + a.length) pos b := by
  induction a generalizing idx with
  | nil => rfl
  | cons r a ih =>
    simp only [List.cons_append, foundOf, ih, List.length_cons]
    rw [show idx + 1 + a.length = idx + (a.length + 1) by omega]

theorem groupRecs_ok {fm : Nat} {crc : Bytes → UInt32} {b : Bytes} {h : Hdr} {rs : List Rec}
    (he : Encodes fm crc b h rs) (pos : Nat) : ∀ k ≤ rs.length,
    groupRecs h b pos k = .ok (foundOf h.startIdx pos (rs.take k)) := by
  intro k
  induction k with
  | zero => intro _; rfl
  | succ k ih =>
    intro hk
    unfold groupRecs
    rw [ih (by omega)]
    have hr : rs[k]? = some rs[k] := List.getElem?_eq_getElem (by omega)
    obtain ⟨s, h1, h2, h3, h4, h5⟩ := he.recs k _ hr
    simp only [h1, h5]
    rw [List.take_succ, hr, foundOf_append]
    simp [foundOf, h3, h4, Nat.min_eq_left (show k ≤ rs.length by omega)]

/-! ## Chains of groups -/

/-- `gs` are consecutive groups of this device: the first has the index `idx` and follows a group with checksum
`prevCrc` (`0`: nothing is known about it); after them come index `idx'` and checksum `crc'`. -/
inductive Chain (e : Env) : Nat → Nat → List (Bytes × List Rec) → Nat → Nat → Prop
  | nil (idx crc) : Chain e idx crc [] idx crc
  | cons {idx prevCrc b h rs gs idx' crc'} : Encodes e.fm e.crc b h rs → rs ≠ [] → h.startIdx = idx →
      h.logdev = e.logdev → (prevCrc = 0 ∨ prevCrc = h.prevCrc) → Chain e (idx + rs.length) h.curCrc gs idx' crc' →
      Chain e idx prevCrc ((b, rs) :: gs) idx' crc'

def chainBytes (gs : List (Bytes × List Rec)) : Bytes := (gs.map Prod.fst).flatten

def chainFound (idx pos : Nat) : List (Bytes × List Rec) → List Found
  | [] => []
  | (b, rs) :: gs => foundOf idx pos rs ++ chainFound (idx + rs.length) (pos + b.length) gs

theorem doLoad_chain {e : Env} (hfm : hdrSize ≤ e.fm) {t : Bytes} {idx prevCrc idx' crc' : Nat}
    {gs : List (Bytes × List Rec)} (hc : Chain e idx prevCrc gs idx' crc') (hend : EndsHere e crc' t) :
    ∀ (fuel : Nat) (rd : Reader) (first : Bool) (st : Loaded) (pos : Nat), gs.length < fuel →
    rd.At e pos (chainBytes gs ++ t) → rd.prevCrc = prevCrc → st.logIdx = idx →
    e.lastAt ≤ pos + (chainBytes gs).length →
    ∃ c, doLoad e fuel rd first st = .ok (some
      { recs := st.recs ++ chainFound idx pos gs, logIdx := idx', tail := pos + (chainBytes gs).length, lastCrc := c }) ∧
      (gs ≠ [] → c = crc') ∧ (gs = [] → c = st.lastCrc) := by
  induction hc with
  | nil idx crc =>
    intro fuel rd first st pos hf hat hpc hidx hlast
    obtain ⟨fuel, rfl⟩ : ∃ f, fuel = f + 1 := ⟨fuel - 1, by simp at hf; omega⟩
    refine ⟨st.lastCrc, ?_, fun h => absurd rfl h, fun _ => rfl⟩
    unfold doLoad
    simp only [chainBytes, List.map_nil, List.flatten_nil, List.nil_append, List.length_nil, Nat.add_zero] at hat hlast
    rw [nextGroup_stop hfm hat hlast (by rw [hpc]; exact hend)]
    simp only [chainFound, List.append_nil, chainBytes, List.map_nil, List.flatten_nil, List.length_nil, Nat.add_zero]
    rw [hat.pos, ← hidx]
  | @cons idx prevCrc b h rs gs idx' crc' he hne hst hid hprev hch ih =>
    intro fuel rd first st pos hf hat hpc hidx hlast
    obtain ⟨fuel, rfl⟩ : ∃ f, fuel = f + 1 := ⟨fuel - 1, by simp at hf; omega⟩
    have hb : chainBytes ((b, rs) :: gs) = b ++ chainBytes gs := by simp [chainBytes]
    rw [hb, List.append_assoc] at hat
    rw [hb, List.length_append] at hlast
    obtain ⟨rd', e1, hat', hcrc⟩ := nextGroup_group hfm he hid (by rw [hpc]; exact hprev) hat
    obtain ⟨c, e2, hc1, hc2⟩ := ih hend fuel rd' false
      { recs := st.recs ++ foundOf idx pos rs, logIdx := idx + rs.length, tail := pos, lastCrc := h.curCrc }
      (pos + b.length) (by simp at hf; omega) hat' hcrc rfl (by omega)
    refine ⟨c, ?_, fun _ => ?_, fun h => by cases h⟩
    · unfold doLoad
      rw [e1]
      simp only
      rw [if_neg (by rintro ⟨_, h2⟩; omega), if_neg (by omega), if_neg (by
        rw [he.nrec]; intro h0; exact hne (List.length_eq_zero_iff.1 h0))]
      rw [he.nrec, groupRecs_ok he rd.pos rs.length (Nat.le_refl _), List.take_length]
      simp only
      rw [hst, hat.pos, e2, hb, List.length_append]
      simp only [chainFound, List.append_assoc, Nat.add_assoc]
    · cases hch with
      | nil => exact hc2 rfl
      | cons _ _ _ _ _ _ => exact hc1 (by simp)

theorem Chain.bytes_len {e : Env} {idx prevCrc idx' crc' : Nat} {gs : List (Bytes × List Rec)}
    (hc : Chain e idx prevCrc gs idx' crc') : gs.length ≤ (chainBytes gs).length := by
  induction hc with
  | nil => simp
  | cons he _ _ _ _ _ ih =>
    have := he.slots
    unfold hdrSize at this
    simp only [chainBytes, List.map_cons, List.flatten_cons, List.length_append, List.length_cons]
    unfold chainBytes at ih
    omega

theorem load_chain {e : Env} (hfm : hdrSize ≤ e.fm) {t : Bytes} {idx idx' crc' : Nat}
    {gs : List (Bytes × List Rec)} (hc : Chain e idx 0 gs idx' crc') (hend : EndsHere e crc' t) {src : List Bytes}
    (hp : Pieces e.fm src) (hsrc : src.flatten = chainBytes gs ++ t) (hlast : e.lastAt ≤ (chainBytes gs).length) :
    ∃ c, load e idx src = .ok (some
      { recs := chainFound idx 0 gs, logIdx := idx', tail := (chainBytes gs).length, lastCrc := c }) ∧
      (gs ≠ [] → c = crc') := by
  have hlen := hc.bytes_len
  obtain ⟨c, h1, h2, _⟩ := doLoad_chain hfm hc hend (src.flatten.length + 1) { buf := [], src := src, pos := 0, prevCrc := 0 }
    true { recs := [], logIdx := idx, tail := 0, lastCrc := 0 } 0 (by rw [hsrc, List.length_append]; omega)
    ⟨by simp, hp, by simpa using hsrc, rfl⟩ rfl rfl (by omega)
  exact ⟨c, by simpa [load] using h1, h2⟩

theorem Chain.append {e : Env} {idx prevCrc idx1 crc1 idx2 crc2 : Nat} {gs hs : List (Bytes × List Rec)}
    (h1 : Chain e idx prevCrc gs idx1 crc1) (h2 : Chain e idx1 crc1 hs idx2 crc2) :
    Chain e idx prevCrc (gs ++ hs) idx2 crc2 := by
  induction h1 with
  | nil => exact h2
  | cons a b c d f _ ih => exact .cons a b c d f (ih h2)

end HS.Log
