import Verif.Log.Flush

/-!
# Log recovery: property C35, and reading back from a group (part of C34)

The specification is at the top: what a recovery has to deliver, and what can be on the device after a crash.
-/

namespace HS.Log

/-! ## Specification -/

/-- A delivered record: index, store, sequence number, bytes. -/
abbrev View := Nat × Nat × Nat × Bytes

/-- The records `rs`, numbered from `idx` on. -/
def numbered (idx : Nat) : List Rec → List View
  | [] => []
  | r :: rs => (idx, r.store, r.seq, r.data) :: numbered (idx + 1) rs

def Loaded.views (l : Loaded) : List View := l.recs.map (fun f => (f.idx, f.store, f.seq, f.data))

/-! ## Bridges -/

theorem views_foundOf (idx pos : Nat) (rs : List Rec) :
    (foundOf idx pos rs).map (fun f => (f.idx, f.store, f.seq, f.data)) = numbered idx rs := by
  induction rs generalizing idx with
  | nil => rfl
  | cons r rs ih => simp [foundOf, numbered, ih]

theorem numbered_append (idx : Nat) (a b : List Rec) :
    numbered idx (a ++ b) = numbered idx a ++ numbered (idx + a.length) b := by
  induction a generalizing idx with
  | nil => rfl
  | cons r a ih =>
    simp only [List.cons_append, numbered, ih, List.length_cons]
    rw [show idx + 1 + a.length = idx + (a.length + 1) by omega]

theorem views_chainFound (idx pos : Nat) (gs : List (Bytes × List Rec)) :
    (chainFound idx pos gs).map (fun f => (f.idx, f.store, f.seq, f.data)) = numbered idx (gs.map Prod.snd).flatten := by
  induction gs generalizing idx pos with
  | nil => rfl
  | cons g gs ih =>
    obtain ⟨b, rs⟩ := g
    simp only [chainFound, List.map_append, views_foundOf, ih, List.map_cons, List.flatten_cons, numbered_append]

/-- The checksum of the last group on the device; `0` if there is none. -/
def lastCrc (bs : List Bytes) (c : Nat) : Nat := if bs = [] then 0 else c

/-! ## C35: everything that was flushed, in order -/

/-- C35, no write was going on at the crash.  Any number of flushes of any records: the bytes that they write, read
back in any pieces, give every record with its index, store, number and bytes, in order, and nothing else, whatever
follows on the device that does not itself continue the log. -/
theorem C35_replays_all_flushed (e : Env) (opt : Nat) (J : Nat → Nat → UInt8) (rss : List (List Rec)) (idx c0 : Nat)
    (hfm : hdrSize ≤ e.fm) (hld : e.logdev < 256 ^ 4) (hfit : ∀ rs ∈ rss, BatchFits e.fm rs) (hc0 : c0 < 256 ^ 4)
    (hidx : idx + rss.flatten.length < 256 ^ 8) :
    ∃ bs i c, flushes e.fm opt e.crc e.logdev J rss idx c0 = .ok (some (bs, i, c)) ∧
      ∀ (t : Bytes) (src : List Bytes), EndsHere e (lastCrc bs c) t → Pieces e.fm src →
        src.flatten = bs.flatten ++ t → e.lastAt ≤ bs.flatten.length →
        ∃ l, load e idx src = .ok (some l) ∧ l.views = numbered idx rss.flatten ∧
          l.logIdx = idx + rss.flatten.length ∧ l.tail = bs.flatten.length := by
  have hfm0 : 0 < e.fm := by unfold hdrSize at hfm; omega
  obtain ⟨gs, c', e1, hch, hfl, _, _⟩ := flushes_ok hfm0 hld (opt := opt) J rss idx c0 hfit hc0 hidx
  refine ⟨_, _, _, e1, ?_⟩
  intro t src hend hp hsrc hlast
  rcases hch.start with ⟨h1, h2, h3⟩ | ⟨h1, h2⟩
  · subst h1
    have hnil : rss.flatten = [] := by simpa using hfl.symm
    obtain ⟨c, h5, _⟩ := load_chain hfm (Chain.nil (e := e) idx 0) (by simpa [lastCrc] using hend) hp
      (by simpa [chainBytes] using hsrc) (by simpa [chainBytes] using hlast)
    refine ⟨_, h5, ?_, ?_, ?_⟩
    · simp [Loaded.views, chainFound, hnil, numbered]
    · simp [hnil]
    · simp [chainBytes]
  · have hl : lastCrc (gs.map Prod.fst) c' = c' := by simp [lastCrc, h1]
    rw [hl] at hend
    obtain ⟨c, h5, _⟩ := load_chain hfm h2 hend hp hsrc hlast
    refine ⟨_, h5, ?_, rfl, rfl⟩
    simp only [Loaded.views]
    rw [views_chainFound, hfl]

/-! ## C35: a write was going on -/

theorem load_chain_abort {e : Env} (hfm : hdrSize ≤ e.fm) {t : Bytes} {idx idx' crc' : Nat}
    {gs : List (Bytes × List Rec)} (hc : Chain e idx 0 gs idx' crc')
    (hend : ∀ (rd : Reader) (pos : Nat), rd.At e pos t → rd.prevCrc = crc' → nextGroup e rd = .error .abort)
    {src : List Bytes} (hp : Pieces e.fm src) (hsrc : src.flatten = chainBytes gs ++ t) :
    load e idx src = .error .abort := by
  have hlen := hc.bytes_len
  exact doLoad_chain_abort hfm hc hend (src.flatten.length + 1) { buf := [], src := src, pos := 0, prevCrc := 0 }
    true { recs := [], logIdx := idx, tail := 0, lastCrc := 0 } 0 (by rw [hsrc, List.length_append]; omega)
    ⟨by simp, hp, by simpa using hsrc, rfl⟩ rfl rfl

/-- C35, with a crash during the write of one more group `b` of the records `rs`: the bytes at its place are `t`, a
torn image of it.  The load delivers exactly the flushed records, or the group was written completely and the load
delivers its records behind them, or the load aborts.  It never delivers a part of a torn group.

Partial: the property says that the load succeeds; it may abort (`C35_torn_middle_aborts_violated`). -/
theorem C35_torn_group_partial (e : Env) (opt : Nat) (J : Nat → Nat → UInt8) (rss : List (List Rec)) (rs : List Rec)
    (idx c0 : Nat) (hfm : hdrSize ≤ e.fm) (hld : e.logdev < 256 ^ 4) (hfit : ∀ rs ∈ rss, BatchFits e.fm rs)
    (hc0 : c0 < 256 ^ 4) (hidx : idx + rss.flatten.length + rs.length < 256 ^ 8) (hrs : rs ≠ [])
    (hrfit : BatchFits e.fm rs) :
    ∃ bs i c b n, flushes e.fm opt e.crc e.logdev J rss idx c0 = .ok (some (bs, i, c)) ∧
      buildGroup e.fm opt e.crc (rs.length + 4) rs i e.logdev c (J i) = .ok (b, n) ∧ 0 < n ∧
      ∀ (t rest : Bytes) (src : List Bytes) (crcB : Nat), TornWrite e (lastCrc bs c) b t →
        (e.crc (t.drop hdrSize) = e.crc (b.drop hdrSize) → t = b) →
        crcB = (e.crc (b.drop hdrSize)).toNat → EndsHere e crcB rest → Pieces e.fm src →
        src.flatten = bs.flatten ++ t ++ rest → e.lastAt ≤ bs.flatten.length →
        (∃ l, load e idx src = .ok (some l) ∧ l.views = numbered idx rss.flatten) ∨
        (∃ l, load e idx src = .ok (some l) ∧ l.views = numbered idx (rss.flatten ++ rs.take n) ∧ t = b) ∨
        load e idx src = .error .abort := by
  have hfm0 : 0 < e.fm := by unfold hdrSize at hfm; omega
  obtain ⟨gs, c', e1, hch, hfl, hc', _⟩ := flushes_ok hfm0 hld (opt := opt) J rss idx c0 hfit hc0 (by omega)
  have hpos : 0 < rs.length := List.length_pos_iff.2 hrs
  obtain ⟨b, h, e2, he, k1, k2, k3⟩ := buildGroup_ok (opt := opt) hfm0 e.crc (est := rs.length + 4) (by omega) hrs
      (idx := idx + rss.flatten.length) (logdev := e.logdev) (prevCrc := c') (J (idx + rss.flatten.length)) hrfit.recs
      (by omega) hld hc' hrfit.size
  obtain ⟨n, hn⟩ : ∃ n, n = (rs.take (min (rs.length + 4) maxBatch)).length := ⟨_, rfl⟩
  rw [← hn] at e2
  have hmb : maxBatch = 202 := by decide
  have hn2 : n = min rs.length maxBatch := by
    rw [hn, List.length_take]; omega
  have htake : rs.take (min (rs.length + 4) maxBatch) = rs.take n := by
    rw [hn2]
    by_cases hc2 : rs.length ≤ maxBatch
    · rw [List.take_of_length_le (by omega), List.take_of_length_le (by omega)]
    · rw [show min (rs.length + 4) maxBatch = min rs.length maxBatch by omega]
  rw [htake] at he
  have hne : rs.take n ≠ [] := by
    intro h0
    have := congrArg List.length h0
    rw [List.length_take, List.length_nil] at this
    omega
  refine ⟨_, _, _, b, n, e1, e2, by omega, ?_⟩
  intro t rest src crcB htorn hcoll hcrcB hrest hp hsrc hlast
  -- the chain as the reader sees it
  have hchain : ∃ p, p = lastCrc (gs.map Prod.fst) c' ∧ Chain e idx 0 gs (idx + rss.flatten.length) p ∧
      (p = 0 ∨ p = h.prevCrc) := by
    rcases hch.start with ⟨h1, h2, h3⟩ | ⟨h1, h2⟩
    · subst h1
      refine ⟨0, by simp [lastCrc], ?_, Or.inl rfl⟩
      have hnil : rss.flatten = [] := by simpa using hfl.symm
      rw [hnil]
      exact .nil _ _
    · exact ⟨c', by simp [lastCrc, h1], h2, Or.inr k2.symm⟩
  obtain ⟨p, hp1, hp2, hp3⟩ := hchain
  rw [← hp1] at htorn
  have hcb : (gs.map Prod.fst).flatten = chainBytes gs := rfl
  rw [hcb] at hsrc hlast
  have hsrc2 : src.flatten = chainBytes gs ++ (t ++ rest) := by rw [hsrc, List.append_assoc]
  rcases TornWrite.cases (rest := rest) he k3 hp3 htorn hcoll hfm with hh | hh | hh
  · left
    obtain ⟨c, h5, _⟩ := load_chain hfm hp2 hh hp hsrc2 hlast
    refine ⟨_, h5, ?_⟩
    simp only [Loaded.views]
    rw [views_chainFound, hfl]
  · right; left
    subst hh
    have hch2 : Chain e idx 0 (gs ++ [(t, rs.take n)]) (idx + rss.flatten.length + (rs.take n).length) h.curCrc :=
      hp2.append (.cons he hne k1 k3 hp3 (.nil _ _))
    have hcb2 : chainBytes (gs ++ [(t, rs.take n)]) = chainBytes gs ++ t := by simp [chainBytes]
    obtain ⟨c, h5, _⟩ := load_chain hfm hch2 (by rw [he.curCrc, ← hcrcB]; exact hrest) hp (by rw [hcb2]; exact hsrc)
      (by rw [hcb2, List.length_append]; omega)
    refine ⟨_, h5, ?_, rfl⟩
    simp only [Loaded.views]
    rw [views_chainFound]
    simp [hfl]
  · right; right
    exact load_chain_abort hfm hp2 hh hp hsrc2

/-! ## C35: whatever is on the device -/

/-- `b` is a group of this device with intact bytes: its checksum is that of its content, it names the checksum of its
predecessor and the expected index. -/
structure Intact (e : Env) (idx prevCrc : Nat) (b : Bytes) (h : Hdr) : Prop where
  dec : Hdr.dec b = some h
  magic : h.magic = hdrMagic
  logdev : h.logdev = e.logdev
  chain : prevCrc = 0 ∨ prevCrc = h.prevCrc
  start : h.startIdx = idx
  size : b.length = h.groupSize
  crc : (e.crc (b.drop hdrSize)).toNat = h.curCrc

/-- Consecutive intact groups and the records in them. -/
inductive Intacts (e : Env) : Nat → Nat → List Bytes → List View → Prop
  | nil (idx prevCrc) : Intacts e idx prevCrc [] []
  | cons {idx prevCrc b h bs vs l pos} : Intact e idx prevCrc b h → groupRecs h b pos h.nrec = .ok l →
      Intacts e (idx + h.nrec) h.curCrc bs vs →
      Intacts e idx prevCrc (b :: bs) (l.map (fun f => (f.idx, f.store, f.seq, f.data)) ++ vs)

theorem checkBody_group {e : Env} {rd rd' : Reader} {h h' : Hdr} {b : Bytes}
    (hc : checkBody e rd h = .ok (.group h' b rd')) (hlen : h.groupSize ≤ rd.buf.length) :
    h' = h ∧ rd.buf = b ++ rd'.buf ∧ rd'.src = rd.src ∧ b.length = h.groupSize ∧ hdrSize ≤ h.groupSize ∧
    (e.crc (b.drop hdrSize)).toNat = h.curCrc ∧ rd'.prevCrc = h.curCrc := by
  unfold checkBody at hc
  cases h1 : fld rd.buf h.footOff 3 with
  | none => rw [h1] at hc; cases hc
  | some m =>
    cases h2 : fld rd.buf (h.footOff + 4) 8 with
    | none => rw [h1, h2] at hc; cases hc
    | some i =>
      rw [h1, h2] at hc
      simp only at hc
      by_cases hb : m ≠ footMagic ∨ i ≠ h.startIdx
      · rw [if_pos hb] at hc
        by_cases hp : rd.pos < e.lastAt
        · rw [if_pos hp] at hc; cases hc
        · rw [if_neg hp] at hc; cases hc
      · rw [if_neg hb] at hc
        unfold slice at hc
        by_cases hs : hdrSize + (h.groupSize - hdrSize) ≤ List.length rd.buf
        · rw [if_pos hs] at hc
          simp only at hc
          by_cases h48 : h.groupSize < hdrSize
          · rw [if_pos h48] at hc; cases hc
          · rw [if_neg h48] at hc
            have hbody : (rd.buf.drop hdrSize).take (h.groupSize - hdrSize) = (rd.buf.take h.groupSize).drop hdrSize := by
              rw [List.drop_take]
            rw [hbody] at hc
            by_cases hcrc : (e.crc ((rd.buf.take h.groupSize).drop hdrSize)).toNat ≠ h.curCrc
            · rw [if_pos hcrc] at hc; cases hc
            · rw [if_neg hcrc] at hc
              have hcrc2 := not_not.1 hcrc
              simp only [Except.ok.injEq, Next.group.injEq] at hc
              obtain ⟨e1, e2, e3⟩ := hc
              subst e1 e2 e3
              refine ⟨rfl, (List.take_append_drop _ _).symm, rfl, ?_, by omega, hcrc2, hcrc2⟩
              rw [List.length_take]; omega
        · rw [if_neg hs] at hc; cases hc

theorem tryGroup_sound {e : Env} (hfm : hdrSize ≤ e.fm) {pos prevCrc : Nat} : ∀ (src : List Bytes) (buf : Bytes)
    {h : Hdr} {b : Bytes} {rd' : Reader}, tryGroup e pos prevCrc buf src = .ok (.group h b rd') →
    Intact e h.startIdx prevCrc b h ∧ b ++ (rd'.buf ++ rd'.src.flatten) = buf ++ src.flatten ∧ rd'.prevCrc = h.curCrc := by
  have body : ∀ (src : List Bytes) (buf : Bytes) {h h0 : Hdr} {b : Bytes} {rd' : Reader}, e.fm ≤ buf.length →
      Hdr.dec buf = some h0 → h0.magic = hdrMagic → h0.logdev = e.logdev → ¬ (prevCrc ≠ 0 ∧ prevCrc ≠ h0.prevCrc) →
      h0.groupSize ≤ buf.length → checkBody e ⟨buf, src, pos, prevCrc⟩ h0 = .ok (.group h b rd') →
      Intact e h.startIdx prevCrc b h ∧ b ++ (rd'.buf ++ rd'.src.flatten) = buf ++ src.flatten ∧ rd'.prevCrc = h.curCrc := by
    intro src buf h h0 b rd' hl hd hm hid hpc hgs hc
    obtain ⟨e1, e2, e3, e4, e5, e6, e7⟩ := checkBody_group hc hgs
    subst e1
    simp only at e2 e3
    refine ⟨⟨?_, hm, hid, ?_, rfl, e4, e6⟩, ?_, e7⟩
    · rw [← hd, e2]
      exact (Hdr.dec_append (by omega)).symm
    · by_contra hx
      exact hpc (not_or.1 hx)
    · rw [e3, e2, List.append_assoc]
  intro src
  induction src with
  | nil =>
    intro buf h b rd' hc
    unfold tryGroup at hc
    by_cases hl : buf.length < e.fm
    · rw [if_pos hl] at hc; cases hc
    rw [if_neg hl] at hc
    cases hd : Hdr.dec buf with
    | none => rw [hd] at hc; cases hc
    | some h0 =>
      rw [hd] at hc
      simp only at hc
      by_cases c1 : h0.magic ≠ hdrMagic
      · rw [if_pos c1] at hc; cases hc
      rw [if_neg c1] at hc
      by_cases c2 : h0.logdev ≠ e.logdev
      · rw [if_pos c2] at hc; cases hc
      rw [if_neg c2] at hc
      by_cases c3 : prevCrc ≠ 0 ∧ prevCrc ≠ h0.prevCrc
      · rw [if_pos c3] at hc
        by_cases hp : pos < e.lastAt
        · rw [if_pos hp] at hc; cases hc
        · rw [if_neg hp] at hc; cases hc
      rw [if_neg c3] at hc
      by_cases c4 : buf.length < h0.groupSize
      · rw [if_pos c4] at hc; cases hc
      rw [if_neg c4] at hc
      exact body [] buf (by omega) hd (not_not.1 c1) (not_not.1 c2) c3 (by omega) hc
  | cons p ps ih =>
    intro buf h b rd' hc
    unfold tryGroup at hc
    by_cases hl : buf.length < e.fm
    · rw [if_pos hl] at hc; cases hc
    rw [if_neg hl] at hc
    cases hd : Hdr.dec buf with
    | none => rw [hd] at hc; cases hc
    | some h0 =>
      rw [hd] at hc
      simp only at hc
      by_cases c1 : h0.magic ≠ hdrMagic
      · rw [if_pos c1] at hc; cases hc
      rw [if_neg c1] at hc
      by_cases c2 : h0.logdev ≠ e.logdev
      · rw [if_pos c2] at hc; cases hc
      rw [if_neg c2] at hc
      by_cases c3 : prevCrc ≠ 0 ∧ prevCrc ≠ h0.prevCrc
      · rw [if_pos c3] at hc
        by_cases hp : pos < e.lastAt
        · rw [if_pos hp] at hc; cases hc
        · rw [if_neg hp] at hc; cases hc
      rw [if_neg c3] at hc
      by_cases c4 : buf.length < h0.groupSize
      · rw [if_pos c4] at hc
        obtain ⟨k1, k2, k3⟩ := ih (buf ++ p) hc
        exact ⟨k1, by rw [k2]; simp, k3⟩
      rw [if_neg c4] at hc
      exact body (p :: ps) buf (by omega) hd (not_not.1 c1) (not_not.1 c2) c3 (by omega) hc

theorem fillHdr_flat : ∀ (src : List Bytes) (buf : Bytes) {b : Bytes} {s : List Bytes},
    fillHdr buf src = some (b, s) → b ++ s.flatten = buf ++ src.flatten := by
  intro src
  induction src with
  | nil => intro buf b s h; cases h
  | cons p ps ih =>
    intro buf b s h
    unfold fillHdr at h
    by_cases hc : (buf ++ p).length < hdrSize
    · rw [if_pos hc] at h
      rw [ih (buf ++ p) h]; simp
    · rw [if_neg hc] at h
      simp only [Option.some.injEq, Prod.mk.injEq] at h
      rw [← h.1, ← h.2]; simp

theorem nextGroup_sound {e : Env} (hfm : hdrSize ≤ e.fm) {rd rd' : Reader} {h : Hdr} {b : Bytes}
    (hc : nextGroup e rd = .ok (.group h b rd')) :
    Intact e h.startIdx rd.prevCrc b h ∧ b ++ (rd'.buf ++ rd'.src.flatten) = rd.buf ++ rd.src.flatten ∧
    rd'.prevCrc = h.curCrc := by
  unfold nextGroup at hc
  by_cases hl : rd.buf.length < e.fm
  · rw [if_pos hl] at hc
    cases hf : fillHdr rd.buf rd.src with
    | none => rw [hf] at hc; cases hc
    | some bs =>
      obtain ⟨b', s'⟩ := bs
      rw [hf] at hc
      obtain ⟨k1, k2, k3⟩ := tryGroup_sound hfm s' b' hc
      exact ⟨k1, by rw [k2, fillHdr_flat _ _ hf], k3⟩
  · rw [if_neg hl] at hc
    exact tryGroup_sound hfm rd.src rd.buf hc

theorem doLoad_sound {e : Env} (hfm : hdrSize ≤ e.fm) : ∀ (fuel : Nat) (rd : Reader) (first : Bool) (st l : Loaded),
    doLoad e fuel rd first st = .ok (some l) →
    ∃ bs t vs, rd.buf ++ rd.src.flatten = List.flatten bs ++ t ∧ Intacts e st.logIdx rd.prevCrc bs vs ∧
      l.views = st.views ++ vs := by
  intro fuel
  induction fuel with
  | zero => intro rd first st l h; cases h
  | succ fuel ih =>
    intro rd first st l h
    unfold doLoad at h
    cases hn : nextGroup e rd with
    | error x => rw [hn] at h; cases h
    | ok nx =>
      rw [hn] at h
      cases nx with
      | stop =>
        simp only [Except.ok.injEq, Option.some.injEq] at h
        subst h
        exact ⟨[], _, [], rfl, .nil _ _, by simp [Loaded.views]⟩
      | group hd b rd' =>
        simp only at h
        by_cases c1 : first = true ∧ hd.startIdx < st.logIdx
        · rw [if_pos c1] at h
          simp only [Except.ok.injEq, Option.some.injEq] at h
          subst h
          exact ⟨[], _, [], rfl, .nil _ _, by simp [Loaded.views]⟩
        rw [if_neg c1] at h
        by_cases c2 : hd.startIdx ≠ st.logIdx
        · rw [if_pos c2] at h; cases h
        rw [if_neg c2] at h
        by_cases c3 : hd.nrec = 0
        · rw [if_pos c3] at h; cases h
        rw [if_neg c3] at h
        cases hg : groupRecs hd b rd.pos hd.nrec with
        | error x => rw [hg] at h; cases h
        | ok fs =>
          rw [hg] at h
          simp only at h
          obtain ⟨k1, k2, k3⟩ := nextGroup_sound hfm hn
          obtain ⟨bs, t, vs, i1, i2, i3⟩ := ih _ _ _ _ h
          have c2' := not_not.1 c2
          refine ⟨b :: bs, t, fs.map (fun f => (f.idx, f.store, f.seq, f.data)) ++ vs, ?_, ?_, ?_⟩
          · rw [← k2, i1]; simp
          · rw [k3] at i2
            rw [← c2']
            exact .cons k1 hg i2
          · rw [i3]
            simp [Loaded.views]

/-- C35, for any bytes on the device, however they came there: a load that succeeds delivers only the records of
intact consecutive groups from the start of the stream. -/
theorem C35_only_intact_groups (e : Env) (hfm : hdrSize ≤ e.fm) (idx : Nat) (src : List Bytes) (l : Loaded)
    (h : load e idx src = .ok (some l)) :
    ∃ bs t vs, src.flatten = List.flatten bs ++ t ∧ Intacts e idx 0 bs vs ∧ l.views = vs := by
  obtain ⟨bs, t, vs, h1, h2, h3⟩ := doLoad_sound hfm _ _ _ _ _ h
  exact ⟨bs, t, vs, by simpa using h1, h2, by simpa [Loaded.views] using h3⟩

/-! ## C34, the part about groups -/

/-- C34, on the device: every record that a flush wrote is read back by its index from its group, whatever the device
holds behind the group.

Partial: this is about one group; the histories of a log store are in `Verif.Log.DevProps`. -/
theorem C34_group_read_back_partial (fm opt : Nat) (crc : Bytes → UInt32) (rs : List Rec) (idx logdev prevCrc : Nat)
    (J : Nat → UInt8) (hfm : 0 < fm) (hrs : rs ≠ []) (hfit : BatchFits fm rs) (hidx : idx < 256 ^ 8)
    (hld : logdev < 256 ^ 4) (hpc : prevCrc < 256 ^ 4) :
    ∃ b n, buildGroup fm opt crc (rs.length + 4) rs idx logdev prevCrc J = .ok (b, n) ∧ n = min rs.length maxBatch ∧
      fm ∣ b.length ∧
      ∀ (rest : Bytes) (i : Nat) (r : Rec), i < n → rs[i]? = some r → readRec crc (b ++ rest) (idx + i) = .ok r.data := by
  obtain ⟨b, h, e1, he, k1, k2, k3⟩ := buildGroup_ok (opt := opt) hfm crc (est := rs.length + 4) (by omega) hrs
      (idx := idx) (logdev := logdev) (prevCrc := prevCrc) J hfit.recs hidx hld hpc hfit.size
  have hmb : maxBatch = 202 := by decide
  refine ⟨b, _, e1, ?_, he.mult, ?_⟩
  · rw [List.length_take]; omega
  · intro rest i r hi hr
    rw [← k1]
    refine readRec_ok he ?_ rest ?_
    · rw [List.length_take]; omega
    · rw [List.getElem?_take, if_pos ?_]
      · exact hr
      · rw [List.length_take] at hi; omega

/-- C34: a flush that finds no record to write although more than 403 indices were handed out reads behind its
buffer.  It happens when the thread that took the next index has not yet stored its record while others have stored
theirs: the estimate counts the indices, but no record is contiguous. -/
theorem C34_empty_flush_overreads_violated (opt : Nat) (crc : Bytes → UInt32) (est idx logdev prevCrc : Nat)
    (J : Nat → UInt8) (h : 408 ≤ est) : buildGroup 512 opt crc est [] idx logdev prevCrc J = .error .ub := by
  have h1 : ∀ x, x ≤ roundUp x 512 := fun x => le_roundUp (by omega)
  have h2 : roundUp inlineBuf 512 = 8192 := by decide
  have hnf : (LG.reset 512 est).newFoot = true := by
    unfold LG.newFoot LG.reset
    simp only [h2, hdrSize, slotSize, footSize, Bool.or_eq_true, decide_eq_true_eq]
    left; omega
  unfold buildGroup LG.addAll
  simp only
  unfold LG.finish
  rw [if_pos]
  unfold LG.len0
  rw [if_pos hnf]
  have := h1 ((LG.reset 512 est).inlinePos + 0)
  have h3 : (LG.reset 512 est).inlinePos = 48 + 20 * est := rfl
  have h4 : (LG.reset 512 est).bufLen = roundUp inlineBuf 512 := rfl
  omega

end HS.Log
