import Verif.Repl.Entry
/-!
# C62 — a journal entry comes back as it was written

A write through a replicated device appends an entry with the user's header, key and the ids of
the blocks that hold the data.  After a restart the device reads the entry back and calls the
listener with what it finds in it.
-/
namespace HS.Repl
open HS.Blk

theorem field_at (w : Nat) (pre x post : List Byte) (off len : Nat)
    (ho : pre.length = off) (hl : x.length = len) :
    field w (pre ++ (x ++ post)) off len = ofLeBytes w x := by
  subst ho; subst hl
  simp [field]

/-- The packed header of an entry. -/
def hdrBytes (r : Req) : List Byte :=
  leBytes (1 : BitVec 16) 2 ++ (leBytes (1 : BitVec 16) 2 ++ (leBytes r.code 2 ++
    (leBytes r.trace 8 ++ (leBytes r.server 4 ++ (leBytes r.dsn 8 ++
    (leBytes (BitVec.ofNat 32 r.header.length) 4 ++ (leBytes (BitVec.ofNat 32 r.key.length) 4 ++
    leBytes (BitVec.ofNat 32 r.value.length) 4)))))))

theorem hdrBytes_length (r : Req) : (hdrBytes r).length = 38 := by
  simp [hdrBytes, leBytes_length]

theorem encode_eq (r : Req) : encode r = hdrBytes r ++ (r.header ++ (r.key ++ r.value)) := by
  simp [encode, hdrBytes]

theorem encode_length (r : Req) :
    (encode r).length = 38 + (r.header.length + (r.key.length + r.value.length)) := by
  rw [encode_eq]; simp [hdrBytes_length]

section fields
variable (r : Req)

theorem fld_major : field 16 (encode r) 0 2 = 1 := by
  have : encode r = [] ++ (leBytes (1 : BitVec 16) 2 ++ (encode r).drop 2) := by
    simp [encode, leBytes]
  rw [this, field_at 16 _ _ _ 0 2 rfl (leBytes_length _ _), ofLe_leBytes _ _ _ (by omega)]

theorem fld_code : field 16 (encode r) 4 2 = r.code := by
  have : encode r = (leBytes (1 : BitVec 16) 2 ++ leBytes (1 : BitVec 16) 2) ++
      (leBytes r.code 2 ++ (encode r).drop 6) := by simp [encode, leBytes]
  rw [this, field_at 16 _ _ _ 4 2 (by simp [leBytes_length]) (leBytes_length _ _),
    ofLe_leBytes _ _ _ (by omega)]

theorem fld_trace : field 64 (encode r) 6 8 = r.trace := by
  have : encode r = (leBytes (1 : BitVec 16) 2 ++ leBytes (1 : BitVec 16) 2 ++ leBytes r.code 2) ++
      (leBytes r.trace 8 ++ (encode r).drop 14) := by simp [encode, leBytes]
  rw [this, field_at 64 _ _ _ 6 8 (by simp [leBytes_length]) (leBytes_length _ _),
    ofLe_leBytes _ _ _ (by omega)]

theorem fld_server : field 32 (encode r) 14 4 = r.server := by
  have : encode r = (leBytes (1 : BitVec 16) 2 ++ leBytes (1 : BitVec 16) 2 ++ leBytes r.code 2 ++
      leBytes r.trace 8) ++ (leBytes r.server 4 ++ (encode r).drop 18) := by simp [encode, leBytes]
  rw [this, field_at 32 _ _ _ 14 4 (by simp [leBytes_length]) (leBytes_length _ _),
    ofLe_leBytes _ _ _ (by omega)]

theorem fld_dsn : field 64 (encode r) 18 8 = r.dsn := by
  have : encode r = (leBytes (1 : BitVec 16) 2 ++ leBytes (1 : BitVec 16) 2 ++ leBytes r.code 2 ++
      leBytes r.trace 8 ++ leBytes r.server 4) ++ (leBytes r.dsn 8 ++ (encode r).drop 26) := by
    simp [encode, leBytes]
  rw [this, field_at 64 _ _ _ 18 8 (by simp [leBytes_length]) (leBytes_length _ _),
    ofLe_leBytes _ _ _ (by omega)]

theorem fld_hs : field 32 (encode r) 26 4 = BitVec.ofNat 32 r.header.length := by
  have : encode r = (leBytes (1 : BitVec 16) 2 ++ leBytes (1 : BitVec 16) 2 ++ leBytes r.code 2 ++
      leBytes r.trace 8 ++ leBytes r.server 4 ++ leBytes r.dsn 8) ++
      (leBytes (BitVec.ofNat 32 r.header.length) 4 ++ (encode r).drop 30) := by
    simp [encode, leBytes]
  rw [this, field_at 32 _ _ _ 26 4 (by simp [leBytes_length]) (leBytes_length _ _),
    ofLe_leBytes _ _ _ (by omega)]

theorem fld_ks : field 32 (encode r) 30 4 = BitVec.ofNat 32 r.key.length := by
  have : encode r = (leBytes (1 : BitVec 16) 2 ++ leBytes (1 : BitVec 16) 2 ++ leBytes r.code 2 ++
      leBytes r.trace 8 ++ leBytes r.server 4 ++ leBytes r.dsn 8 ++
      leBytes (BitVec.ofNat 32 r.header.length) 4) ++
      (leBytes (BitVec.ofNat 32 r.key.length) 4 ++ (encode r).drop 34) := by
    simp [encode, leBytes]
  rw [this, field_at 32 _ _ _ 30 4 (by simp [leBytes_length]) (leBytes_length _ _),
    ofLe_leBytes _ _ _ (by omega)]

theorem fld_vs : field 32 (encode r) 34 4 = BitVec.ofNat 32 r.value.length := by
  have : encode r = (leBytes (1 : BitVec 16) 2 ++ leBytes (1 : BitVec 16) 2 ++ leBytes r.code 2 ++
      leBytes r.trace 8 ++ leBytes r.server 4 ++ leBytes r.dsn 8 ++
      leBytes (BitVec.ofNat 32 r.header.length) 4 ++ leBytes (BitVec.ofNat 32 r.key.length) 4) ++
      (leBytes (BitVec.ofNat 32 r.value.length) 4 ++ (encode r).drop 38) := by
    simp [encode, leBytes]
  rw [this, field_at 32 _ _ _ 34 4 (by simp [leBytes_length]) (leBytes_length _ _),
    ofLe_leBytes _ _ _ (by omega)]
end fields

theorem encode_drop (r : Req) : (encode r).drop hdrSize = r.header ++ (r.key ++ r.value) := by
  rw [encode_eq]
  simp [hdrSize, ← hdrBytes_length r]

theorem toNat_ofNat32 (n : Nat) (h : n < 2 ^ 32) : (BitVec.ofNat 32 n).toNat = n := by
  simp; omega

/-- The bytes of one id. -/
theorem serialize_length (m : MultiBlkId) : m.serialize.length = m.serializedSize := by
  simp only [MultiBlkId.serialize, MultiBlkId.serializedSize, List.length_take,
      List.length_append, serialize_base_length, leBytes_length, flatMap_chain_length]
  split <;> omega

theorem serialize_single (m : MultiBlkId) (h : m.addln = []) : m.serialize.length = 8 := by
  rw [serialize_length]; simp [MultiBlkId.serializedSize, h]

theorem soloIds_single (ids : List MultiBlkId) (h : ∀ m ∈ ids, m.addln = []) (fuel : Nat)
    (hf : (ids.flatMap MultiBlkId.serialize).length < fuel) :
    soloIds fuel (ids.flatMap MultiBlkId.serialize) = .ok ids := by
  induction ids generalizing fuel with
  | nil => cases fuel with
    | zero => omega
    | succ f => simp [soloIds]
  | cons m ms ih =>
    cases fuel with
    | zero => omega
    | succ f =>
      have h8 := serialize_single m (h m (by simp))
      simp only [List.flatMap_cons, List.length_append] at hf
      rw [soloIds, if_neg (by simp only [List.flatMap_cons, List.length_append]; omega),
        if_neg (by simp only [List.flatMap_cons, List.length_append]; omega)]
      rw [List.flatMap_cons, List.take_left' h8, List.drop_left' h8,
        deserialize_serialize m (by simp [h m (by simp)]),
        ih (fun m' hm' => h m' (by simp [hm'])) f (by omega)]

/-- **C62** (single-copy device) For every header, key and list of block ids, each naming one run
of blocks, the entry that a write appends to the journal is read back after a restart as exactly
that header, that key and those ids in that order; a request without linked data comes back with
no id.  The sizes only have to fit the 32-bit fields of the entry.

Missing for the full property: ids of several runs — see `C62_solo_multi_piece_violated`. -/
theorem C62_solo_entry_roundtrip_partial (r : Req)
    (hsz : (encode r).length < 2 ^ 32)
    (hone : ∀ m ∈ r.ids, m.addln = []) :
    soloDecode (encode r) =
      .ok ⟨r.header, r.key, if r.code = linkedCode then r.ids else []⟩ := by
  have hl := encode_length r
  have h1 : (BitVec.ofNat 32 r.header.length).toNat = r.header.length := toNat_ofNat32 _ (by omega)
  have h2 : (BitVec.ofNat 32 r.key.length).toNat = r.key.length := toNat_ofNat32 _ (by omega)
  rw [soloDecode, if_neg (by rw [hl, hdrSize]; omega), fld_major, if_neg (by simp)]
  simp only [fld_hs, fld_ks, h1, h2, encode_drop]
  rw [if_neg (by simp), if_neg (by simp)]
  simp only [List.drop_left, List.take_left]
  have hv : soloIds (r.value.length + 1) r.value =
      .ok (if r.code = linkedCode then r.ids else []) := by
    by_cases hc : r.code = linkedCode
    · have : r.value = r.ids.flatMap MultiBlkId.serialize := by simp [Req.value, Req.linked, hc]
      rw [this, if_pos hc]
      exact soloIds_single _ hone _ (by omega)
    · have : r.value = [] := by simp [Req.value, Req.linked, hc]
      rw [this, if_neg hc]; rfl
  rw [hv]

/-- A write with a two-byte header, a one-byte key and two ids. -/
def soloReq : Req :=
  { code := 0, trace := 77, server := 1, dsn := 1, header := [5, 6], key := [9],
    ids := [.ofBlkId (BlkId.mk3 100 4 2), .ofBlkId (BlkId.mk3 7 1 3)] }

example : (encode soloReq).length < 2 ^ 32 ∧ (∀ m ∈ soloReq.ids, m.addln = []) ∧
    soloReq.ids.length = 2 ∧ (encode soloReq).length = 57 := by decide +kernel

/-- Every id the loop produces names a single run. -/
theorem soloIds_addln (fuel : Nat) (b : List Byte) (ids : List MultiBlkId)
    (h : soloIds fuel b = .ok ids) : ∀ m ∈ ids, m.addln = [] := by
  induction fuel generalizing b ids with
  | zero => simp [soloIds] at h
  | succ f ih =>
    rw [soloIds] at h
    by_cases h0 : b.length = 0
    · rw [if_pos h0] at h
      cases h; simp
    · rw [if_neg h0] at h
      by_cases h8 : b.length < 8
      · rw [if_pos h8] at h; cases h
      · rw [if_neg h8] at h
        have hd : MultiBlkId.deserialize (b.take 8) =
            some ⟨BlkId.ofInteger (ofLeBytes 64 (b.take 8)), []⟩ := by
          rw [MultiBlkId.deserialize]
          rw [if_neg (by simp; omega)]
          simp only [List.take_take]
          rw [if_pos (by simp; omega)]
          simp
        rw [hd] at h
        simp only [] at h
        cases hr : soloIds f (b.drop 8) with
        | error e => rw [hr] at h; cases h
        | ok ms =>
          rw [hr] at h
          cases h
          intro m hm
          rcases List.mem_cons.1 hm with rfl | hm
          · rfl
          · exact ih _ _ hr m hm

/-- **C62** is violated by the single-copy device for an id of several runs: whatever the header,
the key and the other ids, if some id names more than one run then what is read back is never what
was written. -/
theorem C62_solo_multi_piece_violated (r : Req) (_hc : r.code = linkedCode) (m : MultiBlkId)
    (hm : m ∈ r.ids) (h2 : m.addln ≠ []) :
    soloDecode (encode r) ≠ .ok ⟨r.header, r.key, r.ids⟩ := by
  intro h
  rw [soloDecode] at h
  by_cases c1 : (encode r).length < hdrSize
  · rw [if_pos c1] at h; cases h
  rw [if_neg c1] at h
  by_cases c2 : field 16 (encode r) 0 2 ≠ 1
  · rw [if_pos c2] at h; cases h
  rw [if_neg c2] at h
  simp only [] at h
  split at h
  · cases h
  split at h
  · cases h
  split at h
  · cases h
  · rename_i ids hids
    have he := Except.ok.inj h
    have : ids = r.ids := by injection he
    exact h2 (soloIds_addln _ _ _ hids m (this ▸ hm))

/-- Specification vocabulary: first block, number of blocks and chunk of a run. -/
def run (b : BlkId) : Nat × Nat × Nat := (b.blkNum.toNat, b.nblks.toNat, b.chunk.toNat)

/-- What it reads instead, in the smallest case: a write of one id with two runs (blocks 100..103
and 200..201 of chunk 2) is replayed as *two* ids, the second of which names no block at all: the
second run is never committed again, so the allocator may hand it out a second time. -/
example :
    let r : Req := { soloReq with ids := [⟨⟨1, 100, 4, 2⟩, [⟨200, 2⟩]⟩] }
    r.code = linkedCode ∧ r.ids.map (fun m => m.pieces.1.map run) = [[(100, 4, 2), (200, 2, 2)]] ∧
    (soloDecode (encode r)).toOption.map (fun e => e.ids.map (fun m => m.pieces.1.map run)) =
      some [[(100, 4, 2)], []] := by decide +kernel

/-- **C62** (Raft device) For every request with at most one block id (of one to six runs), the
journal entry is read back after a restart with the same code, trace id, server id, data sequence
number, header, key and block id; without linked data it comes back with no id.

Missing for the full property: requests with several ids — see `C62_raft_two_ids_violated`. -/
theorem C62_raft_entry_roundtrip_partial (r : Req)
    (hsz : (encode r).length < 2 ^ 32)
    (hone : r.ids.length ≤ 1) (hp : ∀ m ∈ r.ids, m.addln.length ≤ 5) :
    raftDecode (encode r) =
      .ok ⟨r.code, r.trace, r.server, r.dsn, r.header, r.key,
        if r.code = linkedCode then r.ids.head? else none⟩ := by
  have hl := encode_length r
  have h1 : (BitVec.ofNat 32 r.header.length).toNat = r.header.length := toNat_ofNat32 _ (by omega)
  have h2 : (BitVec.ofNat 32 r.key.length).toNat = r.key.length := toNat_ofNat32 _ (by omega)
  have h3 : (BitVec.ofNat 32 r.value.length).toNat = r.value.length := toNat_ofNat32 _ (by omega)
  rw [raftDecode, if_neg (by rw [hl, hdrSize]; omega), fld_major, if_neg (by simp)]
  simp only [fld_hs, fld_ks, fld_vs, fld_code, fld_trace, fld_server, fld_dsn, h1, h2, h3,
    encode_drop]
  rw [if_neg (by simp; omega)]
  simp only [List.drop_left, List.take_left, List.take_length]
  by_cases hc : r.code = linkedCode
  · have hv : r.value = r.ids.flatMap MultiBlkId.serialize := by simp [Req.value, Req.linked, hc]
    rw [if_pos hc]
    match hids : r.ids with
    | [] =>
      rw [hids] at hv
      rw [if_neg (by simp [hv])]
      rfl
    | [m] =>
      rw [hids] at hv
      have hv' : r.value = m.serialize := by simpa using hv
      have hpos : r.value.length > 0 := by
        rw [hv', serialize_length, MultiBlkId.serializedSize]; omega
      rw [if_pos ⟨hc, hpos⟩, hv',
        deserialize_serialize m (hp m (by simp [hids]))]
      rfl
    | _ :: _ :: _ => simp [hids] at hone
  · rw [if_neg hc, if_neg (fun h => hc h.1)]

/-- A replicated write with one id of three runs. -/
def raftReq : Req :=
  { code := 0, trace := 77, server := 3, dsn := 12, header := [5, 6], key := [9],
    ids := [⟨⟨1, 100, 4, 2⟩, [⟨200, 2⟩, ⟨300, 1⟩]⟩] }

example : (encode raftReq).length < 2 ^ 32 ∧ raftReq.ids.length ≤ 1 ∧
    (∀ m ∈ raftReq.ids, m.addln.length ≤ 5) ∧ raftReq.code = linkedCode ∧
    (encode raftReq).length = 63 := by decide +kernel

/-- **C62** is violated by the Raft device for a request with two ids, which is what the allocator
returns when the space is not contiguous: the two ids (blocks 100..103 and blocks 0..1 of chunk 2)
are read back as a single id whose second run is neither (block 131072, ...). -/
theorem C62_raft_two_ids_violated :
    ∃ r : Req, r.code = linkedCode ∧ r.ids.length = 2 ∧ (∀ m ∈ r.ids, m.addln = []) ∧
      r.ids.map (fun m => m.pieces.1.map run) = [[(100, 4, 2)], [(0, 2, 2)]] ∧
      (raftDecode (encode r)).toOption.map (fun e => e.id.map (fun m => m.pieces.1.map run)) =
        some (some [(100, 4, 2), (131072, 2, 2)]) := by
  refine ⟨{ raftReq with ids := [.ofBlkId (BlkId.mk3 100 4 2), .ofBlkId (BlkId.mk3 0 2 2)] }, ?_⟩
  decide +kernel

/-- Overwriting in the middle. -/
theorem overwrite_mid (pre x post y : List Byte) (h : x.length = y.length) :
    overwrite (pre ++ (x ++ post)) pre.length y = .ok (pre ++ (y ++ post)) := by
  rw [overwrite, if_pos (by simp; omega)]
  congr 1
  rw [List.take_left, ← List.append_assoc pre x post,
    List.drop_left' (by simp [h])]
  simp

/-- **C62** (follower) When a follower has put its own block id and server id into an entry
received from the leader, and both ids take the same number of bytes, the entry in the follower's
log is the leader's with exactly these two replaced: it is read back with the leader's code, trace
id, data sequence number, header and key, and with the follower's server id and block id.

Missing for the full property: ids of different sizes — see `C62_localize_smaller_violated` and
`C62_localize_larger_violated`. -/
theorem C62_localize_roundtrip_partial (r : Req) (remote mine : MultiBlkId) (sid : BitVec 32)
    (hsz : (encode r).length < 2 ^ 32) (hc : r.code = linkedCode) (hr : r.ids = [remote])
    (hp : mine.addln.length ≤ 5)
    (hsame : mine.serializedSize = remote.serializedSize) :
    ∃ b, localizeFinish (encode r) mine sid = .ok b ∧
      b = encode { r with server := sid, ids := [mine] } ∧
      raftDecode b = .ok ⟨r.code, r.trace, sid, r.dsn, r.header, r.key, some mine⟩ := by
  have hv : r.value = remote.serialize := by simp [Req.value, Req.linked, hc, hr]
  have hl := encode_length r
  have h3 : (BitVec.ofNat 32 r.value.length).toNat = r.value.length := toNat_ofNat32 _ (by omega)
  have hlen : remote.serialize.length = mine.serialize.length := by
    rw [serialize_length, serialize_length, hsame]
  let r1 : Req := { r with ids := [mine] }
  have hv1 : r1.value = mine.serialize := by simp [r1, Req.value, Req.linked, hc]
  have hh1 : hdrBytes r1 = hdrBytes r := by
    simp only [hdrBytes, hv1, hv, hlen, r1]
  have e1 : localizePrepare (encode r) mine = .ok (encode r1) := by
    rw [localizePrepare]
    simp only [fld_vs, h3]
    have : encode r = (hdrBytes r ++ (r.header ++ r.key)) ++ (remote.serialize ++ []) := by
      rw [encode_eq, hv]; simp
    have hoff : (encode r).length - r.value.length =
        (hdrBytes r ++ (r.header ++ r.key)).length := by
      rw [hl]; simp [hdrBytes_length]; omega
    rw [hoff, this, overwrite_mid _ _ _ _ hlen, encode_eq r1, hh1, hv1]
    simp [r1]
  let r2 : Req := { r with server := sid, ids := [mine] }
  have e2 : overwrite (encode r1) 14 (leBytes sid 4) = .ok (encode r2) := by
    have hsplit : ∀ q : Req, encode q = (leBytes (1 : BitVec 16) 2 ++ leBytes (1 : BitVec 16) 2 ++
        leBytes q.code 2 ++ leBytes q.trace 8) ++ (leBytes q.server 4 ++ (leBytes q.dsn 8 ++
        leBytes (BitVec.ofNat 32 q.header.length) 4 ++ leBytes (BitVec.ofNat 32 q.key.length) 4 ++
        leBytes (BitVec.ofNat 32 q.value.length) 4 ++ q.header ++ q.key ++ q.value)) := by
      intro q; simp [encode]
    have h14 : 14 = (leBytes (1 : BitVec 16) 2 ++ leBytes (1 : BitVec 16) 2 ++
        leBytes r1.code 2 ++ leBytes r1.trace 8).length := by simp [leBytes_length]
    rw [hsplit r1, hsplit r2]
    conv => lhs; arg 2; rw [h14]
    rw [overwrite_mid _ _ _ _ (by simp [leBytes_length])]
    rfl
  refine ⟨encode r2, ?_, rfl, ?_⟩
  · rw [localizeFinish, e1]; exact e2
  · have hl2 : (encode r2).length < 2 ^ 32 := by
      have e := encode_length r2
      have : r2.value.length = r.value.length := by
        have : r2.value = mine.serialize := by simp [r2, Req.value, Req.linked, hc]
        rw [this, hv, hlen]
      rw [this] at e
      have : r2.header = r.header := rfl
      have : r2.key = r.key := rfl
      simp only [r2] at *
      omega
    have := C62_raft_entry_roundtrip_partial r2 hl2 (by simp [r2]) (by simpa [r2] using hp)
    rw [this]
    simp [r2, hc]

example : (encode raftReq).length < 2 ^ 32 ∧ raftReq.code = linkedCode ∧
    raftReq.ids = [⟨⟨1, 100, 4, 2⟩, [⟨200, 2⟩, ⟨300, 1⟩]⟩] ∧
    (⟨⟨1, 5, 3, 8⟩, [⟨20, 2⟩, ⟨30, 2⟩]⟩ : MultiBlkId).serializedSize =
      (⟨⟨1, 100, 4, 2⟩, [⟨200, 2⟩, ⟨300, 1⟩]⟩ : MultiBlkId).serializedSize := by decide +kernel

/-- **C62** is violated when the follower's id takes fewer bytes than the leader's: the leader's
two runs (100..103 and 200..201 of chunk 2) are localized to one run of the follower (500..505 of
chunk 8), but the entry in the follower's log is read back with an additional run 200..201 of
chunk 8, which belongs to something else. -/
theorem C62_localize_smaller_violated :
    ∃ (r : Req) (mine : MultiBlkId) (b : List Byte), r.code = linkedCode ∧
      r.ids.map (fun m => m.pieces.1.map run) = [[(100, 4, 2), (200, 2, 2)]] ∧
      mine.pieces.1.map run = [(500, 6, 8)] ∧
      localizeFinish (encode r) mine 4 = .ok b ∧
      (raftDecode b).toOption.map (fun e => e.id.map (fun m => m.pieces.1.map run)) =
        some (some [(500, 6, 8), (200, 2, 8)]) := by
  refine ⟨{ raftReq with ids := [⟨⟨1, 100, 4, 2⟩, [⟨200, 2⟩]⟩] }, ⟨⟨1, 500, 6, 8⟩, []⟩, _, ?_, ?_,
    ?_, rfl, ?_⟩ <;> decide +kernel

/-- **C62** is violated when the follower's id takes more bytes than the leader's: the copy runs
past the end of the received buffer, for every request and every such pair of ids. -/
theorem C62_localize_larger_violated (r : Req) (remote mine : MultiBlkId) (sid : BitVec 32)
    (hsz : (encode r).length < 2 ^ 32) (hc : r.code = linkedCode) (hr : r.ids = [remote])
    (hlarge : remote.serializedSize < mine.serializedSize) :
    localizeFinish (encode r) mine sid = .error .outOfBounds := by
  have hv : r.value = remote.serialize := by simp [Req.value, Req.linked, hc, hr]
  have hl := encode_length r
  have h3 : (BitVec.ofNat 32 r.value.length).toNat = r.value.length := toNat_ofNat32 _ (by omega)
  have a := serialize_length remote
  have b := serialize_length mine
  rw [localizeFinish, localizePrepare]
  simp only [fld_vs, h3]
  rw [overwrite, if_neg (by rw [hv] at *; omega)]

example : (encode raftReq).length < 2 ^ 32 ∧ raftReq.code = linkedCode ∧
    raftReq.ids = [⟨⟨1, 100, 4, 2⟩, [⟨200, 2⟩, ⟨300, 1⟩]⟩] ∧
    (⟨⟨1, 100, 4, 2⟩, [⟨200, 2⟩, ⟨300, 1⟩]⟩ : MultiBlkId).serializedSize <
      (⟨⟨1, 5, 2, 8⟩, [⟨20, 2⟩, ⟨30, 2⟩, ⟨40, 1⟩]⟩ : MultiBlkId).serializedSize := by decide +kernel

end HS.Repl
