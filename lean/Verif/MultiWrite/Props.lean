import Verif.MultiWrite.Lemmas
/-!
# C122: one value written over several block ids

Specification vocabulary (from `Verif.DataSvc`): `bytesOf bs ps` is what the blocks of `ps` hold; `IdOk`
says that blocks are distinct and inside their chunks; `Layout` that chunks do not overlap; a call
`Completes` with a device content and a result, in whatever order the device executes the requests.
-/
namespace HS.MultiWrite
open HS.DataSvc

/-- Ids a caller may hand in: at least one, all blocks of all ids distinct and inside their chunks, and
each id below 65536 blocks and 4 GiB. -/
structure IdsOk (bs : Nat) (tbl : Table) (ids : List (List Piece)) : Prop where
  some : ids ≠ []
  ok : IdOk bs tbl ids.flatten
  fits : Fits bs ids

/-- What the ids hold together. -/
def capacity (bs : Nat) (ids : List (List Piece)) : Nat := bytesOf bs ids.flatten

/-- Each id reads back as its part of the value. -/
def Holds (bs : Nat) (tbl : Table) (d : Dev) (ids : List (List Piece)) (value : List UInt8) : Prop :=
  ∀ pre id post, ids = pre ++ id :: post →
    asyncRead bs tbl d id (bytesOf bs id) = some ((value.drop (capacity bs pre)).take (bytesOf bs id))

theorem svc_holds {bs : Nat} {tbl : Table} {ids : List (List Piece)} {value : List UInt8} {d d' : Dev}
    (hl : Layout tbl) (ok : IdOk bs tbl ids.flatten) (hf : Fits bs ids)
    (hb : capacity bs ids ≤ value.length)
    (hc : Completes (svcWrite bs tbl ids value) d d' true) : Holds bs tbl d' ids value := by
  unfold capacity at hb
  rw [svcWrite_flat hf hb] at hc
  have hlen : (value.take (bytesOf bs ids.flatten)).length = bytesOf bs ids.flatten := by
    simp only [List.length_take]; omega
  have hr := C47_write_read hl ok hlen hc
  rw [asyncRead_eq bs tbl d' _ _ hlen] at hr
  intro pre id post e
  subst e
  rw [asyncRead_eq bs tbl d' id _ rfl]
  have ef : (pre ++ id :: post).flatten = pre.flatten ++ (id ++ post.flatten) := by simp
  rw [ef] at hr
  have h1 := (readLoop_append (readLoop_append hr).2).1
  rw [h1, bytesOf_append, bytesOf_append, List.drop_take, List.take_take, capacity]
  congr 2
  omega

theorem soloWrite_cases {bs : Nat} {tbl : Table} {ids : List (List Piece)} {value : List UInt8}
    (hne : ids ≠ []) :
    ((ids.map (sgsSize bs)).sum ≤ value.length ∧ soloWrite bs tbl ids value = .issued (svcWrite bs tbl ids value)) ∨
    ∃ pre id post, ids = pre ++ id :: post ∧ (pre.map (sgsSize bs)).sum ≤ value.length ∧
      value.length < (pre.map (sgsSize bs)).sum + sgsSize bs id ∧
      soloWrite bs tbl ids value = .refused (svcWrite bs tbl pre value) := by
  have e : soloWrite bs tbl ids value = soloLoop bs tbl ids value [] := by
    cases ids with
    | nil => exact absurd rfl hne
    | cons a l => rfl
  rw [e]
  simpa using soloLoop_cases bs tbl ids value []

/-- **C122.**  A replication device without replicas accepts every value that fills the ids, and if the
future tells success then each id, read by itself, holds its part of the value, in the order of the ids,
whatever the order in which the device executed the requests.  Missing: ids of 65536 blocks or 4 GiB and
more, see `C122_wrap_violated`. -/
theorem C122_split_partial {bs : Nat} {tbl : Table} {ids : List (List Piece)} {value : List UInt8}
    (hl : Layout tbl) (hi : IdsOk bs tbl ids) (hb : capacity bs ids ≤ value.length) :
    ∃ ws, soloWrite bs tbl ids value = .issued ws ∧
      ∀ d d', Completes ws d d' true → Holds bs tbl d' ids value := by
  rcases soloWrite_cases (bs := bs) (tbl := tbl) (value := value) hi.some with ⟨_, h⟩ | ⟨pre, id, post, h1, h2, h3, h4⟩
  · exact ⟨_, h, fun d d' hc => svc_holds hl hi.ok hi.fits hb hc⟩
  · exfalso
    have := sum_sgs hi.fits
    unfold capacity at hb
    rw [← this, h1] at hb
    simp only [List.map_append, List.map_cons, List.sum_append, List.sum_cons] at hb
    omega

/-- **C122** for the call of the data service with several ids.  Missing: as above, and values that are too
short, see `C122_service_short_violated`. -/
theorem C122_service_split_partial {bs : Nat} {tbl : Table} {ids : List (List Piece)} {value : List UInt8} {d d' : Dev}
    (hl : Layout tbl) (hi : IdsOk bs tbl ids) (hb : capacity bs ids ≤ value.length)
    (hc : Completes (svcWrite bs tbl ids value) d d' true) : Holds bs tbl d' ids value :=
  svc_holds hl hi.ok hi.fits hb hc

/-- The requests that a call issued, whatever its outcome. -/
def Out.writes : Out → List (Option Wr)
  | .abort => []
  | .refused ws => ws
  | .issued ws => ws

theorem frame_of {bs : Nat} {tbl : Table} {ps : List Piece} {ws : List (Option Wr)} {d d' : Dev} {r : Bool}
    (hl : Layout tbl) (hid : IdOk bs tbl ps)
    (hm : ∀ w ∈ ws, ∃ p ∈ ps, ∃ x : List UInt8, x.length ≤ p.n * bs ∧ w = writePiece bs tbl p x)
    (hc : Completes ws d d' r) {c b i : Nat} {a : Area}
    (ha : tbl c = some a) (hb1 : (b + 1) * bs ≤ a.size) (hi : i < bs)
    (hout : ∀ p ∈ ps, ¬ p.has c b) : content bs tbl d' c b i = content bs tbl d c b i := by
  obtain ⟨oks, done, h1, h2, rfl, h4⟩ := hc
  simp only [content, ha, Option.map_some, Option.some.injEq]
  apply applyAll_miss
  intro w hw hh
  rw [h2.mem_iff, List.mem_filterMap] at hw
  obtain ⟨⟨o, ok⟩, hz, ho⟩ := hw
  obtain ⟨p, hp, x, hx, hxe⟩ := hm _ (List.of_mem_zip hz).1
  have ho' : o = some w := by
    cases ok <;> simp at ho; exact ho
  simp only [ho'] at hxe
  obtain ⟨a', ta, sa⟩ := hid.inside _ hp
  simp only [writePiece, devOffset, ta, Option.map_some, Option.some.injEq] at hxe
  subst hxe
  obtain ⟨g1, g2, g3⟩ := hh
  simp only at g1 g2 g3
  rw [Nat.add_mul] at sa
  rw [Nat.add_mul, Nat.one_mul] at hb1
  by_cases hcc : c = p.chunk
  · subst hcc
    rw [ta] at ha; simp only [Option.some.injEq] at ha; subst ha
    have hpb : p.blk ≤ b := by
      apply Nat.le_of_not_lt; intro h
      have := Nat.mul_le_mul_right bs (Nat.succ_le_of_lt h)
      rw [Nat.succ_mul] at this; omega
    have hpb2 : b < p.blk + p.n := by
      apply Nat.lt_of_not_le; intro h
      have := Nat.mul_le_mul_right bs h
      rw [Nat.add_mul] at this; omega
    exact hout p hp ⟨rfl, hpb, hpb2⟩
  · rcases hl _ _ _ _ hcc ha ta g1 with h | h <;> omega

/-- **C122**, frame: for every value, too short, too long or right, and whatever the outcome, no byte of
a block that belongs to none of the ids changes. -/
theorem C122_frame {bs : Nat} {tbl : Table} {ids : List (List Piece)} {value : List UInt8} {d d' : Dev}
    {r : Bool} (hl : Layout tbl) (hid : IdOk bs tbl ids.flatten)
    (hc : Completes (soloWrite bs tbl ids value).writes d d' r ∨ Completes (svcWrite bs tbl ids value) d d' r)
    {c b i : Nat} {a : Area} (ha : tbl c = some a) (hb1 : (b + 1) * bs ≤ a.size) (hi : i < bs)
    (hout : ∀ id ∈ ids, ∀ p ∈ id, ¬ p.has c b) : content bs tbl d' c b i = content bs tbl d c b i := by
  have hout' : ∀ p ∈ ids.flatten, ¬ p.has c b := by
    intro p hp
    obtain ⟨id, h1, h2⟩ := List.mem_flatten.mp hp
    exact hout id h1 p h2
  rcases hc with hc | hc
  · refine frame_of hl hid ?_ hc ha hb1 hi hout'
    intro w hw
    by_cases hne : ids = []
    · subst hne; simp [soloWrite, Out.writes] at hw
    rcases soloWrite_cases (bs := bs) (tbl := tbl) (value := value) hne with ⟨_, h⟩ | ⟨pre, id, post, h1, _, _, h4⟩
    · rw [h] at hw; exact svcWrite_mem hw
    · rw [h4] at hw
      obtain ⟨p, hp, r⟩ := svcWrite_mem (ids := pre) hw
      refine ⟨p, ?_, r⟩
      rw [h1, List.flatten_append]; exact List.mem_append_left _ hp
  · exact frame_of hl hid (fun w hw => svcWrite_mem hw) hc ha hb1 hi hout'

/-- **C122**, refusal: the replication device refuses exactly the values that do not fill the ids.
Missing: values that are too long, see `C122_dropped_violated`. -/
theorem C122_refused_partial {bs : Nat} {tbl : Table} {ids : List (List Piece)} {value : List UInt8}
    (hi : IdsOk bs tbl ids) :
    (∃ ws, soloWrite bs tbl ids value = .refused ws) ↔ value.length < capacity bs ids := by
  have hs := sum_sgs hi.fits
  unfold capacity
  rw [← hs]
  rcases soloWrite_cases (bs := bs) (tbl := tbl) (value := value) hi.some with ⟨h0, h⟩ | ⟨pre, id, post, h1, h2, h3, h4⟩
  · rw [h]
    constructor
    · rintro ⟨ws, hw⟩; cases hw
    · intro hh; omega
  · rw [h4]
    refine ⟨fun _ => ?_, fun _ => ⟨_, rfl⟩⟩
    rw [h1]
    simp only [List.map_append, List.map_cons, List.sum_append, List.sum_cons]
    omega

/-- **C122** is violated: a call that is refused is not without effect.  For every value that is too
short, the ids it does fill, all those before the first it does not, are overwritten: once the device has
executed the requests, each of them reads back as its part of the value of the refused call. -/
theorem C122_refused_writes_violated {bs : Nat} {tbl : Table} {ids : List (List Piece)} {value : List UInt8}
    (hl : Layout tbl) (hi : IdsOk bs tbl ids) (hb : value.length < capacity bs ids) :
    ∃ pre id post ws, ids = pre ++ id :: post ∧ capacity bs pre ≤ value.length ∧
      value.length < capacity bs pre + bytesOf bs id ∧ soloWrite bs tbl ids value = .refused ws ∧
      ∀ d d', Completes ws d d' true → Holds bs tbl d' pre value := by
  rcases soloWrite_cases (bs := bs) (tbl := tbl) (value := value) hi.some with ⟨h0, h⟩ | ⟨pre, id, post, h1, h2, h3, h4⟩
  · exfalso; have := sum_sgs hi.fits; unfold capacity at hb; omega
  · have hfp : Fits bs pre := fun x hx => hi.fits x (by rw [h1]; exact List.mem_append_left _ hx)
    have hfi := hi.fits id (by rw [h1]; simp)
    have hsp := sum_sgs hfp
    have okp : IdOk bs tbl pre.flatten := by
      have ho := hi.ok
      rw [h1, List.flatten_append] at ho
      exact ⟨fun p hp => ho.pos p (List.mem_append_left _ hp),
        fun p hp => ho.inside p (List.mem_append_left _ hp), (List.pairwise_append.mp ho.apart).1⟩
    refine ⟨pre, id, post, _, h1, ?_, ?_, h4, ?_⟩
    · unfold capacity; omega
    · unfold capacity; rw [← sgsSize_eq hfi.1 hfi.2]; omega
    · intro d d' hc
      exact svc_holds hl okp hfp (by unfold capacity; omega) hc

/-- **C122** is violated: bytes of the value that no id has room for are dropped without an error.  For
every value that fills the ids and every `extra`, the call with `value ++ extra` does what the call with
`value` does. -/
theorem C122_dropped_violated {bs : Nat} {tbl : Table} {ids : List (List Piece)} {value extra : List UInt8}
    (hi : IdsOk bs tbl ids) (hb : value.length = capacity bs ids) :
    soloWrite bs tbl ids (value ++ extra) = soloWrite bs tbl ids value ∧
      ∃ ws, soloWrite bs tbl ids value = .issued ws := by
  have e : svcWrite bs tbl ids (value ++ extra) = svcWrite bs tbl ids value := by
    unfold capacity at hb
    rw [svcWrite_flat hi.fits (by simp only [List.length_append]; omega), svcWrite_flat hi.fits (by omega),
      List.take_append_of_le_length (by omega)]
  have hn : ∀ v : List UInt8, capacity bs ids ≤ v.length →
      soloWrite bs tbl ids v = .issued (svcWrite bs tbl ids v) := by
    intro v hv
    rcases soloWrite_cases (bs := bs) (tbl := tbl) (value := v) hi.some with ⟨_, h⟩ | ⟨pre, id, post, h1, h2, h3, h4⟩
    · exact h
    · have := (C122_refused_partial (value := v) hi).mp ⟨_, h4⟩
      omega
  rw [hn _ (by simp only [List.length_append]; omega), hn value (by omega), e]
  exact ⟨rfl, _, rfl⟩

/-- **C122** is violated: the call that allocates rounds the size up to whole blocks, the call that writes
does not.  For every size that is no multiple of the block size, a value of that size is refused on the
ids allocated for it. -/
theorem C122_unaligned_violated {bs : Nat} {tbl : Table} {ids : List (List Piece)} {value : List UInt8}
    (hbs : 0 < bs) (hi : IdsOk bs tbl ids) (hu : value.length % bs ≠ 0)
    (ha : capacity bs ids = allocSize bs value.length) :
    ∃ ws, soloWrite bs tbl ids value = .refused ws := by
  rw [C122_refused_partial hi, ha]
  unfold allocSize
  have h1 := Nat.div_add_mod value.length bs
  have h2 := Nat.mod_lt value.length hbs
  have h3 : (value.length + bs - 1) / bs = value.length / bs + 1 := by
    rw [Nat.div_eq_iff hbs, Nat.add_mul, Nat.one_mul, Nat.mul_comm]
    omega
  rw [h3, Nat.add_mul, Nat.one_mul, Nat.mul_comm]
  omega

theorem completes_all {ws : List Wr} (d : Dev) : Completes (ws.map some) d (applyAll ws d) true := by
  refine ⟨List.replicate ws.length true, ws, by simp, ?_, rfl, ?_⟩
  · have := filterMap_zip_true (fun x : Wr => (some x : Option Wr)) ws (List.replicate ws.length true) (by simp)
      (by intro b hb; exact (List.mem_replicate.mp hb).2)
    rw [this]; simp
  · induction ws with
    | nil => rfl
    | cons w ws ih =>
      simp only [collect, List.map_cons, List.length_cons, List.replicate_succ, List.zip_cons_cons, List.all_cons,
        Option.isSome_some, Bool.and_self, id, Bool.true_and]
      exact ih

theorem all_issued {ws : List (Option Wr)} (h : ∀ w ∈ ws, w.isSome) : ∃ vs : List Wr, ws = vs.map some := by
  induction ws with
  | nil => exact ⟨[], rfl⟩
  | cons w ws ih =>
    obtain ⟨vs, hv⟩ := ih (fun x hx => h x (List.mem_cons_of_mem _ hx))
    obtain ⟨v, hw⟩ := Option.isSome_iff_exists.mp (h w (by simp))
    exact ⟨v :: vs, by rw [hv, hw]; rfl⟩

/-- **C122** is violated by the call of the data service: it does not compare sizes.  For every value that
ends within the last id, a single run of blocks, the call tells success once the device has executed the
requests, and then the rest of the last id holds what it held before. -/
theorem C122_service_short_violated {bs : Nat} {tbl : Table} {pre : List (List Piece)} {p : Piece}
    {value : List UInt8} (hl : Layout tbl) (hi : IdsOk bs tbl (pre ++ [[p]]))
    (h1 : capacity bs pre < value.length) (h2 : value.length < capacity bs (pre ++ [[p]])) (d : Dev) :
    (∃ d', Completes (svcWrite bs tbl (pre ++ [[p]]) value) d d' true) ∧
    ∀ d' r, Completes (svcWrite bs tbl (pre ++ [[p]]) value) d d' r →
      ∃ old new, asyncRead bs tbl d [p] (bytesOf bs [p]) = some old ∧
        asyncRead bs tbl d' [p] (bytesOf bs [p]) = some new ∧
        new.drop (value.length - capacity bs pre) = old.drop (value.length - capacity bs pre) := by
  constructor
  · have hs : ∀ w ∈ svcWrite bs tbl (pre ++ [[p]]) value, w.isSome := by
      intro w hw
      obtain ⟨q, hq, x, _, rfl⟩ := svcWrite_mem hw
      obtain ⟨a, ta, _⟩ := hi.ok.inside q hq
      simp [writePiece, devOffset, ta]
    obtain ⟨vs, hv⟩ := all_issued hs
    exact ⟨_, by rw [hv]; exact completes_all d⟩
  · intro d' r hc
    have hpm : p ∈ (pre ++ [[p]]).flatten := by simp
    obtain ⟨a, ta, sa⟩ := hi.ok.inside p hpm
    have hfp : Fits bs pre := fun x hx => hi.fits x (List.mem_append_left _ hx)
    have hfi := hi.fits [p] (by simp)
    have hbp : bytesOf bs [p] = p.n * bs := by simp [bytesOf]
    refine ⟨readBytes d a.pdev (p.blk * bs + a.start) (p.n * bs),
      readBytes d' a.pdev (p.blk * bs + a.start) (p.n * bs), by simp [asyncRead, readPiece, devOffset, ta, hbp],
      by simp [asyncRead, readPiece, devOffset, ta, hbp], ?_⟩
    have hcap : capacity bs (pre ++ [[p]]) = capacity bs pre + p.n * bs := by
      simp [capacity, bytesOf_append, hbp]
    apply List.ext_getElem
    · simp [readBytes]
    · intro j hj _
      simp only [readBytes, List.length_drop, List.length_map, List.length_range] at hj
      simp only [readBytes, List.getElem_drop, List.getElem_map, List.getElem_range]
      obtain ⟨oks, done, g1, g2, rfl, g4⟩ := hc
      apply applyAll_miss
      intro w hw hh
      rw [g2.mem_iff, List.mem_filterMap] at hw
      obtain ⟨⟨o, ok⟩, hz, ho⟩ := hw
      have ho' : o = some w := by cases ok <;> simp at ho; exact ho
      have hmem := (List.of_mem_zip hz).1
      rw [ho', svcWrite_append, sum_sgs hfp] at hmem
      obtain ⟨k1, k2, k3⟩ := hh
      rcases List.mem_append.mp hmem with hm | hm
      · obtain ⟨q, hq, x, hx, hxe⟩ := svcWrite_mem hm
        have hap : Apart q p := by
          have := hi.ok.apart
          rw [List.flatten_append] at this
          exact (List.pairwise_append.mp this).2.2 q hq p (by simp)
        have hqm : q ∈ (pre ++ [[p]]).flatten := by rw [List.flatten_append]; exact List.mem_append_left _ hq
        obtain ⟨a', ta', sa'⟩ := hi.ok.inside q hqm
        simp only [writePiece, devOffset, ta', Option.map_some, Option.some.injEq] at hxe
        subst hxe
        simp only at k1 k2 k3
        rw [Nat.add_mul] at sa sa'
        by_cases hcc : p.chunk = q.chunk
        · rw [hcc, ta'] at ta; simp only [Option.some.injEq] at ta; subst ta
          have : q.blk + q.n ≤ p.blk ∨ p.blk + p.n ≤ q.blk := by
            apply Classical.byContradiction; intro hn
            have hqp := hi.ok.pos q hqm
            have hpp := hi.ok.pos p hpm
            apply hap p.chunk (max p.blk q.blk)
            refine ⟨⟨hcc, by omega, by omega⟩, ⟨rfl, by omega, by omega⟩⟩
          rcases this with h | h
          · have := Nat.mul_le_mul_right bs h; rw [Nat.add_mul] at this; omega
          · have := Nat.mul_le_mul_right bs h; rw [Nat.add_mul] at this; omega
        · rcases hl _ _ _ _ hcc ta ta' k1 with h | h <;> omega
      · simp only [svcWrite, asyncWrite, List.append_nil, List.mem_singleton, writePiece, devOffset, ta, Option.map_some,
          Option.some.injEq] at hm
        subst hm
        simp only [List.length_take, List.length_drop] at k3
        unfold capacity at k2 k3 h1
        omega

/-- The number of bytes that requests carry. -/
def carried (ws : List (Option Wr)) : Nat := (ws.map fun w => (w.map fun x => x.bytes.length).getD 0).sum

theorem writeLoop_carried (bs : Nat) (tbl : Table) : ∀ (ps : List Piece) (buf : List UInt8),
    carried (writeLoop bs tbl ps buf) ≤ buf.length := by
  intro ps
  induction ps with
  | nil => intro buf; simp [writeLoop, carried]
  | cons p ps ih =>
    intro buf
    have := ih (buf.drop (p.n * bs))
    simp only [carried, writeLoop, List.map_cons, List.sum_cons, List.length_drop] at this ⊢
    unfold writePiece
    cases devOffset bs tbl p <;> simp [List.length_take] <;> omega

theorem asyncWrite_carried (bs : Nat) (tbl : Table) (ps : List Piece) (buf : List UInt8) :
    carried (asyncWrite bs tbl ps buf) ≤ buf.length := by
  unfold asyncWrite
  split
  · unfold writePiece carried
    rename_i p
    cases devOffset bs tbl p <;> simp
  · exact writeLoop_carried bs tbl ps buf

/-- **C122** is violated for ids of many blocks: the number of blocks of an id is counted in 16 bits.  For
every id of 65536 blocks or more, a value that fills it is accepted by the replication device, and the
requests together carry less than the value. -/
theorem C122_wrap_violated {bs : Nat} {tbl : Table} {id : List Piece} {value : List UInt8} (hbs : 0 < bs)
    (hn : 65536 ≤ (id.map (·.n)).sum) (hb : value.length = capacity bs [id]) :
    ∃ ws, soloWrite bs tbl [id] value = .issued ws ∧ carried ws < value.length := by
  have hcap : capacity bs [id] = bytesOf bs id := by simp [capacity]
  have hle := sgsSize_le bs id
  have hlt : sgsSize bs id < bytesOf bs id := by
    rw [bytesOf_eq]
    refine Nat.lt_of_le_of_lt (Nat.mod_le _ _) ?_
    apply Nat.mul_lt_mul_of_pos_right _ hbs
    unfold blkCount
    have := Nat.mod_lt (id.map (·.n)).sum (show 65536 > 0 by decide)
    omega
  rcases soloWrite_cases (bs := bs) (tbl := tbl) (value := value) (ids := [id]) (by simp) with ⟨_, h⟩ | ⟨pre, i, post, h1, h2, h3, h4⟩
  · refine ⟨_, h, ?_⟩
    have := asyncWrite_carried bs tbl id (value.take (sgsSize bs id))
    simp only [svcWrite, List.append_nil]
    simp only [List.length_take] at this
    omega
  · exfalso
    cases pre with
    | nil =>
      simp only [List.nil_append, List.cons.injEq] at h1
      rw [← h1.1] at h3
      simp at h3; omega
    | cons q pre => simp at h1

/-- **C122** is violated: a call without ids ends the process. -/
theorem C122_no_ids_violated (bs : Nat) (tbl : Table) (value : List UInt8) :
    soloWrite bs tbl [] value = .abort := rfl

/-! ## Concrete cases -/

def ids2 : List (List Piece) := [[⟨0, 1, 2⟩, ⟨0, 5, 1⟩], [⟨1, 0, 1⟩]]

theorem ids2_ok : IdsOk 2 tbl2 ids2 := ⟨by decide, id3_ok, by unfold Fits; decide⟩

-- a value that fills the ids, written out of order
example : Layout tbl2 ∧ IdsOk 2 tbl2 ids2 ∧ capacity 2 ids2 = 8 ∧
    soloWrite 2 tbl2 ids2 buf3 =
      .issued [some ⟨0, 10, [1, 2, 3, 4]⟩, some ⟨0, 18, [5, 6]⟩, some ⟨0, 24, [7, 8]⟩] ∧
    ∃ d', Completes [some ⟨0, 10, [1, 2, 3, 4]⟩, some ⟨0, 18, [5, 6]⟩, some ⟨0, 24, [7, 8]⟩] (fun _ _ => 0) d' true ∧
      asyncRead 2 tbl2 d' [⟨1, 0, 1⟩] 2 = some [7, 8] := by
  refine ⟨tbl2_layout, ids2_ok, by decide, by decide,
    applyAll [⟨0, 24, [7, 8]⟩, ⟨0, 10, [1, 2, 3, 4]⟩, ⟨0, 18, [5, 6]⟩] (fun _ _ => 0),
    ⟨[true, true, true], _, by decide, ?_, rfl, by decide⟩, by decide +kernel⟩
  decide +kernel

-- a value of seven bytes: refused on the ids allocated for it, after the first id was written; the data
-- service takes it
example : allocSize 2 7 = capacity 2 ids2 ∧
    soloWrite 2 tbl2 ids2 [1, 2, 3, 4, 5, 6, 7] = .refused [some ⟨0, 10, [1, 2, 3, 4]⟩, some ⟨0, 18, [5, 6]⟩] ∧
    svcWrite 2 tbl2 ids2 [1, 2, 3, 4, 5, 6, 7] =
      [some ⟨0, 10, [1, 2, 3, 4]⟩, some ⟨0, 18, [5, 6]⟩, some ⟨0, 24, [7]⟩] ∧
    capacity 2 [[⟨0, 1, 2⟩, ⟨0, 5, 1⟩]] < 7 := by decide

-- a block that is in no id
example : tbl2 0 = some ⟨0, 8, 16⟩ ∧ (3 + 1) * 2 ≤ 16 ∧ ∀ id ∈ ids2, ∀ p ∈ id, ¬ p.has 0 3 := by
  refine ⟨rfl, by decide, ?_⟩
  simp [ids2, Piece.has]

-- an id of 65536 blocks
example : 65536 ≤ (([⟨0, 0, 65535⟩, ⟨0, 70000, 1⟩] : List Piece).map (·.n)).sum := by decide

end HS.MultiWrite
