import Verif.DataSvc.Model
/-!
# C30, C47, C48: data service I/O

Specification vocabulary: the byte `i` of block `b` of chunk `c` lives at `start + b * bs + i` of the
chunk's physical device (`content`); chunks have disjoint areas (`Layout`, which is C16 for one
physical device); the blocks of an id are distinct and lie in their chunks (`IdOk`).
-/
namespace HS.DataSvc
open HS.Varsize HS.VAlloc

def content (bs : Nat) (tbl : Table) (d : Dev) (c b i : Nat) : Option UInt8 :=
  (tbl c).map fun a => d a.pdev (a.start + b * bs + i)

def Layout (tbl : Table) : Prop :=
  ∀ c c' a a', c ≠ c' → tbl c = some a → tbl c' = some a' → a.pdev = a'.pdev →
    a.start + a.size ≤ a'.start ∨ a'.start + a'.size ≤ a.start

/-- Blocks of piece `p`: block `b` of chunk `c`. -/
def Piece.has (p : Piece) (c b : Nat) : Prop := c = p.chunk ∧ p.blk ≤ b ∧ b < p.blk + p.n

def Apart (p q : Piece) : Prop := ∀ c b, ¬ (p.has c b ∧ q.has c b)

structure IdOk (bs : Nat) (tbl : Table) (ps : List Piece) : Prop where
  pos : ∀ p ∈ ps, 0 < p.n
  inside : ∀ p ∈ ps, ∃ a, tbl p.chunk = some a ∧ (p.blk + p.n) * bs ≤ a.size
  apart : ps.Pairwise Apart

def bytesOf (bs : Nat) (ps : List Piece) : Nat := (ps.map fun p => p.n * bs).sum

/-! ## Device writes -/

def Wr.hits (w : Wr) (pd o : Nat) : Prop := pd = w.pdev ∧ w.off ≤ o ∧ o < w.off + w.bytes.length

theorem apply_hit (w : Wr) (d : Dev) (j : Nat) (hj : j < w.bytes.length) :
    w.apply d w.pdev (w.off + j) = w.bytes[j] := by
  unfold Wr.apply
  rw [if_pos ⟨rfl, by omega⟩, show w.off + j - w.off = j by omega, List.getElem?_eq_getElem hj]

theorem apply_miss (w : Wr) (d : Dev) (pd o : Nat) (h : ¬ w.hits pd o) : w.apply d pd o = d pd o := by
  unfold Wr.apply
  split
  · rename_i h1
    have : w.bytes[o - w.off]? = none := by
      rw [List.getElem?_eq_none_iff]
      apply Nat.le_of_not_lt; intro h2
      exact h ⟨h1.1, h1.2, by omega⟩
    rw [this]
  · rfl

theorem applyAll_miss (ws : List Wr) (pd o : Nat) : ∀ d : Dev, (∀ w ∈ ws, ¬ w.hits pd o) →
    applyAll ws d pd o = d pd o := by
  induction ws with
  | nil => intro d _; rfl
  | cons w ws ih =>
    intro d h
    show applyAll ws (w.apply d) pd o = _
    rw [ih _ (fun x hx => h x (List.mem_cons_of_mem _ hx)), apply_miss w d pd o (h w (by simp))]

def WApart (a b : Wr) : Prop := ∀ pd o, ¬ (a.hits pd o ∧ b.hits pd o)

theorem applyAll_hit (ws : List Wr) : ∀ d : Dev, ws.Pairwise WApart → ∀ w ∈ ws, ∀ j (hj : j < w.bytes.length),
    applyAll ws d w.pdev (w.off + j) = w.bytes[j] := by
  induction ws with
  | nil => intro d _ w hw; simp at hw
  | cons v ws ih =>
    intro d hp w hw j hj
    rw [List.pairwise_cons] at hp
    show applyAll ws (v.apply d) w.pdev (w.off + j) = _
    rcases List.mem_cons.mp hw with rfl | hw
    · rw [applyAll_miss, apply_hit]
      intro x hx hh
      exact hp.1 x hx _ _ ⟨⟨rfl, by omega, by omega⟩, hh⟩
    · exact ih _ hp.2 w hw j hj

/-! ## Slices -/

/-- Cut the buffer along the pieces. -/
def slices (bs : Nat) : List Piece → List UInt8 → List (Piece × List UInt8)
  | [], _ => []
  | p :: ps, buf => (p, buf.take (p.n * bs)) :: slices bs ps (buf.drop (p.n * bs))

theorem writeLoop_eq (bs : Nat) (tbl : Table) : ∀ (ps : List Piece) (buf : List UInt8),
    writeLoop bs tbl ps buf = (slices bs ps buf).map fun x => writePiece bs tbl x.1 x.2 := by
  intro ps
  induction ps with
  | nil => intro buf; rfl
  | cons p ps ih => intro buf; simp [writeLoop, slices, ih]

theorem slices_len (bs : Nat) : ∀ (ps : List Piece) (buf : List UInt8), buf.length = bytesOf bs ps →
    ∀ x ∈ slices bs ps buf, x.1 ∈ ps ∧ x.2.length = x.1.n * bs := by
  intro ps
  induction ps with
  | nil => intro buf _ x hx; simp [slices] at hx
  | cons p ps ih =>
    intro buf hb x hx
    simp only [bytesOf, List.map_cons, List.sum_cons] at hb
    simp only [slices, List.mem_cons] at hx
    rcases hx with rfl | hx
    · refine ⟨by simp, ?_⟩
      simp only [List.length_take]; omega
    · obtain ⟨h1, h2⟩ := ih (buf.drop (p.n * bs)) (by
        simp only [List.length_drop, bytesOf]; omega) x hx
      exact ⟨List.mem_cons_of_mem _ h1, h2⟩

theorem slices_flat (bs : Nat) : ∀ (ps : List Piece) (buf : List UInt8), buf.length = bytesOf bs ps →
    (slices bs ps buf).flatMap (·.2) = buf := by
  intro ps
  induction ps with
  | nil =>
    intro buf hb
    simp only [bytesOf, List.map_nil, List.sum_nil, List.length_eq_zero_iff] at hb
    simp [slices, hb]
  | cons p ps ih =>
    intro buf hb
    simp only [bytesOf, List.map_cons, List.sum_cons] at hb
    simp only [slices, List.flatMap_cons]
    rw [ih (buf.drop (p.n * bs)) (by simp only [List.length_drop, bytesOf]; omega)]
    exact List.take_append_drop _ _

theorem slices_fst (bs : Nat) : ∀ (ps : List Piece) (buf : List UInt8),
    (slices bs ps buf).map (·.1) = ps := by
  intro ps
  induction ps with
  | nil => intro buf; rfl
  | cons p ps ih => intro buf; simp [slices, ih]

/-- With a buffer of the right length both paths of `async_write` issue the same requests. -/
theorem asyncWrite_eq (bs : Nat) (tbl : Table) (ps : List Piece) (buf : List UInt8)
    (hb : buf.length = bytesOf bs ps) :
    asyncWrite bs tbl ps buf = (slices bs ps buf).map fun x => writePiece bs tbl x.1 x.2 := by
  unfold asyncWrite
  split
  · rename_i p
    simp only [bytesOf, List.map_cons, List.map_nil, List.sum_cons, List.sum_nil, Nat.add_zero] at hb
    simp [slices, ← hb]
  · exact writeLoop_eq bs tbl ps buf

theorem asyncRead_eq (bs : Nat) (tbl : Table) (d : Dev) (ps : List Piece) (n : Nat)
    (hn : n = bytesOf bs ps) : asyncRead bs tbl d ps n = readLoop bs tbl d ps := by
  unfold asyncRead
  split
  · rename_i p
    simp only [bytesOf, List.map_cons, List.map_nil, List.sum_cons, List.sum_nil, Nat.add_zero] at hn
    simp only [readLoop, ← hn]
    cases readPiece bs tbl d p n <;> simp
  · rfl

/-- The requests issued have disjoint footprints. -/
theorem writes_apart {bs : Nat} {tbl : Table} {p q : Piece} {x y : List UInt8} {v w : Wr}
    (hl : Layout tbl) (ha : Apart p q) (hp : 0 < p.n) (hq : 0 < q.n)
    (hpi : ∃ a, tbl p.chunk = some a ∧ (p.blk + p.n) * bs ≤ a.size)
    (hqi : ∃ a, tbl q.chunk = some a ∧ (q.blk + q.n) * bs ≤ a.size)
    (hx : x.length = p.n * bs) (hy : y.length = q.n * bs)
    (hv : writePiece bs tbl p x = some v) (hw : writePiece bs tbl q y = some w) : WApart v w := by
  obtain ⟨a, ta, sa⟩ := hpi
  obtain ⟨b, tb, sb⟩ := hqi
  simp only [writePiece, devOffset, ta, Option.map_some, Option.some.injEq] at hv
  simp only [writePiece, devOffset, tb, Option.map_some, Option.some.injEq] at hw
  subst hv; subst hw
  rintro pd o ⟨⟨h1, h2, h3⟩, ⟨g1, g2, g3⟩⟩
  simp only at h1 h2 h3 g1 g2 g3
  rw [hx] at h3; rw [hy] at g3
  rw [Nat.add_mul] at sa sb
  by_cases hc : p.chunk = q.chunk
  · rw [hc, tb] at ta; simp only [Option.some.injEq] at ta; subst ta
    -- same chunk: the block intervals are disjoint
    have : p.blk + p.n ≤ q.blk ∨ q.blk + q.n ≤ p.blk := by
      apply Classical.byContradiction; intro hn
      apply ha p.chunk (max p.blk q.blk)
      refine ⟨⟨rfl, by omega, by omega⟩, ⟨hc, by omega, by omega⟩⟩
    rcases this with h | h
    · have := Nat.mul_le_mul_right bs h; rw [Nat.add_mul] at this; omega
    · have := Nat.mul_le_mul_right bs h; rw [Nat.add_mul] at this; omega
  · rcases hl _ _ _ _ hc ta tb (h1.symm.trans g1) with h | h <;> omega

theorem filterMap_zip_true {α β : Type _} (f : α → Option β) : ∀ (l : List α) (oks : List Bool),
    oks.length = l.length → (∀ b ∈ oks, b = true) →
    ((l.map f).zip oks).filterMap (fun x => if x.2 then x.1 else none) = l.filterMap f := by
  intro l
  induction l with
  | nil => intro oks _ _; simp
  | cons a l ih =>
    intro oks hl hb
    cases oks with
    | nil => simp at hl
    | cons b oks =>
      have : b = true := hb b (by simp)
      subst this
      simp only [List.map_cons, List.zip_cons_cons, List.filterMap_cons, if_true]
      rw [ih oks (by simpa using hl) (fun b hb' => hb b (List.mem_cons_of_mem _ hb'))]

theorem collect_true {ws : List (Option Wr)} : ∀ {oks : List Bool}, oks.length = ws.length →
    collect ((ws.zip oks).map fun x => x.1.isSome && x.2) = true →
    (∀ b ∈ oks, b = true) ∧ ∀ w ∈ ws, w.isSome := by
  induction ws with
  | nil => intro oks hl _; simp at hl; simp [hl]
  | cons w ws ih =>
    intro oks hl hc
    cases oks with
    | nil => simp at hl
    | cons b oks =>
      simp only [collect, List.zip_cons_cons, List.map_cons, List.all_cons, Bool.and_eq_true, id] at hc
      obtain ⟨h1, h2⟩ := ih (oks := oks) (by simpa using hl) hc.2
      constructor
      · intro c hcm
        rcases List.mem_cons.mp hcm with rfl | hcm
        · exact hc.1.2
        · exact h1 c hcm
      · intro v hv
        rcases List.mem_cons.mp hv with rfl | hv
        · exact hc.1.1
        · exact h2 v hv

theorem readBytes_eq {d : Dev} {pd off : Nat} {x : List UInt8}
    (h : ∀ j (hj : j < x.length), d pd (off + j) = x[j]) : readBytes d pd off x.length = x := by
  apply List.ext_getElem
  · simp [readBytes]
  · intro j h1 h2
    simp only [readBytes, List.getElem_map, List.getElem_range]
    exact h j h2

/-- **C47.**  For every id with distinct blocks inside its chunks, every buffer of exactly the id's
size, every device content, and every order in which the device executes the requests: if
`async_write` reports success, `async_read` of the id returns the buffer. -/
theorem C47_write_read {bs : Nat} {tbl : Table} {ps : List Piece} {buf : List UInt8} {d d' : Dev}
    (hl : Layout tbl) (hid : IdOk bs tbl ps) (hb : buf.length = bytesOf bs ps)
    (hc : Completes (asyncWrite bs tbl ps buf) d d' true) :
    asyncRead bs tbl d' ps buf.length = some buf := by
  rw [asyncRead_eq bs tbl d' ps _ hb]
  rw [asyncWrite_eq bs tbl ps buf hb] at hc
  obtain ⟨oks, done, h1, h2, rfl, h4⟩ := hc
  obtain ⟨ht, hsome⟩ := collect_true h1 h4.symm
  rw [filterMap_zip_true _ _ _ (by simpa using h1) ht] at h2
  have hlen := slices_len bs ps buf hb
  have hflat := slices_flat bs ps buf hb
  have hfst := slices_fst bs ps buf
  generalize slices bs ps buf = sl at *
  -- footprints of the requests are disjoint
  have hpw : sl.Pairwise (fun x y => Apart x.1 y.1) := by
    have := hid.apart; rw [← hfst, List.pairwise_map] at this; exact this
  have hap : (sl.filterMap fun x => writePiece bs tbl x.1 x.2).Pairwise WApart := by
    rw [List.pairwise_filterMap]
    refine List.Pairwise.imp_of_mem ?_ hpw
    intro x y hx hy hxy v hv w hw
    have ax := hlen x hx
    have ay := hlen y hy
    exact writes_apart hl hxy (hid.pos _ ax.1) (hid.pos _ ay.1) (hid.inside _ ax.1) (hid.inside _ ay.1)
      ax.2 ay.2 hv hw
  have hsym : ∀ {a b : Wr}, WApart a b → WApart b a := fun h pd o hh => h pd o ⟨hh.2, hh.1⟩
  have hap' : done.Pairwise WApart := (h2.pairwise_iff hsym).mpr hap
  -- each slice is on the device
  have hrd : ∀ x ∈ sl, readPiece bs tbl (applyAll done d) x.1 (x.1.n * bs) = some x.2 := by
    intro x hx
    have ax := hlen x hx
    obtain ⟨a, ta, sa⟩ := hid.inside _ ax.1
    simp only [readPiece, devOffset, ta, Option.map_some, Option.some.injEq]
    rw [← ax.2]
    apply readBytes_eq
    intro j hj
    have hw : (⟨a.pdev, x.1.blk * bs + a.start, x.2⟩ : Wr) ∈ done := by
      rw [h2.mem_iff, List.mem_filterMap]
      exact ⟨x, hx, by simp [writePiece, devOffset, ta]⟩
    exact applyAll_hit done d hap' _ hw j hj
  rw [← hfst, ← hflat]
  clear hfst hflat hpw hap hap' hlen h2 hsome h4 h1
  induction sl with
  | nil => rfl
  | cons x sl ih =>
    simp only [List.map_cons, readLoop, List.flatMap_cons]
    rw [hrd x (by simp), ih (fun y hy => hrd y (List.mem_cons_of_mem _ hy))]

/-- **C47**, other half: whatever the outcome, `async_write` changes no byte of any block, in any
chunk, that is not part of the id. -/
theorem C47_write_frame {bs : Nat} {tbl : Table} {ps : List Piece} {buf : List UInt8} {d d' : Dev}
    {result : Bool} (hl : Layout tbl) (hid : IdOk bs tbl ps) (hb : buf.length = bytesOf bs ps)
    (hc : Completes (asyncWrite bs tbl ps buf) d d' result) {c b i : Nat} {a : Area}
    (ha : tbl c = some a) (hb1 : (b + 1) * bs ≤ a.size) (hi : i < bs)
    (hout : ∀ p ∈ ps, ¬ p.has c b) : content bs tbl d' c b i = content bs tbl d c b i := by
  have hlen := slices_len bs ps buf hb
  rw [asyncWrite_eq bs tbl ps buf hb] at hc
  obtain ⟨oks, done, h1, h2, rfl, h4⟩ := hc
  simp only [content, ha, Option.map_some, Option.some.injEq]
  apply applyAll_miss
  intro w hw hh
  rw [h2.mem_iff, List.mem_filterMap] at hw
  obtain ⟨⟨o, ok⟩, hm, ho⟩ := hw
  have hm1 := (List.of_mem_zip hm).1
  rw [List.mem_map] at hm1
  obtain ⟨x, hx, hxe⟩ := hm1
  have ax := hlen x hx
  have ho' : o = some w := by
    cases ok <;> simp at ho; exact ho
  rw [ho'] at hxe
  obtain ⟨a', ta, sa⟩ := hid.inside _ ax.1
  simp only [writePiece, devOffset, ta, Option.map_some, Option.some.injEq] at hxe
  subst hxe
  obtain ⟨g1, g2, g3⟩ := hh
  simp only at g1 g2 g3
  rw [ax.2] at g3
  rw [Nat.add_mul] at sa
  rw [Nat.add_mul, Nat.one_mul] at hb1
  by_cases hcc : c = x.1.chunk
  · subst hcc
    rw [ta] at ha; simp only [Option.some.injEq] at ha; subst ha
    have hpb : x.1.blk ≤ b := by
      apply Nat.le_of_not_lt; intro h
      have := Nat.mul_le_mul_right bs (Nat.succ_le_of_lt h)
      rw [Nat.succ_mul] at this; omega
    have hpb2 : b < x.1.blk + x.1.n := by
      apply Nat.lt_of_not_le; intro h
      have := Nat.mul_le_mul_right bs h
      rw [Nat.add_mul] at this; omega
    exact hout x.1 ax.1 ⟨rfl, hpb, hpb2⟩
  · rcases hl _ _ _ _ hcc ha ta g1 with h | h <;> omega

/-- Result: `async_write` reports success exactly if every request was issued and completed. -/
theorem C47_result {ws : List (Option Wr)} {d d' : Dev} {result : Bool}
    (h : Completes ws d d' result) (hr : result = true) : (∀ w ∈ ws, w.isSome) ∧
    ∃ done : List Wr, done.Perm (ws.filterMap id) ∧ d' = applyAll done d := by
  subst hr
  obtain ⟨oks, done, h1, h2, h3, h4⟩ := h
  obtain ⟨ht, hs⟩ := collect_true h1 h4.symm
  refine ⟨hs, done, ?_, h3⟩
  have := filterMap_zip_true (fun x : Option Wr => x) ws oks h1 ht
  rw [List.map_id'] at this
  rw [this] at h2; exact h2

/-! ## Concrete case: two chunks on one device, an id with three pieces, written out of order -/

def tbl2 : Table := fun c => if c = 0 then some ⟨0, 8, 16⟩ else if c = 1 then some ⟨0, 24, 16⟩ else none
def id3 : List Piece := [⟨0, 1, 2⟩, ⟨0, 5, 1⟩, ⟨1, 0, 1⟩]
def buf3 : List UInt8 := [1, 2, 3, 4, 5, 6, 7, 8]

theorem tbl2_layout : Layout tbl2 := by
  intro c c' a a' hne h1 h2 _
  unfold tbl2 at h1 h2
  split at h1
  · split at h2
    · omega
    · split at h2 <;> simp at h1 h2 <;> subst h1 <;> subst h2 <;> simp
  · split at h1
    · split at h2
      · simp at h1 h2; subst h1; subst h2; simp
      · split at h2
        · omega
        · simp at h2
    · simp at h1

theorem id3_ok : IdOk 2 tbl2 id3 := by
  constructor
  · decide
  · intro p hp
    simp only [id3, List.mem_cons, List.not_mem_nil, or_false] at hp
    rcases hp with rfl | rfl | rfl
    · exact ⟨⟨0, 8, 16⟩, rfl, by decide⟩
    · exact ⟨⟨0, 8, 16⟩, rfl, by decide⟩
    · exact ⟨⟨0, 24, 16⟩, rfl, by decide⟩
  · simp only [id3, List.pairwise_cons, List.mem_cons, List.not_mem_nil, or_false]
    refine ⟨?_, ?_, by simp⟩
    · rintro q (rfl | rfl) c b ⟨⟨h1, h2, h3⟩, ⟨g1, g2, g3⟩⟩ <;> simp only at * <;> omega
    · rintro q rfl c b ⟨⟨h1, h2, h3⟩, ⟨g1, g2, g3⟩⟩; simp only at *; omega

example : Layout tbl2 ∧ IdOk 2 tbl2 id3 ∧ buf3.length = bytesOf 2 id3 ∧
    ∃ d', Completes (asyncWrite 2 tbl2 id3 buf3) (fun _ _ => 0) d' true ∧
      asyncRead 2 tbl2 d' id3 8 = some buf3 ∧ d' 0 12 = 3 := by
  refine ⟨tbl2_layout, id3_ok, by decide, applyAll [⟨0, 24, [7, 8]⟩, ⟨0, 10, [1, 2, 3, 4]⟩, ⟨0, 18, [5, 6]⟩]
    (fun _ _ => 0), ⟨[true, true, true], _, by decide, ?_, rfl, by decide⟩, by decide +kernel, by decide +kernel⟩
  decide +kernel

/-! ## C30, C48: allocation through the data service -/

/-- **C30**, partial: for every size that is a multiple of the block size and at most 65535 blocks,
under the conditions of `C14_alloc_partial`: a successful `alloc_blks(size)` returns blocks (free before,
pairwise distinct, of one chunk) that together hold exactly `size` bytes.  Missing: larger sizes, see
`C30_violated`. -/
theorem C30_alloc_partial {find sch sel chunks bs k h hint look st o chunks'} (hbs : 0 < bs)
    (hk : 1 ≤ k) (hk2 : k ≤ 65535)
    (hmin : h.contiguous = false → h.minPerPiece ≤ k) (ok : Ok find chunks)
    (hsel : ∀ i ci, sel i = some ci → ci < chunks.length)
    (hcase : h.contiguous = true ∨ h.partialOk = true ∨ look = false ∨ hint.isSome = true ∨ chunks.length ≤ 1)
    (e : allocBytes find sch sel chunks bs (k * bs) h hint look = some (st, o, chunks'))
    (hst : st = .alloc .success) :
    bytesOf bs (piecesOf o) = k * bs ∧ (blksOf o.pieces).Nodup ∧
    ∀ b ∈ blksOf o.pieces, freeIn chunks o.chunk b := by
  have hn : nblksOf (k * bs) bs = k := by
    unfold nblksOf; rw [Nat.mul_div_cancel _ hbs]; omega
  unfold allocBytes at e
  rw [hn] at e
  obtain ⟨st1, o1, c1, e1, _, _, oc⟩ := C14_alloc_partial (sch := sch) (sel := sel) hk hk2 hmin ok hsel hcase
  rw [e] at e1
  simp only [Option.some.injEq, Prod.mk.injEq] at e1
  obtain ⟨rfl, rfl, rfl⟩ := e1
  rcases oc with ⟨_, ht, hg, _⟩ | ⟨h1, _⟩ | ⟨h1, _⟩
  · refine ⟨?_, hg.1, hg.2.1⟩
    rw [← ht]
    unfold bytesOf piecesOf total
    generalize o.pieces = es
    induction es with
    | nil => simp
    | cons a es ih =>
      simp only [List.map_cons, List.sum_cons, Nat.add_mul] at ih ⊢
      rw [ih]
  · rw [hst] at h1; simp at h1
  · exact absurd hst h1

/-- **C48**, partial: if `async_alloc_write` reports an allocation error, no block's status changed,
provided the caller's hints do not allow partial allocation (and under the conditions of
`C14_alloc_partial`). Missing: with `partial_alloc_ok`, see `C48_partial_hint_violated`. -/
theorem C48_alloc_write_partial {find sch sel chunks bs tbl buf h hint look o chunks'}
    (hk : 1 ≤ nblksOf buf.length bs)
    (hmin : h.contiguous = false → h.minPerPiece ≤ nblksOf buf.length bs) (ok : Ok find chunks)
    (hsel : ∀ i ci, sel i = some ci → ci < chunks.length) (hp : h.partialOk = false)
    (hcase : h.contiguous = true ∨ look = false ∨ hint.isSome = true ∨ chunks.length ≤ 1)
    (e : allocWrite find sch sel chunks bs tbl buf h hint look = some (none, o, chunks')) :
    Unchanged chunks chunks' := by
  have hk2 : nblksOf buf.length bs ≤ 65535 := by unfold nblksOf; omega
  obtain ⟨st1, o1, c1, e1, _, _, oc⟩ := C14_alloc_partial (sch := sch) (sel := sel) (hint := hint) (look := look)
    hk hk2 hmin ok hsel (by rcases hcase with h | h | h | h <;> simp [h])
  unfold allocWrite allocBytes at e
  rw [e1] at e
  simp only at e
  split at e
  · simp at e
  · rename_i hne
    simp only [Option.some.injEq, Prod.mk.injEq, true_and] at e
    obtain ⟨rfl, rfl⟩ := e
    rcases oc with ⟨h1, _⟩ | ⟨_, h1, _⟩ | ⟨_, _, h1⟩
    · exact absurd h1 hne
    · rw [hp] at h1; simp at h1
    · exact h1

/-- Non-vacuity of `C30_alloc_partial` and `C48_alloc_write_partial`: three 512-byte blocks from a chunk
with enough room; five contiguous blocks when only isolated blocks are free. -/
example : (allocBytes (findRun 16) sch0 (rr 1) [chunkUsing [0, 1]] 512 (3 * 512) {} none true).map
      (fun r => (r.1, r.2.1)) = some (.alloc .success, ⟨0, [⟨2, 3, 0⟩]⟩) ∧
    (allocWrite (findRun 16) sch0 (rr 1) [chunkUsing [1, 3, 5, 7, 9, 11, 13, 15]] 1 tbl2 [1, 2, 3, 4, 5] {} none
      true).map (·.1) = some none ∧ Ok (findRun 16) [chunkUsing [0, 1]] := by
  refine ⟨by decide +kernel, by decide +kernel, ?_⟩
  intro s hs
  simp at hs
  subst hs; exact ⟨chunkUsing_inv _, findRun_ok 16⟩

/-- One chunk of 16 blocks of 4096 bytes. -/
def tblBig : Table := fun c => if c = 0 then some ⟨0, 0, 16 * 4096⟩ else none

/-- **C30** is violated for 65536 blocks or more: the block count is truncated to 16 bits.  Asking for
65537 blocks of 4096 bytes on a chunk of 16 blocks, of which block 1 is in use by somebody else, succeeds and
returns a single block; `async_alloc_write` then writes the whole buffer at that block, overwriting block 1. -/
theorem C30_violated (buf : List UInt8) (hlen : buf.length = 65537 * 4096) (h7 : buf[4096]? = some 7) :
    ∃ (o : OutId) (chunks' : List St) (ws : List (Option Wr)),
    allocWrite (findRun 16) sch0 (rr 1) [chunkUsing [1]] 4096 tblBig buf {} none true =
      some (some ws, o, chunks') ∧
    bytesOf 4096 (piecesOf o) = 4096 ∧ ¬ freeIn [chunkUsing [1]] 0 1 ∧
    ∃ d', Completes ws (fun _ _ => 0) d' true ∧
      content 4096 tblBig (fun _ _ => 0) 0 1 0 = some 0 ∧ content 4096 tblBig d' 0 1 0 = some 7 := by
  have halloc : (allocBytes (findRun 16) sch0 (rr 1) [chunkUsing [1]] 4096 (65537 * 4096) {} none true).map
      (fun r => (r.1, r.2.1)) = some (.alloc .success, ⟨0, [⟨0, 1, 0⟩]⟩) := by decide +kernel
  obtain ⟨⟨st, o, chunks'⟩, h1, h2⟩ := Option.map_eq_some_iff.mp halloc
  simp only [Prod.mk.injEq] at h2
  obtain ⟨rfl, rfl⟩ := h2
  refine ⟨⟨0, [⟨0, 1, 0⟩]⟩, chunks', [some ⟨0, 0, buf⟩], ?_, by decide, ?_, ?_⟩
  · unfold allocWrite
    rw [hlen, h1]
    simp [asyncWrite, piecesOf, writePiece, devOffset, tblBig]
  · rintro ⟨s, hs, hf⟩
    simp at hs; subst hs
    have : ¬ isFree (chunkUsing [1]) 1 := by
      simp [isFree, chunkUsing, cachedBlks, blksOf]
    exact this hf
  · refine ⟨applyAll [⟨0, 0, buf⟩] (fun _ _ => 0), ⟨[true], [⟨0, 0, buf⟩], rfl, by simp, rfl, rfl⟩, rfl, ?_⟩
    obtain ⟨hj, hv⟩ := List.getElem?_eq_some_iff.mp h7
    have := apply_hit ⟨0, 0, buf⟩ (fun _ _ => 0) 4096 hj
    simp only [Nat.zero_add] at this
    simp only [content, tblBig, if_true, Option.map_some, applyAll, List.foldl_cons, List.foldl_nil]
    rw [show 0 + 1 * 4096 + 0 = 4096 by decide, this, hv]

/-- There is such a buffer. -/
example : ∃ buf : List UInt8, buf.length = 65537 * 4096 ∧ buf[4096]? = some 7 := by
  refine ⟨List.replicate (65537 * 4096) 7, List.length_replicate, ?_⟩
  rw [List.getElem?_replicate, if_pos (by omega)]

/-- **C48** is violated if the hints allow partial allocation: a request for five blocks when only three
are free reports an error (nothing is written), but the three blocks stay allocated. -/
theorem C48_partial_hint_violated :
    let c0 := chunkUsing [0, 1, 2, 3, 4, 5, 6, 7, 8, 9, 10, 11, 12]
    ∃ o chunks', allocWrite (findRun 16) sch0 (rr 1) [c0] 1 tbl2 [1, 2, 3, 4, 5] { partialOk := true } none true =
      some (none, o, chunks') ∧ ¬ Unchanged [c0] chunks' := by
  intro c0
  have h : (allocWrite (findRun 16) sch0 (rr 1) [c0] 1 tbl2 [1, 2, 3, 4, 5] { partialOk := true } none true).map
      (fun r => (r.1, r.2.1, r.2.2.map fun s => s.bm 13 && ! (cachedBlks s.cache).contains 13)) = some (none, ⟨0, [⟨13, 3, 0⟩]⟩, [true]) := by
    decide +kernel
  obtain ⟨⟨ws, o, chunks'⟩, h1, h2⟩ := Option.map_eq_some_iff.mp h
  simp only [Prod.mk.injEq] at h2
  obtain ⟨rfl, rfl, h3⟩ := h2
  refine ⟨_, _, h1, ?_⟩
  intro hu
  have hf : freeIn [c0] 0 13 := ⟨c0, rfl, by simp [isFree, c0, chunkUsing]⟩
  obtain ⟨s, hs, hlt, hfree⟩ := (hu 0 13).mpr hf
  have hs2 : (chunks'.map fun s => s.bm 13 && ! (cachedBlks s.cache).contains 13)[0]? = some true := by
    rw [h3]; rfl
  rw [List.getElem?_map, hs] at hs2
  simp only [Option.map_some, Option.some.injEq, Bool.and_eq_true, Bool.not_eq_true',
    List.contains_eq_mem, decide_eq_false_iff_not] at hs2
  rcases hfree with h | h
  · rw [hs2.1] at h; simp at h
  · exact hs2.2 h

end HS.DataSvc
