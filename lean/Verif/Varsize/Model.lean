import Verif.Slab.Model
/-!
# Model of the variable-size block allocator with its slab cache

Models `src/lib/blkalloc/varsize_blk_allocator.cpp` and `src/lib/blkalloc/blk_cache_queue.cpp`.

Conventions: `none` is undefined behaviour or a failed release assertion.  Counts are unbounded
(`blk_count_t` has 16 bits; the theorems restrict request sizes accordingly).

Simplifications:
* operations are sequential: every access to a portion of the bitmap is under the portion lock and
  every slab queue is a lock-free MPMC queue, but the interleaving of two allocations is not modelled;
* metrics, logging, the zombie counters and `need_refill` (it only schedules a sweep) are left out;
* a sweep is run at the points where an allocation waits for one, with arbitrary parameters.
-/
namespace HS.Varsize

/-- `blk_cache_entry`, blk_cache.h:76-106. -/
structure Entry where
  blk : Nat
  cnt : Nat
  temp : Nat
  deriving DecidableEq, Repr

/-- The blocks an entry stands for. -/
def Entry.blks (e : Entry) : List Nat := List.range' e.blk e.cnt

/-- One level queue (`folly::MPMCQueue` of fixed capacity). -/
structure Level where
  cap : Nat
  q : List Entry
  deriving DecidableEq, Repr

/-- `SlabCacheQueue`, blk_cache_queue.h:49-87. -/
structure Slab where
  size : Nat
  levels : List Level
  deriving DecidableEq, Repr

abbrev Cache := List Slab

/-- The cyclic order in which the levels are tried, starting with `start`:
blk_cache_queue.cpp:318-323 and 334-339. -/
def order (n start : Nat) : List Nat := (List.range n).map fun i => (start + i) % n

/-- `SlabCacheQueue::push`, blk_cache_queue.cpp:311-325, with `only_this_level = false` (no caller
passes true).  `none`: every level is full.  A slab has at least one level (part of the
well-formedness the theorems assume). -/
def Slab.push (sl : Slab) (e : Entry) : Option Slab :=
  let n := sl.levels.length
  match (order n (min e.temp (n - 1))).find? (fun l => match sl.levels[l]? with
      | some lv => decide (lv.q.length < lv.cap)
      | none => false) with
  | some l => match sl.levels[l]? with
    | some lv => some { sl with levels := sl.levels.set l { lv with q := lv.q ++ [e] } }
    | none => none
  | none => none

/-- `SlabCacheQueue::pop`, blk_cache_queue.cpp:327-342. -/
def Slab.pop (sl : Slab) (temp : Nat) : Option (Entry × Slab) :=
  let n := sl.levels.length
  match (order n (min temp (n - 1))).find? (fun l => match sl.levels[l]? with
      | some lv => ! lv.q.isEmpty
      | none => false) with
  | some l => match sl.levels[l]? with
    | some ⟨cap, e :: q⟩ => some (e, { sl with levels := sl.levels.set l ⟨cap, q⟩ })
    | _ => none
  | none => none

/-- `FreeBlkCacheQueue::push_slab`, blk_cache_queue.cpp:290-298.  Outer `none`: slab index out of
range.  The Boolean tells whether the entry was pushed. -/
def pushSlab (c : Cache) (idx : Nat) (e : Entry) : Option (Cache × Bool) :=
  match c[idx]? with
  | none => none
  | some sl => match sl.push e with
    | some sl' => some (c.set idx sl', true)
    | none => some (c, false)

/-- `FreeBlkCacheQueue::try_free_blks` of one entry, blk_cache_queue.cpp:96-123.  `fuel` bounds the
loop; running out of it counts as undefined, and the theorems show it does not happen. -/
def tryFree : Nat → Cache → List Entry → Entry → Option (Cache × List Entry)
  | 0, _, _, _ => none
  | fuel + 1, c, excess, e =>
    if e.cnt > 0 then
      match Slab.findRoundDownSlab e.cnt with
      | none => none
      | some (idx, rest) =>
        match c[idx]? with
        | none => none
        | some sl =>
          match pushSlab c idx { e with cnt := sl.size } with
          | none => none
          | some (c', pushed) =>
            let excess' := if pushed then excess else excess ++ [{ e with cnt := sl.size }]
            if rest = 0 then some (c', excess')
            else tryFree fuel c' excess' { e with blk := e.blk + sl.size, cnt := rest }
    else some (c, excess)

/-- `FreeBlkCacheQueue::try_free_blks` of a list, blk_cache_queue.cpp:125-134. -/
def tryFreeAll (c : Cache) (excess : List Entry) : List Entry → Option (Cache × List Entry)
  | [] => some (c, excess)
  | e :: es => match tryFree (e.cnt + 1) c excess e with
    | none => none
    | some (c', ex') => tryFreeAll c' ex' es

inductive Status where
  | success | failed | spaceFull | partialAlloc | tooManyPieces
  deriving DecidableEq, Repr

/-- `blk_cache_alloc_req`, blk_cache.h:109-118. -/
structure Req where
  nblks : Nat
  level : Nat
  contiguous : Bool
  minIdx : Nat
  maxIdx : Nat

/-- `blk_cache_alloc_resp`, blk_cache.h:120-139. -/
structure Resp where
  alloced : Nat
  out : List Entry
  excess : List Entry

def Resp.empty : Resp := ⟨0, [], []⟩

/-- The loop of `try_alloc_in_slab`, blk_cache_queue.cpp:212-226: pop up to `n` entries.
Returns the popped entries. -/
def popLoop (idx level : Nat) : Nat → Cache → Option (Cache × List Entry)
  | 0, c => some (c, [])
  | n + 1, c =>
    match c[idx]? with
    | none => none
    | some sl => match sl.pop level with
      | none => some (c, [])
      | some (e, sl') => match popLoop idx level n (c.set idx sl') with
        | none => none
        | some (c', es) => some (c', e :: es)

/-- The lambda `free_excess` of `try_alloc_in_slab`, blk_cache_queue.cpp:190-210: give back the
trailing blocks of the last entry.  A residue as large as the slab (line 197, debug assertion) would
wrap the 16-bit subtraction: counted as undefined, the theorems show it does not happen. -/
def freeExcess (req : Req) (size num : Nat) (c : Cache) (r : Resp) : Option (Cache × Resp) :=
  let alloced := r.alloced + num
  if alloced > req.nblks then
    let residue := alloced - req.nblks
    if residue ≥ size then none
    else match r.out.getLast? with
      | none => none
      | some b =>
        let needed := size - residue
        let out := r.out.dropLast ++ [{ b with cnt := needed }]
        match tryFree (residue + 1) c r.excess { b with blk := b.blk + needed, cnt := residue } with
        | none => none
        | some (c', ex) => some (c', ⟨alloced - residue, out, ex⟩)
  else some (c, { r with alloced := alloced })

/-- `FreeBlkCacheQueue::try_alloc_in_slab`, blk_cache_queue.cpp:182-230. -/
def tryAllocInSlab (idx : Nat) (req : Req) (c : Cache) (r : Resp) : Option (Status × Cache × Resp) :=
  if r.alloced ≥ req.nblks then some (.success, c, r)
  else match c[idx]? with
    | none => none
    | some sl =>
      let nentries := (req.nblks - r.alloced - 1) / sl.size + 1
      if req.contiguous ∧ nentries > 1 then some (.failed, c, r)
      else match popLoop idx req.level nentries c with
        | none => none
        | some (c1, es) =>
          match freeExcess req sl.size (es.length * sl.size) c1 { r with out := r.out ++ es } with
          | none => none
          | some (c2, r2) =>
            some (if es.length = nentries then .success else if es.length = 0 then .failed else .partialAlloc,
              c2, r2)

/-- "free any partial result if contiguous", blk_cache_queue.cpp:66-70 and 243-247. -/
def dropPartial (st : Status) (req : Req) (c : Cache) (r : Resp) : Option (Cache × Resp) :=
  if st = .partialAlloc ∧ req.contiguous = true then
    match tryFreeAll c r.excess r.out with
    | none => none
    | some (c', ex) => some (c', { r with out := [], excess := ex })
  else some (c, r)

/-- Final status of `break_up` / `merge_down`. -/
def endStatus (r : Resp) : Status := if r.alloced > 0 then .partialAlloc else .failed

/-- `FreeBlkCacheQueue::break_up`, blk_cache_queue.cpp:232-249 (`fuel` bounds the recursion). -/
def breakUp : Nat → Nat → Req → Cache → Resp → Option (Status × Cache × Resp)
  | 0, _, _, _, _ => none
  | fuel + 1, idx, req, c, r =>
    if idx ≥ c.length - 1 then some (endStatus r, c, r)
    else match tryAllocInSlab (idx + 1) req c r with
      | none => none
      | some (.success, c1, r1) => some (.success, c1, r1)
      | some (st, c1, r1) => match dropPartial st req c1 r1 with
        | none => none
        | some (c2, r2) => breakUp fuel (idx + 1) req c2 r2

/-- `FreeBlkCacheQueue::merge_down`, blk_cache_queue.cpp:251-262.  Below slab 0 the 16-bit index
wraps and the access is out of range. -/
def mergeDown : Nat → Req → Cache → Resp → Option (Status × Cache × Resp)
  | 0, req, c, r => if 0 = req.minIdx then some (endStatus r, c, r) else none
  | idx + 1, req, c, r =>
    if idx + 1 = req.minIdx then some (endStatus r, c, r)
    else match tryAllocInSlab idx req c r with
      | none => none
      | some (.success, c1, r1) => some (.success, c1, r1)
      | some (_, c1, r1) => mergeDown idx req c1 r1

/-- `FreeBlkCacheQueue::try_alloc_blks`, blk_cache_queue.cpp:57-94. -/
def tryAlloc (req : Req) (c : Cache) (r : Resp) : Option (Status × Cache × Resp) :=
  let idx := min (Slab.findSlab req.nblks) req.maxIdx
  match tryAllocInSlab idx req c r with
  | none => none
  | some (.success, c1, r1) => some (.success, c1, r1)
  | some (st, c1, r1) => match dropPartial st req c1 r1 with
    | none => none
    | some (c2, r2) => match breakUp c2.length idx req c2 r2 with
      | none => none
      | some (.success, c3, r3) => some (.success, c3, r3)
      | some (st3, c3, r3) =>
        if req.contiguous then some (st3, c3, r3) else mergeDown idx req c3 r3

/-! ### The allocator -/

/-- State of `VarsizeBlkAllocator`.  `bm b` = bit of block `b` in `m_cache_bm` (set: not free, or
cached in a slab). -/
structure St where
  total : Nat
  bpp : Nat               -- blocks per portion
  useSlabs : Bool
  bm : Nat → Bool
  cache : Cache
  alloced : Nat           -- m_alloced_blk_count
  startPortion : Nat      -- m_start_portion_num (drawn at random before the first use)

/-- `get_num_portions`, bitmap_blk_allocator.h:81. -/
def St.numPortions (s : St) : Nat := (s.total - 1) / s.bpp + 1

/-- `sisl::Bitset::set_bits` / `reset_bits`. -/
def setBits (bm : Nat → Bool) (b n : Nat) (v : Bool) : Nat → Bool :=
  fun x => if b ≤ x ∧ x < b + n then v else bm x

/-- `sisl::Bitset::is_bits_set`. -/
def bitsSet (bm : Nat → Bool) (b n : Nat) : Bool := (List.range' b n).all bm

/-- `sisl::Bitset::get_next_contiguous_n_reset_bits(lo, hi, min, max)`: a parameter of the model,
about which the theorems assume `FindOk`. -/
abbrev Find := (Nat → Bool) → Nat → Nat → Nat → Nat → Option (Nat × Nat)

/-- Assumed contract of the bitset search: a run it returns lies in `[lo, hi]` and inside the bitmap,
has between `min` (at least one) and `max` bits, and all its bits are reset. -/
def FindOk (total : Nat) (find : Find) : Prop :=
  ∀ bm lo hi mn mx b n, find bm lo hi mn mx = some (b, n) →
    1 ≤ n ∧ mn ≤ n ∧ n ≤ mx ∧ lo ≤ b ∧ b + n ≤ hi + 1 ∧ b + n ≤ total ∧
    ∀ x, b ≤ x → x < b + n → bm x = false

/-- `blk_alloc_hints`, blk.h:250-264 (the fields read here). -/
structure Hints where
  temp : Nat := 0
  contiguous : Bool := true
  partialOk : Bool := false
  minPerPiece : Nat := 1

/-- `MultiBlkId::max_pieces`, blk.h:94-95. -/
abbrev maxPieces : Nat := 6

/-- `VarsizeBlkAllocator::free_blks_direct` for one piece, varsize_blk_allocator.cpp:698-712. -/
def freeDirect (s : St) (e : Entry) : Option St :=
  if bitsSet s.bm e.blk e.cnt then some { s with bm := setBits s.bm e.blk e.cnt false } else none

/-- `VarsizeBlkAllocator::free_blks_direct`, varsize_blk_allocator.cpp:697-725; also the lambda
`free_excess_blocks` (498-505) and the loop 689-693. -/
def freeDirectAll (s : St) : List Entry → Option St
  | [] => some s
  | e :: es => match freeDirect s e with
    | none => none
    | some s' => freeDirectAll s' es

/-! ### Sweep -/

/-- `blk_cache_fill_session::slab_requirements` as (required, refilled) per slab.  The C++ vector may
be shorter than the number of slabs (see `Verif.Varsize.Session`); what an access past its end reads
is left open: the theorems hold for every function. -/
abbrev Reqs := Nat → Nat × Nat

def needRefill (p : Nat × Nat) : Bool := p.1 != 0 && p.2 != p.1

/-- Inner loop of `try_fill_cache`, blk_cache_queue.cpp:150-164 (`fuel` ≥ remaining blocks).
Returns cache, requirements and how many blocks are left. -/
def fillSlab (idx size temp : Nat) : Nat → Cache → Reqs → Nat → Nat → Option (Cache × Reqs × Nat × Nat)
  | 0, c, rq, blk, rem => some (c, rq, blk, rem)
  | fuel + 1, c, rq, blk, rem =>
    if rem ≥ size ∧ needRefill (rq idx) = true then
      match pushSlab c idx ⟨blk, size, temp⟩ with
      | none => none
      | some (c', false) => some (c', fun i => if i = idx then ((rq i).1, (rq i).1) else rq i, blk, rem)
      | some (c', true) =>
        fillSlab idx size temp fuel c' (fun i => if i = idx then ((rq i).1, (rq i).2 + 1) else rq i)
          (blk + size) (rem - size)
    else some (c, rq, blk, rem)

/-- Outer loop of `try_fill_cache`, blk_cache_queue.cpp:148-166: slabs `idx`, `idx - 1`, ..., 0. -/
def fillDown (temp : Nat) : Nat → Cache → Reqs → Nat → Nat → Option (Cache × Reqs × Nat × Nat)
  | idx, c, rq, blk, rem =>
    match c[idx]? with
    | none => none
    | some sl => match fillSlab idx sl.size temp (rem + 1) c rq blk rem with
      | none => none
      | some (c', rq', blk', rem') =>
        match idx with
        | 0 => some (c', rq', blk', rem')
        | idx + 1 => if rem' = 0 then some (c', rq', blk', rem') else fillDown temp idx c' rq' blk' rem'

/-- `FreeBlkCacheQueue::try_fill_cache`, blk_cache_queue.cpp:136-172.  Returns the number of blocks
added.  (`fill_req.nblks` is passed to `find_slab` as 16 bits.) -/
def tryFill (c : Cache) (rq : Reqs) (blk n temp : Nat) : Option (Cache × Reqs × Nat) :=
  let idx := min (Slab.findSlab n) (c.length - 1)
  match fillDown temp idx c rq blk n with
  | none => none
  | some (c', rq', _, rem) => some (c', rq', n - rem)

/-- `VarsizeBlkAllocator::fill_cache_in_portion`, varsize_blk_allocator.cpp:334-384; when the session
stops is left open (`stop` is consulted before each search). -/
def fillPortion (find : Find) (temp : Nat) (stop : Nat → Bool) : Nat → Nat → Nat → St → Reqs → Option (St × Reqs)
  | 0, _, _, s, rq => some (s, rq)
  | fuel + 1, cur, last, s, rq =>
    if stop fuel = true ∨ ¬ cur ≤ last then some (s, rq)
    else match find s.bm cur last 1 (last - cur + 1) with
      | none => some (s, rq)
      | some (b, n) =>
        match tryFill s.cache rq b n temp with
        | none => none
        | some (c', rq', added) =>
          fillPortion find temp stop fuel (b + n) last
            { s with cache := c', bm := if added > 0 then setBits s.bm b added true else s.bm } rq'

/-- A sweep (`fill_cache`, varsize_blk_allocator.cpp:280-332): any sequence of portions with any
temperatures and requirements. -/
structure SweepStep where
  portion : Nat
  temp : Nat
  reqs : Reqs
  stop : Nat → Bool

def sweep (find : Find) (s : St) : List SweepStep → Option St
  | [] => some s
  | w :: ws =>
    match fillPortion find w.temp w.stop (s.bpp + 1) (w.portion * s.bpp) (w.portion * s.bpp + s.bpp - 1) s w.reqs with
    | none => none
    | some (s', _) => sweep find s' ws

/-! ### Allocation -/

/-- `highest_slab_blks_count`, varsize_blk_allocator.h:131-134. -/
def highestSlab (c : Cache) : Nat := match c.getLast? with | some sl => sl.size | none => 0

/-- `VarsizeBlkAllocator::alloc_blks_slab`, varsize_blk_allocator.cpp:489-574, retry loop 516-567.
`retries` retries remain; `sweeps` are the sweeps that run while the allocation waits (line 565).
The result is (pieces, state); `num_allocated` is the number of blocks in the pieces. -/
def allocSlabLoop (find : Find) (req : Req) (h : Hints) : Nat → List (List SweepStep) → St →
    Option (List Entry × St)
  | 0, _, s => some ([], s)
  | retries + 1, sweeps, s =>
    match tryAlloc req s.cache Resp.empty with
    | none => none
    | some (st, c1, r) =>
      let s1 := { s with cache := c1 }
      let proceed := st = .success ∨ (st = .partialAlloc ∧ (h.partialOk = true ∨ h.contiguous = false))
      if proceed ∧ r.out.length ≤ maxPieces then
        -- all pieces fit (529-534), then line 570
        match freeDirectAll s1 r.excess with
        | none => none
        | some s2 => some (r.out, s2)
      else if proceed ∧ h.partialOk = true then
        -- the rest goes to the excess list (539-542), then line 570
        match freeDirectAll s1 (r.excess ++ r.out.drop maxPieces) with
        | none => none
        | some s2 => some (r.out.take maxPieces, s2)
      else
        -- `discard_current_allocation` (507-513), wait for a sweep, retry
        match tryFreeAll s1.cache r.excess r.out with
        | none => none
        | some (c2, ex) => match freeDirectAll { s1 with cache := c2 } ex with
          | none => none
          | some s2 =>
            if retries = 0 then some ([], s2)
            else match sweep find s2 (sweeps.headD []) with
              | none => none
              | some s3 => allocSlabLoop find req h retries sweeps.tail s3

/-- Search of one portion in `alloc_blks_direct`, varsize_blk_allocator.cpp:600-621. -/
def directPortion (find : Find) (minBlks : Nat) : Nat → Nat → Nat → St → Nat → List Entry →
    St × Nat × List Entry
  | 0, _, _, s, rem, out => (s, rem, out)
  | fuel + 1, cur, last, s, rem, out =>
    if rem ≠ 0 ∧ cur ≤ last ∧ out.length < maxPieces then
      match find s.bm cur last (min minBlks rem) rem with
      | none => (s, rem, out)
      | some (b, n) =>
        directPortion find minBlks fuel (b + n) last { s with bm := setBits s.bm b n true } (rem - n)
          (out ++ [⟨b, n, 0⟩])
    else (s, rem, out)

/-- The do-while loop over portions, varsize_blk_allocator.cpp:595-632.  `fuel` is the number of
portions: the loop ends when it is back at the start portion. -/
def directLoop (find : Find) (minBlks maxP start : Nat) : Nat → Nat → St → Nat → List Entry →
    St × Nat × List Entry × Nat
  | 0, p, s, rem, out => (s, rem, out, p)
  | fuel + 1, p, s, rem, out =>
    match directPortion find minBlks (s.bpp + 1) (p * s.bpp) (p * s.bpp + s.bpp - 1) s rem out with
    | (s1, rem1, out1) =>
      if rem1 = 0 then (s1, rem1, out1, p)
      else
        let p' := if p + 1 = s.numPortions then 0 else p + 1
        if p' ≠ start ∧ out1.length < maxP then directLoop find minBlks maxP start fuel p' s1 rem1 out1
        else (s1, rem1, out1, p')

/-- `VarsizeBlkAllocator::alloc_blks_direct`, varsize_blk_allocator.cpp:576-637. -/
def allocDirect (find : Find) (h : Hints) (s : St) (nblks : Nat) (out : List Entry) :
    St × Nat × List Entry :=
  let maxP := if h.contiguous then 1 else maxPieces
  let minBlks := if h.contiguous ∧ ¬ h.partialOk then nblks else min nblks h.minPerPiece
  match directLoop find minBlks maxP s.startPortion s.numPortions s.startPortion s nblks out with
  | (s1, rem, out1, p) => ({ s1 with startPortion := p }, nblks - rem, out1)

def total (es : List Entry) : Nat := (es.map Entry.cnt).sum

/-- `VarsizeBlkAllocator::alloc(nblks, hints, out)`, varsize_blk_allocator.cpp:398-449, with an empty
`MultiBlkId` passed in.  On failure the pieces stay in the output (they are not cleared by line 437). -/
def alloc (find : Find) (retries : Nat) (sweeps : List (List SweepStep)) (s : St) (nblks : Nat) (h : Hints) :
    Option (Status × List Entry × St) :=
  let slab : Option (List Entry × St) :=
    if s.useSlabs = true ∧ nblks ≤ highestSlab s.cache then
      allocSlabLoop find ⟨nblks, h.temp, h.contiguous, Slab.findSlab h.minPerPiece, s.cache.length - 1⟩ h
        (max retries 2) sweeps s
    else some ([], s)
  match slab with
  | none => none
  | some (out, s1) =>
    if s.useSlabs = true ∧ nblks ≤ highestSlab s.cache ∧ total out ≥ nblks then
      some (.success, out, { s1 with alloced := s1.alloced + total out })
    else
      match allocDirect find h s1 (nblks - total out) out with
      | (s2, n, out2) =>
        if total out + n = nblks then
          some (.success, out2, { s2 with alloced := s2.alloced + (total out + n) })
        else if total out + n ≠ 0 ∧ h.partialOk = true then
          some (.partialAlloc, out2, { s2 with alloced := s2.alloced + (total out + n) })
        else match freeDirectAll s2 out2 with
          | none => none
          | some s3 => some (if h.contiguous then .failed else .spaceFull, out2, s3)

/-- `BlkId::blk_count`, blk.h:75: the non-virtual member that the static type `BlkId const&` of the
argument selects; for a `MultiBlkId` it is the count of the first piece. -/
def firstCount : List Entry → Nat
  | [] => 0
  | p :: _ => p.cnt

/-- `VarsizeBlkAllocator::free`, varsize_blk_allocator.cpp:660-668 (the persistent bitmap part is in
`Verif.Vdev`), and `free_blks_slab`, 670-695.  The first piece decides the path: `bid.blk_count()` is
the non-virtual member of `BlkId`, the count of the first piece.  Freed entries get temperature 2. -/
def free (s : St) (pieces : List Entry) : Option St :=
  let n := total pieces
  if s.useSlabs = true ∧ firstCount pieces ≤ highestSlab s.cache then
    match tryFreeAll s.cache [] (pieces.map fun p => { p with temp := 2 }) with
    | none => none
    | some (c', ex) => match freeDirectAll { s with cache := c' } ex with
      | none => none
      | some s' => some { s' with alloced := s'.alloced - n }
  else match freeDirectAll s pieces with
    | none => none
    | some s' => some { s' with alloced := s'.alloced - n }

end HS.Varsize
