import Verif.Varsize.Model
/-!
# Model of allocation on a virtual device with several chunks

Models `VirtualDev::alloc_blks` (both overloads), `alloc_n_contiguous_blks` and `alloc_blks_from_chunk`
of `src/lib/device/virtual_dev.cpp`, for chunks with the variable-size allocator of `Verif.Varsize`
(the data service; append and fixed allocators are in `Verif.Append` and `Verif.Fixed`).

Simplifications: the chunk selector is arbitrary (`sel attempt`); the retry limit and the sweeps that
run inside the `i`-th allocator call are arbitrary (`sch i`); metrics, logging and fault injection are
left out; calls are sequential.
-/
namespace HS.VAlloc
open HS.Varsize

/-- Retry limit and sweeps of each allocator call. -/
abbrev Sched := Nat → Nat × List (List SweepStep)

/-! ### `VarsizeBlkAllocator::alloc` called with an id that is not empty

`virtual_dev.cpp:258-268` passes the same `MultiBlkId` to the allocator of the next chunk, and a failed
call does not clear it.  `foreign`: the pieces already in the id belong to another chunk, so that
`MultiBlkId::add` fails its release assertion (blk.cpp:81). -/

/-- `alloc_blks_slab`, varsize_blk_allocator.cpp:489-574, with `stale` pieces in the id.  Returns the
pieces of the id and how many blocks were allocated now. -/
def slabStale (find : Find) (req : Req) (h : Hints) (foreign : Bool) : Nat → List (List SweepStep) → St →
    List Entry → Option (List Entry × Nat × St)
  | 0, _, s, stale => some (stale, 0, s)
  | retries + 1, sweeps, s, stale =>
    if stale.length < maxPieces then
      match tryAlloc req s.cache Resp.empty with
      | none => none
      | some (st, c1, r) =>
        let s1 := { s with cache := c1 }
        let room := maxPieces - stale.length
        let proceed := st = .success ∨ (st = .partialAlloc ∧ (h.partialOk = true ∨ h.contiguous = false))
        if proceed ∧ foreign = true ∧ stale ≠ [] ∧ r.out ≠ [] then none
        else if proceed ∧ r.out.length ≤ room then
          match freeDirectAll s1 r.excess with
          | none => none
          | some s2 => some (stale ++ r.out, total r.out, s2)
        else if proceed ∧ h.partialOk = true then
          match freeDirectAll s1 (r.excess ++ r.out.drop room) with
          | none => none
          | some s2 => some (stale ++ r.out.take room, total (r.out.take room), s2)
        else
          match tryFreeAll s1.cache r.excess r.out with
          | none => none
          | some (c2, ex) => match freeDirectAll { s1 with cache := c2 } ex with
            | none => none
            | some s2 =>
              -- line 544: the id is cleared when it had too many pieces
              let stale' := if proceed then [] else stale
              if retries = 0 then some (stale', 0, s2)
              else match sweep find s2 (sweeps.headD []) with
                | none => none
                | some s3 => slabStale find req h foreign retries sweeps.tail s3 stale'
    else some (stale, 0, s)

/-- `VarsizeBlkAllocator::alloc`, varsize_blk_allocator.cpp:398-449, with `stale` pieces in the id. -/
def allocStale (find : Find) (retries : Nat) (sweeps : List (List SweepStep)) (s : St) (nblks : Nat) (h : Hints)
    (stale : List Entry) (foreign : Bool) : Option (Status × List Entry × St) :=
  let slab : Option (List Entry × Nat × St) :=
    if s.useSlabs = true ∧ nblks ≤ highestSlab s.cache then
      slabStale find ⟨nblks, h.temp, h.contiguous, Slab.findSlab h.minPerPiece, s.cache.length - 1⟩ h foreign
        (max retries 2) sweeps s stale
    else some (stale, 0, s)
  match slab with
  | none => none
  | some (out, k, s1) =>
    if s.useSlabs = true ∧ nblks ≤ highestSlab s.cache ∧ k ≥ nblks then
      some (.success, out, { s1 with alloced := s1.alloced + k })
    else
      match allocDirect find h s1 (nblks - k) out with
      | (s2, n, out2) =>
        if foreign = true ∧ stale ≠ [] ∧ out = stale ∧ n > 0 then none
        else if k + n = nblks then
          some (.success, out2, { s2 with alloced := s2.alloced + (k + n) })
        else if k + n ≠ 0 ∧ h.partialOk = true then
          some (.partialAlloc, out2, { s2 with alloced := s2.alloced + (k + n) })
        else match freeDirectAll s2 out2 with
          | none => none
          | some s3 => some (if h.contiguous then .failed else .spaceFull, out2, s3)

/-- What the id passed around contains: no piece yet, or pieces of a chunk. -/
structure OutId where
  chunk : Nat
  pieces : List Entry
  deriving DecidableEq, Repr

def OutId.empty : OutId := ⟨0, []⟩

/-- Status of the device-level call: `none` in C++ is `BLK_ALLOC_NONE`, `invalidDev` is `INVALID_DEV`. -/
inductive VStatus where
  | alloc (st : Status)
  | noChunk
  | invalidDev
  deriving DecidableEq, Repr

/-- `VirtualDev::alloc_blks_from_chunk`, virtual_dev.cpp:317-341.  (Lines 325-328 are not reachable: the
allocator reports PARTIAL only if `partial_alloc_ok`.  They are kept.) -/
def allocFromChunk (find : Find) (sch : Nat × List (List SweepStep)) (chunks : List St) (ci n : Nat) (h : Hints)
    (o : OutId) : Option (Status × OutId × List St) :=
  match chunks[ci]? with
  | none => none
  | some s =>
    let r := if o.pieces = [] then alloc find sch.1 sch.2 s n h
             else allocStale find sch.1 sch.2 s n h o.pieces (decide (o.chunk ≠ ci))
    match r with
    | none => none
    | some (st, out, s') =>
      if st = .partialAlloc ∧ h.partialOk = false then
        match free s' out with
        | none => none
        | some s'' => some (.failed, OutId.empty, chunks.set ci s'')
      else
        some (st, ⟨if o.pieces = [] then ci else o.chunk, out⟩, chunks.set ci s')

/-- The loop over chunks, virtual_dev.cpp:255-269; `fuel` = `m_total_chunk_num - attempt`. -/
def chunkLoop (find : Find) (sch : Sched) (sel : Nat → Option Nat) (n : Nat) (h : Hints) (look : Bool) :
    Nat → Nat → List St → OutId → Option (VStatus × OutId × List St)
  | 0, _, _, _ => none
  | fuel + 1, attempt, chunks, o =>
    match sel attempt with
    | none => some (.noChunk, o, chunks)
    | some ci =>
      match allocFromChunk find (sch attempt) chunks ci n h o with
      | none => none
      | some (st, o', chunks') =>
        if st = .success ∨ look = false ∨ (st = .partialAlloc ∧ h.partialOk = true) then
          some (.alloc st, o', chunks')
        else if fuel = 0 then some (.alloc st, o', chunks')
        else chunkLoop find sch sel n h look fuel (attempt + 1) chunks' o'

/-- `VirtualDev::alloc_blks(nblks, hints, MultiBlkId&)`, virtual_dev.cpp:239-280, with an empty id.
`hint` = `chunk_id_hint`, `look` = `can_look_for_other_chunk`. -/
def allocBlks (find : Find) (sch : Sched) (sel : Nat → Option Nat) (chunks : List St) (n : Nat) (h : Hints)
    (hint : Option Nat) (look : Bool) : Option (VStatus × OutId × List St) :=
  match hint with
  | some ci =>
    if ci < chunks.length then
      match allocFromChunk find (sch 0) chunks ci n h OutId.empty with
      | none => none
      | some (st, o, chunks') => some (.alloc st, o, chunks')
    else some (.invalidDev, OutId.empty, chunks)
  | none => chunkLoop find sch sel n h look (max chunks.length 1) 0 chunks OutId.empty

/-- `VirtualDev::alloc_blks(nblks, hints, std::vector<BlkId>&)`, virtual_dev.cpp:282-315, together with
`alloc_n_contiguous_blks`, 217-237.  `out` is the vector as (chunk, piece).  `pop_back` on an empty
vector (line 296) is undefined behaviour. -/
def allocVec (find : Find) (sch : Nat → Sched) (sel : Nat → Nat → Option Nat) (h : Hints) (hint : Option Nat)
    (look : Bool) : Nat → Nat → List St → Nat → List (Nat × Entry) → Option (VStatus × List (Nat × Entry) × List St)
  | 0, _, _, _, _ => none
  | fuel + 1, i, chunks, remain, out =>
    match allocBlks find (sch i) (sel i) chunks remain { h with partialOk := true, contiguous := true } hint look with
    | none => none
    | some (st, o, chunks') =>
      if st = .alloc .success ∨ st = .alloc .partialAlloc then
        let out' := out ++ o.pieces.map fun e => (o.chunk, e)
        let remain' := if remain < total o.pieces then 0 else remain - total o.pieces
        if remain' = 0 then some (st, out', chunks')
        else allocVec find sch sel h hint look fuel (i + 1) chunks' remain' out'
      else if out = [] then none
      else some (st, out.dropLast, chunks')

end HS.VAlloc
