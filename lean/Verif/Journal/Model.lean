import Verif.Common

/-!
# Journal virtual device

Models `JournalVirtualDev` and its `Descriptor` (`src/lib/device/journal_vdev.cpp`) together with
the chunk pool it draws from (`ChunkPool`, `src/lib/device/device_manager.cpp` lines 850-937).

* A stream ("log device") is a number; `desc s` is its descriptor.
* `priv c` is the `JournalChunkPrivate` of chunk `c`.  The code changes it in memory and writes it
  to the device in the same call (`update_chunk_private`), so one field stands for both; the *order*
  of the writes inside an operation is kept in the list of `W` each operation returns, and a crash
  is "only a prefix of that list happened".
* `data c o` is the byte at offset `o` of chunk `c`.
* Offsets are `Nat` (`off_t` in the code); the counter `m_write_sz_in_total` is an `Int`: it is a
  `uint64_t` that is only ever added to a 64-bit offset, so wrap-around and negative agree.
* `blocked` = the call waits for the pool forever; `abort` = a release assertion fails or a null
  chunk pointer is dereferenced.
* Simplified: the pool is not refilled in the middle of an operation (refilling is the separate
  operation `produce`); all calls on the device are serialised.
-/
namespace HS.Journal

/-- `JournalChunkPrivate` (`journal_vdev.hpp` 37-43). -/
structure Priv where
  logdev : Nat := 0
  isHead : Bool := false
  created : Nat := 0
  eoc : Nat := 0
  next : Nat := 0
deriving DecidableEq, Repr

/-- `JournalVirtualDev::Descriptor` (`journal_vdev.hpp` 58-74), without the seek cursor. -/
structure Desc where
  ds : Nat := 0             -- m_data_start_offset
  wsz : Int := 0            -- m_write_sz_in_total
  rsv : Nat := 0            -- m_reserved_sz
  chunks : List Nat := []   -- m_journal_chunks
  total : Nat := 0          -- m_total_size
  endOff : Nat := 0         -- m_end_offset
deriving Repr

/-- The whole device. `pool` has the back of `m_pool` first; `all` is `m_all_chunks`. -/
structure Dev where
  cs : Nat                  -- chunk_size
  cap : Nat                 -- journal_chunk_pool_capacity
  all : List Nat
  pool : List Nat
  priv : Nat → Priv
  desc : Nat → Desc
  data : Nat → Nat → Nat

inductive Fail | blocked | abort
deriving DecidableEq, Repr

abbrev Res (α : Type) := Except Fail α

/-- One persistent update of chunk metadata: a private area write, or the removal of a chunk. -/
inductive W
  | set (c : Nat) (p : Priv)
  | remove (c : Nat)

/-- The persistent metadata. -/
structure Pst where
  all : List Nat
  priv : Nat → Priv

def upd {α : Type} (f : Nat → α) (k : Nat) (x : α) : Nat → α := fun i => if i = k then x else f i

/-- Effect of one persistent update. -/
def W.apply (p : Pst) : W → Pst
  | .set c x => { p with priv := upd p.priv c x }
  | .remove c => { p with all := p.all.filter (· ≠ c) }

def Dev.pst (v : Dev) : Pst := ⟨v.all, v.priv⟩
def Dev.setPriv (v : Dev) (c : Nat) (p : Priv) : Dev := { v with priv := upd v.priv c p }
def Dev.setDesc (v : Dev) (s : Nat) (d : Desc) : Dev := { v with desc := upd v.desc s d }

/-- `sisl::round_down`, `sisl::round_up`. -/
def rdown (x m : Nat) : Nat := x / m * m
def rup (x m : Nat) : Nat := (x + m - 1) / m * m

/-- Private data given to a chunk entering the pool (`journal_vdev.cpp` 48-54). -/
def initPriv (cs now : Nat) : Priv := { created := now, eoc := cs }

/-- `ChunkPool::producer` (`device_manager.cpp` 873-897): a newly created chunk `c` is put at the
back of the pool. The id comes from `DeviceManager::create_chunk`; ids in use are refused. -/
def produce (v : Dev) (c now : Nat) : Option Dev :=
  if c ∈ v.all ∨ c = 0 ∨ now = 0 then none
  else some { v.setPriv c (initPriv v.cs now) with all := c :: v.all, pool := c :: v.pool }

/-- `tail_offset()` (`journal_vdev.cpp` 547-553), the value. -/
def Desc.tail (d : Desc) : Int := d.ds + d.wsz + d.rsv

/-- `tail_offset()` with its assertion; a negative tail (only after a corruption) is an abort here. -/
def Desc.tailChk (d : Desc) : Res Nat :=
  if d.tail ≤ d.endOff ∧ 0 ≤ d.tail then .ok d.tail.toNat else .error .abort

/-- Loop of `offset_to_chunk` (`journal_vdev.cpp` 730-737): chunk, index, offset in chunk. -/
def locate (cs : Nat) : Nat → Nat → List Nat → Option (Nat × Nat × Nat)
  | _, _, [] => none
  | i, o, c :: r => if cs ≤ o then locate cs (i + 1) (o - cs) r else some (c, i, o)

/-- `offset_to_chunk` (`journal_vdev.cpp` 725-741). An offset below the first chunk wraps around in
`uint64_t` and is found in no chunk. -/
def offsetToChunk (cs : Nat) (d : Desc) (off : Nat) : Option (Nat × Nat × Nat) :=
  if off < rdown d.ds cs then none else locate cs 0 (off - rdown d.ds cs) d.chunks

/-- `append_chunk` (`journal_vdev.cpp` 208-254). -/
def appendChunk (v : Dev) (s : Nat) : Res (Dev × List W) :=
  match v.pool with
  | [] => .error .blocked                                              -- dequeue waits
  | c :: pool' =>
    let d := v.desc s
    let d1 := { d with total := d.total + v.cs, endOff := d.endOff + v.cs,   -- 217-218
                       chunks := d.chunks ++ [c] }
    match d.chunks.getLast? with
    | some last =>                                                     -- 220-242
      match d1.tailChk with
      | .error e => .error e
      | .ok t =>
        let o := t % v.cs
        let p0 := { v.priv last with next := c }
        let p := if o ≠ 0 then { p0 with eoc := o } else p0
        let d2 := if o ≠ 0 then { d1 with wsz := d1.wsz + (v.cs - o : Int) } else d1
        .ok ({ (v.setPriv last p).setDesc s d2 with pool := pool' }, [.set last p])
    | none =>                                                          -- 243-253
      let p := { v.priv c with isHead := true, logdev := s, eoc := v.cs }
      .ok ({ (v.setPriv c p).setDesc s d1 with pool := pool' }, [.set c p])

/-- `alloc_next_append_blk` (`journal_vdev.cpp` 256-295): new state, offset, metadata writes. -/
def alloc (v : Dev) (s sz : Nat) : Res (Dev × Nat × List W) :=
  if v.cs ≤ sz then .error .abort else                                 -- 259
  match (v.desc s).tailChk with
  | .error e => .error e
  | .ok t =>
    if t + sz ≥ (v.desc s).endOff then                                 -- 261
      match appendChunk v s with
      | .error e => .error e
      | .ok (v1, ws) =>
        match (v1.desc s).tailChk with
        | .error e => .error e
        | .ok t1 =>
          if t1 + sz < (v1.desc s).endOff ∧ (v1.desc s).ds ≤ t1 then   -- 277, 283
            .ok (v1.setDesc s { v1.desc s with rsv := (v1.desc s).rsv + sz }, t1, ws)
          else .error .abort
    else if (v.desc s).ds ≤ t then
      .ok (v.setDesc s { v.desc s with rsv := (v.desc s).rsv + sz }, t, [])
    else .error .abort

/-- Bytes `bs` written at offset `o`. -/
def putBytes (f : Nat → Nat) (o : Nat) (bs : List Nat) : Nat → Nat :=
  fun i => if o ≤ i ∧ i < o + bs.length then bs.getD (i - o) 0 else f i

/-- `async_pwrite`, `sync_pwrite`, … (`journal_vdev.cpp` 351-392) with `process_pwrite_offset`
(311-325). -/
def pwrite (v : Dev) (s off : Nat) (bs : List Nat) : Res Dev :=
  let d := v.desc s
  if d.rsv < bs.length then .error .abort else
  match offsetToChunk v.cs d off with
  | none => .error .abort
  | some (c, _, o) =>
    if v.cs - o < bs.length then .error .abort else
    .ok { v.setDesc s { d with rsv := d.rsv - bs.length, wsz := d.wsz + bs.length } with
          data := upd v.data c (putBytes (v.data c) o bs) }

/-- `sync_pread` (`journal_vdev.cpp` 444-456): the read is cut at the end of the chunk. -/
def pread (v : Dev) (s off n : Nat) : Res (List Nat) :=
  match offsetToChunk v.cs (v.desc s) off with
  | none => .error .abort
  | some (c, _, o) => .ok ((List.range (min n (v.cs - o))).map (fun i => v.data c (o + i)))

/-- `update_data_start_offset` (`journal_vdev.cpp` 530-545). -/
def updateStart (cs : Nat) (d : Desc) (off : Nat) : Res Desc :=
  if d.chunks ≠ [] then
    let e := rdown off cs + d.chunks.length * cs
    if e - rdown off cs = d.total then .ok { d with ds := off, endOff := e } else .error .abort
  else .ok { d with ds := rup off cs, endOff := rup off cs }

/-- `update_tail_offset` (`journal_vdev.cpp` 555-567). -/
def updateTail (d : Desc) (tail : Nat) : Res Desc :=
  if d.ds ≤ tail then .ok { d with wsz := (tail : Int) - d.ds }
  else if tail ≠ 0 then .error .abort
  else .ok d

/-- Condition under which the loop of `truncate` releases the chunk `c` at position `i` of `n`,
`cov` being the logical offset of its first byte (`journal_vdev.cpp` 630-650). -/
def relCond (cs t tail n : Nat) (priv : Nat → Priv) (i cov c : Nat) : Bool :=
  let last := i + 1 = n
  let cov' : Nat := if last then cov + tail % cs else cov + cs
  let hole : Int := if last then 0 else (cs : Int) - (priv c).eoc
  decide (cov' ≤ t ∨ (cov' : Int) - hole ≤ t)

/-- The loop of `truncate` (`journal_vdev.cpp` 624-665): chunks kept, chunks released. -/
def relLoop (cs t tail n : Nat) (priv : Nat → Priv) : Nat → Nat → List Nat → List Nat × List Nat
  | _, _, [] => ([], [])
  | i, cov, c :: r =>
    let q := relLoop cs t tail n priv (i + 1) (cov + cs) r
    if relCond cs t tail n priv i cov c then (q.1, c :: q.2) else (c :: q.1, q.2)

/-- `release_chunk_to_pool` (`journal_vdev.cpp` 156-167) with `ChunkPool::enqueue`
(`device_manager.cpp` 914-937). -/
def release1 (now : Nat → Nat) (v : Dev) (c : Nat) : Dev × List W :=
  let v1 := v.setPriv c {}
  if v.pool.length < v.cap then
    ({ v1.setPriv c (initPriv v.cs (now c)) with pool := c :: v.pool },
     [.set c {}, .set c (initPriv v.cs (now c))])
  else ({ v1 with all := v.all.filter (· ≠ c) }, [.set c {}, .remove c])

/-- All releases of one truncation, first chunk first. -/
def releaseAll (now : Nat → Nat) : Dev → List Nat → Dev × List W
  | v, [] => (v, [])
  | v, c :: r =>
    let q := release1 now v c
    let q2 := releaseAll now q.1 r
    (q2.1, q.2 ++ q2.2)

/-- `truncate` (`journal_vdev.cpp` 569-687). `now c` is the clock when chunk `c` is put back into
the pool. Result: new state, returned offset, metadata writes. -/
def truncate (v : Dev) (s t : Nat) (now : Nat → Nat) : Res (Dev × Nat × List W) :=
  let d := v.desc s
  if t < d.ds then .error .abort else                                  -- 580
  match offsetToChunk v.cs d t with
  | none => .error .abort                                              -- get_end_of_chunk(nullptr)
  | some (c0, i0, o0) =>
    let e0 := (v.priv c0).eoc
    let skip : Bool := decide (o0 ≥ e0 ∧ i0 + 1 ≤ d.chunks.length - 1) -- 594-605
    let nh := if skip then d.chunks.getD (i0 + 1) 0 else c0
    let size : Int := (t - d.ds : Int) + (if skip then (v.cs : Int) - e0 else 0)
    let p := { v.priv nh with isHead := true, logdev := s }            -- 607-610
    let v1 := v.setPriv nh p
    let tail := d.tail.toNat                                           -- 617
    let q := relLoop v.cs t tail d.chunks.length v1.priv 0 (rdown d.ds v.cs) d.chunks
    let r := releaseAll now v1 q.2
    let d1 := { d with chunks := q.1, total := d.total - q.2.length * v.cs }
    let t' := if skip then rup t v.cs else t                           -- 667-670
    if d.endOff < t' then .error .abort else
    match updateStart v.cs d1 t' with
    | .error e => .error e
    | .ok d2 =>
      .ok (r.1.setDesc s { d2 with wsz := d2.wsz - size }, d2.ds, .set nh p :: r.2)

/-- `remove_journal_chunks` (`journal_vdev.cpp` 140-154), over the chunk list of a stream. -/
def removeAll : Dev → List Nat → Dev × List W
  | v, [] => (v, [])
  | v, c :: r =>
    let v1 := { v.setPriv c {} with all := v.all.filter (· ≠ c) }
    let q := removeAll v1 r
    (q.1, .set c {} :: .remove c :: q.2)

/-- `destroy` (`journal_vdev.cpp` 193-206). -/
def destroy (v : Dev) (s : Nat) : Dev × List W :=
  let q := removeAll v (v.desc s).chunks
  (q.1.setDesc s {}, q.2)

/-! ## Recovery -/

/-- Choice of the head chunk of stream `s` (`journal_vdev.cpp` 84-98); `(0, 0)` if there is none. -/
def headOf (p : Pst) (s : Nat) : Nat × Nat :=
  p.all.foldl (fun b c =>
    if (p.priv c).isHead ∧ (p.priv c).logdev = s ∧ b.2 < (p.priv c).created
    then (c, (p.priv c).created) else b) (0, 0)

/-- Following `next_chunk` (`journal_vdev.cpp` 108-121). `none`: a missing chunk (assertion), or out
of fuel (endless loop). -/
def chain (p : Pst) : Nat → Nat → Option (List Nat)
  | 0, _ => none
  | f + 1, c =>
    if c = 0 then some []
    else if c ∈ p.all then (chain p f (p.priv c).next).map (c :: ·) else none

/-- Chunk list of stream `s` after `init`. -/
def recoverChunks (f : Nat) (p : Pst) (s : Nat) : Option (List Nat) := chain p f (headOf p s).1

/-- Streams that get a descriptor in `init`. -/
def streams (p : Pst) : List Nat := (p.all.filter (fun c => (p.priv c).isHead)).map (fun c => (p.priv c).logdev)

/-- Descriptor after `init` (`journal_vdev.cpp` 100-122) and `LogDev::start`
(`log_dev.cpp` 87-89, 264), given the chunk list, the start offset the log device had persisted
and the tail found by its scan. -/
def restartDesc (cs : Nat) (chunks : List Nat) (start tail : Nat) : Res Desc :=
  match updateStart cs { chunks := chunks, total := chunks.length * cs } start with
  | .error e => .error e
  | .ok d => updateTail d tail

/-- Device after a restart (`init`, `journal_vdev.cpp` 72-138): every stream is opened again with
its chunk list; chunks in no list are removed; the pool starts empty. Meaningful when `RestartOk`. -/
def restartDev (p : Pst) (cs cap : Nat) (data : Nat → Nat → Nat) (f : Nat)
    (start tail : Nat → Nat) : Dev :=
  { cs := cs, cap := cap, pool := [], data := data, priv := p.priv
    all := p.all.filter (fun c => (streams p).any (fun s => ((recoverChunks f p s).getD []).contains c))
    desc := fun s => match restartDesc cs ((recoverChunks f p s).getD []) (start s) (tail s) with
      | .ok d => d
      | .error _ => {} }

/-- The restart finishes without an assertion failure or an endless loop. -/
def RestartOk (p : Pst) (cs f : Nat) (start tail : Nat → Nat) : Prop :=
  ∀ s, ∃ l d, recoverChunks f p s = some l ∧ restartDesc cs l (start s) (tail s) = .ok d

/-! ## Sequential read -/

/-- `sync_next_read` with a buffer (`journal_vdev.cpp` 395-442): the bytes read and the new
cursor; `none` for the return value -1. -/
def nextRead (v : Dev) (s cur n : Nat) : Res (Option (List Nat × Nat)) :=
  let d := v.desc s
  if d.chunks = [] then .ok none
  else if d.endOff < cur then .error .abort
  else if d.endOff ≤ cur then .ok none
  else
    match offsetToChunk v.cs d cur with
    | none => .error .abort
    | some (c, _, o) =>
      let e := (v.priv c).eoc
      if v.cs < e then .error .abort
      else if v.cs < o then .error .abort
      else
        -- `end_of_chunk - offset_in_chunk` is unsigned: huge when the cursor is inside the hole
        let left := if o ≤ e then e - o else 2 ^ 64 - (o - e)
        let across : Bool := decide (n ≥ left)
        let n1 := if across then left else n
        let cur1 := if across ∧ n1 = 0 then cur + (v.cs - e) else cur
        match pread v s cur1 n1 with
        | .error x => .error x
        | .ok bs => .ok (some (bs, if across then cur1 + n1 + (v.cs - e) else cur1 + n1))

/-- `dev_offset` loop (`journal_vdev.cpp` 507-526). -/
def devOffLoop (cs : Nat) (priv : Nat → Priv) : Nat → Nat → Nat → List Nat → Nat
  | off, _, _, [] => off
  | off, rem, st, c :: r =>
    let n := min (priv c).eoc cs - st
    if rem < n then off + rem else devOffLoop cs priv (off + (cs - st)) (rem - n) 0 r

/-- `dev_offset` (`journal_vdev.cpp` 500-528): the logical offset after `n` bytes of data. -/
def devOffset (v : Dev) (s n : Nat) : Nat :=
  let d := v.desc s
  if n = 0 ∨ d.chunks = [] then d.ds
  else devOffLoop v.cs v.priv d.ds n (d.ds % v.cs) d.chunks

end HS.Journal
