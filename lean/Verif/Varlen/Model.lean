import Verif.Varlen.Mem
/-!
# B-tree nodes with entries of variable size

Models `/repo/src/include/homestore/btree/detail/varlen_node.hpp`: `VariableNode` (49-673) with its three kinds of
records `VarKeySizeNode` (675-704), `VarValueSizeNode` (707-736) and `VarObjSizeNode` (739-774), over the bytes of the
node's data area.

Simplifications.

* The three header counters (33-43) and the number of entries (btree_node.hpp:53) are fields and not bytes; the
  theorems say that no operation writes into the first six bytes of the data area.  The counters are 16 bits wide and
  all arithmetic on them wraps as in the code.
* Generation numbers are left out.
* Keys and values are given as their serialized bytes.  The edge is the bytes of its value.
* The release build: checks by `assert` and `DEBUG_ASSERT` do nothing there.  What would access memory outside the
  node or records that are not there is the outcome `none`, and so is a failed `RELEASE_ASSERT`.
* `std::sort` is any function that sorts (`Sorts`).
-/
namespace HS.Varlen

/-- `uint16_t`. -/
def u16 (x : Int) : Nat := (x % 65536).toNat

/-- The kinds of records with the sizes that are not stored: of values in `VarKeySizeNode`, of keys in
`VarValueSizeNode`. -/
inductive Kind where
  | varKey (vs : Nat)
  | varValue (ks : Nat)
  | varObj
  deriving DecidableEq, Repr

/-- `get_record_size` (688, 720, 754). -/
def Kind.rs : Kind → Nat
  | .varKey _ => 4
  | .varValue _ => 4
  | .varObj => 6

structure Params where
  kind : Kind
  size : Nat                                      -- `node_data_size()`
  sort : List (Nat × Nat) → List (Nat × Nat)      -- `std::sort` by descending offset

structure VN where
  mem : Mem
  tail : Nat               -- `m_tail_arena_offset`
  avail : Nat              -- `m_available_space`
  init : Nat               -- `m_init_available_space`
  n : Nat                  -- `nentries`
  leaf : Bool
  edge : Option Bytes

/-- Reading a field of 14 bits (28-31, 699-702). -/
def fld (m : Mem) (a : Nat) : Nat := m a % 256 + 256 * (m (a + 1) % 64)

/-- Writing a field of 14 bits.  The two reserved bits stay. -/
def setFld (m : Mem) (a v : Nat) : Mem := write m a [v % 256, v / 256 % 64 + m (a + 1) / 64 % 4 * 64]

/-- `get_nth_record` (639-644); the header has 6 bytes. -/
def recAt (k : Kind) (i : Nat) : Nat := 6 + i * k.rs

/-- A record: `m_obj_offset` and the lengths of key and value. -/
structure Rec where
  off : Nat
  kl : Nat
  vl : Nat
  deriving DecidableEq, Repr

def Rec.len (r : Rec) : Nat := r.kl + r.vl

/-- The record at an address: `m_obj_offset`, `get_nth_key_size` (684, 716, 748), `get_nth_value_size` (687, 717, 751). -/
def recOf (k : Kind) (m : Mem) (a : Nat) : Rec :=
  match k with
  | .varKey vs => { off := fld m a, kl := fld m (a + 2), vl := vs }
  | .varValue ks => { off := fld m a, kl := ks, vl := fld m (a + 2) }
  | .varObj => { off := fld m a, kl := fld m (a + 2), vl := fld m (a + 4) }

/-- `set_nth_key_len` (690, 722, 756). -/
def setKl (k : Kind) (m : Mem) (a v : Nat) : Mem :=
  match k with
  | .varKey _ => setFld m (a + 2) v
  | .varValue _ => m
  | .varObj => setFld m (a + 2) v

/-- `set_nth_value_len` (693, 725, 759). -/
def setVl (k : Kind) (m : Mem) (a v : Nat) : Mem :=
  match k with
  | .varKey _ => m
  | .varValue _ => setFld m (a + 2) v
  | .varObj => setFld m (a + 4) v

/-- What the assertions in `set_nth_key_len` and `set_nth_value_len` ask for (694, 723). -/
def Kind.fits (k : Kind) (kb vb : Bytes) : Bool :=
  match k with
  | .varKey vs => vb.length == vs
  | .varValue ks => kb.length == ks
  | .varObj => true

def VN.nth (P : Params) (s : VN) (i : Nat) : Rec := recOf P.kind s.mem (recAt P.kind i)

/-- `get_nth_key_internal` (474-478), `get_nth_value` (480-489) for an entry. -/
def VN.key (P : Params) (s : VN) (i : Nat) : Bytes := read s.mem (s.nth P i).off (s.nth P i).kl
def VN.value (P : Params) (s : VN) (i : Nat) : Bytes := read s.mem ((s.nth P i).off + (s.nth P i).kl) (s.nth P i).vl

/-- A new node (60-70). -/
def VN.new (P : Params) (m : Mem) (leaf : Bool) : VN :=
  { mem := m, tail := u16 P.size, avail := u16 (u16 P.size - 6), init := u16 P.size, n := 0, leaf, edge := none }

/-- `get_arena_free_space` (669-672). -/
def VN.arenaFree (P : Params) (s : VN) : Nat := u16 ((s.tail : Int) - 6 - s.n * P.kind.rs)

/-- The loop of `compact` (605-631): `last` is `last_offset`.  The list is sorted, of offsets and record numbers. -/
def compactLoop (P : Params) : List (Nat × Nat) → Nat → VN → Nat × VN
  | [], last, s => (last, s)
  | (o, i) :: l, last, s =>
    let len := u16 (s.nth P i).len
    let sparse := u16 ((last : Int) - (o + len))
    if 0 < sparse then
      let old := (s.nth P i).off
      let m := write s.mem (old + sparse) (read s.mem old len)
      let m := setFld m (recAt P.kind i) ((recOf P.kind m (recAt P.kind i)).off + sparse)
      compactLoop P l (recOf P.kind m (recAt P.kind i)).off { s with mem := m }
    else compactLoop P l o s

/-- `compact` (573-637). -/
def VN.compact (P : Params) (s : VN) : VN :=
  if s.n = 0 then { s with tail := s.init }
  else
    let r := compactLoop P (P.sort ((List.range s.n).map (fun i => ((s.nth P i).off, i)))) s.init s
    { r.2 with tail := r.1 }

/-- The end of `insert` (537-556): the new record and its object. -/
def VN.place (P : Params) (s : VN) (ind obj : Nat) (kb vb : Bytes) : VN :=
  let a := recAt P.kind ind
  let m := write s.mem (a + P.kind.rs) (read s.mem a ((s.n - ind) * P.kind.rs))
  let tail := u16 (s.tail - obj)
  let avail := u16 (s.avail - (obj + P.kind.rs))
  let m := setKl P.kind m a kb.length
  let m := setVl P.kind m a vb.length
  let m := setFld m a tail
  let m := write m tail kb
  let m := write m (tail + kb.length) vb
  { s with mem := m, tail, avail, n := s.n + 1 }

/-- `insert` of serialized key and value (518-567).  With the size that it returns. -/
def VN.insert (P : Params) (s : VN) (ind : Nat) (kb vb : Bytes) : Option (Nat × VN) :=
  if s.n < ind || !P.kind.fits kb vb then none
  else
    let obj := u16 (kb.length + vb.length)
    let need := u16 (obj + P.kind.rs)
    if s.avail < need then none
    else
      let s := if s.arenaFree P < need then s.compact P else s
      some (need, s.place P ind obj kb vb)

/-- Giving back the space of the entries from `i` on (176-178, 182-184). -/
def VN.claim (P : Params) (s : VN) (i cnt : Nat) : Nat :=
  (List.range cnt).foldl (fun a j => u16 (a + (s.nth P (i + j)).len + P.kind.rs)) s.avail

/-- `remove` (163-191); the last entry is included.  For the edge the entry before the first takes its place. -/
def VN.remove (P : Params) (s : VN) (is ie : Nat) : Option VN :=
  if s.n < is || s.n < ie then none
  else if ie = s.n then
    if s.leaf || s.edge.isNone || is = 0 then none
    else some { s with edge := some (s.value P (is - 1)), avail := s.claim P (is - 1) (s.n - (is - 1)), n := s.n - (s.n - is + 1) }
  else if ie + 1 < is then none
  else
    let cnt := ie + 1 - is
    let a := recAt P.kind is
    some { s with avail := s.claim P is cnt,
                  mem := write s.mem a (read s.mem (a + P.kind.rs * cnt) ((s.n - ie - 1) * P.kind.rs)),
                  n := s.n - cnt }

/-- `remove_all` (193-203). -/
def VN.removeAll (P : Params) (s : VN) : VN :=
  { s with n := 0, edge := none, init := u16 P.size, tail := u16 P.size, avail := u16 (u16 P.size - 6) }

/-- `update` with a key (121-160). -/
def VN.update (P : Params) (s : VN) (ind : Nat) (kb vb : Bytes) : Option VN :=
  if ind = s.n then if s.leaf then none else some { s with edge := some vb }
  else if s.n < ind || !P.kind.fits kb vb then none
  else
    let new := u16 (kb.length + vb.length)
    let cur := u16 (s.nth P ind).len
    if new ≤ cur then
      let p := (s.nth P ind).off
      let m := write s.mem p kb
      let m := write m (p + kb.length) vb
      let a := recAt P.kind ind
      let m := setKl P.kind m a kb.length
      let m := setVl P.kind m a vb.length
      some { s with mem := m, avail := u16 (s.avail + ((cur : Int) - new)) }
    else match s.remove P ind ind with
      | none => none
      | some s => match s.insert P ind kb vb with
        | none => none
        | some r => some r.2

/-- `update` of the value (108-118). -/
def VN.updateVal (P : Params) (s : VN) (ind : Nat) (vb : Bytes) : Option VN :=
  if ind = s.n then if s.leaf then none else some { s with edge := some vb }
  else if s.n < ind then none
  else s.update P ind (s.key P ind) vb

/-- `available_size` (453), `occupied_size` (74-76). -/
def VN.occupied (s : VN) : Nat := s.init - 6 - s.avail

/-- `has_room_for_put` (462-468); `upd`: the put type is `UPDATE`. -/
def VN.hasRoom (P : Params) (s : VN) (upd : Bool) (ks vs : Nat) : Bool :=
  decide (ks + vs + (if upd then 0 else P.kind.rs) ≤ s.avail)

/-- Moving the entries below `i` one by one to the front of another node, `cnt` of them (227-241). -/
def moveLoop (P : Params) (s : VN) : Nat → Nat → VN → Option VN
  | 0, _, o => some o
  | cnt + 1, i, o =>
    match o.insert P 0 (s.key P (i - 1)) (s.value P (i - 1)) with
    | none => none
    | some r => moveLoop P s cnt (i - 1) r.2

/-- Handing over the edge (243-247, 283-287). -/
def moveEdge (s o : VN) : VN × VN :=
  if !s.leaf && o.n != 0 then ({ s with edge := none }, { o with edge := s.edge }) else (s, o)

/-- `move_out_to_right_by_entries` (216-257), with its result. -/
def VN.moveEntries (P : Params) (s o : VN) (cnt : Nat) : Option (Nat × VN × VN) :=
  let cnt := min cnt s.n
  if cnt = 0 then some (0, s, o)
  else
    match moveLoop P s cnt s.n o with
    | none => none
    | some o =>
      let p := moveEdge s o
      match p.1.remove P (s.n - cnt) (s.n - 1) with
      | none => none
      | some s' => some (if cnt = s.n then s.n - 1 else cnt, s', p.2)

/-- The loop of `move_out_to_right_by_size` (265-280): `ind` is the entry that is next; the first stays. -/
def moveSizeLoop (P : Params) (s : VN) : Nat → Nat → Nat → VN → Option (Nat × Nat × VN)
  | 0, _, moved, o => some (0, moved, o)
  | ind + 1, left, moved, o =>
    if left < (s.key P (ind + 1)).length + (s.value P (ind + 1)).length + P.kind.rs then some (ind + 1, moved, o)
    else match o.insert P 0 (s.key P (ind + 1)) (s.value P (ind + 1)) with
      | none => none
      | some r => moveSizeLoop P s ind (left - r.1) (moved + 1) r.2

/-- `move_out_to_right_by_size` (259-296), with its result. -/
def VN.moveSize (P : Params) (s o : VN) (size : Nat) : Option (Nat × VN × VN) :=
  if s.n = 0 then none
  else match moveSizeLoop P s (s.n - 1) size 0 o with
    | none => none
    | some (ind, moved, o) =>
      match s.remove P (ind + 1) (s.n - 1) with
      | none => none
      | some s =>
        let p := moveEdge s o
        some (moved, p.1, p.2)

/-- The loop of `num_entries_by_size` (298-310). -/
def numLoop (P : Params) (s : VN) (size : Nat) : Nat → Nat → Nat → Nat
  | 0, _, _ => 0
  | f + 1, i, cum =>
    if size < cum + (P.kind.rs + (s.nth P i).len) then 0 else numLoop P s size f (i + 1) (cum + (P.kind.rs + (s.nth P i).len)) + 1

def VN.numBySize (P : Params) (s : VN) (start size : Nat) : Nat := numLoop P s size (s.n - start) start 0

/-- The loop of `copy_by_size` (318-330). -/
def copySizeLoop (P : Params) (src : VN) : Nat → Nat → Nat → Nat → VN → Option (Nat × VN)
  | 0, _, _, cnt, s => some (cnt, s)
  | f + 1, i, left, cnt, s =>
    if left < (src.key P i).length + (src.value P i).length + P.kind.rs then some (cnt, s)
    else match s.insert P s.n (src.key P i) (src.value P i) with
      | none => none
      | some r => copySizeLoop P src f (i + 1) (left - r.1) (cnt + 1) r.2

/-- Taking over the edge (334-336, 360-362). -/
def copyEdge (src s : VN) (start cnt : Nat) : VN :=
  if !src.leaf && src.edge.isSome && start + cnt = src.n then { s with edge := src.edge } else s

/-- `copy_by_size` (312-338). -/
def VN.copySize (P : Params) (s src : VN) (start size : Nat) : Option (Nat × VN) :=
  match copySizeLoop P src (src.n - start) start size 0 s with
  | none => none
  | some (cnt, s) => some (cnt, copyEdge src s start cnt)

/-- The loop of `copy_by_entries` (348-356). -/
def copyLoop (P : Params) (src : VN) : Nat → Nat → VN → Option VN
  | 0, _, s => some s
  | cnt + 1, i, s =>
    match s.insert P s.n (src.key P i) (src.value P i) with
    | none => none
    | some r => copyLoop P src cnt (i + 1) r.2

/-- `copy_by_entries` (340-364).  `start` is not after the last entry. -/
def VN.copyEntries (P : Params) (s src : VN) (start cnt : Nat) : Option (Nat × VN) :=
  if src.n < start then none
  else
    let cnt := min cnt (src.n - start)
    match copyLoop P src cnt start s with
    | none => none
    | some s => some (cnt, copyEdge src s start cnt)

end HS.Varlen
