/-!
# Leaf nodes that store common prefixes once (`FixedPrefixNode`)

Model of `src/include/homestore/btree/detail/prefix_node.hpp` for leaf nodes of interval keys and
interval values.  A node keeps, in front, one *suffix entry* per key (the number of a prefix slot, the
suffix of the key, the suffix of the value) and, growing from the end of the node towards them,
*prefix entries* (a reference count, the prefix of the key, the prefix of the value).  A bitset says
which prefix slots are in use.

Simplifications, for the whole file:
* keys and values are natural numbers; splitting them into a prefix and a suffix is a pair of
  functions per type, parameters of the model; `shift(1)` on a key is `+ 1` and `distance` is the
  difference, as for the extent keys these nodes are made for;
* 16-bit counters (`ref_count`, `used_slots`, `tail_slot`, indexes) are unbounded numbers;
* a prefix slot that cannot be had (`alloc_prefix` returning 65535), a write that lets the two areas
  overlap, a dereference of a slot whose count is 0, an index behind the last entry and a failed
  `LOGMSG_ASSERT` are the outcome `none`: what is in the node afterwards is not specified;
* generation counters, edges (leaf nodes have none), `_PRERELEASE` limits, `validate_sanity` and
  logging are left out.
-/

namespace HS.Prefix

/-- What does not change: `node_data_size()`, `prefix_entry::size()` (prefix_node.hpp 61),
`suffix_entry::size()` (120), the bits of `prefix_bitset_` (166, 171), `serialize_prefix` /
`serialize_suffix` / `deserialize` of keys and values (79-92, 138-156, 346, 359) and `shift` of a
value (258). -/
structure Params where
  data : Nat
  ps : Nat
  ss : Nat
  bits : Nat
  kp : Nat → Nat
  ks : Nat → Nat
  kmk : Nat → Nat → Nat
  vp : Nat → Nat
  vs : Nat → Nat
  vmk : Nat → Nat → Nat
  vsh : Nat → Nat → Nat

/-- `prefix_entry` (56-113): the reference count, the prefix of the key and that of the value. -/
structure PE where
  ref : Nat
  kp : Nat
  vp : Nat
  deriving DecidableEq, Repr

/-- `suffix_entry` (115-163): the prefix slot, the suffix of the key and that of the value. -/
structure SE where
  slot : Nat
  ks : Nat
  vs : Nat
  deriving DecidableEq, Repr

/-- A node: the prefix slots, the bitset over them, `used_slots` and `tail_slot` of
`prefix_node_header` (46-54), and the suffix entries in order (their number is `total_entries()`). -/
structure PN where
  pre : Nat → PE
  bit : Nat → Bool
  used : Nat
  tail : Nat
  suf : List SE

/-- A node made with `init` (169-178); what is in the prefix area is arbitrary. -/
def PN.fresh (pre : Nat → PE) : PN := ⟨pre, fun _ => false, 0, 0, []⟩

/-- Offset of the suffix area: header and bitset (865-869). -/
def Params.base (P : Params) : Nat := 4 + P.bits / 8

/-- `reqd_bitset_size` (854-858), in bits: as many bytes as whole bytes of prefix slots fit, rounded
up to multiples of the 8 bytes of a word of `CompactBitSet` (a class of the sisl library; its
`size_multiples()` is taken to be 8). -/
def reqdBits (data ps ss : Nat) : Nat := (((data - 4 - ss) / ps / 8 + 7) / 8 * 8) * 8

/-- `get_nth_key_internal` for one suffix entry (340-347). -/
def PN.key (P : Params) (s : PN) (e : SE) : Nat := P.kmk (s.pre e.slot).kp e.ks

/-- `get_nth_value` for one suffix entry (349-361). -/
def PN.val (P : Params) (s : PN) (e : SE) : Nat := P.vmk (s.pre e.slot).vp e.vs

/-- What a reader of the node sees: `get_nth_key` and `get_nth_value` for every index. -/
def PN.ents (P : Params) (s : PN) : List (Nat × Nat) := s.suf.map (fun e => (s.key P e, s.val P e))

/-- `available_size_without_compaction` (761-772); the case where the areas overlap gives 0 there as
the truncated subtraction does here. -/
def PN.avail (P : Params) (s : PN) : Nat := P.data - (s.tail * P.ps + (P.base + s.suf.length * P.ss))

/-- `num_prefix_holes` (784-789). -/
def PN.holes (s : PN) : Nat := s.tail - s.used

/-- `available_size_with_compaction` (774) with `compact_saving` (369). -/
def PN.availC (P : Params) (s : PN) : Nat := s.avail P + s.holes * P.ps

/-- `available_size` (371-378), `min_holes_to_compact` = 10 (52). -/
def PN.availSize (P : Params) (s : PN) : Nat := if 10 < s.holes then s.availC P else s.avail P

/-- `occupied_size` (380-383). -/
def PN.occupied (P : Params) (s : PN) : Nat := P.data - 4 - P.bits / 8 - s.availSize P

/-- `has_room` (776-778), also `has_room_for_put` with 1 (385-391). -/
def PN.hasRoom (P : Params) (s : PN) (n : Nat) : Bool := decide (P.ps + n * P.ss ≤ s.avail P)

/-- `has_room_after_compaction` (780-782). -/
def PN.hasRoomC (P : Params) (s : PN) (n : Nat) : Bool := decide (P.ps + n * P.ss ≤ s.availC P)

/-- `get_next_reset_bit(0)` of the bitset. -/
def firstReset (bits : Nat) (b : Nat → Bool) : Option Nat := (List.range bits).find? (fun i => !b i)

/-- `get_next_set_bit(from)` of the bitset. -/
def nextSet (bits : Nat) (b : Nat → Bool) (from' : Nat) : Option Nat :=
  (List.range bits).find? (fun i => decide (from' ≤ i) && b i)

/-- `get_prev_set_bit(slot)` of the bitset, plus one; 0 when there is none (65535 + 1 in 16 bits,
749). -/
def prevSetEnd (b : Nat → Bool) : Nat → Nat
  | 0 => 0
  | n + 1 => if b n then n + 1 else prevSetEnd b n

/-- One bit changed. -/
def setBit (b : Nat → Bool) (i : Nat) (v : Bool) : Nat → Bool := fun j => if j = i then v else b j

/-- One prefix slot written. -/
def setPre (p : Nat → PE) (i : Nat) (e : PE) : Nat → PE := fun j => if j = i then e else p j

/-- `alloc_prefix` (720-734). -/
def PN.alloc (P : Params) (s : PN) : Option (Nat × PN) :=
  match firstReset P.bits s.bit with
  | none => none
  | some i => some (i, { s with bit := setBit s.bit i true, used := s.used + 1, tail := max s.tail (i + 1) })

/-- The prefix area with `tail` slots and the suffix area with `n` entries do not overlap; a write
that breaks this destroys entries. -/
def Params.fits (P : Params) (tail n : Nat) : Bool := decide (tail * P.ps + (P.base + n * P.ss) ≤ P.data)

/-- `add_prefix` (709-718), with `n` suffix entries in the node at that time. -/
def PN.addPrefix (P : Params) (s : PN) (n : Nat) (k v : Nat) : Option (Nat × PN) :=
  match s.alloc P with
  | none => none
  | some (i, t) =>
    if P.fits t.tail n then some (i, { t with pre := setPre t.pre i ⟨0, P.kp k, P.vp v⟩ }) else none

/-- `ref_prefix` (736). -/
def PN.ref (s : PN) (i : Nat) : PN := { s with pre := setPre s.pre i { s.pre i with ref := (s.pre i).ref + 1 } }

/-- `deref_remove_prefix` (738-752). -/
def PN.deref (s : PN) (i : Nat) : Option PN :=
  if (s.pre i).ref = 0 then none
  else
    let p := setPre s.pre i { s.pre i with ref := (s.pre i).ref - 1 }
    if (s.pre i).ref = 1 then
      let b := setBit s.bit i false
      some { s with pre := p, bit := b, used := s.used - 1, tail := if i + 1 = s.tail then prevSetEnd b i else s.tail }
    else some { s with pre := p }

/-- One round of the loop of `compact` (805-826): the prefix in `from'` goes to `to`, and the
suffixes naming it with it.  The code finds them through a map made beforehand (795-799); slots are
moved below `used_slots` only and taken from there upwards only, so the map is not out of date. -/
def PN.moveSlot (s : PN) (from' to : Nat) : PN :=
  { s with
    pre := setPre s.pre to (s.pre from'),
    bit := setBit (setBit s.bit from' false) to true,
    suf := s.suf.map (fun e => if e.slot = from' then { e with slot := to } else e) }

/-- The loop of `compact` (805-826), with a bound on the number of rounds. -/
def PN.compactLoop (P : Params) : Nat → Nat → PN → Option PN
  | 0, _, _ => none
  | fuel + 1, from', s =>
    match nextSet P.bits s.bit from' with
    | none => some s
    | some f =>
      match firstReset P.bits s.bit with
      | none => none
      | some t => PN.compactLoop P fuel f (s.moveSlot f t)

/-- `compact` (793-834). -/
def PN.compact (P : Params) (s : PN) : Option PN :=
  match PN.compactLoop P (P.bits + 1) s.used s with
  | none => none
  | some t => some { t with tail := t.used }

/-- `write_suffix` (754-759) of a new entry at `idx`, after the entries from there on were moved up by
one (490-491, 247-249). -/
def PN.writeNew (P : Params) (s : PN) (idx slot k v : Nat) : PN :=
  ({ s with suf := s.suf.insertIdx idx ⟨slot, P.ks k, P.vs v⟩ }).ref slot

/-- `write_suffix` (754-759) over the entry at `idx`. -/
def PN.writeOver (P : Params) (s : PN) (idx slot k v : Nat) : PN :=
  ({ s with suf := s.suf.set idx ⟨slot, P.ks k, P.vs v⟩ }).ref slot

/-- `insert` (487-501): `false` is `space_not_avail`. -/
def PN.insert (P : Params) (s : PN) (idx k v : Nat) : Option (Bool × PN) :=
  if s.hasRoom P 1 then
    if s.suf.length < idx then none
    else match s.addPrefix P (s.suf.length + 1) k v with
      | none => none
      | some (i, t) => some (true, t.writeNew P idx i k v)
  else some (false, s)

/-- `update(idx, key, val)` (507-530). -/
def PN.update (P : Params) (s : PN) (idx k v : Nat) : Option PN :=
  if s.suf.length ≤ idx then none
  else
    match (if s.hasRoom P 1 then some s else if s.hasRoomC P 1 then s.compact P else none) with
    | none => none
    | some s =>
      match s.addPrefix P s.suf.length k v with
      | none => none
      | some (i, t) => some (t.writeOver P idx i k v)

/-- `update(idx, val)` (503-505). -/
def PN.updateVal (P : Params) (s : PN) (idx v : Nat) : Option PN :=
  match s.suf[idx]? with
  | none => none
  | some e => s.update P idx (s.key P e) v

/-- `remove(idx)` (532-552). -/
def PN.remove (s : PN) (idx : Nat) : Option PN :=
  match s.suf[idx]? with
  | none => none
  | some e =>
    match s.deref e.slot with
    | none => none
    | some t => some { t with suf := t.suf.eraseIdx idx }

/-- `remove(idx_s, idx_e)` (554-558). -/
def PN.removeRange (s : PN) (is ie : Nat) : Option PN :=
  (List.range (ie - is)).foldl (fun o i => o.bind (fun t => t.remove (is + i))) (some s)

/-- `remove_all` (560-571). -/
def PN.removeAll (s : PN) : PN := { s with suf := [], bit := fun _ => false, used := 0, tail := 0 }

/-- What `filter_cb` says about an entry that is there (`put_filter_decision`). -/
inductive Dec where | keep | replace | remove
  deriving DecidableEq, Repr

/-- `btree_put_type`. -/
inductive PutType where | insert | update | upsert
  deriving DecidableEq, Repr

/-- Outcome of a put of one key (`btree_status_t`). -/
inductive OneRes where | ok | exists_ | notFound | filtered | noSpace
  deriving DecidableEq, Repr

/-- `find` (218, 312; `BtreeNode::find` / `bsearch_node`, btree_node.hpp 169-185, 448-470, on sorted entries): the
number of entries with smaller keys. -/
def PN.find (P : Params) (s : PN) (k : Nat) : Nat := ((s.ents P).takeWhile (fun e => decide (e.1 < k))).length

/-- `idx < total_entries() && get_nth_key(idx) == cur_key` (271-272, and the first half of the result
of `find`). -/
def PN.foundAt (P : Params) (s : PN) (idx k : Nat) : Bool :=
  match s.suf[idx]? with
  | none => false
  | some e => decide (s.key P e = k)

/-- The filter, if there is one, says `replace` (variant_node.hpp 211-217). -/
def passes (filter : Option (Nat → Nat → Nat → Dec)) (k old v : Nat) : Bool :=
  match filter with
  | none => true
  | some f => decide (f k old v = .replace)

/-- `VariantNode::put` (variant_node.hpp 198-235): one key.  With UPSERT the status of `insert` is
dropped (230). -/
def PN.put (P : Params) (s : PN) (k v : Nat) (type : PutType) (filter : Option (Nat → Nat → Nat → Dec)) :
    Option (OneRes × PN) :=
  let idx := s.find P k
  if s.foundAt P idx k then
    match s.suf[idx]? with
    | none => none
    | some e =>
      if passes filter (s.key P e) (s.val P e) v then
        if type = .insert then some (.exists_, s) else (s.update P idx k v).map (fun t => (.ok, t))
      else some (.filtered, s)
  else if type = .update then some (.notFound, s)
  else
    match s.insert P idx k v with
    | none => none
    | some (true, t) => some (.ok, t)
    | some (false, t) => some (if type = .insert then .noSpace else .ok, t)

/-- A remove of one key (`remove_one`, btree_node.hpp 235-243): the entry if there is one. -/
def PN.del (P : Params) (s : PN) (k : Nat) : Option (Bool × PN) :=
  let idx := s.find P k
  if s.foundAt P idx k then (s.remove idx).map (fun t => (true, t)) else some (false, s)

/-- A read of one key: `BtreeNode::find` (btree_node.hpp 169-185) followed by `get_nth_value` (349-361). -/
def PN.get (P : Params) (s : PN) (k : Nat) : Option Nat :=
  if s.foundAt P (s.find P k) k then (s.suf[s.find P k]?).map (s.val P) else none

/-- The arguments of `multi_put` (204-206): the range of keys with its two flags, the first key of the
range the caller asked for, the value, the kind of put and the filter. -/
structure Put where
  lo : Nat
  loIncl : Bool
  hi : Nat
  hiIncl : Bool
  first : Nat
  v : Nat
  type : PutType
  filter : Option (Nat → Nat → Nat → Dec)

/-- First key of a range (212-214, 308-309). -/
def startOf (lo : Nat) (incl : Bool) : Nat := if incl then lo else lo + 1

/-- `x > 0 || (x == 0 && !is_end_inclusive)` (220-221, 315-316). -/
def past (hi : Nat) (incl : Bool) (k : Nat) : Bool := decide (hi < k) || (decide (k = hi) && !incl)

/-- The prefix slot for one entry (254-263), with `n` suffix entries in the node: the slot of the
round before if there is one, else a new one holding the prefix of the *unshifted* value; if that is
not the prefix of the entry, yet another. -/
def PN.slotFor (P : Params) (s : PN) (n : Nat) (slot : Option Nat) (k v nv : Nat) : Option (Nat × PN) :=
  match (match slot with
    | some i => some (i, s)
    | none => s.addPrefix P n k v) with
  | none => none
  | some (i, t) =>
    if (t.pre i).kp = P.kp k ∧ (t.pre i).vp = P.vp nv then some (i, t) else t.addPrefix P n k nv

/-- What is done with an entry that is there (227-236). -/
def PN.decide' (P : Params) (a : Put) (s : PN) (cur : Nat) (e : SE) : Dec :=
  if a.type = .insert then .keep
  else match a.filter with
    | none => .replace
    | some f => f cur (s.val P e) a.v

/-- One round of the loop of `multi_put` (226-265): what was decided, the prefix slot held and the
node. -/
def PN.putRound (P : Params) (a : Put) (s : PN) (cur idx : Nat) (found : Bool) (slot : Option Nat) :
    Option (Dec × Option Nat × PN) :=
  let nv := P.vsh a.v (cur - a.first)
  if found then
    match s.suf[idx]? with
    | none => none
    | some e =>
      match s.decide' P a cur e with
      | .keep => some (.keep, slot, s)
      | .remove => (s.remove idx).map (fun t => (.remove, slot, t))
      | .replace =>
        match s.deref e.slot with
        | none => none
        | some t =>
          match t.slotFor P s.suf.length slot cur a.v nv with
          | none => none
          | some (i, u) => some (.replace, some i, u.writeOver P idx i cur nv)
  else if a.type = .update then some (.keep, slot, s)
  else if s.suf.length < idx then none
  else
    match s.slotFor P (s.suf.length + 1) slot cur a.v nv with
    | none => none
    | some (i, u) => some (.replace, some i, u.writeNew P idx i cur nv)

/-- The loop of `multi_put` (219-273), with a bound on the number of rounds.  The result says whether
all keys were gone through, and which key is next. -/
def PN.putLoop (P : Params) (a : Put) : Nat → PN → Nat → Nat → Bool → Option Nat → Option (Bool × Nat × PN)
  | 0, _, _, _, _, _ => none
  | fuel + 1, s, cur, idx, found, slot =>
    if past a.hi a.hiIncl cur then some (true, cur, s)
    else
      match s.putRound P a cur idx found slot with
      | none => none
      | some (d, slot', t) =>
        if t.hasRoom P 1 then
          let idx' := if d = .remove then idx else idx + 1
          PN.putLoop P a fuel t (cur + 1) idx' (t.foundAt P idx' (cur + 1)) slot'
        else some (false, cur + 1, t)

/-- Outcome of `multi_put` (204-288): `space_not_avail`, `has_more` with the key that is next, or
`success`. -/
inductive PutRes where | noSpace | more (k : Nat) | done
  deriving DecidableEq, Repr

/-- `multi_put` (204-288). -/
def PN.multiPut (P : Params) (s : PN) (a : Put) : Option (PutRes × PN) :=
  let cur := startOf a.lo a.loIncl
  if s.hasRoom P 1 then
    let idx := s.find P cur
    match PN.putLoop P a (a.hi + 2 - cur) s cur idx (s.foundAt P idx cur) none with
    | none => none
    | some (true, _, t) => some (.done, t)
    | some (false, c, t) => some (.more c, t)
  else some (.noSpace, s)

/-- The loop of `multi_remove` (313-328), with a bound on the number of rounds. -/
def PN.removeLoop (P : Params) (hi : Nat) (incl : Bool) (f : Nat → Nat → Bool) : Nat → PN → Nat → Nat → Option (Nat × PN)
  | 0, _, _, _ => none
  | fuel + 1, s, idx, cnt =>
    match s.suf[idx]? with
    | none => some (cnt, s)
    | some e =>
      if past hi incl (s.key P e) then some (cnt, s)
      else if f (s.key P e) (s.val P e) then
        match s.deref e.slot with
        | none => none
        | some t => PN.removeLoop P hi incl f fuel { t with suf := t.suf.eraseIdx idx } idx (cnt + 1)
      else PN.removeLoop P hi incl f fuel s (idx + 1) cnt

/-- `multi_remove` (304-337); no filter is the filter that is always true. -/
def PN.multiRemove (P : Params) (s : PN) (lo : Nat) (loIncl : Bool) (hi : Nat) (hiIncl : Bool) (f : Nat → Nat → Bool) :
    Option (Nat × PN) :=
  PN.removeLoop P hi hiIncl f (s.suf.length + 1) s (s.find P (startOf lo loIncl)) 0

/-- `num_entries_by_size` (575-592): `seen` is the set of prefix slots, `cum` the size so far. -/
def countBySize (P : Params) : List SE → List Nat → Nat → Nat → Nat
  | [], _, _, _ => 0
  | e :: l, seen, cum, size =>
    let cum' := cum + (if e.slot ∈ seen then 0 else P.ps) + P.ss
    if size < cum' then 0 else 1 + countBySize P l (if e.slot ∈ seen then seen else e.slot :: seen) cum' size

/-- `num_entries_by_size(start_idx, size)` (575-592). -/
def PN.numBySize (P : Params) (s : PN) (start size : Nat) : Nat := countBySize P (s.suf.drop start) [] 0 size

/-- The slot map of a copy or move (418, 624). -/
def lookup (m : List (Nat × Nat)) (i : Nat) : Option Nat := (m.find? (fun e => e.1 = i)).map Prod.snd

/-- One entry `e` of the node `src` written behind the entries of `s` (633-662): the prefix comes along
if the map does not have it yet. -/
def PN.copyOne (P : Params) (s : PN) (src : PN) (m : List (Nat × Nat)) (e : SE) : Option (List (Nat × Nat) × PN) :=
  match lookup m e.slot with
  | none =>
    match s.alloc P with
    | none => none
    | some (i, t) =>
      if P.fits t.tail (s.suf.length + 1) then
        some ((e.slot, i) :: m,
          { t with pre := setPre t.pre i { src.pre e.slot with ref := 1 }, suf := t.suf ++ [{ e with slot := i }] })
      else none
  | some i =>
    if P.fits s.tail (s.suf.length + 1) then
      some (m, { s with pre := setPre s.pre i { s.pre i with ref := (s.pre i).ref + 1 },
                        suf := s.suf ++ [{ e with slot := i }] })
    else none

/-- The loop of `copy_internal` (630-666) over the entries of the source: what bounds it is a size
or a number of entries.  The suffix entries are counted as they are written (the code adds them to
`total_entries()` after the loop only, 668, so `has_room(1)` (630) sees the number of entries of before:
`n0`).  Gives the number of entries and the size copied. -/
def PN.copyLoop (P : Params) (src : PN) (bySize : Bool) (limit n0 : Nat) :
    List SE → PN → List (Nat × Nat) → Nat → Nat → Option (Nat × Nat × PN)
  | [], s, _, num, size => some (num, size, s)
  | e :: l, s, m, num, size =>
    if P.ps + 1 * P.ss ≤ P.data - (s.tail * P.ps + (P.base + n0 * P.ss)) then
      if bySize = false ∧ limit ≤ num then some (num, size, s)
      else
        let size' := size + (if (lookup m e.slot).isSome then P.ss else P.ps + P.ss)
        if bySize = true ∧ limit < size' then some (num, size', s)
        else
          match s.copyOne P src m e with
          | none => none
          | some (m', t) => PN.copyLoop P src bySize limit n0 l t m' (num + 1) size'
    else some (num, size, s)

/-- `copy_internal` (605-681), leaf nodes. -/
def PN.copyInternal (P : Params) (s src : PN) (start : Nat) (bySize : Bool) (limit : Nat) : Option (Nat × Nat × PN) :=
  PN.copyLoop P src bySize limit s.suf.length (src.suf.drop start) s [] 0 0

/-- `copy_by_size` (594-596): gives the number of entries copied. -/
def PN.copyBySize (P : Params) (s src : PN) (start size : Nat) : Option (Nat × PN) :=
  (s.copyInternal P src start true size).map (fun r => (r.1, r.2.2))

/-- `copy_by_entries` (598-603): gives the *size* copied; the number of entries goes through 16 bits
in `has_room` (776, 780). -/
def PN.copyByEntries (P : Params) (s src : PN) (start n : Nat) : Option (Nat × PN) :=
  if n = 0 then some (0, s)
  else
    match (if !s.hasRoom P (n % 65536) && s.hasRoomC P (n % 65536) then s.compact P else some s) with
    | none => none
    | some t => (t.copyInternal P src start false n).map (fun r => (r.2.1, r.2.2))

/-- The loop of `move_out_to_right_internal` (420-456) over the entries of the source from the last one
on: the source `s`, the destination `d`, the slot map, the entries to move with their slots in the
destination, and `dst_node_size`.  Gives the two nodes, the entries and the size. -/
def PN.moveLoop (P : Params) (bySize : Bool) (limit : Nat) :
    List SE → PN → PN → List (Nat × Nat) → List SE → Nat → Option (PN × PN × List SE × Nat)
  | [], s, d, _, mv, size => some (s, d, mv, size)
  | e :: l, s, d, m, mv, size =>
    if (bySize = true ∧ limit < size) ∨ (bySize = false ∧ mv.length = limit) then some (s, d, mv, size)
    else
      match (match lookup m e.slot with
        | none =>
          match d.alloc P with
          | none => none
          | some (i, t) =>
            some (i, (e.slot, i) :: m, { t with pre := setPre t.pre i { s.pre e.slot with ref := 1 } }, size + P.ps)
        | some i => some (i, m, d.ref i, size)) with
      | none => none
      | some (i, m', d', size') =>
        match s.deref e.slot with
        | none => none
        | some s' => PN.moveLoop P bySize limit l s' d' m' ({ e with slot := i } :: mv) (size' + P.ss)

/-- `move_out_to_right_internal` (405-485), leaf nodes.  The entries are written over the first
entries of the destination (460), so a destination that has some loses them: `none`. -/
def PN.moveOut (P : Params) (s d : PN) (bySize : Bool) (limit : Nat) : Option (Nat × PN × PN) :=
  let size0 := d.occupied P
  if s.suf = [] then some (if bySize then 0 else size0, s, d)
  else if d.suf ≠ [] then none
  else
    match PN.moveLoop P bySize limit s.suf.reverse s d [] [] size0 with
    | none => none
    | some (s', d', mv, size) =>
      if P.fits d'.tail mv.length then
        let s'' : PN := { s' with suf := s.suf.take (s.suf.length - mv.length) }
        match (if 10 < s''.holes then s''.compact P else some s'') with
        | none => none
        | some s3 => some (if bySize then mv.length else size, s3, { d' with suf := mv })
      else none

end HS.Prefix
