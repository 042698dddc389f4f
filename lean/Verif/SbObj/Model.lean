import Verif.Meta.Spec

/-!
# Model of superblock objects (`superblk< T >`)

Source: `src/include/homestore/superblk_handler.hpp` 25-132, over the metadata store
(`Verif.Meta.Model`).  Every service keeps its persistent state in such an object: it has a buffer with
a `T` at its beginning, the name of a type of metadata, and once written the cookie of its record.

Simplifications: objects are numbered; a cookie is the id of the record (the code keeps the address of
the cached block); a name is a number, and a name that was moved away is none (a moved-from string has
an unspecified value, in practice it is empty and thus no registered type); `set_name` after the
construction and the shared ownership of the buffer (`raw_buf`) are not modelled; no two threads use an
object at a time.
-/
namespace HS.SbObj
open HS.Meta

/-- An object (126-131): `m_meta_sub_name`, `m_meta_blk`, and the buffer (`m_raw_buf`, with `m_sb` at its
beginning). -/
structure Obj where
  name : Option Nat
  cookie : Option Nat
  buf : Option (List Byte)
  deriving DecidableEq, Repr

/-- The registered types (`register_handler`), `sizeof(T)`, and the alignment of large buffers. -/
structure Par where
  regs : List Nat
  sizeT : Nat
  align : Nat

/-- The size of the buffer for a requested size (76-82, with `is_aligned_buf_needed`,
meta_blk_service.cpp:1289). -/
def bufSize (c : Cfg) (p : Par) (n : Nat) : Nat :=
  if n ≤ c.inlineMax then n else (n + p.align - 1) / p.align * p.align

/-- What is done with objects.  `x` is what the buffer holds afterwards (the `T` constructed at its
beginning, then memory as allocated); `bid` and `sp` are what the allocator of the store returns. -/
inductive Cmd where
  | create (i n : Nat) (x : List Byte)
  | resize (i n : Nat) (x : List Byte)
  | edit (i : Nat) (x : List Byte)
  | write (i : Nat) (bid : Nat) (sp : Space)
  | destroy (i : Nat)
  | move (i j : Nat)

/-- `create`, `resize` (76-96): a buffer of the size, and the placement of a `T` in it.  `none`: the `T`
is constructed beyond the end of the buffer. -/
def mkBuf (c : Cfg) (p : Par) (o : Nat → Obj) (i n : Nat) (x : List Byte) : Option (Option Op × (Nat → Obj)) :=
  if bufSize c p n < p.sizeT then none
  else some (none, fset o i { o i with buf := some x })

/-- What a call does: the operation of the metadata store that it makes, if any, and the objects
afterwards.  `none`: a null pointer, or a release assertion of the store (a type that is not registered,
meta_blk_service.cpp:406). -/
def step (c : Cfg) (p : Par) (o : Nat → Obj) : Cmd → Option (Option Op × (Nat → Obj))
  | .create i n x => mkBuf c p o i n x                                    -- 76-85
  | .resize i n x =>                                                      -- 87-96, `m_raw_buf->` of 90, 92
    match (o i).buf with
    | none => none
    | some _ => mkBuf c p o i n x
  | .edit i x =>                                                          -- through 121-124
    match (o i).buf with
    | none => none
    | some _ => some (none, fset o i { o i with buf := some x })
  | .write i b sp =>                                                      -- 110-116
    match (o i).buf with
    | none => none
    | some x =>
      match (o i).cookie with
      | some k => some (some (.upd k x sp), o)
      | none =>
        match (o i).name with
        | none => none
        | some t =>
          if t ∈ p.regs then some (some (.add t x b sp), fset o i { o i with cookie := some b }) else none
  | .destroy i =>                                                         -- 98-105
    match (o i).cookie with
    | some k => some (some (.rem k), fset o i { o i with cookie := none, buf := none })
    | none => some (none, fset o i { o i with buf := none })
  | .move i j =>                                                          -- 48-58: `j = std::move(i)`
    if i = j then some (none, o)
    else some (none, fset (fset o j (o i)) i { name := none, cookie := none, buf := none })

/-- The objects after a start: for every record delivered, an object of its type that loads it
(`load`, 68-74, called from the callback of the type); the others are new, with the names `nm`. -/
def loaded (nm : Nat → Nat) (es : List Entry) : Nat → Obj := fun i =>
  match es[i]? with
  | some e => { name := some e.typ, cookie := some e.bid, buf := some e.content }
  | none => { name := some (nm i), cookie := none, buf := none }

/-! ## `json_superblk` (134-202)

The same with a JSON value in place of the buffer, which is always there: `buf = none` is here the null
value (after the construction and after `destroy`). -/

/-- `json_superblk::destroy` (171-177): the record is removed, if there is one; the value is null. -/
def jDestroy (o : Obj) : Option Op × Obj := (o.cookie.map Op.rem, { o with cookie := none, buf := none })

/-- `json_superblk::write` (181-199): the value is packed (null is the one byte `0xc0` of MessagePack), and
the record updated, or added if there is none.  `none`: the type is not registered
(meta_blk_service.cpp:406). -/
def jWrite (p : Par) (o : Obj) (b : Nat) (sp : Space) : Option (Op × Obj) :=
  let x := o.buf.getD [0xc0]
  match o.cookie with
  | some k => some (.upd k x sp, o)
  | none =>
    match o.name with
    | none => none
    | some t => if t ∈ p.regs then some (.add t x b sp, { o with cookie := some b }) else none

end HS.SbObj
