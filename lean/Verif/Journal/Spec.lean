import Verif.Journal.Model

/-!
# Journal: what a user sees, and which calls are allowed

`World` adds to the device what its users know: `A s x` is the byte last written at logical offset
`x` of stream `s` (`none`: never written, truncated, or beyond the tail found after a restart), and
`R s` are the reservations `(offset, size)` of stream `s` not written yet.
-/
namespace HS.Journal

structure World where
  v : Dev
  A : Nat → Nat → Option Nat
  R : Nat → List (Nat × Nat)

/-- Nothing created yet. -/
def World.init (cs cap : Nat) (data : Nat → Nat → Nat) : World :=
  { v := { cs := cs, cap := cap, all := [], pool := [], priv := fun _ => {}, desc := fun _ => {},
           data := data }
    A := fun _ _ => none, R := fun _ => [] }

/-- Offsets a user may truncate at: not below the start, not above the tail or an outstanding
reservation, and not strictly inside the unused end of a chunk. -/
def ValidTrunc (w : World) (s t : Nat) : Prop :=
  (w.v.desc s).chunks ≠ [] ∧ (w.v.desc s).ds ≤ t ∧ (t : Int) ≤ (w.v.desc s).tail ∧
  (∀ r ∈ w.R s, t ≤ r.1) ∧
  ∀ c i o, offsetToChunk w.v.cs (w.v.desc s) t = some (c, i, o) → i + 1 < (w.v.desc s).chunks.length →
    o ≤ (w.v.priv c).eoc

/-- Tails a scan may find at restart: in the last chunk of the stream, not below its start, not
above the tail reached before. -/
def ValidTail (w : World) (s t : Nat) : Prop :=
  (w.v.desc s).ds ≤ t ∧ (t : Int) ≤ (w.v.desc s).tail ∧
  ((w.v.desc s).chunks ≠ [] → (w.v.desc s).endOff ≤ t + w.v.cs)

/-- Allowed calls that succeed, and what the user then knows. -/
inductive Step : World → World → Prop
  | produce (w : World) (c now : Nat) (v' : Dev) (h : produce w.v c now = some v') :
      Step w { w with v := v' }
  | alloc (w : World) (s sz : Nat) (hsz : 0 < sz) (v' : Dev) (off : Nat) (ws : List W)
      (h : alloc w.v s sz = .ok (v', off, ws)) :
      Step w { w with v := v', R := upd w.R s ((off, sz) :: w.R s) }
  | pwrite (w : World) (s off : Nat) (bs : List Nat) (hr : (off, bs.length) ∈ w.R s) (v' : Dev)
      (h : pwrite w.v s off bs = .ok v') :
      Step w { v := v', R := upd w.R s ((w.R s).erase (off, bs.length))
               A := upd w.A s (fun x => if off ≤ x ∧ x < off + bs.length then bs[x - off]?
                                        else w.A s x) }
  | truncate (w : World) (s t : Nat) (now : Nat → Nat) (hv : ValidTrunc w s t)
      (hnow : ∀ c, 0 < now c) (v' : Dev) (ret : Nat) (ws : List W)
      (h : truncate w.v s t now = .ok (v', ret, ws)) :
      Step w { w with v := v', A := upd w.A s (fun x => if x < t then none else w.A s x) }
  | destroy (w : World) (s : Nat) :
      Step w { v := (destroy w.v s).1, A := upd w.A s (fun _ => none), R := upd w.R s [] }
  | restart (w : World) (f : Nat) (tail : Nat → Nat) (hv : ∀ s, ValidTail w s (tail s))
      (h : RestartOk w.v.pst w.v.cs f (fun s => (w.v.desc s).ds) tail) :
      Step w { v := restartDev w.v.pst w.v.cs w.v.cap w.v.data f (fun s => (w.v.desc s).ds) tail
               R := fun _ => []
               A := fun s x => if x < tail s then w.A s x else none }

/-- Worlds reachable by any history of allowed calls, for any positive chunk size. -/
inductive Reach : World → Prop
  | init (cs cap : Nat) (data : Nat → Nat → Nat) (h : 0 < cs) : Reach (World.init cs cap data)
  | step (w w' : World) : Reach w → Step w w' → Reach w'

/-- A logical offset of stream `s` between its start and its tail. -/
def Live (v : Dev) (s x : Nat) : Prop := (v.desc s).ds ≤ x ∧ (x : Int) < (v.desc s).tail

/-- The data byte at logical offset `x` of stream `s`; `none` outside its chunks and in the unused end
of a chunk. -/
def byteAt (v : Dev) (s x : Nat) : Option Nat :=
  match offsetToChunk v.cs (v.desc s) x with
  | some (c, _, o) => if o < (v.priv c).eoc then some (v.data c o) else none
  | none => none

/-- Data offsets of stream `s` from `x` up to the end of its chunks, ascending. -/
def dataOffs (v : Dev) (s x : Nat) : List Nat :=
  (List.range' x ((v.desc s).endOff - x)).filter (fun y => (byteAt v s y).isSome)

/-- Repeated sequential reads of `n` bytes from cursor `cur` until the end is reported, as
`log_stream_reader` does; everything read, concatenated. `none`: out of fuel. -/
def readLoop (v : Dev) (s n : Nat) : Nat → Nat → Option (Res (List Nat))
  | 0, _ => none
  | f + 1, cur =>
    match nextRead v s cur n with
    | .error e => some (.error e)
    | .ok none => some (.ok [])
    | .ok (some (bs, cur')) =>
      match readLoop v s n f cur' with
      | some (.ok r) => some (.ok (bs ++ r))
      | q => q

end HS.Journal
