import Verif.SbObj.Model

/-!
# Specification vocabulary for superblock objects

What the owner of an object expects to be stored for it, and the executions.
-/
namespace HS.SbObj
open HS.Meta

/-- What is stored for each object, as its owner sees it: a type and a content. -/
abbrev Stored := Nat → Option (Nat × List Byte)

/-- A write stores what the buffer holds, under the type it was first stored under; a destruction
leaves nothing; a move takes it along. -/
def expect (e : Stored) (o : Nat → Obj) : Cmd → Stored
  | .write i _ _ => fset e i (((e i).map Prod.fst <|> (o i).name).bind (fun t => (o i).buf.map (fun x => (t, x))))
  | .destroy i => fset e i none
  | .move i j => if i = j then e else fset (fset e j (e i)) i none
  | _ => e

/-- The bytes given for a buffer are as many as it has. -/
def CmdOk (c : Cfg) (p : Par) (o : Nat → Obj) : Cmd → Prop
  | .create _ n x => x.length = bufSize c p n
  | .resize _ n x => x.length = bufSize c p n
  | .edit i x => ∀ y, (o i).buf = some y → x.length = y.length
  | _ => True

/-- Executions: the metadata store, the records in it, the objects, and what is expected.  With
`strict`, no object is moved onto one that has a record. -/
inductive OReach (c : Cfg) (p : Par) (ssb : Nat) (strict : Prop) :
    St → Disk → List Entry → (Nat → Obj) → Stored → Prop
  /-- Format any device; the first object is created and written. -/
  | boot (d0 : Disk) (nm : Nat → Nat) (t : Nat) (x : List Byte) (b : Nat) (sp : Space) (ws : List Write) (s : St)
      (ho : OpOk c (format ssb).2 [] (.add t x b sp))
      (hp : prog c (format ssb).2 (.add t x b sp) = some (ws, s)) (ht : t ∈ p.regs) :
      OReach c p ssb strict s (exec (exec d0 (format ssb).1) ws) [⟨b, t, x⟩] (loaded nm [⟨b, t, x⟩])
        (fset (fun _ => none) 0 (some (t, x)))
  /-- A call that makes no operation of the store. -/
  | quiet {s : St} {d : Disk} {es : List Entry} {o o' : Nat → Obj} {e : Stored}
      (h : OReach c p ssb strict s d es o e) (cmd : Cmd) (hk : CmdOk c p o cmd)
      (hs : step c p o cmd = some (none, o'))
      (hm : strict → ∀ i j, cmd = .move i j → i ≠ j → (o j).cookie = none) :
      OReach c p ssb strict s d es o' (expect e o cmd)
  /-- A call that makes one, which runs to completion. -/
  | call {s s' : St} {d : Disk} {es : List Entry} {o o' : Nat → Obj} {e : Stored}
      (h : OReach c p ssb strict s d es o e) (cmd : Cmd) (op : Op) (ws : List Write)
      (hs : step c p o cmd = some (some op, o')) (ho : OpOk c s es op) (hp : prog c s op = some (ws, s')) :
      OReach c p ssb strict s' (exec d ws) (specOp op es) o' (expect e o cmd)
  /-- A start after any history that ended in a crash: every record is loaded into an object. -/
  | restart {d : Disk} {r : List Entry × St × List Write} (h : Reach c ssb (.down d))
      (hr : Restarts c ssb d r) (nm : Nat → Nat) :
      OReach c p ssb strict r.2.1 (exec d r.2.2) r.1 (loaded nm r.1)
        (fun i => r.1[i]?.map (fun e => (e.typ, e.content)))

end HS.SbObj
