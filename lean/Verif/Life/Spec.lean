import Verif.Life.Model

/-!
# What a user may expect of the life of a group on one member

A group is *whole* when everything a start needs is there, and *absent* when nothing of it is on
disk. A removal is *recorded* when the superblock on disk says so. What follows names these, and
the histories in which the program keeps its promises.
-/
namespace HS.Life

/-- The removal of the group is on disk. -/
def Recorded (d : Disk) : Prop := d.rd = some true

/-- Everything of the group is on disk, and its removal is not. -/
def Whole (d : Disk) : Prop :=
  d.rd = some false ∧ d.cfg = true ∧ d.ld = true ∧ d.rb = true

/-- The group is half on disk in a way no start can cope with: one block of its log device without
the other, or the group without its Raft configuration. -/
def Torn (d : Disk) : Prop := d.ld ≠ d.rb ∨ (d.rd = some false ∧ d.cfg = false)

instance (d : Disk) : Decidable (Torn d) := by unfold Torn; infer_instance

/-- The member runs and would take a write for the group. -/
def Serves (s : St) : Prop := ∃ s', step s .write = some s'

/-- The member runs and has the group in its map. -/
def Has (s : St) : Prop := ∃ m d, s.proc = .up m ∧ m.dev = some d

/-- A step of a history in which the machine does not fail with the group half on disk, nobody asks
to remove a group that is being removed or is removed, no refused call overlaps with a removal that
is committed, no removal is committed while the collector is at work, and the collector does not
remove the superblock between a checkpoint's look at the stage and its write. -/
def Fair (s : St) (op : Op) : Prop :=
  match op with
  | .crash => ¬ Torn s.disk
  | .rmBegin => ∀ m d, s.proc = .up m → m.dev = some d → d.stage = .active
  | .rmProposeFail => ∀ m d, s.proc = .up m → m.dev = some d → d.stage = .destroying
  | .leave => ∀ m, s.proc = .up m → m.gc = none
  | .gcStep => ∀ m, s.proc = .up m → m.gc = some 6 → m.cp = false
  | _ => True

/-- A run all of whose steps are of the kind `P`. -/
def RunP (P : St → Op → Prop) (s : St) : List Op → St → Prop
  | [], s' => s = s'
  | op :: ops, s' => ∃ t, step s op = some t ∧ P s op ∧ RunP P t ops s'

/-- A fair step that, further, is not a failure of the machine after the removal was recorded and
before the application was told of it. -/
def FairApp (s : St) (op : Op) : Prop :=
  Fair s op ∧ (op = .crash → Recorded s.disk → s.app = false)

/-- A start, all of it. -/
def start : List Op := List.replicate 10 .bootStep

/-- A creation, all of it. -/
def creation : List Op := [.create, .mkStep, .mkStep, .mkStep, .mkStep, .mkStep]

/-- A removal committed on the member, all of it. -/
def removal : List Op := [.leave, .leaveStep, .leaveStep]

/-- The work of the collector on the group, all of it. -/
def collection : List Op := .gcBegin :: List.replicate 8 .gcStep

end HS.Life
