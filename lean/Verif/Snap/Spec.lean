import Verif.Snap.Model
/-!
# What a member of a group holds

`Com g n v`: the group, whose committed entries are `g`, has committed the application value `v` as
entry `n`.  `Holds g k l`: a listener whose state is `l` has everything that the group committed up
to entry `k`, and nothing that the group did not commit.  `Good`: which steps of a history are
considered.  Nothing else is needed to read C88.
-/
namespace HS.Snap

/-- The group committed the application value `v` as entry `n`. -/
def Com (g : List Ent) (n v : Nat) : Prop := 1 ≤ n ∧ g[n - 1]? = some (.app v)

/-- The state `l` has what was committed up to `k`, and only what was committed. -/
def Holds (g : List Ent) (k : Nat) (l : List (Nat × Nat)) : Prop :=
  (∀ n v, n ≤ k → Com g n v → (n, v) ∈ l) ∧ ∀ p ∈ l, Com g p.1 p.2

/-- The steps considered.

* As for C65, the checkpoint does not write the superblock while `flush_durable_commit_lsn` is
  between its read and its write.
* A member for which a snapshot was announced is brought up to date by a snapshot: the library
  commits entries beyond the announced number only after a transfer has completed.
* Snapshots are announced with increasing numbers. -/
def Good (d : Dev) : Op → Prop
  | .cpRepl _ => d.load = none
  | .commitBegin => d.pend = true → d.sm + 1 ≤ d.snp
  | .snpBegin l => d.snp ≤ l
  | _ => True

/-- A history of such steps. -/
def GoodRun (d : Dev) : List Op → Prop
  | [] => True
  | op :: ops => Good d op ∧ ∀ d', d.step op = .ok d' → GoodRun d' ops

end HS.Snap
