import Verif.Fetch.Model
/-!
# Specification of C100 and C101

`val r` is the data the user wrote with the write of request `r`.
-/
namespace HS.Fetch
open HS.DataSvc

/-- The requests of a member that receives data: `val r` fills the blocks on both sides, which are
blocks of their chunks, and no two requests share a local block.  This is what the allocations give
(C30, C78, C79), up to 65535 blocks and 4 GB for a request (see C03 for more). -/
structure Good (c : Cfg) (val : Nat → Bytes) (reqs : Nat → Req) : Prop where
  layout : Layout c.tblL
  loc : ∀ r, IdOk c.bs c.tblL (reqs r).loc
  bs : 0 < c.bs
  nonempty : ∀ r, val r ≠ []
  locSize : ∀ r, bytesOf c.bs (reqs r).loc = (val r).length
  remSize : ∀ r, bytesOf c.bs (reqs r).rem = (val r).length
  small : ∀ r, (val r).length < 4294967296
  count : ∀ r, ((reqs r).rem.map (·.n)).sum < 65536
  apart : ∀ r r', r ≠ r' → ∀ p ∈ (reqs r).loc, ∀ q ∈ (reqs r').loc, Apart p q
  dec : ∀ h, c.dec (c.enc h) = some h

/-- What the others do.  A fetch is for requests of one server, as the entries of one message of the
leader are.  The originator's blocks hold the data of the write when they are read.  A push is one
that was sent; of its data some may be missing, or there may be more. -/
def Honest (c : Cfg) (val : Nat → Bytes) (s : St) : Op → Prop
  | .fetch ids => ∃ srv, ∀ r ∈ ids, (s.reqs r).server = srv
  | .serve k devs fails => ∀ ids, s.asked[k]? = some ids → ∀ i r, ids[i]? = some r → fails i = false →
      asyncRead c.bs (c.tblR (s.reqs r).server) (devs i) (s.reqs r).rem (val r).length = some (val r)
  | .push msg => ∃ r x, (c.enc (r, (val r).length)).length < 4294967296 ∧
      (x.length = (val r).length → x = val r) ∧
      msg = le4 (c.enc (r, (val r).length)).length ++ c.enc (r, (val r).length) ++ x
  | _ => True

/-- Runs all of whose steps meet `P`. -/
inductive Run (c : Cfg) (P : St → Op → Prop) : St → List Op → Option St → Prop where
  | nil (s) : Run c P s [] (some s)
  | fail (s op ops) : P s op → Step c s op none → Run c P s (op :: ops) none
  | cons (s op s' ops t) : P s op → Step c s op (some s') → Run c P s' ops t → Run c P s (op :: ops) t

/-- Nothing has come yet. -/
def Fresh (s : St) : Prop :=
  s.fly = [] ∧ s.asked = [] ∧ s.came = [] ∧
  ∀ r, (s.reqs r).st.recv = false ∧ (s.reqs r).st.written = false

/-- The data of request `r` can be read from this member's disk. -/
def Holds (c : Cfg) (val : Nat → Bytes) (s : St) (r : Nat) : Prop :=
  asyncRead c.bs c.tblL s.disk (s.reqs r).loc (val r).length = some (val r)

end HS.Fetch
