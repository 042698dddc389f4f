import Verif.DevMgr.Size
import Verif.Spread.Model

/-!
# Formatting: the services get percentages of the devices

`HomeStore::format_and_start` (src/lib/homestore.cpp:204-275), `pct_to_size` (477-480), `DeviceManager::total_capacity`
(src/lib/device/device_manager.cpp:729-736), `pdevs_by_type_internal` (810-814), `create_vdev` (341-401) and
`PhysicalDev::find_next_chunk_area` (src/lib/device/physical_dev.cpp:471-483).

Percentages are given in quarters of a percent.  These are exact in `float`, and so are their sums.  In `pct_to_size` the product is exact
and the quotient is at least 1/400 away from the next whole number unless it is whole, so that for a capacity below 2^44 bytes the `double`
is rounded down to the same number as the fraction.  The block size is a multiple of the alignment of the devices (350).  There are fewer
services than virtual devices the system has room for (346).  The devices are blank: what is allocated on a device is contiguous, and a chunk
finds room if and only if there is room at the end.
-/
namespace HS.Format

open HS.DevMgr (VParam VFault compose roundUp)

/-- The devices of a type: what they have for data (`data_size`), the sum of their streams, `optimal_page_size`. -/
structure Group where
  sizes : List Nat
  streams : Nat
  page : Nat
  deriving DecidableEq, Repr

/-- `true`: the fast devices; `false`: the data devices. -/
abbrev Sys := Bool → Group

/-- `hs_format_params` of a service, with what the service makes of them: `static`: all but the log service
(`log_store_service.cpp` 86-90). -/
structure Svc where
  fast : Bool
  /-- quarters of a percent -/
  q : Nat
  static : Bool
  num : Nat
  blk : Nat
  chunk : Nat
  deriving DecidableEq, Repr

inductive Fault where
  /-- `std::invalid_argument` -/
  | invalid
  /-- there are no devices (the end of the map is dereferenced) -/
  | noDevice
  /-- `compose_vparam` fails -/
  | sizing (f : VFault)
  /-- a release assertion -/
  | abort
  /-- `std::out_of_range`: no room on a device, or no number for a chunk -/
  | noRoom
  deriving DecidableEq, Repr

/-- The percentage of the services of a type (205-209). -/
def total (svcs : List Svc) (fast : Bool) : Nat := ((svcs.filter fun v => v.fast = fast).map Svc.q).sum

/-- 211-226: `all_pct` is an `int`, to which the percentages are added one type after the other. -/
def accepted (svcs : List Svc) : Bool :=
  total svcs true ≤ 400 && total svcs false ≤ 400 && !(total svcs true / 4 + total svcs false / 4 == 0)

/-- `pdevs_by_type_internal`: where a service of this type goes. -/
def place (sys : Sys) (fast : Bool) : Bool := fast && !(sys true).sizes.isEmpty

/-- `pct_to_size`. -/
def pctSize (g : Group) (q : Nat) : Nat := roundUp (q * g.sizes.sum / 400) g.page

/-- What a service asks for (243-264). -/
def asked (g : Group) (v : Svc) : VParam :=
  if v.static then ⟨true, pctSize g v.q, v.num, v.blk, v.chunk⟩ else ⟨false, 0, 0, v.blk, v.chunk⟩

/-- The bytes that are used on each device, the number of chunks, and of each service its parameters and its chunks on each device. -/
structure St where
  used : Bool → List Nat
  ids : Nat
  vdevs : List (VParam × List Nat)

/-- Blank devices. -/
def blank (sys : Sys) : St := ⟨fun b => (sys b).sizes.map fun _ => 0, 0, []⟩

/-- `create_vdev`. -/
def createVdev (sys : Sys) (st : St) (v : Svc) : Except Fault St :=
  let b := place sys v.fast
  let g := sys b
  if g.sizes = [] then .error .noDevice
  else
    match compose v.fast (.striped g.streams) (asked g v) with
    | .error e => .error (.sizing e)
    | .ok p =>
      match Spread.create p.chunk p.num g.sizes with
      | none => .error .abort
      | some l =>
        let u := List.zipWith (fun u n => u + n * p.chunk) (st.used b) l
        if (List.zipWith (fun u s => decide (u ≤ s)) u g.sizes).all id ∧ st.ids + l.sum ≤ DevMgr.maxChunks then
          .ok ⟨fun c => if c = b then u else st.used c, st.ids + l.sum, st.vdevs ++ [(p, l)]⟩
        else .error .noRoom

/-- 243-264: the services one after the other. -/
def createAll (sys : Sys) : List Svc → St → Except Fault St
  | [], st => .ok st
  | v :: l, st =>
    if v.q = 0 then createAll sys l st
    else
      match createVdev sys st v with
      | .error e => .error e
      | .ok st => createAll sys l st

/-- `format_and_start`, up to the creation of the virtual devices. -/
def format (sys : Sys) (svcs : List Svc) : Except Fault St :=
  if accepted svcs then createAll sys svcs (blank sys) else .error .invalid

end HS.Format
