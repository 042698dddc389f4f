/-!
# Spreading the chunks of a virtual device over the devices

`DeviceManager::calculate_vdev_chunk_num_on_new_pdevs` (src/lib/device/device_manager.cpp:509-548), the loop of `create_vdev` over the
devices (367-386) and that of `load_devices` over the new devices (284-300).

The share of a device is computed with `float`: round to nearest, ties to even, 24 bits.  A float is the number of its 2^-128ths; all
floats that occur are at least 2^-66, so that this is exact.  Conversions and divisions round once (no extra precision, as on x86-64).
-/
namespace HS.Spread

/-- The unit: a float `f` is the number `f / unit`. -/
def unit : Nat := 2 ^ 128

/-- `a / b` to the nearest whole number, ties to even. -/
def rne (a b : Nat) : Nat :=
  if 2 * (a % b) < b then a / b
  else if b < 2 * (a % b) then a / b + 1
  else if a / b % 2 = 0 then a / b else a / b + 1

/-- The float nearest to `n / d`. -/
def fl (n d : Nat) : Nat :=
  if n = 0 then 0
  else
    let p := 2 ^ ((n * unit / d).log2 - 23)
    rne (n * unit) (d * p) * p

/-- `expect_chunk_num_on_pdev` (538-539): `multiple` is a float divided by a number that is converted; `chunk_num / multiple` likewise. -/
def share (total size num : Nat) : Nat :=
  let multiple := fl (fl total 1) (fl size 1)
  fl (fl num 1) multiple / unit

/-- `available_chunks_on_pdev` (540), cast to 32 bits. -/
def avail (size chunk : Nat) : Nat := size / chunk % 2 ^ 32

/-- What a device gets (541). -/
def onDev (total chunk num size : Nat) : Nat := min (share total size num) (avail size chunk)

/-- `create_vdev` (369-386): the chunks put on each device; `none`: the release assertion (377) fails. -/
def createLoop (total chunk num : Nat) : List Nat → Nat → Option (List Nat)
  | [], _ => some []
  | size :: l, created =>
    if created ≥ num then some (0 :: l.map fun _ => 0)
    else if num < onDev total chunk num size then none
    else (createLoop total chunk num l (created + onDev total chunk num size)).map (onDev total chunk num size :: ·)

/-- A new virtual device of `num` chunks of size `chunk` on devices of these sizes (515-518). -/
def create (chunk num : Nat) (sizes : List Nat) : Option (List Nat) := createLoop sizes.sum chunk num sizes 0

/-- The chunks put on new devices of a virtual device that exists: from the sizes of the devices it has and the number of its chunks
(521-529, 531-535). -/
def addNew (chunk : Nat) (have_ : List Nat) (count : Nat) (new : List Nat) : List Nat := new.map (onDev have_.sum chunk count)

end HS.Spread
