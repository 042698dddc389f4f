import Verif.Log.RecoveryProps

/-!
# Concrete cases for C34 and C35
-/

namespace HS.Log

/-- A checksum for the concrete cases: position-weighted sum. -/
def demoCrc (b : Bytes) : UInt32 := b.foldl (fun a x => a * 31 + x.toUInt32 + 1) 0

def demoEnv : Env := { fm := 512, crc := demoCrc, logdev := 7, lastAt := 0 }

def demoJ : Nat → Nat → UInt8 := fun i j => UInt8.ofNat (i + 3 * j)

/-- Two stores; one record is out of band (512 bytes, aligned). -/
def demoBatches : List (List Rec) :=
  [[{ data := [1, 2, 3], store := 0, seq := 0 }, { data := [], store := 1, seq := 0 }],
   [{ data := List.replicate 512 9, store := 0, seq := 1, aligned := true }, { data := [4], store := 0, seq := 2 }]]

theorem demo_fits : ∀ rs ∈ demoBatches, BatchFits 512 rs := by
  intro rs hrs
  have h1 : ∀ rs ∈ demoBatches, (∀ r ∈ rs, r.seq < 256 ^ 8 ∧ r.store < 256 ^ 4) ∧
      hdrSize + slotSize * (rs.length + 4) + dataLen rs + 2 * footSize + 2 * 512 < 2 ^ 31 := by decide +kernel
  exact ⟨fun r hr => ⟨((h1 rs hrs).1 r hr).1, ((h1 rs hrs).1 r hr).2⟩, (h1 rs hrs).2⟩

/-- The bytes of the flushes. -/
def demoBytes : List Bytes :=
  match flushes 512 256 demoCrc 7 demoJ demoBatches 5 17 with
  | .ok (some (bs, _, _)) => bs
  | _ => []

/-- The hypotheses of `C35_replays_all_flushed` are met: the flushes write two groups, then comes stale data, read in
pieces of 512, 1024 and 1024 bytes. -/
example : ∃ bs i c t src, flushes demoEnv.fm 256 demoEnv.crc demoEnv.logdev demoJ demoBatches 5 17 = .ok (some (bs, i, c)) ∧
    bs.length = 2 ∧ EndsHere demoEnv (lastCrc bs c) t ∧ t ≠ [] ∧ Pieces demoEnv.fm src ∧
    src.flatten = bs.flatten ++ t ∧ src.length = 3 := by
  obtain ⟨bs, i, c, h1, _⟩ := C35_replays_all_flushed demoEnv 256 demoJ demoBatches 5 17 (by decide) (by decide) demo_fits
    (by decide) (by decide +kernel)
  have hb : bs = demoBytes := by
    unfold demoBytes
    rw [show flushes 512 256 demoCrc 7 demoJ demoBatches 5 17 = .ok (some (bs, i, c)) from h1]
  have hlen : demoBytes.length = 2 ∧ demoBytes.flatten.length = 2048 := by decide +kernel
  have hlen2 : bs.flatten.length = 2048 := by rw [hb]; exact hlen.2
  refine ⟨bs, i, c, List.replicate 512 5,
    [bs.flatten.take 512, (bs.flatten.drop 512).take 1024, (bs.flatten.drop 1536) ++ List.replicate 512 5], h1,
    by rw [hb]; exact hlen.1, ?_, by decide, ?_, ?_, rfl⟩
  · right
    have h3 : ((Hdr.dec (List.replicate 512 5)).any (fun h => decide (h.magic ≠ hdrMagic))) = true := by decide +kernel
    obtain ⟨h4, h5⟩ := (Option.any_eq_true_iff_get _ _).1 h3
    exact ⟨_, (Option.some_get h4).symm, Or.inl (of_decide_eq_true h5)⟩
  · intro p hp
    show 512 ∣ p.length
    simp only [List.mem_cons, List.not_mem_nil, or_false] at hp
    rcases hp with rfl | rfl | rfl
    · rw [List.length_take, hlen2]; decide
    · rw [List.length_take, List.length_drop, hlen2]; decide
    · rw [List.length_append, List.length_drop, hlen2, List.length_replicate]; decide
  · have h2 : List.take 512 bs.flatten ++ ((bs.flatten.drop 512).take 1024 ++ bs.flatten.drop 1536) = bs.flatten := by
      have := List.take_append_drop 1024 (bs.flatten.drop 512)
      rw [List.drop_drop] at this
      rw [this, List.take_append_drop]
    simp only [List.flatten_cons, List.flatten_nil, List.append_nil]
    rw [← List.append_assoc, ← List.append_assoc, List.append_assoc (List.take 512 bs.flatten), h2]

def isAbort {α : Type} : Except Fault α → Bool
  | .error .abort => true
  | _ => false

theorem isAbort_eq {α : Type} {x : Except Fault α} (h : isAbort x = true) : x = .error .abort := by
  match x with
  | .error .abort => rfl
  | .error .ub => cases h
  | .ok _ => cases h

/-- One record of 1200 bytes: a group of three sectors. -/
def bigRec : List Rec := [{ data := List.replicate 1200 6, store := 0, seq := 3 }]

def bigGroup : Bytes :=
  match buildGroup 512 256 demoCrc 5 bigRec 9 7 0 (demoJ 9) with
  | .ok (b, _) => b
  | .error _ => []

/-- The middle sector was not written. -/
def bigTorn : Bytes := bigGroup.take 512 ++ List.replicate 512 0 ++ bigGroup.drop 1024

/-- C35 fails when the sectors with the header and with the footer reached the device and one between them did not:
nothing was flushed before, the group was being written at the crash, and the load aborts.  The bytes do not change,
so it aborts at every restart. -/
theorem C35_torn_middle_aborts_violated :
    BatchFits 512 bigRec ∧ buildGroup 512 256 demoCrc 5 bigRec 9 7 0 (demoJ 9) = .ok (bigGroup, 1) ∧
    TornWrite demoEnv 0 bigGroup bigTorn ∧
    (∀ k, (bigTorn.drop (512 * k)).take 512 = (bigGroup.drop (512 * k)).take 512 ∨
      (bigTorn.drop (512 * k)).take 512 = List.replicate 512 0) ∧
    load demoEnv 9 [bigTorn ++ List.replicate 512 0] = .error .abort := by
  have hlen : bigGroup.length = 1536 ∧ bigTorn.length = 1536 := by decide +kernel
  refine ⟨⟨?_, by decide +kernel⟩, ?_, ⟨by rw [hlen.1, hlen.2], Or.inl (by decide +kernel)⟩, ?_, ?_⟩
  · intro r hr
    have h1 : ∀ r ∈ bigRec, r.seq < 256 ^ 8 ∧ r.store < 256 ^ 4 := by decide +kernel
    exact ⟨(h1 r hr).1, (h1 r hr).2⟩
  · have : (buildGroup 512 256 demoCrc 5 bigRec 9 7 0 (demoJ 9)).toOption = some (bigGroup, 1) := by decide +kernel
    cases hb : buildGroup 512 256 demoCrc 5 bigRec 9 7 0 (demoJ 9) with
    | error x => rw [hb] at this; cases this
    | ok y => rw [hb] at this; exact congrArg Except.ok (Option.some.inj this)
  · intro k
    match k with
    | 0 => left; decide +kernel
    | 1 => right; decide +kernel
    | 2 => left; decide +kernel
    | k + 3 =>
      left
      rw [List.drop_eq_nil_of_le (by rw [hlen.2]; omega), List.drop_eq_nil_of_le (by rw [hlen.1]; omega)]
  · exact isAbort_eq (by decide +kernel)

/-- The hypotheses of `C35_torn_group_partial` are met by this torn write behind the two flushes, and the checksum tells
the torn image from the group. -/
example : demoEnv.crc (bigTorn.drop hdrSize) ≠ demoEnv.crc (bigGroup.drop hdrSize) ∧ bigTorn ≠ bigGroup := by
  decide +kernel

/-- The hypotheses of `C34_group_read_back_partial` are met by the second batch, whose first record is out of band. -/
example : ∃ b, (buildGroup 512 256 demoCrc 6 (demoBatches.getD 1 []) 7 7 17 (demoJ 7)).toOption = some (b, 2) ∧
    (readRec demoCrc b 8).toOption = some [4] ∧ (readRec demoCrc b 7).toOption = some (List.replicate 512 9) := by
  refine ⟨(match buildGroup 512 256 demoCrc 6 (demoBatches.getD 1 []) 7 7 17 (demoJ 7) with
    | .ok (b, _) => b | .error _ => []), ?_⟩
  decide +kernel

/-- Loads that succeed exist (`C35_only_intact_groups`): the two groups of the flushes. -/
example : ∃ l, (load demoEnv 5 [demoBytes.flatten]).toOption = some (some l) ∧ l.views.length = 4 := by
  refine ⟨(match load demoEnv 5 [demoBytes.flatten] with | .ok (some l) => l | _ => ⟨[], 0, 0, 0⟩), ?_⟩
  decide +kernel

end HS.Log
