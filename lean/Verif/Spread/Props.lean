import Verif.Spread.Lemmas
import Mathlib.Data.List.Forall2
import Mathlib.Algebra.BigOperators.Group.List.Basic
/-!
# C110: a new virtual device has the chunks it was created with, spread by the sizes of the devices
-/
namespace HS.Spread

/-! ## The sum of the shares -/

theorem scale_le {x y a b c d : Nat} (hp : 0 < a) (hk : b * c ≤ d * a) (h : x * a ≤ y * b) : x * c ≤ y * d := by
  apply Nat.le_of_mul_le_mul_right _ hp
  calc x * c * a = x * a * c := by ring
    _ ≤ y * b * c := Nat.mul_le_mul_right _ h
    _ = y * (b * c) := by ring
    _ ≤ y * (d * a) := Nat.mul_le_mul_left _ hk
    _ = y * d * a := by ring

theorem scale_lt {x y a b c d : Nat} (hd : 0 < d) (hk : c * a ≤ b * d) (h : x * b < y * a) : x * c < y * d := by
  apply Nat.lt_of_mul_lt_mul_right (a := a)
  calc x * c * a = x * (c * a) := by ring
    _ ≤ x * (b * d) := Nat.mul_le_mul_left _ hk
    _ = x * b * d := by ring
    _ < y * a * d := Nat.mul_lt_mul_of_pos_right h hd
    _ = y * d * a := by ring

theorem factor_up (x y : Nat) (h : x * ((K - 1) * (K - 1) * K) ≤ y * ((K + 1) * (K + 1) * (K + 1))) : x * 1048576 ≤ y * 1048577 :=
  scale_le (by unfold K; decide) (by unfold K; decide) h

theorem factor_down (x y : Nat) (h : x * ((K - 1) * (K - 1) * (K - 1)) < y * ((K + 1) * (K + 1) * K)) : x * 1048575 < y * 1048576 :=
  scale_lt (by decide) (by unfold K; decide) h

theorem share_up {total size num : Nat} (h0 : 0 < size) (h1 : size < 2 ^ 64) (h2 : 0 < total) (h3 : total < 2 ^ 64) :
    share total size num * total * 1048576 ≤ num * size * 1048577 := by
  rcases Nat.eq_zero_or_pos num with h | h
  · subst h
    have e0 : fl 0 1 = 0 := rfl
    have : share total size 0 = 0 := by
      unfold share
      rw [e0]
      simp [fl]
    rw [this]; simp
  · exact factor_up _ _ (share_bounds h0 h1 h2 h3 h).1

theorem share_down {total size num : Nat} (h0 : 0 < size) (h1 : size < 2 ^ 64) (h2 : 0 < total) (h3 : total < 2 ^ 64) (h4 : 0 < num) :
    num * size * 1048575 < (share total size num + 1) * total * 1048576 :=
  factor_down _ _ (share_bounds h0 h1 h2 h3 h4).2

theorem le_sum {l : List Nat} {x : Nat} (h : x ∈ l) : x ≤ l.sum := by
  induction l with
  | nil => cases h
  | cons a l ih =>
    rw [List.sum_cons]
    rcases List.mem_cons.1 h with h | h
    · omega
    · have := ih h; omega

theorem sum_up {total chunk num : Nat} (h2 : 0 < total) (h3 : total < 2 ^ 64) {l : List Nat} (hl : ∀ s ∈ l, 0 < s ∧ s < 2 ^ 64) :
    (l.map (onDev total chunk num)).sum * total * 1048576 ≤ num * l.sum * 1048577 := by
  induction l with
  | nil => simp
  | cons s l ih =>
    have ih := ih fun x hx => hl x (List.mem_cons_of_mem _ hx)
    have hs := hl s List.mem_cons_self
    have h := share_up (num := num) hs.1 hs.2 h2 h3
    have hm : onDev total chunk num s ≤ share total s num := Nat.min_le_left _ _
    rw [List.map_cons, List.sum_cons, List.sum_cons]
    have hm2 : onDev total chunk num s * total * 1048576 ≤ share total s num * total * 1048576 :=
      Nat.mul_le_mul_right _ (Nat.mul_le_mul_right _ hm)
    calc (onDev total chunk num s + (l.map (onDev total chunk num)).sum) * total * 1048576
        = onDev total chunk num s * total * 1048576 + (l.map (onDev total chunk num)).sum * total * 1048576 := by ring
      _ ≤ num * s * 1048577 + num * l.sum * 1048577 := Nat.add_le_add (Nat.le_trans hm2 h) ih
      _ = num * (s + l.sum) * 1048577 := by ring

theorem sum_le {chunk num : Nat} {l : List Nat} (h3 : l.sum < 2 ^ 64) (hl : ∀ s ∈ l, 0 < s) (hn : num ≤ 65536) :
    (l.map (onDev l.sum chunk num)).sum ≤ num := by
  cases l with
  | nil => simp
  | cons a l =>
    have hpos : 0 < (a :: l).sum := Nat.lt_of_lt_of_le (hl a List.mem_cons_self) (le_sum List.mem_cons_self)
    have h := sum_up (chunk := chunk) (num := num) hpos h3 (l := a :: l) fun s hs => ⟨hl s hs, Nat.lt_of_le_of_lt (le_sum hs) h3⟩
    generalize (a :: l).sum = t at *
    generalize ((a :: l).map (onDev t chunk num)).sum = f at *
    have h' : f * 1048576 ≤ num * 1048577 := by
      apply Nat.le_of_mul_le_mul_right _ hpos
      calc f * 1048576 * t = f * t * 1048576 := by ring
        _ ≤ num * t * 1048577 := h
        _ = num * 1048577 * t := by ring
    omega

theorem loop_eq {total chunk num : Nat} {l : List Nat} : ∀ {c : Nat}, c + (l.map (onDev total chunk num)).sum ≤ num →
    createLoop total chunk num l c = some (l.map (onDev total chunk num)) := by
  induction l with
  | nil => intro c _; rfl
  | cons s l ih =>
    intro c h
    rw [List.map_cons, List.sum_cons] at h
    rw [List.map_cons]
    unfold createLoop
    by_cases hc : c ≥ num
    · rw [if_pos hc]
      have h0 : onDev total chunk num s = 0 := by omega
      have hz : ∀ x ∈ l.map (onDev total chunk num), x = 0 := by
        intro x hx
        have := le_sum hx
        omega
      rw [h0]
      congr 2
      apply List.map_congr_left
      intro x hx
      exact (hz _ (List.mem_map_of_mem hx)).symm
    · rw [if_neg hc, if_neg (by omega), ih (by omega)]
      rfl

theorem create_eq {chunk num : Nat} {sizes : List Nat} (h3 : sizes.sum < 2 ^ 64) (hl : ∀ s ∈ sizes, 0 < s) (hn : num ≤ 65536) :
    create chunk num sizes = some (sizes.map (onDev sizes.sum chunk num)) := by
  unfold create
  apply loop_eq
  have := sum_le (chunk := chunk) h3 hl hn
  omega

/-! ## The theorems -/

/-- Chunks that are on a device fit on it. -/
def Fits (chunk : Nat) (l sizes : List Nat) : Prop := List.Forall₂ (fun n size => n * chunk ≤ size) l sizes

/-- **C110 (part)**.  On devices of any sizes the creation does not abort, makes at most the number of chunks asked for, and on no device
more than fit there. -/
theorem C110_at_most_partial {chunk num : Nat} {sizes : List Nat} (h3 : sizes.sum < 2 ^ 64) (hl : ∀ s ∈ sizes, 0 < s) (hn : num ≤ 65536) :
    ∃ l, create chunk num sizes = some l ∧ l.sum ≤ num ∧ Fits chunk l sizes := by
  refine ⟨_, create_eq h3 hl hn, sum_le h3 hl hn, ?_⟩
  unfold Fits
  rw [List.forall₂_map_left_iff, List.forall₂_same]
  intro s _
  calc onDev sizes.sum chunk num s * chunk ≤ s / chunk * chunk := Nat.mul_le_mul_right _ (Nat.le_trans (Nat.min_le_right _ _) (Nat.mod_le _ _))
    _ ≤ s := Nat.div_mul_le_self _ _

/-- A device has room for its share, if the virtual device is a little smaller than the devices together. -/
theorem onDev_room {total chunk num size : Nat} (h0 : 0 < size) (h1 : size < 2 ^ 56) (h2 : 0 < total) (h3 : total < 2 ^ 64)
    (hc : 16777216 ≤ chunk) (hroom : num * chunk * 1048577 ≤ total * 1048576) : onDev total chunk num size = share total size num := by
  unfold onDev avail
  apply Nat.min_eq_left
  have hlt : size / chunk < 2 ^ 32 := by
    rw [Nat.div_lt_iff_lt_mul (by omega)]
    have : 2 ^ 32 * 16777216 ≤ 2 ^ 32 * chunk := Nat.mul_le_mul_left _ hc
    omega
  rw [Nat.mod_eq_of_lt hlt, Nat.le_div_iff_mul_le (by omega)]
  have hs := share_up (num := num) h0 (by omega) h2 h3
  generalize share total size num = f at *
  have hp : 0 < total * 1048576 := by omega
  apply Nat.le_of_mul_le_mul_right _ hp
  calc f * chunk * (total * 1048576) = f * total * 1048576 * chunk := by ring
    _ ≤ num * size * 1048577 * chunk := Nat.mul_le_mul_right _ hs
    _ = num * chunk * 1048577 * size := by ring
    _ ≤ total * 1048576 * size := Nat.mul_le_mul_right _ hroom
    _ = size * (total * 1048576) := by ring

theorem sum_down {total num : Nat} (h2 : 0 < total) (h3 : total < 2 ^ 64) (h4 : 0 < num) {l : List Nat} (hl : ∀ s ∈ l, 0 < s ∧ s < 2 ^ 64) :
    num * l.sum * 1048575 ≤ ((l.map fun s => share total s num).sum + l.length) * total * 1048576 := by
  induction l with
  | nil => simp
  | cons s l ih =>
    have ih := ih fun x hx => hl x (List.mem_cons_of_mem _ hx)
    have hs := hl s List.mem_cons_self
    have h := share_down hs.1 hs.2 h2 h3 h4
    rw [List.map_cons, List.sum_cons, List.sum_cons, List.length_cons]
    calc num * (s + l.sum) * 1048575 = num * s * 1048575 + num * l.sum * 1048575 := by ring
      _ ≤ (share total s num + 1) * total * 1048576 + ((l.map fun s => share total s num).sum + l.length) * total * 1048576 := Nat.add_le_add (Nat.le_of_lt h) ih
      _ = _ := by ring

/-- **C110 (part)**.  If the virtual device is a little smaller than the devices together, at most one chunk per device is missing, and the
number on each device is its part of all, up to one and an error of a millionth. -/
theorem C110_close_partial {chunk num : Nat} {sizes : List Nat} (h3 : sizes.sum < 2 ^ 56) (hl : ∀ s ∈ sizes, 0 < s) (hne : sizes ≠ [])
    (hn : num ≤ 65536) (h4 : 0 < num) (hc : 16777216 ≤ chunk) (hroom : num * chunk * 1048577 ≤ sizes.sum * 1048576) :
    ∃ l, create chunk num sizes = some l ∧ num ≤ l.sum + sizes.length ∧
      List.Forall₂ (fun n size => n * sizes.sum * 1048576 ≤ num * size * 1048577 ∧ num * size * 1048575 < (n + 1) * sizes.sum * 1048576) l sizes := by
  have hpos : 0 < sizes.sum := by
    cases sizes with
    | nil => exact absurd rfl hne
    | cons a l => exact Nat.lt_of_lt_of_le (hl a List.mem_cons_self) (le_sum List.mem_cons_self)
  have heq : sizes.map (onDev sizes.sum chunk num) = sizes.map fun s => share sizes.sum s num := by
    apply List.map_congr_left
    intro s hs
    exact onDev_room (hl s hs) (Nat.lt_of_le_of_lt (le_sum hs) h3) hpos (by omega) hc hroom
  have hcr := create_eq (chunk := chunk) (by omega : sizes.sum < 2 ^ 64) hl hn
  rw [heq] at hcr
  refine ⟨_, hcr, ?_, ?_⟩
  · have h := sum_down hpos (by omega) h4 (l := sizes) fun s hs => ⟨hl s hs, by have := le_sum hs; omega⟩
    generalize (sizes.map fun s => share sizes.sum s num).sum = f at *
    generalize sizes.sum = t at *
    have h' : num * 1048575 ≤ (f + sizes.length) * 1048576 := by
      apply Nat.le_of_mul_le_mul_right _ hpos
      calc num * 1048575 * t = num * t * 1048575 := by ring
        _ ≤ (f + sizes.length) * t * 1048576 := h
        _ = (f + sizes.length) * 1048576 * t := by ring
    omega
  · rw [List.forall₂_map_left_iff, List.forall₂_same]
    intro s hs
    have hs2 : s < 2 ^ 64 := by have := le_sum hs; omega
    exact ⟨share_up (hl s hs) hs2 hpos (by omega), share_down (hl s hs) hs2 hpos (by omega) h4⟩

/-- **C110**.  A device that is added to a virtual device gets no more than fits, and no more than its size has of those that are there. -/
theorem C110_added {chunk count : Nat} {have_ new : List Nat} (h2 : 0 < have_.sum) (h3 : have_.sum < 2 ^ 64) (hl : ∀ s ∈ new, 0 < s ∧ s < 2 ^ 64) :
    Fits chunk (addNew chunk have_ count new) new ∧
    List.Forall₂ (fun n size => n * have_.sum * 1048576 ≤ count * size * 1048577) (addNew chunk have_ count new) new := by
  unfold Fits addNew
  constructor
  · rw [List.forall₂_map_left_iff, List.forall₂_same]
    intro s _
    calc onDev have_.sum chunk count s * chunk ≤ s / chunk * chunk := Nat.mul_le_mul_right _ (Nat.le_trans (Nat.min_le_right _ _) (Nat.mod_le _ _))
      _ ≤ s := Nat.div_mul_le_self _ _
  · rw [List.forall₂_map_left_iff, List.forall₂_same]
    intro s hs
    have h := share_up (num := count) (hl s hs).1 (hl s hs).2 h2 h3
    have hm : onDev have_.sum chunk count s ≤ share have_.sum s count := Nat.min_le_left _ _
    exact Nat.le_trans (Nat.mul_le_mul_right _ (Nat.mul_le_mul_right _ hm)) h

/-! ## Where it is exact -/

theorem fl_exact {n d v : Nat} (hd : 0 < d) (hn : 0 < n) (h : n * unit = d * v) (hp : 2 ^ (v.log2 - 23) ∣ v) : fl n d = v := by
  unfold fl
  rw [if_neg (by omega)]
  have e : n * unit / d = v := by rw [h]; exact Nat.mul_div_cancel_left _ hd
  rw [e, h]
  obtain ⟨q, hq⟩ := hp
  have hpp : 0 < 2 ^ (v.log2 - 23) := Nat.pow_pos (by decide)
  show rne (d * v) (d * 2 ^ (v.log2 - 23)) * 2 ^ (v.log2 - 23) = v
  generalize 2 ^ (v.log2 - 23) = p at *
  subst hq
  have hdp : 0 < d * p := Nat.mul_pos hd hpp
  have e1 : d * (p * q) = d * p * q := by ring
  have e2 : d * p * q % (d * p) = 0 := Nat.mul_mod_right _ _
  have e3 : d * p * q / (d * p) = q := Nat.mul_div_cancel_left _ hdp
  unfold rne
  rw [e1, e2, e3, if_pos (by omega)]
  ring

theorem log2_unit {m : Nat} (h0 : 0 < m) (h : m < 2 ^ 24) : 2 ^ ((m * unit).log2 - 23) ∣ m * unit := by
  have hne : m * unit ≠ 0 := Nat.ne_of_gt (Nat.mul_pos h0 unit_pos)
  have hlt : (m * unit).log2 < 152 := by
    rw [Nat.log2_lt hne]
    calc m * unit < 2 ^ 24 * unit := Nat.mul_lt_mul_of_pos_right h unit_pos
      _ = 2 ^ 152 := by unfold unit; decide
  apply Nat.dvd_trans (Nat.pow_dvd_pow 2 (by omega : (m * unit).log2 - 23 ≤ 128))
  exact Nat.dvd_mul_left _ _

theorem fl_small {m : Nat} (h0 : 0 < m) (h : m < 2 ^ 24) : fl m 1 = m * unit :=
  fl_exact (by decide) h0 (by ring) (log2_unit h0 h)

theorem fl_double {n : Nat} (hn : 0 < n) : fl (2 * n) 1 = 2 * fl n 1 := by
  have hb : 2 ^ 23 ≤ n * unit := by
    have : unit ≤ n * unit := Nat.le_mul_of_pos_left _ hn
    have h2 : 2 ^ 23 ≤ unit := by unfold unit; decide
    omega
  have hne : n * unit ≠ 0 := by have : 0 < 2 ^ 23 := by decide
                                omega
  unfold fl
  rw [if_neg (by omega), if_neg (by omega)]
  simp only [Nat.div_one, Nat.one_mul]
  have e : 2 * n * unit = 2 * (n * unit) := by ring
  rw [e]
  have hlog : (2 * (n * unit)).log2 = (n * unit).log2 + 1 := by
    rw [Nat.log2_eq_iff (by omega)]
    have := (Nat.log2_eq_iff (k := (n * unit).log2) hne).1 rfl
    rw [Nat.pow_succ, Nat.pow_succ]
    omega
  have hL : 23 ≤ (n * unit).log2 := (Nat.le_log2 hne).2 hb
  rw [hlog, show (n * unit).log2 + 1 - 23 = (n * unit).log2 - 23 + 1 by omega, Nat.pow_succ]
  generalize 2 ^ ((n * unit).log2 - 23) = p at *
  generalize n * unit = a at *
  have hr : rne (2 * a) (p * 2) = rne a p := by
    unfold rne
    have e1 : 2 * a / (p * 2) = a / p := by rw [Nat.mul_comm p 2]; exact Nat.mul_div_mul_left _ _ (by decide)
    have e2 : 2 * a % (p * 2) = 2 * (a % p) := by rw [Nat.mul_comm p 2]; exact Nat.mul_mod_mul_left _ _ _
    rw [e1, e2]
    have i1 : (2 * (2 * (a % p)) < p * 2) = (2 * (a % p) < p) := by apply propext; omega
    have i2 : (p * 2 < 2 * (2 * (a % p))) = (p < 2 * (a % p)) := by apply propext; omega
    simp only [i1, i2]
  rw [hr]; ring

theorem fl_pow {n : Nat} (hn : 0 < n) (k : Nat) : fl (2 ^ k * n) 1 = 2 ^ k * fl n 1 := by
  induction k with
  | zero => simp
  | succ k ih =>
    have : 2 ^ (k + 1) * n = 2 * (2 ^ k * n) := by ring
    rw [this, fl_double (Nat.mul_pos (Nat.pow_pos (by decide)) hn), ih]; ring

theorem fl_pos {n : Nat} (hn : 0 < n) : 0 < fl n 1 := by
  have h := (fl_nat hn).2
  have : 0 < (K - 1) * (n * unit) := Nat.mul_pos (by unfold K; decide) (Nat.mul_pos hn unit_pos)
  rcases Nat.eq_zero_or_pos (fl n 1) with h0 | h0
  · rw [h0] at h; omega
  · exact h0

/-- The share of one of `2^k` equal devices is exact. -/
theorem share_pow {size k j : Nat} (h0 : 0 < size) (hk : k < 24) (hj : 0 < j) (hn : 2 ^ k * j < 2 ^ 24) : share (2 ^ k * size) size (2 ^ k * j) = j := by
  have hkp : 0 < 2 ^ k := Nat.pow_pos (by decide)
  have hk2 : 2 ^ k < 2 ^ 24 := Nat.pow_lt_pow_right (by decide) hk
  have hsp := fl_pos h0
  have hM : fl (fl (2 ^ k * size) 1) (fl size 1) = 2 ^ k * unit := by
    rw [fl_pow h0]
    apply fl_exact hsp (Nat.mul_pos hkp hsp) (by ring) (log2_unit hkp hk2)
  have hjb : j < 2 ^ 24 := Nat.lt_of_le_of_lt (Nat.le_mul_of_pos_left _ hkp) hn
  have hE : fl (2 ^ k * j * unit) (2 ^ k * unit) = j * unit :=
    fl_exact (Nat.mul_pos hkp unit_pos) (Nat.mul_pos (Nat.mul_pos hkp hj) unit_pos) (by ring) (log2_unit hj hjb)
  unfold share
  rw [hM, fl_small (Nat.mul_pos hkp hj) hn]
  show fl (2 ^ k * j * unit) (2 ^ k * unit) / unit = j
  rw [hE]
  exact Nat.mul_div_cancel _ unit_pos

/-- **C110 (part)**.  On one, two, four, … devices of one size a number of chunks that they can share evenly is created in full, if the
virtual device is a little smaller than the devices together. -/
theorem C110_even_partial {chunk size k j : Nat} (h0 : 0 < size) (hk : k < 17) (hj : 0 < j) (hn : 2 ^ k * j ≤ 65536) (h3 : 2 ^ k * size < 2 ^ 56)
    (hc : 16777216 ≤ chunk) (hroom : j * chunk * 1048577 ≤ size * 1048576) :
    create chunk (2 ^ k * j) (List.replicate (2 ^ k) size) = some (List.replicate (2 ^ k) j) := by
  have hs : (List.replicate (2 ^ k) size).sum = 2 ^ k * size := by rw [List.sum_replicate]; rfl
  have hkp : 0 < 2 ^ k := Nat.pow_pos (by decide)
  rw [create_eq (by rw [hs]; omega) (by intro s hs; rw [List.eq_of_mem_replicate hs]; exact h0) hn, hs, List.map_replicate]
  have hr : 2 ^ k * j * chunk * 1048577 ≤ 2 ^ k * size * 1048576 := by
    calc 2 ^ k * j * chunk * 1048577 = 2 ^ k * (j * chunk * 1048577) := by ring
      _ ≤ 2 ^ k * (size * 1048576) := Nat.mul_le_mul_left _ hroom
      _ = 2 ^ k * size * 1048576 := by ring
  have hsz : size < 2 ^ 56 := Nat.lt_of_le_of_lt (Nat.le_mul_of_pos_left _ hkp) h3
  rw [onDev_room h0 hsz (Nat.mul_pos hkp h0) (by omega) hc hr, share_pow h0 (by omega) hj (by omega)]

/-! ## Where it fails -/

/-- **C110 (violated)**.  Three devices of the same size, 64 GiB and 4 KiB, and three chunks of 64 MiB: the quotient of the sizes is rounded
to a little more than 3, each device's share to a little less than 1, and the virtual device has no chunk at all. -/
theorem C110_equal_devices_violated : create 67108864 3 [68719480832, 68719480832, 68719480832] = some [0, 0, 0] := by decide +kernel

/-- **C110 (violated)**.  The same with 300 chunks: one is missing on each device. -/
theorem C110_missing_violated : create 67108864 300 [68719480832, 68719480832, 68719480832] = some [99, 99, 99] := by decide +kernel

/-- **C110 (violated)**.  Devices of 1 and 3 TiB and two chunks: the shares are a half and one and a half; one chunk is not created. -/
theorem C110_uneven_violated : create 67108864 2 [1099511627776, 3298534883328] = some [0, 1] := by decide +kernel

/-! ## Cases that meet the hypotheses -/

example : ∃ l, create 67108864 300 [68719480832, 68719480832, 68719480832] = some l ∧ l.sum ≤ 300 ∧
    Fits 67108864 l [68719480832, 68719480832, 68719480832] :=
  C110_at_most_partial (by decide) (by decide) (by decide)

example : ∃ l, create 67108864 300 [68719480832, 137438961664, 68719480832] = some l ∧ 300 ≤ l.sum + 3 :=
  let ⟨l, h1, h2, _⟩ := C110_close_partial (chunk := 67108864) (num := 300) (sizes := [68719480832, 137438961664, 68719480832])
    (by decide) (by decide) (by decide) (by decide) (by decide) (by decide) (by decide)
  ⟨l, h1, h2⟩

example : create 67108864 300 [68719480832, 68719480832, 68719480832, 68719480832] = some [75, 75, 75, 75] :=
  C110_even_partial (k := 2) (j := 75) (by decide) (by decide) (by decide) (by decide) (by decide) (by decide) (by decide)

/-- Two devices with 200 chunks, a third of the same size is added: it gets 100. -/
example : addNew 67108864 [68719480832, 68719480832] 200 [68719480832] = [100] := by decide +kernel

end HS.Spread
