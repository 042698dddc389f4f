import Verif.Spread.Model
import Mathlib.Tactic.Linarith
import Mathlib.Tactic.Ring
/-! Errors of rounding. -/
namespace HS.Spread

def K : Nat := 2 ^ 24

theorem rne_err (a b : Nat) (hb : 0 < b) : 2 * (rne a b * b) ≤ 2 * a + b ∧ 2 * a ≤ 2 * (rne a b * b) + b := by
  have h := Nat.div_add_mod a b
  have hm := Nat.mod_lt a hb
  have h2 : (a / b + 1) * b = b * (a / b) + b := by ring
  have h3 : a / b * b = b * (a / b) := by ring
  unfold rne
  split
  · rw [h3]; omega
  · split
    · rw [h2]; omega
    · split
      · rw [h3]; omega
      · rw [h2]; omega

/-- The relative error of a rounding is at most 2^-24. -/
theorem fl_err {n d : Nat} (hn : 0 < n) (hd : 0 < d) (hbig : 2 ^ 23 * d ≤ n * unit) :
    K * (fl n d * d) ≤ (K + 1) * (n * unit) ∧ (K - 1) * (n * unit) ≤ K * (fl n d * d) := by
  have hy : 2 ^ 23 ≤ n * unit / d := (Nat.le_div_iff_mul_le hd).2 hbig
  have hy0 : n * unit / d ≠ 0 := by have : 0 < 2 ^ 23 := by decide
                                    omega
  have hL : 23 ≤ (n * unit / d).log2 := (Nat.le_log2 hy0).2 hy
  have hle : 2 ^ (n * unit / d).log2 ≤ n * unit / d := (Nat.le_log2 hy0).1 (Nat.le_refl _)
  have hle2 : 2 ^ (n * unit / d).log2 * d ≤ n * unit := (Nat.le_div_iff_mul_le hd).1 hle
  have hp : 2 ^ (n * unit / d).log2 = 2 ^ 23 * 2 ^ ((n * unit / d).log2 - 23) := by
    rw [← Nat.pow_add]; congr 1; omega
  have hfl : fl n d = rne (n * unit) (d * 2 ^ ((n * unit / d).log2 - 23)) * 2 ^ ((n * unit / d).log2 - 23) := by
    unfold fl; rw [if_neg (by omega)]
  rw [hfl]
  rw [hp] at hle2
  have hpp : 0 < 2 ^ ((n * unit / d).log2 - 23) := Nat.pow_pos (by decide)
  generalize 2 ^ ((n * unit / d).log2 - 23) = p at *
  generalize n * unit = a at *
  obtain ⟨e1, e2⟩ := rne_err a (d * p) (Nat.mul_pos hd hpp)
  have hr : rne a (d * p) * p * d = rne a (d * p) * (d * p) := by ring
  rw [hr]
  generalize rne a (d * p) * (d * p) = x at *
  have hb : 2 ^ 23 * p * d = 2 ^ 23 * (d * p) := by ring
  rw [hb] at hle2
  generalize d * p = b at *
  unfold K
  omega

/-- A product of bounds. -/
theorem chain_up {S K total size num T s M C E : Nat} (hS : 0 < S) (h1 : (K - 1) * (total * S) ≤ K * T) (h2 : K * s ≤ (K + 1) * (size * S))
    (h3 : (K - 1) * (T * S) ≤ K * (M * s)) (h4 : K * C ≤ (K + 1) * (num * S)) (h5 : K * (E * M) ≤ (K + 1) * (C * S)) :
    E * total * ((K - 1) * (K - 1) * K) ≤ num * size * S * ((K + 1) * (K + 1) * (K + 1)) := by
  generalize K - 1 = k at *
  generalize hk1 : K + 1 = k1 at *
  have a1 : K * K * (E * M) ≤ k1 * k1 * (num * (S * S)) := by
    calc K * K * (E * M) = K * (K * (E * M)) := by ring
      _ ≤ K * (k1 * (C * S)) := Nat.mul_le_mul_left _ h5
      _ = k1 * S * (K * C) := by ring
      _ ≤ k1 * S * (k1 * (num * S)) := Nat.mul_le_mul_left _ h4
      _ = k1 * k1 * (num * (S * S)) := by ring
  have a2 : k * k * (total * (S * S)) ≤ K * K * (M * s) := by
    calc k * k * (total * (S * S)) = k * S * (k * (total * S)) := by ring
      _ ≤ k * S * (K * T) := Nat.mul_le_mul_left _ h1
      _ = K * (k * (T * S)) := by ring
      _ ≤ K * (K * (M * s)) := Nat.mul_le_mul_left _ h3
      _ = K * K * (M * s) := by ring
  have a3 : E * total * (k * k * K) * (S * S) ≤ num * size * S * (k1 * k1 * k1) * (S * S) := by
    calc E * total * (k * k * K) * (S * S) = E * K * (k * k * (total * (S * S))) := by ring
      _ ≤ E * K * (K * K * (M * s)) := Nat.mul_le_mul_left _ a2
      _ = K * s * (K * K * (E * M)) := by ring
      _ ≤ K * s * (k1 * k1 * (num * (S * S))) := Nat.mul_le_mul_left _ a1
      _ ≤ k1 * (size * S) * (k1 * k1 * (num * (S * S))) := Nat.mul_le_mul_right _ h2
      _ = num * size * S * (k1 * k1 * k1) * (S * S) := by ring
  exact Nat.le_of_mul_le_mul_right a3 (Nat.mul_pos hS hS)

theorem chain_down {S K total size num T s M C E : Nat} (hS : 0 < S) (h1 : K * T ≤ (K + 1) * (total * S)) (h2 : (K - 1) * (size * S) ≤ K * s)
    (h3 : K * (M * s) ≤ (K + 1) * (T * S)) (h4 : (K - 1) * (num * S) ≤ K * C) (h5 : (K - 1) * (C * S) ≤ K * (E * M)) :
    num * size * S * ((K - 1) * (K - 1) * (K - 1)) ≤ E * total * ((K + 1) * (K + 1) * K) := by
  generalize K - 1 = k at *
  generalize hk1 : K + 1 = k1 at *
  have a1 : k * k * (num * (S * S)) ≤ K * K * (E * M) := by
    calc k * k * (num * (S * S)) = k * S * (k * (num * S)) := by ring
      _ ≤ k * S * (K * C) := Nat.mul_le_mul_left _ h4
      _ = K * (k * (C * S)) := by ring
      _ ≤ K * (K * (E * M)) := Nat.mul_le_mul_left _ h5
      _ = K * K * (E * M) := by ring
  have a2 : K * K * (M * s) ≤ k1 * k1 * (total * (S * S)) := by
    calc K * K * (M * s) = K * (K * (M * s)) := by ring
      _ ≤ K * (k1 * (T * S)) := Nat.mul_le_mul_left _ h3
      _ = k1 * S * (K * T) := by ring
      _ ≤ k1 * S * (k1 * (total * S)) := Nat.mul_le_mul_left _ h1
      _ = k1 * k1 * (total * (S * S)) := by ring
  have a3 : num * size * S * (k * k * k) * (S * S) ≤ E * total * (k1 * k1 * K) * (S * S) := by
    calc num * size * S * (k * k * k) * (S * S) = k * (size * S) * (k * k * (num * (S * S))) := by ring
      _ ≤ K * s * (k * k * (num * (S * S))) := Nat.mul_le_mul_right _ h2
      _ ≤ K * s * (K * K * (E * M)) := Nat.mul_le_mul_left _ a1
      _ = E * K * (K * K * (M * s)) := by ring
      _ ≤ E * K * (k1 * k1 * (total * (S * S))) := Nat.mul_le_mul_left _ a2
      _ = E * total * (k1 * k1 * K) * (S * S) := by ring
  exact Nat.le_of_mul_le_mul_right a3 (Nat.mul_pos hS hS)

theorem unit_pos : 0 < unit := Nat.pow_pos (by decide)

/-- A whole number that is not 0 is converted with a relative error of at most 2^-24. -/
theorem fl_nat {n : Nat} (hn : 0 < n) : K * fl n 1 ≤ (K + 1) * (n * unit) ∧ (K - 1) * (n * unit) ≤ K * fl n 1 := by
  have hb : 2 ^ 23 * 1 ≤ n * unit := by
    have : unit ≤ n * unit := Nat.le_mul_of_pos_left _ hn
    have h2 : 2 ^ 23 * 1 ≤ unit := by unfold unit; decide
    omega
  have := fl_err hn (by decide : 0 < 1) hb
  simpa using this

/-- Bounds of the share: the exact share, `num * size / total`, with a relative error below 2^-21. -/
theorem share_bounds {total size num : Nat} (h0 : 0 < size) (h1 : size < 2 ^ 64) (h2 : 0 < total) (h3 : total < 2 ^ 64) (h4 : 0 < num) :
    share total size num * total * ((K - 1) * (K - 1) * K) ≤ num * size * ((K + 1) * (K + 1) * (K + 1)) ∧
    num * size * ((K - 1) * (K - 1) * (K - 1)) < (share total size num + 1) * total * ((K + 1) * (K + 1) * K) := by
  have hT := fl_nat h2
  have hs := fl_nat h0
  have hC := fl_nat h4
  generalize hTe : fl total 1 = T at *
  generalize hse : fl size 1 = s at *
  generalize hCe : fl num 1 = C at *
  have hT1 : unit ≤ 2 * T := by
    have : unit ≤ total * unit := Nat.le_mul_of_pos_left _ h2
    have h := hT.2
    unfold K at h; omega
  have hC1 : unit ≤ 2 * C := by
    have : unit ≤ num * unit := Nat.le_mul_of_pos_left _ h4
    have h := hC.2
    unfold K at h; omega
  have hs1 : unit ≤ 2 * s := by
    have : unit ≤ size * unit := Nat.le_mul_of_pos_left _ h0
    have h := hs.2
    unfold K at h; omega
  have hs2 : s ≤ 2 ^ 65 * unit := by
    have : size * unit ≤ 2 ^ 64 * unit := Nat.mul_le_mul_right _ (Nat.le_of_lt h1)
    have h := hs.1
    unfold K at h; omega
  have hT2 : T ≤ 2 ^ 65 * unit := by
    have : total * unit ≤ 2 ^ 64 * unit := Nat.mul_le_mul_right _ (Nat.le_of_lt h3)
    have h := hT.1
    unfold K at h; omega
  have hu := unit_pos
  have hu2 : unit = 2 ^ 128 := rfl
  have hbM : 2 ^ 23 * s ≤ T * unit := by
    have : unit * unit ≤ 2 * T * unit := Nat.mul_le_mul_right _ hT1
    have e : (2 : Nat) * T * unit = 2 * (T * unit) := by ring
    have e2 : 2 ^ 128 * unit = unit * unit := by rw [← hu2]
    omega
  have hM := fl_err (by omega : 0 < T) (by omega : 0 < s) hbM
  generalize hMe : fl T s = M at *
  have hMpos : 0 < M := by
    rcases Nat.eq_zero_or_pos M with h | h
    · exfalso
      have h6 := hM.2
      rw [h] at h6
      simp only [Nat.zero_mul, Nat.mul_zero] at h6
      have : 0 < (K - 1) * (T * unit) := Nat.mul_pos (by unfold K; decide) (Nat.mul_pos (by omega) hu)
      omega
    · exact h
  have hMs : M * unit ≤ 2 * (M * s) := by
    calc M * unit ≤ M * (2 * s) := Nat.mul_le_mul_left _ hs1
      _ = 2 * (M * s) := by ring
  have hTu : T * unit ≤ 2 ^ 65 * unit * unit := Nat.mul_le_mul_right _ hT2
  have hM2 : M ≤ 2 ^ 67 * unit := by
    have h6 := hM.1
    unfold K at h6
    have h7 : M * unit ≤ 2 ^ 67 * unit * unit := by
      have e : (2 : Nat) ^ 67 * unit * unit = 4 * (2 ^ 65 * unit * unit) := by ring
      rw [e]
      omega
    exact Nat.le_of_mul_le_mul_right h7 hu
  have hbE : 2 ^ 23 * M ≤ C * unit := by
    have : unit * unit ≤ 2 * C * unit := Nat.mul_le_mul_right _ hC1
    have e : (2 : Nat) * C * unit = 2 * (C * unit) := by ring
    have e2 : 2 ^ 128 * unit = unit * unit := by rw [← hu2]
    omega
  have hE := fl_err (by omega : 0 < C) hMpos hbE
  have hsh : share total size num = fl C M / unit := by
    unfold share; rw [hTe, hse, hCe, hMe]
  rw [hsh]
  generalize fl C M = E at *
  have up := chain_up hu hT.2 hs.1 hM.2 hC.1 hE.1
  have dn := chain_down hu hT.1 hs.2 hM.1 hC.2 hE.2
  have q1 : E / unit * unit ≤ E := Nat.div_mul_le_self _ _
  have q2 : E < (E / unit + 1) * unit := by
    have := Nat.lt_div_mul_add (a := E) hu
    have e : (E / unit + 1) * unit = E / unit * unit + unit := by ring
    omega
  generalize E / unit = f at *
  have hKp : 0 < (K + 1) * (K + 1) * K := by unfold K; decide
  constructor
  · apply Nat.le_of_mul_le_mul_right _ hu
    calc f * total * ((K - 1) * (K - 1) * K) * unit = f * unit * (total * ((K - 1) * (K - 1) * K)) := by ring
      _ ≤ E * (total * ((K - 1) * (K - 1) * K)) := Nat.mul_le_mul_right _ q1
      _ = E * total * ((K - 1) * (K - 1) * K) := by ring
      _ ≤ _ := up
      _ = num * size * ((K + 1) * (K + 1) * (K + 1)) * unit := by ring
  · apply Nat.lt_of_mul_lt_mul_right (a := unit)
    calc num * size * ((K - 1) * (K - 1) * (K - 1)) * unit = num * size * unit * ((K - 1) * (K - 1) * (K - 1)) := by ring
      _ ≤ _ := dn
      _ = E * (total * ((K + 1) * (K + 1) * K)) := by ring
      _ < (f + 1) * unit * (total * ((K + 1) * (K + 1) * K)) := Nat.mul_lt_mul_of_pos_right q2 (Nat.mul_pos h2 hKp)
      _ = (f + 1) * total * ((K + 1) * (K + 1) * K) * unit := by ring

end HS.Spread
