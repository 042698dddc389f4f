import Verif.Slab.Model
/-!
# Slab size class selection (C13)

Specification: slab `i` holds `2^i` blocks.
-/
namespace HS.Slab

theorem slabTbl_ok : ∀ n : Fin 257, 1 ≤ n.val →
    n.val ≤ 2 ^ (slabTbl[n.val]'(by rw [slabTbl_length]; exact n.isLt)) ∧
    (∀ j, j < slabTbl[n.val]'(by rw [slabTbl_length]; exact n.isLt) → 2 ^ j < n.val) := by
  decide +kernel

theorem downTbl_ok : ∀ n : Fin 257, 1 ≤ n.val →
    2 ^ (downTbl[n.val]'(by rw [downTbl_length]; exact n.isLt)).1 ≤ n.val ∧
    n.val < 2 ^ ((downTbl[n.val]'(by rw [downTbl_length]; exact n.isLt)).1 + 1) ∧
    (downTbl[n.val]'(by rw [downTbl_length]; exact n.isLt)).2 =
      n.val - 2 ^ (downTbl[n.val]'(by rw [downTbl_length]; exact n.isLt)).1 := by
  decide +kernel

/-- **C13**: for every 16-bit count the slab chosen for an allocation is the smallest one that holds
at least `n` blocks. -/
theorem C13_find_slab (n : Nat) (h1 : 1 ≤ n) (h2 : n ≤ 65535) :
    n ≤ 2 ^ findSlab n ∧ ∀ j, j < findSlab n → 2 ^ j < n := by
  have hn : n % 2 ^ 16 = n := Nat.mod_eq_of_lt (by omega)
  unfold findSlab
  simp only [hn]
  by_cases h : n ≥ tblSize
  · have h' : n > 1 := by simp [tblSize] at h; omega
    rw [dif_pos h, if_pos h']
    have hz : n - 1 ≠ 0 := by omega
    have hl := Nat.log2_self_le hz
    have hu : n - 1 < 2 ^ (Nat.log2 (n - 1) + 1) := (Nat.log2_lt hz).1 (by omega)
    refine ⟨by omega, ?_⟩
    intro j hj
    have : 2 ^ j ≤ 2 ^ (Nat.log2 (n - 1)) := Nat.pow_le_pow_right (by omega) (by omega)
    omega
  · rw [dif_neg h]
    exact slabTbl_ok ⟨n, by simp [tblSize] at h; omega⟩ h1

/-- **C13** partial: for every 16-bit count but the last, the slab chosen when caching a free run is
the largest one not exceeding it, with the exact remainder.  Missing: 65535, see
`C13_round_down_violated`. -/
theorem C13_round_down_partial (n : Nat) (h1 : 1 ≤ n) (h2 : n < 65535) :
    ∃ s r, findRoundDownSlab n = some (s, r) ∧ 2 ^ s ≤ n ∧ n < 2 ^ (s + 1) ∧ n = 2 ^ s + r := by
  have hn : n % 2 ^ 16 = n := Nat.mod_eq_of_lt (by omega)
  unfold findRoundDownSlab
  simp only [hn]
  by_cases h : n ≥ tblSize
  · have h3 : (257 : Nat) ≤ n := h
    rw [dif_pos h]
    have hf : findSlab (n + 1) = Nat.log2 n + 1 := by
      have hm : (n + 1) % 2 ^ 16 = n + 1 := Nat.mod_eq_of_lt (by omega)
      unfold findSlab
      simp only [hm]
      rw [dif_pos (show n + 1 ≥ tblSize by simp [tblSize]; omega), if_pos (by omega)]
      rfl
    have hz : n ≠ 0 := by omega
    have hl := Nat.log2_self_le hz
    have hu : n < 2 ^ (Nat.log2 n + 1) := (Nat.log2_lt hz).1 (by omega)
    rw [hf, if_neg (by omega)]
    exact ⟨_, _, rfl, hl, hu, by simp only [Nat.add_sub_cancel]; omega⟩
  · rw [dif_neg h]
    have := downTbl_ok ⟨n, by simp [tblSize] at h; omega⟩ h1
    have e := this.2.2
    have l := this.1
    simp only at e l
    exact ⟨_, _, rfl, this.1, this.2.1, (by rw [e]; omega :
      n = 2 ^ (downTbl[n]'(by rw [downTbl_length]; simp [tblSize] at h; omega)).1 +
        (downTbl[n]'(by rw [downTbl_length]; simp [tblSize] at h; omega)).2)⟩

/-- **C13** is violated for a run of 65535 blocks: the 16-bit increment wraps to 0 and the shift by
-1 is undefined behaviour. -/
theorem C13_round_down_violated : findRoundDownSlab 65535 = none := by decide +kernel

/-- Non-vacuity, on both sides of the table. -/
example : findSlab 257 = 9 ∧ findSlab 256 = 8 ∧ findRoundDownSlab 300 = some (8, 44) ∧
    findRoundDownSlab 7 = some (2, 3) := by decide +kernel

end HS.Slab
