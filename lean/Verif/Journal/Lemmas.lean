import Verif.Journal.Spec
import Mathlib.Tactic.Tauto
import Mathlib.Tactic.Ring
import Mathlib.Data.List.Nodup

namespace HS.Journal

theorem upd_same {α : Type} (f : Nat → α) (k : Nat) (x : α) : upd f k x k = x := by simp [upd]
theorem upd_ne {α : Type} {f : Nat → α} {k i : Nat} {x : α} (h : i ≠ k) : upd f k x i = f i := by
  simp [upd, h]

theorem div_unique {x q m : Nat} (h1 : q * m ≤ x) (h2 : x < (q + 1) * m) : x / m = q := by
  have hm : 0 < m := by
    rcases Nat.eq_zero_or_pos m with h | h
    · subst h; simp at h2
    · exact h
  apply Nat.div_eq_of_lt_le
  · exact h1
  · exact h2

theorem div_bounds (x : Nat) {m : Nat} (hm : 0 < m) : x / m * m ≤ x ∧ x < (x / m + 1) * m := by
  have h1 := Nat.div_add_mod x m
  have h2 := Nat.mod_lt x hm
  rw [Nat.add_mul, Nat.mul_comm (x / m) m]
  omega

theorem mod_eq (x : Nat) (m : Nat) : x = x / m * m + x % m := by
  have h1 := Nat.div_add_mod x m
  rw [Nat.mul_comm]; omega

theorem mod_le_of_div_eq {x y k m : Nat} (h : x / m = y / m) (hk : x + k ≤ y) :
    x % m + k ≤ y % m := by
  have h1 := mod_eq x m
  have h2 := mod_eq y m
  rw [h] at h1
  omega

theorem locate_eq {cs : Nat} (hcs : 0 < cs) (L : List Nat) (i o : Nat) :
    locate cs i o L = (L[o / cs]?).map (fun c => (c, i + o / cs, o % cs)) := by
  induction L generalizing i o with
  | nil => simp [locate]
  | cons c r ih =>
    unfold locate
    by_cases h : cs ≤ o
    · rw [if_pos h, ih]
      have h1 : o / cs = (o - cs) / cs + 1 := by
        rw [Nat.div_eq_sub_div hcs h]
      have h2 : (o - cs) % cs = o % cs := by
        rw [← Nat.mod_eq_sub_mod h]
      rw [h1, h2]
      simp only [List.getElem?_cons_succ]
      cases r[(o - cs) / cs]? <;> simp; omega
    · rw [if_neg h]
      have h1 : o / cs = 0 := Nat.div_eq_of_lt (by omega)
      have h2 : o % cs = o := Nat.mod_eq_of_lt (by omega)
      rw [h1, h2]; simp

theorem offsetToChunk_eq {cs : Nat} (hcs : 0 < cs) (d : Desc) (off : Nat) :
    offsetToChunk cs d off =
      if off / cs < d.ds / cs then none
      else (d.chunks[off / cs - d.ds / cs]?).map (fun c => (c, off / cs - d.ds / cs, off % cs)) := by
  unfold offsetToChunk rdown
  by_cases h : off / cs < d.ds / cs
  · rw [if_pos h, if_pos]
    have := div_bounds off hcs
    have h3 : (off / cs + 1) * cs ≤ d.ds / cs * cs := Nat.mul_le_mul_right cs h
    omega
  · rw [if_neg h]
    have hle : d.ds / cs * cs ≤ off := by
      have h1 := div_bounds off hcs
      have h2 : d.ds / cs * cs ≤ off / cs * cs := Nat.mul_le_mul_right cs (by omega)
      omega
    rw [if_neg (by omega), locate_eq hcs]
    have h1 : (off - d.ds / cs * cs) / cs = off / cs - d.ds / cs := by
      rw [Nat.mul_comm]; exact Nat.sub_mul_div ..
    have h2 : (off - d.ds / cs * cs) % cs = off % cs := by
      rw [Nat.mul_comm] at hle ⊢; exact Nat.sub_mul_mod hle
    rw [h1, h2]
    simp

end HS.Journal
