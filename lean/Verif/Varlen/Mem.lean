import Verif.Common
/-!
# Byte arrays

Support for `Verif.Varlen`: memory as a function from offsets to bytes, with copies in and out.
-/
namespace HS.Varlen

/-- Memory; bytes are numbers. -/
abbrev Mem := Nat → Nat

abbrev Bytes := List Nat

/-- The `n` bytes from `a` on. -/
def read (m : Mem) (a n : Nat) : Bytes := (List.range n).map (fun i => m (a + i))

/-- `memcpy` and `memmove` to `a`. -/
def write (m : Mem) (a : Nat) (bs : Bytes) : Mem :=
  fun x => if a ≤ x ∧ x < a + bs.length then bs.getD (x - a) 0 else m x

@[simp] theorem read_length {m : Mem} {a n : Nat} : (read m a n).length = n := by simp [read]

theorem read_getD {m : Mem} {a n i : Nat} (h : i < n) : (read m a n).getD i 0 = m (a + i) := by
  simp [read, List.getD, h]

theorem write_out {m : Mem} {a x : Nat} {bs : Bytes} (h : x < a ∨ a + bs.length ≤ x) : write m a bs x = m x := by
  simp only [write]
  rw [if_neg]
  omega

theorem write_in {m : Mem} {a i : Nat} {bs : Bytes} (h : i < bs.length) : write m a bs (a + i) = bs.getD i 0 := by
  simp only [write]
  rw [if_pos (by omega)]
  congr 1
  omega

theorem read_congr {m m' : Mem} {a a' n : Nat} (h : ∀ i, i < n → m (a + i) = m' (a' + i)) : read m a n = read m' a' n := by
  simp only [read]
  apply List.map_congr_left
  intro i hi
  exact h i (by simpa using hi)

theorem read_write {m : Mem} {a : Nat} {bs : Bytes} : read (write m a bs) a bs.length = bs := by
  apply List.ext_getElem
  · simp
  · intro i h1 h2
    have := write_in (m := m) (a := a) h2
    simp [read, this, List.getD, h2]

theorem read_other {m : Mem} {a a' n : Nat} {bs : Bytes} (h : a' + n ≤ a ∨ a + bs.length ≤ a' ∨ bs.length = 0) : read (write m a bs) a' n = read m a' n := by
  apply read_congr
  intro i hi
  apply write_out
  omega

theorem read_append {m : Mem} {a n k : Nat} : read m a (n + k) = read m a n ++ read m (a + n) k := by
  simp only [read, List.range_add, List.map_append, List.map_map]
  congr 1
  apply List.map_congr_left
  intro i _
  simp [Nat.add_assoc]

theorem read_zero {m : Mem} {a : Nat} : read m a 0 = [] := rfl

end HS.Varlen
