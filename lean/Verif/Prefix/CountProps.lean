import Verif.Prefix.Model
import Mathlib.Data.Finset.Card
import Mathlib.Tactic.Ring

/-!
# C77: how many entries of a node go into a given size
-/
namespace HS.Prefix

/-- What entries take up in a node of their own: each its suffix, and each prefix once. -/
def sizeOf' (P : Params) (l : List SE) : Nat := l.length * P.ss + (l.map SE.slot).toFinset.card * P.ps

/-- The prefixes of the entries that are not among those seen. -/
def fresh (seen : List Nat) (l : List SE) : Nat := ((l.map SE.slot).toFinset \ seen.toFinset).card

theorem insert_erase_self (S : Finset Nat) (a : Nat) : insert a (S.erase a) = insert a S := by
  ext x
  simp only [Finset.mem_insert, Finset.mem_erase]
  constructor
  · rintro (h | h)
    · exact .inl h
    · exact .inr h.2
  · rintro (h | h)
    · exact .inl h
    · by_cases hx : x = a
      · exact .inl hx
      · exact .inr ⟨hx, h⟩

theorem fresh_cons (seen : List Nat) (e : SE) (l : List SE) :
    fresh seen (e :: l) = (if e.slot ∈ seen then 0 else 1) + fresh (if e.slot ∈ seen then seen else e.slot :: seen) l := by
  unfold fresh
  rw [List.map_cons, List.toFinset_cons]
  by_cases h : e.slot ∈ seen
  · rw [if_pos h, if_pos h, Finset.insert_sdiff_of_mem _ (List.mem_toFinset.2 h), Nat.zero_add]
  · rw [if_neg h, if_neg h, Finset.insert_sdiff_of_notMem _ (by rwa [List.mem_toFinset]), List.toFinset_cons, Finset.sdiff_insert]
    generalize (l.map SE.slot).toFinset \ seen.toFinset = S
    rw [← insert_erase_self S e.slot, Finset.card_insert_of_notMem (Finset.notMem_erase _ _), Nat.add_comm]

theorem count_iff (P : Params) : ∀ (l : List SE) (seen : List Nat) (cum size : Nat), cum ≤ size → ∀ j, j ≤ l.length →
    (j ≤ countBySize P l seen cum size ↔ cum + (j * P.ss + fresh seen (l.take j) * P.ps) ≤ size) := by
  intro l
  induction l with
  | nil =>
    intro seen cum size hc j hj
    have : j = 0 := by simpa using hj
    subst this
    simp [countBySize, fresh, hc]
  | cons e l ih =>
    intro seen cum size hc j hj
    cases j with
    | zero => simp [fresh, hc]
    | succ j =>
      have hj' : j ≤ l.length := by simpa using hj
      rw [List.take_succ_cons, fresh_cons]
      unfold countBySize
      simp only
      generalize hs : (if e.slot ∈ seen then seen else e.slot :: seen) = seen'
      have hcost : cum + ((j + 1) * P.ss + ((if e.slot ∈ seen then 0 else 1) + fresh seen' (l.take j)) * P.ps) =
          (cum + (if e.slot ∈ seen then 0 else P.ps) + P.ss) + (j * P.ss + fresh seen' (l.take j) * P.ps) := by
        by_cases h : e.slot ∈ seen
        · simp only [if_pos h]; ring
        · simp only [if_neg h]; ring
      rw [hcost]
      by_cases h : size < cum + (if e.slot ∈ seen then 0 else P.ps) + P.ss
      · rw [if_pos h]
        constructor
        · intro h2; omega
        · intro h2; omega
      · rw [if_neg h]
        have := ih seen' (cum + (if e.slot ∈ seen then 0 else P.ps) + P.ss) size (by omega) j hj'
        rw [← this]
        omega

theorem count_le (P : Params) : ∀ (l : List SE) (seen : List Nat) (cum size : Nat), countBySize P l seen cum size ≤ l.length := by
  intro l
  induction l with
  | nil => intro _ _ _; exact Nat.le_refl _
  | cons e l ih =>
    intro seen cum size
    unfold countBySize
    simp only
    by_cases h : size < cum + (if e.slot ∈ seen then 0 else P.ps) + P.ss
    · rw [if_pos h]; exact Nat.zero_le _
    · rw [if_neg h]
      have := ih (if e.slot ∈ seen then seen else e.slot :: seen) (cum + (if e.slot ∈ seen then 0 else P.ps) + P.ss) size
      rw [List.length_cons]
      omega

/-- **C77 (part)**.  The number of entries of a node, from one on, that go into a size is the largest one: so many do, and one more, if there is one,
does not. -/
theorem C77_entries_by_size (P : Params) (s : PN) (start size : Nat) :
    let l := s.suf.drop start
    let n := s.numBySize P start size
    n ≤ l.length ∧ ∀ j, j ≤ l.length → (j ≤ n ↔ sizeOf' P (l.take j) ≤ size) := by
  refine ⟨count_le _ _ _ _ _, fun j hj => ?_⟩
  have h := count_iff P (s.suf.drop start) [] 0 size (Nat.zero_le _) j hj
  unfold PN.numBySize
  rw [h]
  unfold sizeOf' fresh
  have hl : ((s.suf.drop start).take j).length = j := by rw [List.length_take]; omega
  simp [hl]

/-- Prefixes of 16 bytes and suffixes of 8: two entries that share a prefix go into 40 bytes, a third with another does not. -/
example : (⟨fun _ => ⟨1, 0, 0⟩, fun _ => true, 2, 2, [⟨0, 1, 1⟩, ⟨0, 2, 2⟩, ⟨1, 3, 3⟩]⟩ : PN).numBySize
    ⟨4096, 16, 8, 64, id, id, fun a _ => a, id, id, fun a _ => a, fun a _ => a⟩ 0 40 = 2 := by decide

end HS.Prefix
