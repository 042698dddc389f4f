import Verif.Fixed.Lemmas
/-!
# Properties of the fixed-size allocator (C08)

`load total bm` is the allocator after boot with persisted bitmap `bm`; the `Ledger` of
`Verif.Fixed.Spec` records ownership from calls and results only.
-/
namespace HS.Fixed

/-- **C08** partial: for every boot bitmap and every legal history in which no block reserved by
replay is freed before `recovery_completed`, a block returned by the next `alloc` lies in the
chunk and is owned by nobody.  Missing: early frees, where it is false (`C08_..._violated`). -/
theorem C08_no_double_alloc_partial (total : Nat) (bm : Nat → Bool) (ops : List Op)
    (hlegal : History (fun l op => l.legal total op ∧ l.noEarlyFree op)
      (load total bm) (Ledger.boot bm) ops) (b : Nat)
    (hb : (stAfter (load total bm) ops).alloc.2 = .ok b) :
    b < total ∧ (ledgerAfter (load total bm) (Ledger.boot bm) ops).owned b = false := by
  have h := inv_run _ _ ops (inv_load total bm) hlegal
  have hs := inv_step _ _ .alloc h.1 trivial trivial
  have := hs.2.2.1 b rfl hb
  refine ⟨?_, this.1⟩
  have h2 := h.2
  have h3 := this.2
  rw [h2] at h3
  exact h3

/-- **C08** partial: `alloc` reports SPACE_FULL only if every block of the chunk is owned. -/
theorem C08_space_full_means_all_owned_partial (total : Nat) (bm : Nat → Bool) (ops : List Op)
    (hlegal : History (fun l op => l.legal total op ∧ l.noEarlyFree op)
      (load total bm) (Ledger.boot bm) ops)
    (hb : (stAfter (load total bm) ops).alloc.2 = .spaceFull) :
    ∀ b, b < total → (ledgerAfter (load total bm) (Ledger.boot bm) ops).owned b = true := by
  have h := inv_run _ _ ops (inv_load total bm) hlegal
  have hs := inv_step _ _ .alloc h.1 trivial trivial
  have := hs.2.2.2 rfl hb
  intro b hbt
  apply this
  rw [h.2]
  exact hbt

/-- **C08** partial: once recovery has completed, the queue of free blocks holds each block that
nobody owns exactly once, and nothing else; so `available_blks()` is exactly their number. -/
theorem C08_available_partial (total : Nat) (bm : Nat → Bool) (ops : List Op)
    (hlegal : History (fun l op => l.legal total op ∧ l.noEarlyFree op)
      (load total bm) (Ledger.boot bm) ops)
    (hrc : (ledgerAfter (load total bm) (Ledger.boot bm) ops).recovering = false) :
    (stAfter (load total bm) ops).available =
      ((List.range total).filter
        (fun b => ! (ledgerAfter (load total bm) (Ledger.boot bm) ops).owned b)).length := by
  have h := inv_run _ _ ops (inv_load total bm) hlegal
  have ht : (stAfter (load total bm) ops).total = total := h.2
  obtain ⟨h1, h2, h3, h4, h5, h6, h7, h8⟩ := h.1
  rw [ht] at h2 h3
  have hact : (stAfter (load total bm) ops).phase = .active := by
    cases hp : (stAfter (load total bm) ops).phase with
    | active => rfl
    | recovering => have := h7.1 hp; simp [hrc] at this
  have hres := h8 hact
  have hmem : ∀ b, b ∈ (stAfter (load total bm) ops).q ↔ b ∈ ((List.range total).filter
        (fun b => ! (ledgerAfter (load total bm) (Ledger.boot bm) ops).owned b)) := by
    intro b
    simp only [List.mem_filter, List.mem_range, Bool.not_eq_eq_eq_not, Bool.not_true]
    constructor
    · intro hb
      refine ⟨h2 b hb, ?_⟩
      cases ho : (ledgerAfter (load total bm) (Ledger.boot bm) ops).owned b with
      | false => rfl
      | true => have := (h4 b hb ho).1; rw [hres] at this; simp at this
    · rintro ⟨hb, ho⟩
      rcases h3 b hb with h | h
      · exact h
      · rw [h] at ho; simp at ho
  apply Nat.le_antisymm
  · exact (List.subperm_of_subset h1 (fun b hb => (hmem b).1 hb)).length_le
  · exact (List.subperm_of_subset (List.nodup_range.filter _)
      (fun b hb => (hmem b).2 hb)).length_le

/-- Non-vacuity: boot with block 2 persisted, replay reserves block 0, allocate, complete
recovery, allocate and free: all legal. -/
example : History (fun l op => l.legal 4 op ∧ l.noEarlyFree op)
    (load 4 (fun b => b == 2)) (Ledger.boot (fun b => b == 2))
    [.reserve 0, .alloc, .free 2, .recoveryCompleted, .alloc, .free 1] := by
  simp [History, Ledger.legal, Ledger.noEarlyFree, Ledger.boot, Ledger.next, step, load, St.reserve,
    St.alloc, allocLoop, St.free, St.push, St.recoveryCompleted, rcLoop, set, List.range_succ]

/-- **C08** is violated by the code: replay reserves block 0, recovery frees it again before
`recovery_completed` (both legal), and the allocator then hands block 0 out twice. -/
theorem C08_double_alloc_violated :
    ∃ (total : Nat) (bm : Nat → Bool) (ops : List Op) (b : Nat),
      History (fun l op => l.legal total op) (load total bm) (Ledger.boot bm) ops ∧
      (stAfter (load total bm) ops).alloc.2 = .ok b ∧
      (ledgerAfter (load total bm) (Ledger.boot bm) ops).owned b = true := by
  refine ⟨3, fun b => b == 2, [.reserve 0, .free 0, .recoveryCompleted, .alloc, .alloc], 0, ?_, ?_, ?_⟩
  · simp [History, Ledger.legal, Ledger.boot, Ledger.next, step, load, St.reserve,
      St.alloc, allocLoop, St.free, St.push, St.recoveryCompleted, rcLoop, set, List.range_succ]
  · decide
  · decide

end HS.Fixed
