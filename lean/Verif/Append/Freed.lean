import Verif.Append.Lemmas
/-!
# What the append allocator remembers of a history (C57)

The specification keeps the calls that are still in effect: a completed checkpoint flush makes everything up to
it permanent, a crash takes away everything since the last flush.
-/
namespace HS.Append

/-- The calls that are permanent, and the calls in effect, after a history. -/
def effect (h : List Op × List Op) : List Op → List Op × List Op
  | [] => h
  | .cpFlush :: ops => effect (h.2, h.2) ops
  | .crash :: ops => effect (h.1, h.1) ops
  | op :: ops => effect (h.1, h.2 ++ [op]) ops

/-- The calls in effect after the history `ops` of a new allocator. -/
def inEffect (ops : List Op) : List Op := (effect ([], []) ops).2

/-- The calls that would still be in effect if the system crashed after `ops`. -/
def permanent (ops : List Op) : List Op := (effect ([], []) ops).1

/-- Number of blocks freed by a list of calls. -/
def freedBlks : List Op → Nat
  | [] => 0
  | .free b :: ops => b.cnt + freedBlks ops
  | _ :: ops => freedBlks ops

/-- One past the highest committed block. -/
def commitEnd : List Op → Nat
  | [] => 0
  | .commit b :: ops => max (b.num + b.cnt) (commitEnd ops)
  | _ :: ops => commitEnd ops

theorem freedBlks_append (a b : List Op) : freedBlks (a ++ b) = freedBlks a + freedBlks b := by
  induction a with
  | nil => simp [freedBlks]
  | cons o a ih => cases o <;> simp [freedBlks, ih] <;> omega

theorem commitEnd_append (a b : List Op) : commitEnd (a ++ b) = max (commitEnd a) (commitEnd b) := by
  induction a with
  | nil => simp [commitEnd]
  | cons o a ih => cases o <;> simp [commitEnd, ih] <;> omega

/-- The allocator's state agrees with the calls `h.2` in effect and its super block with the permanent ones. -/
structure EInv (total : Nat) (s : St) (h : List Op × List Op) : Prop where
  fr : s.freeable = freedBlks h.2 % u32
  cm : s.commit = commitEnd h.2
  sv : s.disk = none ∧ freedBlks h.1 % u32 = 0 ∧ commitEnd h.1 = 0 ∨
    s.disk = some ⟨commitEnd h.1, freedBlks h.1 % u32⟩
  cl : s.dirty = false → freedBlks h.2 % u32 = freedBlks h.1 % u32 ∧ commitEnd h.2 = commitEnd h.1

theorem einv_run {total : Nat} (ht : total < u32) (ops : List Op) : ∀ (s : St) (h : List Op × List Op),
    EInv total s h → (∀ op ∈ ops, OpOk total op) → EInv total (runOut step s ops).1 (effect h ops) := by
  induction ops with
  | nil => intro s h hi _; exact hi
  | cons op ops ih =>
    intro s h hi ho
    have hop := ho op (by simp)
    have hr : ∀ o ∈ ops, OpOk total o := fun o hm => ho o (by simp [hm])
    cases op with
    | alloc n r =>
      refine ih _ (h.1, h.2 ++ [.alloc n r]) ?_ hr
      simp only [step, St.alloc]
      split <;>
      exact ⟨by simp [freedBlks_append, freedBlks, hi.fr], by simp [commitEnd_append, commitEnd, hi.cm], hi.sv,
        by simpa [freedBlks_append, freedBlks, commitEnd_append, commitEnd] using hi.cl⟩
    | free b =>
      refine ih _ (h.1, h.2 ++ [.free b]) ?_ hr
      refine ⟨?_, by simp [step, St.free, commitEnd_append, commitEnd, hi.cm], hi.sv, by simp [step, St.free]⟩
      simp [step, St.free, freedBlks_append, freedBlks, hi.fr]
    | commit b =>
      refine ih _ (h.1, h.2 ++ [.commit b]) ?_ hr
      simp only [OpOk] at hop
      have hm : (b.num + b.cnt) % u32 = b.num + b.cnt := Nat.mod_eq_of_lt (by omega)
      have hc := hi.cm
      simp only [step, St.reserveOnDisk, hm]
      split
      · refine ⟨by simp [freedBlks_append, freedBlks, hi.fr], by simp [commitEnd_append, commitEnd]; omega, hi.sv, ?_⟩
        intro hd
        have := hi.cl hd
        refine ⟨by simpa [freedBlks_append, freedBlks] using this.1, ?_⟩
        simp [commitEnd_append, commitEnd]; omega
      · exact ⟨by simp [freedBlks_append, freedBlks, hi.fr], by simp [commitEnd_append, commitEnd]; omega, hi.sv, by simp⟩
    | reserveCache b =>
      refine ih _ (h.1, h.2 ++ [.reserveCache b]) ?_ hr
      simp only [step, St.reserveOnCache]
      split <;>
      exact ⟨by simp [freedBlks_append, freedBlks, hi.fr], by simp [commitEnd_append, commitEnd, hi.cm], hi.sv,
        by simpa [freedBlks_append, freedBlks, commitEnd_append, commitEnd] using hi.cl⟩
    | cpFlush =>
      refine ih _ (h.2, h.2) ?_ hr
      simp only [step, St.cpFlush]
      split
      · exact ⟨hi.fr, hi.cm, .inr (by simp [hi.fr, hi.cm]), fun _ => ⟨rfl, rfl⟩⟩
      · rename_i hd
        have := hi.cl (by simpa using hd)
        exact ⟨hi.fr, hi.cm, by rw [this.1, this.2]; exact hi.sv, fun _ => ⟨rfl, rfl⟩⟩
    | crash =>
      refine ih _ (h.1, h.1) ?_ hr
      simp only [step, St.restart]
      rcases hi.sv with ⟨e, e1, e2⟩ | e
      · simp only [e]
        exact ⟨e1.symm, e2.symm, .inl ⟨rfl, e1, e2⟩, fun _ => ⟨rfl, rfl⟩⟩
      · simp only [e]
        exact ⟨rfl, rfl, .inr rfl, fun _ => ⟨rfl, rfl⟩⟩

/-- `is_blk_alloced_on_disk`, append_blk_allocator.cpp:164-169; `m_sb` holds what the last `cp_flush` wrote. -/
def St.allocedOnDisk (s : St) (b : Bid) : Bool :=
  match s.disk with
  | some sb => decide (b.num < sb.commitOffset)
  | none => false

/-- **C57.** After every history of calls, flushes and crashes, `get_defrag_nblks()` is the number of blocks
freed by the calls in effect (modulo 2^32, the width of the counter) and the commit offset is one past the
highest block committed by them.  After a crash at that point the same holds of the permanent calls, and
`get_used_blks()` is the end of the highest permanently committed block; `is_blk_alloced_on_disk` says exactly which blocks lie below that end. -/
theorem C57_freed_count (total : Nat) (ht : total < 2 ^ 32) (ops : List Op) (hops : ∀ op ∈ ops, OpOk total op) :
    let s := (runOut step (init total) ops).1
    s.freeable = freedBlks (inEffect ops) % 2 ^ 32 ∧ s.commit = commitEnd (inEffect ops) ∧
    s.restart.freeable = freedBlks (permanent ops) % 2 ^ 32 ∧
    s.restart.commit = commitEnd (permanent ops) ∧ s.restart.used = commitEnd (permanent ops) ∧
    ∀ b, s.allocedOnDisk b = true ↔ b.num < commitEnd (permanent ops) := by
  intro s
  have hi : EInv total s (effect ([], []) ops) := einv_run ht ops (init total) ([], [])
    ⟨rfl, rfl, .inl ⟨rfl, rfl, rfl⟩, fun _ => ⟨rfl, rfl⟩⟩ hops
  refine ⟨hi.fr, hi.cm, ?_⟩
  simp only [St.restart, permanent, St.used, St.allocedOnDisk]
  rcases hi.sv with ⟨e, e1, e2⟩ | e
  · simp only [e]; exact ⟨e1.symm, e2.symm, e2.symm, fun b => by simp [e2]⟩
  · simp [e, u32]

example : let ops := [Op.alloc 3 none, .commit ⟨0, 3⟩, .free ⟨0, 2⟩, .cpFlush, .alloc 4 none, .commit ⟨3, 4⟩,
      .free ⟨3, 1⟩]
    (∀ op ∈ ops, OpOk 10 op) ∧ freedBlks (inEffect ops) = 3 ∧ freedBlks (permanent ops) = 2 ∧
    commitEnd (inEffect ops) = 7 ∧ commitEnd (permanent ops) = 3 := by decide

end HS.Append
