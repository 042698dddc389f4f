import Verif.Append.Lemmas
/-!
# Properties of the append allocator (C05-C07)

`init total` is a freshly formatted allocator; `runOut step` executes a history of calls and
collects what each returned (`Out.ok b` = SUCCESS with the range `[b.num, b.num+b.cnt)`).
`OpOk total` only says that block ids passed in by callers lie inside the chunk.
-/
namespace HS.Append

/-- **C05** For every history `pre` (crashes and restarts included) followed by a crash free
history `ops`: the ranges handed out during `ops` lie in the chunk and are pairwise disjoint. -/
theorem C05_disjoint_in_range (total : Nat) (ht : total < 2 ^ 32) (pre ops : List Op)
    (hpre : ∀ op ∈ pre, OpOk total op) (hops : ∀ op ∈ ops, OpOk total op)
    (hnc : ∀ op ∈ ops, op ≠ .crash) :
    let outs := (runOut step (runOut step (init total) pre).1 ops).2
    (∀ b, Out.ok b ∈ outs → b.num + b.cnt ≤ total) ∧
    (∀ (i j : Nat) (b b' : Bid), i < j → outs[i]? = some (Out.ok b) → outs[j]? = some (Out.ok b') →
      RangesDisjoint b.num b.cnt b'.num b'.cnt) := by
  have hi := run_inv ht (init total) pre (init_inv total) hpre
  have h := outs_ge ht _ ops hi hops hnc
  refine ⟨fun b hb => (h.1 b hb).2, ?_⟩
  intro i j b b' hij hb hb'
  have hl : j < (runOut step (runOut step (init total) pre).1 ops).2.length := by
    have := (List.getElem?_eq_some_iff.1 hb').1; exact this
  have := List.pairwise_iff_getElem.1 h.2 i j (by omega) hl hij b b'
    (by rw [List.getElem?_eq_some_iff] at hb; exact hb.2)
    (by rw [List.getElem?_eq_some_iff] at hb'; exact hb'.2)
  exact rangesDisjoint_of_le (Or.inl this)

example : let ops := [Op.alloc 3 none, .commit ⟨0, 3⟩, .cpFlush, .alloc 200 none, .alloc 4 (some 1)]
    (∀ op ∈ ops, OpOk 10 op) ∧ (∀ op ∈ ops, op ≠ .crash) ∧
    (runOut step (init 10) ops).2 = [.ok ⟨0, 3⟩, .done, .done, .spaceFull, .ok ⟨3, 4⟩] := by
  decide

/-- **C05** In every reachable state: used + available = total; an allocation of `n` blocks
keeping `r` in reserve succeeds exactly when the free blocks not reserved suffice, then returns
exactly `n` blocks starting at the old number of used blocks; otherwise nothing changes. -/
theorem C05_accounting_and_failure (total : Nat) (ht : total < 2 ^ 32) (pre : List Op)
    (hpre : ∀ op ∈ pre, OpOk total op) (n r : Nat) :
    let s := (runOut step (init total) pre).1
    s.used + s.available = total ∧
    (s.alloc n (some r)).2 = (if n ≤ (total - s.used) - r then .ok ⟨s.used, n⟩ else .spaceFull) ∧
    (s.alloc n none).2 = (if n ≤ total - s.used then .ok ⟨s.used, n⟩ else .spaceFull) ∧
    (∀ res, (s.alloc n res).2 = .spaceFull → (s.alloc n res).1 = s) ∧
    (∀ res b, (s.alloc n res).2 = .ok b → (s.alloc n res).1.used = s.used + n) := by
  intro s
  have hi : Inv total s := run_inv ht (init total) pre (init_inv total) hpre
  have hav := available_eq ht hi
  have hl := hi.last
  have e1 : s.used = s.last := rfl
  refine ⟨by omega, ?_, ?_, ?_, ?_⟩
  · simp only [St.alloc, St.hasSpace, hav, e1]
    by_cases h : n ≤ (total - s.last) - r
    · rw [if_pos, if_pos h]
      simp only [Bool.not_eq_true', decide_eq_false_iff_not]
      split <;> omega
    · rw [if_neg, if_neg h]
      simp only [Bool.not_eq_true', decide_eq_false_iff_not, Decidable.not_not]
      split <;> omega
  · simp only [St.alloc, St.hasSpace, hav, e1]
    by_cases h : n ≤ total - s.last
    · rw [if_pos, if_pos h]; simp; omega
    · rw [if_neg, if_neg h]; simp; omega
  · intro res h
    simp only [St.alloc] at *
    split at h
    · exact absurd h (by simp)
    · rw [if_neg ‹_›]
  · intro res b h
    have := alloc_ok ht hi h
    exact this.2.2

/-- **C06** A block range committed in a crash free period that ends with a completed
checkpoint flush is never handed out again, whatever happens afterwards: any operations and any
number of crashes in `post`.  "Allocated" = below `get_used_blks()` when committed. -/
theorem C06_committed_survives (total : Nat) (ht : total < 2 ^ 32)
    (pre mid post : List Op) (b : Bid) (n : Nat) (r : Option Nat)
    (hpre : ∀ op ∈ pre, OpOk total op) (hmid : ∀ op ∈ mid, OpOk total op)
    (hpost : ∀ op ∈ post, OpOk total op) (hnc : ∀ op ∈ mid, op ≠ .crash)
    (hb : b.num + b.cnt ≤ (runOut step (init total) pre).1.used) :
    let s := (runOut step (init total) (pre ++ [.commit b] ++ mid ++ [.cpFlush] ++ post)).1
    b.num + b.cnt ≤ s.used ∧
    ∀ b', (s.alloc n r).2 = .ok b' → RangesDisjoint b.num b.cnt b'.num b'.cnt := by
  intro s
  have hi := run_inv ht (init total) pre (init_inv total) hpre
  generalize hs0 : (runOut step (init total) pre).1 = s0 at hi hb
  have hbt : b.num + b.cnt ≤ total := Nat.le_trans hb hi.last
  have hi1 := step_inv ht s0 (.commit b) hi hbt
  have hc1 : Cov (b.num + b.cnt) (step s0 (.commit b)).1 ∨
      (b.num + b.cnt ≤ s0.commit ∧ (step s0 (.commit b)).1 = s0) := by
    simp only [step, St.reserveOnDisk]
    have hm : (b.num + b.cnt) % u32 = b.num + b.cnt := by simp only [u32] at *; omega
    rw [hm]
    split
    · right; exact ⟨by omega, rfl⟩
    · left; exact ⟨hb, by simp, Or.inl rfl⟩
  -- every reachable state persists or holds dirty its commit offset
  have hglob : ∀ (t : St), Inv total t → (t.dirty = true ∨ t.commit = 0 ∨
      ∃ sb, t.disk = some sb ∧ t.commit ≤ sb.commitOffset) → ∀ op, OpOk total op →
      ((step t op).1.dirty = true ∨ (step t op).1.commit = 0 ∨
      ∃ sb, (step t op).1.disk = some sb ∧ (step t op).1.commit ≤ sb.commitOffset) := by
    intro t _ h op _
    cases op <;> simp only [step, St.alloc, St.free, St.reserveOnDisk, St.reserveOnCache,
      St.cpFlush, St.restart]
    case crash => split <;> simp_all
    all_goals (try split) <;> simp_all
  have hglobrun : ∀ (ops : List Op) (t : St), Inv total t → (∀ op ∈ ops, OpOk total op) →
      (t.dirty = true ∨ t.commit = 0 ∨ ∃ sb, t.disk = some sb ∧ t.commit ≤ sb.commitOffset) →
      let t' := (runOut step t ops).1
      (t'.dirty = true ∨ t'.commit = 0 ∨ ∃ sb, t'.disk = some sb ∧ t'.commit ≤ sb.commitOffset) := by
    intro ops
    induction ops with
    | nil => intro t _ _ h; exact h
    | cons op ops ih =>
      intro t hti hok h
      exact ih _ (step_inv ht t op hti (hok op (by simp))) (fun o ho => hok o (by simp [ho]))
        (hglob t hti h op (hok op (by simp)))
  have hg0 := hglobrun pre (init total) (init_inv total) hpre (Or.inr (Or.inl rfl))
  rw [hs0] at hg0
  by_cases hz : b.num + b.cnt = 0
  · refine ⟨by omega, fun b' _ x hx => by omega⟩
  have hcov : Cov (b.num + b.cnt) (step s0 (.commit b)).1 := by
    rcases hc1 with h | ⟨h, he⟩
    · exact h
    · rw [he]
      refine ⟨hb, h, ?_⟩
      rcases hg0 with h' | h' | ⟨sb, h', h''⟩
      · exact Or.inl h'
      · omega
      · exact Or.inr ⟨sb, h', by omega⟩
  have hi2 := run_inv ht _ mid hi1 hmid
  have hcov2 := cov_run ht _ mid hi1 hmid hnc hcov
  generalize hs2 : (runOut step (step s0 (.commit b)).1 mid).1 = s2 at hi2 hcov2
  have hd : OnDisk (b.num + b.cnt) (step s2 .cpFlush).1 := by
    obtain ⟨k1, k2, k3⟩ := hcov2
    simp only [step, St.cpFlush]
    split
    · exact ⟨k1, k2, _, rfl, k2⟩
    · rcases k3 with k3 | k3
      · simp_all
      · exact ⟨k1, k2, k3⟩
  have hi3 := step_inv ht s2 .cpFlush hi2 trivial
  have hfin := onDisk_run ht _ post hi3 hpost hd
  have hi4 := run_inv ht _ post hi3 hpost
  have hs : s = (runOut step (step s2 .cpFlush).1 post).1 := by
    simp only [s, runOut_append, List.append_assoc]
    simp only [hs0, runOut, hs2]
  rw [hs]
  refine ⟨hfin.last, fun b' hb' => ?_⟩
  obtain ⟨rfl, -, -⟩ := alloc_ok ht hi4 hb'
  exact rangesDisjoint_of_le (Or.inl hfin.last)

example : let pre := [Op.alloc 3 none, .alloc 2 none]
    let post := [Op.alloc 2 none, .crash, .alloc 1 none, .crash]
    (∀ op ∈ pre ++ post, OpOk 10 op) ∧ (3 + 2 ≤ (runOut step (init 10) pre).1.used) ∧
    (runOut step (init 10) (pre ++ [.commit ⟨3, 2⟩] ++ [] ++ [.cpFlush] ++ post)).1.used = 5 := by
  decide

/-- Initial state of the concurrent model. -/
def cinit (total : Nat) : CSt := { total := total }

/-- **C07** is violated by the code: two concurrent allocations may both pass the space check;
the second range then lies outside the chunk.  (Header comment append_blk_allocator.h:58-66
promises thread safety; the comment at append_blk_allocator.cpp:67 assumes a single writer.) -/
theorem C07_concurrent_alloc_violated :
    ∃ (acts : List CAct) (s : CSt) (b : Bid), runOpt cstep (cinit 10) acts = some s ∧
      b ∈ s.outs ∧ s.total < b.num + b.cnt := by
  refine ⟨[.allocCheck 0 8, .allocCheck 1 8, .allocAdd 0, .allocAdd 1], _, ⟨8, 8⟩, rfl, ?_, ?_⟩
  · decide
  · decide

/-- **C07** once the cursor has run past the end, the unsigned space computation wraps and the
chunk looks almost empty: a further allocation succeeds and returns a range entirely outside. -/
theorem C07_concurrent_alloc_wrap_violated :
    ∃ (acts : List CAct) (s : CSt) (b : Bid), runOpt cstep (cinit 10) acts = some s ∧
      b ∈ s.outs ∧ s.total ≤ b.num ∧ acts.getLast? = some (.allocAdd 2) ∧
      runOpt cstep (cinit 10) (acts.take 5) ≠ none ∧
      (∀ s', runOpt cstep (cinit 10) (acts.take 4) = some s' → s'.pc 0 = .idle ∧ s'.pc 1 = .idle) := by
  refine ⟨[.allocCheck 0 8, .allocCheck 1 8, .allocAdd 0, .allocAdd 1,
    .allocCheck 2 60000, .allocAdd 2], _, ⟨16, 60000⟩, rfl, ?_, ?_, rfl, ?_, ?_⟩
  · decide
  · decide
  · simp [runOpt, cstep, cinit, CSt.setPc, u32]
  · simp [runOpt, cstep, cinit, CSt.setPc, u32]

/-- **C07** partial: in every interleaving of commits, flushes and allocations in which at most
one thread at a time is inside `alloc` (the single-writer rule), all returned ranges are
pairwise disjoint and inside the chunk.  Missing: concurrent allocations, for which the claim is
false (above). -/
theorem C07_single_writer_partial (total : Nat) (ht : total < 2 ^ 32) (acts : List CAct)
    (s : CSt) (hrun : runOpt cstep (cinit total) acts = some s)
    (hw : SingleWriterRun (cinit total) acts) :
    (∀ b ∈ s.outs, b.num + b.cnt ≤ total) ∧
    s.outs.Pairwise (fun b b' => RangesDisjoint b.num b.cnt b'.num b'.cnt) := by
  have h0 : SInv (cinit total) := by
    constructor <;> simp [cinit, u32]
    omega
  have h := sinv_run _ _ acts h0 hw hrun
  refine ⟨fun b hb => ?_, ?_⟩
  · have := h.1.outs b hb
    have := h.1.last
    have e : s.total = total := h.2
    omega
  · exact h.1.disj.imp (fun hb => rangesDisjoint_of_le (Or.inr hb))

example : SingleWriterRun (cinit 10) [.allocCheck 0 4, .commitCas 1 2, .allocAdd 0,
    .allocCheck 1 9, .flushBegin 2] := by
  simp [SingleWriterRun, SingleWriter, cstep, cinit, CSt.setPc, u32]
  grind

/-- **C06** is violated by the code under concurrency: a `reserve_on_disk` that has returned
before `cp_flush` starts is not persisted by that flush, because the higher commit offset it
relied on was published by another thread that had not yet set the dirty flag. -/
theorem C06_concurrent_commit_violated :
    ∃ (acts : List CAct) (s : CSt), runOpt cstep (cinit 100) acts = some s ∧
      5 ∈ s.flushed ∧ s.disk < 5 := by
  refine ⟨[.commitCas 0 10, .commitCas 1 5, .flushBegin 2], _, rfl, ?_, ?_⟩ <;> decide

/-- **C06** concurrent, partial: if no `cp_flush` starts while some `reserve_on_disk` is between
its compare-exchange and setting the dirty flag, then every commit that had returned when a
finished flush started is covered by the persisted commit offset. -/
theorem C06_concurrent_commit_partial (total : Nat) (acts : List CAct) (s : CSt)
    (hrun : runOpt cstep (cinit total) acts = some s) (hq : QuiesceRun (cinit total) acts) :
    ∀ off ∈ s.flushed, off ≤ s.disk := by
  have h0 : FInv (cinit total) := by
    constructor <;> simp [cinit]
  exact (finv_run _ _ acts h0 hq hrun).j5

example : QuiesceRun (cinit 10) [.commitCas 0 4, .commitDirty 0, .flushBegin 1, .commitCas 0 6,
    .flushLoad 1, .flushWrite 1] := by
  simp [QuiesceRun, QuiesceOk, cstep, cinit, CSt.setPc]
  grind

end HS.Append
