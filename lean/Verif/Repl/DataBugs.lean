import Verif.Repl.DataProps
/-!
# Histories in which the data of replicated writes is lost

Each breaks one of the side conditions of `Fair`, with its last step or, for the two late writes, with
the step named; up to there the side conditions hold.
-/
namespace HS.Repl.Data

/-- C78 without side conditions. -/
def Claim78 : Prop := ∀ ops s, St.init.run ops = .ok s →
  (∀ l k b, s.upto < l → l ≤ s.dur → s.log[l - 1]? = some (k, b) → Readable s k.obj b) ∧
  (∀ o b, (o, b) ∈ s.app → Readable s o b)

/-- From a history that ends with an object the listener holds and cannot read. -/
theorem lost {ops : List Op} {o b : Nat}
    (h : probe (St.init.run ops) (fun s => decide ((o, b) ∈ s.app) && !(s.used b && decide (s.disk b = some o))) = true) :
    ∃ s, St.init.run ops = .ok s ∧ (o, b) ∈ s.app ∧ ¬ Readable s o b := by
  obtain ⟨s, h1, h2⟩ := probe_ok h
  simp only [Bool.and_eq_true, decide_eq_true_eq, Bool.not_eq_true', Bool.and_eq_false_iff, decide_eq_false_iff_not] at h2
  refine ⟨s, h1, h2.1, fun hr => ?_⟩
  rcases h2.2 with e | e
  · rw [hr.1] at e; cases e
  · exact e hr.2

/-- **Data that comes after its request was failed overwrites another object.**  The wait for the data
of request 0 times out and its block goes back to the allocator; another write takes the block and is
committed; then the response to the fetch of request 0 comes and is written to the block. -/
def lateFetch : List Op :=
  [.create ⟨1, 7⟩ 0 false, .doom 0, .err 0, .propose ⟨2, 8⟩ 0 false, .wdone 1, .append ⟨2, 8⟩, .flush, .commit,
   .save 0, .wdone 0]

theorem C78_late_fetch_violated : fairRunB St.init (lateFetch.take 8) = true ∧
    ∃ s, St.init.run lateFetch = .ok s ∧ (8, 0) ∈ s.app ∧ ¬ Readable s 8 0 :=
  ⟨by decide +kernel, lost (by decide +kernel)⟩

/-- **The same with the data coming between the decision to fail the request and `handle_error`.** -/
def timeoutRace : List Op :=
  [.create ⟨1, 7⟩ 0 false, .doom 0, .save 0, .err 0, .propose ⟨2, 8⟩ 0 false, .wdone 1, .append ⟨2, 8⟩, .flush, .commit,
   .wdone 0]

theorem C78_timeout_race_violated : fairRunB St.init (timeoutRace.take 3) = true ∧
    ∃ s, St.init.run timeoutRace = .ok s ∧ (8, 0) ∈ s.app ∧ ¬ Readable s 8 0 :=
  ⟨by decide +kernel, lost (by decide +kernel)⟩

/-- **… or the process aborts**, when the entry is on disk by then. -/
def timeoutAbort : List Op :=
  [.create ⟨1, 7⟩ 0 false, .doom 0, .save 0, .wdone 0, .append ⟨1, 7⟩, .flush, .err 0]

theorem C78_timeout_abort_violated : fairRunB St.init (timeoutAbort.take 6) = true ∧
    St.init.run timeoutAbort = .fault := by
  refine ⟨by decide +kernel, ?_⟩
  have h : (match St.init.run timeoutAbort with | .fault => true | _ => false) = true := by decide +kernel
  cases hr : St.init.run timeoutAbort with
  | fault => rfl
  | ok s => rw [hr] at h; cases h
  | na => rw [hr] at h; cases h

/-- **Garbage collection frees committed data.**  A push that comes again after its write was committed
makes a request that names the listener's block; when it expires the block is freed. -/
def lateGc : List Op :=
  [.create ⟨1, 7⟩ 0 false, .save 0, .wdone 0, .append ⟨1, 7⟩, .flush, .commit, .create ⟨1, 7⟩ 0 true, .gc 1]

theorem C78_gc_committed_violated : fairRunB St.init (lateGc.take 7) = true ∧
    ∃ s, St.init.run lateGc = .ok s ∧ (7, 0) ∈ s.app ∧ ¬ Readable s 7 0 :=
  ⟨by decide +kernel, lost (by decide +kernel)⟩

/-- … and what is written next takes the block. -/
theorem C78_gc_committed_overwritten_violated :
    ∃ s, St.init.run (lateGc ++ [.propose ⟨2, 8⟩ 0 false, .wdone 2]) = .ok s ∧ (7, 0) ∈ s.app ∧ s.disk 0 = some 8 := by
  obtain ⟨s, h1, h2⟩ := probe_ok (r := St.init.run (lateGc ++ [.propose ⟨2, 8⟩ 0 false, .wdone 2]))
    (f := fun s => decide ((7, 0) ∈ s.app ∧ s.disk 0 = some 8)) (by decide +kernel)
  exact ⟨s, h1, by simpa using h2⟩

/-- **Rollback frees committed data.**  An object is written a second time, under a new key; the
listener answers that it holds it; the entry reaches the disk and is then rolled back. -/
def rollShared : List Op :=
  [.create ⟨1, 7⟩ 0 false, .save 0, .wdone 0, .append ⟨1, 7⟩, .flush, .commit,
   .create ⟨2, 7⟩ 0 true, .append ⟨2, 7⟩, .flush, .rollback]

theorem C78_rollback_committed_violated : fairRunB St.init (rollShared.take 9) = true ∧
    ∃ s, St.init.run rollShared = .ok s ∧ (7, 0) ∈ s.app ∧ ¬ Readable s 7 0 :=
  ⟨by decide +kernel, lost (by decide +kernel)⟩

/-- **`clear_chunk_req` frees the block of an entry on disk**, which is committed afterwards. -/
def clearDurable : List Op :=
  [.create ⟨1, 7⟩ 0 false, .append ⟨1, 7⟩, .save 0, .wdone 0, .flush, .clear 0]

theorem C78_clear_durable_violated : fairRunB St.init (clearDurable.take 5) = true ∧
    (∃ s, St.init.run clearDurable = .ok s ∧ s.upto < 1 ∧ 1 ≤ s.dur ∧ s.log[1 - 1]? = some (⟨1, 7⟩, 0) ∧ ¬ Readable s 7 0) ∧
    ∃ s, St.init.run (clearDurable ++ [.commit]) = .ok s ∧ (7, 0) ∈ s.app ∧ ¬ Readable s 7 0 := by
  refine ⟨by decide +kernel, ?_, lost (by decide +kernel)⟩
  obtain ⟨s, h1, h2⟩ := probe_ok (r := St.init.run clearDurable)
    (f := fun s => decide (s.upto < 1 ∧ 1 ≤ s.dur ∧ s.log[1 - 1]? = some ((⟨1, 7⟩ : Key), 0) ∧ s.used 0 = false)) (by decide +kernel)
  simp only [decide_eq_true_eq] at h2
  exact ⟨s, h1, h2.1, h2.2.1, h2.2.2.1, fun hr => by have := hr.1; rw [h2.2.2.2] at this; cases this⟩

/-- **The user's free of a block that a request still names.**  A late push has made a request with the
listener's block; the user frees the block; the entry that comes next names a block that is free. -/
def freeShared : List Op :=
  [.create ⟨1, 7⟩ 0 false, .save 0, .wdone 0, .append ⟨1, 7⟩, .flush, .commit,
   .create ⟨2, 7⟩ 0 true, .free 7 0, .append ⟨2, 7⟩, .flush, .commit]

theorem C78_free_shared_violated : fairRunB St.init (freeShared.take 7) = true ∧
    ∃ s, St.init.run freeShared = .ok s ∧ (7, 0) ∈ s.app ∧ ¬ Readable s 7 0 :=
  ⟨by decide +kernel, lost (by decide +kernel)⟩

/-- So the claim does not hold without the side conditions. -/
theorem C78_durable_data_violated : ¬ Claim78 := fun h => by
  obtain ⟨_, s, h1, h2, h3⟩ := C78_late_fetch_violated
  exact h3 ((h _ s h1).2 _ _ h2)

/-- **A block is freed twice, in between handed to somebody else.**  The garbage collector takes a
request whose failure another thread has decided on; that thread frees the block again, which a write
that has been committed holds by now. -/
def gcThenErr : List Op :=
  [.create ⟨1, 7⟩ 0 false, .doom 0, .gc 0, .propose ⟨2, 8⟩ 0 false, .wdone 1, .append ⟨2, 8⟩, .flush, .commit, .err 0]

theorem C79_double_free_violated : fairRunB St.init (gcThenErr.take 8) = true ∧
    ∃ s, St.init.run gcThenErr = .ok s ∧ (8, 0) ∈ s.app ∧ ¬ Readable s 8 0 :=
  ⟨by decide +kernel, lost (by decide +kernel)⟩

/-- The same with `clear_chunk_req` and a proposer whose request Raft does not accept. -/
def clearThenReject : List Op :=
  [.propose ⟨1, 7⟩ 0 false, .wdone 0, .clear 0, .propose ⟨2, 8⟩ 0 false, .wdone 1, .append ⟨2, 8⟩, .flush, .commit, .reject 0]

theorem C79_clear_reject_violated : fairRunB St.init (clearThenReject.take 8) = true ∧
    ∃ s, St.init.run clearThenReject = .ok s ∧ (8, 0) ∈ s.app ∧ ¬ Readable s 8 0 :=
  ⟨by decide +kernel, lost (by decide +kernel)⟩

end HS.Repl.Data
