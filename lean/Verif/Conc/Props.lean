import Verif.Conc.Leaks

/-!
# C80, C81: threads on one B-tree
-/

namespace HS.Conc

/-! ## Examples of runs -/

/-- One thread sets a key in a tree whose root is a leaf. -/
def setAt (t k v : Nat) : List (Nat × Act) :=
  [(t, .call (.put .upsert k v)), (t, .lockRoot), (t, .lockAgain), (t, .lockRoot), (t, .leaf), (t, .ret)]

/-- Four keys; the root is split; then a thread looks for a key while
another one splits the leaf it is in. -/
def sample : List (Nat × Act) :=
  setAt 0 1 10 ++ setAt 1 2 20 ++ setAt 0 3 30 ++ setAt 1 4 40 ++
  [(0, .call (.put .insert 5 50)), (0, .lockRoot), (0, .rootChange), (0, .rootSplit 2), (1, .call (.get 4)), (1, .lockRoot),
    (0, .reenter false), (0, .lockRoot), (0, .child), (0, .upgrade), (1, .child), (1, .descend), (0, .lockParent), (1, .leaf),
    (0, .lockChild), (0, .split 1), (0, .child), (0, .descend), (1, .ret), (0, .leaf), (0, .ret)]

/-- Two leaves are merged by a remove, while another thread waits; the other thread then finds that the generation of its parent is
another one, and begins again. -/
def sampleMerge : List (Nat × Act) :=
  setAt 0 1 10 ++ setAt 0 2 20 ++ setAt 0 3 30 ++ setAt 0 4 40 ++
  [(0, .call (.put .insert 5 50)), (0, .lockRoot), (0, .rootChange), (0, .rootSplit 2), (0, .reenter false), (0, .lockRoot), (0, .child),
    (0, .descend), (0, .leaf), (0, .ret),
    (0, .call (.remove 1)), (1, .call (.put .update 4 41)), (1, .lockRoot), (1, .child), (1, .upgrade), (0, .lockRoot), (0, .child), (0, .upgrade),
    (0, .lockParent), (0, .lockChild), (0, .merge 1), (0, .lockSibling), (0, .commit 3 []), (0, .child), (0, .descend), (0, .leaf), (0, .ret),
    (1, .lockParent), (1, .lockChild), (1, .lockRoot), (1, .child), (1, .descend), (1, .leaf), (1, .ret),
    (0, .call (.remove 2)), (0, .lockRoot), (0, .rootChange), (0, .rootCollapse), (0, .reenter true), (0, .lockRoot), (0, .leaf), (0, .ret)]

/-- What the users see of the two runs. -/
example : (run (St.init 2) sample).map (fun s => (s.tr.filter Ev.seen).drop 8) = some
    [.call 0 (.put .insert 5 50), .call 1 (.get 4), .ret 1 (.val (some 40)), .ret 0 (.ok none)] := by decide +kernel

example : (run (St.init 2) sampleMerge).map (fun s => (s.tr.filter Ev.seen).drop 8) = some
    [.call 0 (.put .insert 5 50), .ret 0 (.ok none), .call 0 (.remove 1), .call 1 (.put .update 4 41), .ret 0 (.val (some 10)),
      .ret 1 (.ok (some 40)), .call 0 (.remove 2), .ret 0 (.val (some 20))] := by decide +kernel

/-! ## C80 -/

/-- C80. Whatever the threads do with a tree, and however their steps interleave, with whatever splits and merges of nodes: the history of
their calls and returns is linearizable. -/
theorem C80_concurrent_calls_linearizable (nt : Nat) (l : List (Nat × Act)) (s : St) (hr : run (St.init nt) l = some s) :
    Linearizable (fun _ => none) (s.tr.filter Ev.seen) := by
  have h := inv_run l _ (inv_init nt) hr
  obtain ⟨M, h1, _⟩ := h.lin
  exact ⟨s.tr, M, rfl, fun t => by rw [h.phases t]; rfl, h1⟩

/-- The runs above are such runs. -/
example : ∃ s, run (St.init 2) sample = some s ∧ Linearizable (fun _ => none) (s.tr.filter Ev.seen) := by
  have h : (run (St.init 2) sample).isSome := by decide +kernel
  obtain ⟨s, hs⟩ := Option.isSome_iff_exists.1 h
  exact ⟨s, hs, C80_concurrent_calls_linearizable 2 sample s hs⟩

/-- A tree that no thread is in holds one value at most for a key, in one place; a get that is then run alone
returns what the calls before have left: their results and this value are those of one map. -/
theorem C80_quiet_tree (nt : Nat) (l : List (Nat × Act)) (s : St) (hr : run (St.init nt) l = some s) :
    ∃ M, Legal (fun _ => none) (points s.tr) M ∧ ∀ k v, M k = some v ↔
      ∃ n, n < s.fresh ∧ (s.nodes n).del = false ∧ (s.nodes n).lev = 0 ∧ (some k, v) ∈ (s.nodes n).es := by
  obtain ⟨M, h1, h2⟩ := (inv_run l _ (inv_init nt) hr).lin
  refine ⟨M, h1, fun k v => (h2 k v).trans ⟨?_, ?_⟩⟩
  · rintro ⟨i, hi, h0, hm⟩
    exact ⟨i, hi.1, hi.2, h0, hm⟩
  · rintro ⟨i, h1, h2, h0, hm⟩
    exact ⟨i, ⟨h1, h2⟩, h0, hm⟩

/-! ## C81 -/

/-- C81, where it holds: if no new checkpoint has been begun, or no remove has been called, then while calls are in progress one of them need
not wait for a lock, even if waiting writers go before new readers; it can go on.
Missing: removes while checkpoints are taken. -/
theorem C81_some_call_goes_on_partial (nt : Nat) (l : List (Nat × Act)) (s : St) (hr : run (St.init nt) l = some s)
    (hl : (∀ x ∈ l, x.2 ≠ .switchCp) ∨ ∀ x ∈ l, ∀ k, x.2 ≠ .call (.remove k)) (hc : ∃ t < nt, s.pcs t ≠ .idle) :
    ∃ t < nt, s.pcs t ≠ .idle ∧ ¬ Blocked s t ∧ ∃ a s', (∀ o, a ≠ .call o) ∧ a ≠ .switchCp ∧ step s t a = some s' := by
  have h := inv_run l _ (inv_init nt) hr
  have hnt : s.nt = nt := run_nt l _ hr
  have h0 : s.leaks = 0 := by
    rcases hl with hl | hl
    · exact (oneCp_run l _ ⟨rfl, fun _ => rfl, fun _ => rfl, rfl⟩ hl hr).2.2.2
    · exact (noRemove_run l _ ⟨rfl, fun t o ho => by cases ho⟩ hl hr).1
  rw [← hnt] at hc ⊢
  obtain ⟨t, ht, hi, hb⟩ := some_free h h0 hc
  exact ⟨t, ht, hi, hb, step_of_free h ht hi hb⟩

/-- Two calls in progress, one of which must wait for the other: thread 0 holds the root and waits for the leaf thread 1 is in. -/
example : ∃ s, run (St.init 2) (sample.take 37) = some s ∧ s.pcs 0 = .up2 (.put .insert 5 50) 1 2 1 1 ∧ s.pcs 1 = .on (.get 4) 2 false ∧
    (∀ x ∈ sample.take 37, x.2 ≠ .switchCp) ∧ Blocked s 0 := by
  have h : ((run (St.init 2) (sample.take 37)).map fun s => (s.nt, s.pcs 0, s.pcs 1)) =
      some (2, .up2 (.put .insert 5 50) 1 2 1 1, .on (.get 4) 2 false) := by decide +kernel
  obtain ⟨s, hs, he⟩ := Option.map_eq_some_iff.1 h
  simp only [Prod.mk.injEq] at he
  obtain ⟨hn, h0, h1⟩ := he
  refine ⟨s, hs, h0, h1, by decide +kernel, Or.inl ⟨2, true, by rw [h0]; rfl, Or.inl fun hc => ?_⟩⟩
  have := hc 1 (by omega) (by decide) false (by rw [h1]; decide)
  cases this.1

/-- Thread 0 is about to lock the root, a leaf, for writing, to remove a key; a checkpoint is begun, and thread 1 sets a key in the root;
thread 0 gets a mismatch, begins again and is done.  Then thread 1 finds that the root must be split. -/
def leaky : List (Nat × Act) :=
  setAt 1 5 50 ++
  [(0, .call (.remove 5)), (0, .lockRoot), (0, .lockAgain), (0, .switchCp)] ++ setAt 1 6 60 ++
  [(0, .lockRoot), (0, .attempt), (0, .lockRoot), (0, .lockAgain), (0, .lockRoot), (0, .leaf), (0, .ret),
    (1, .call (.put .upsert 7 70)), (1, .lockRoot), (1, .rootChange)]

/-- C81 does not hold: a remove that runs into a node of a later checkpoint at the root keeps the lock of the tree; a put that must split the
root then waits for ever, whatever is done afterwards. -/
theorem C81_some_call_goes_on_violated :
    ∃ (nt : Nat) (l : List (Nat × Act)) (s : St) (t : Nat), run (St.init nt) l = some s ∧ t < nt ∧ s.pcs t ≠ .idle ∧
      (∀ u < nt, u ≠ t → s.pcs u = .idle) ∧
      ∀ l' s', run s l' = some s' → s'.pcs t ≠ .idle ∧ ∃ ext, s'.tr = s.tr ++ ext ∧ ∀ r, .ret t r ∉ ext := by
  have h : ((run (St.init 2) leaky).map fun s => (s.pcs 0, s.pcs 1, s.leaks)) = some (.idle, .excl (.put .upsert 7 70), 1) := by decide +kernel
  obtain ⟨s, hs, he⟩ := Option.map_eq_some_iff.1 h
  simp only [Prod.mk.injEq] at he
  obtain ⟨h0, h1, h2⟩ := he
  refine ⟨2, leaky, s, 1, hs, by decide, by rw [h1]; simp, fun u hu hne => ?_, fun l' s' hr => ?_⟩
  · have : u = 0 := by omega
    rw [this]; exact h0
  · obtain ⟨k1, ext, k2, k3⟩ := stuck_run l' s (by omega) h1 hr
    exact ⟨by rw [k1]; simp, ext, k2, fun r hm => k3 _ hm rfl⟩

end HS.Conc
