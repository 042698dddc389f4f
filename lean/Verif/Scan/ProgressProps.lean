import Verif.Scan.Progress
import Verif.Scan.Props

/-!
# C87: queries and other calls do not block one another for ever
-/

namespace HS.Scan

open HS.Conc

/-- C87, where it holds: if no new checkpoint has been begun, or no remove has been called, then while calls or queries are in
progress one of them need not wait for a lock, even if waiting writers go before new readers; and it can go on.
Missing: removes while checkpoints are taken. -/
theorem C87_some_call_or_query_goes_on_partial (nt nq : Nat) (l : List Move) (y : Sys) (hr : Sys.Reach (Sys.init nt nq) l y)
    (hl : (∀ x ∈ l, ∀ t, x ≠ .op t .switchCp) ∨ ∀ x ∈ l, ∀ t k, x ≠ .op t (.call (.remove k)))
    (hc : (∃ t < y.s.nt, y.s.pcs t ≠ .idle) ∨ ∃ i < y.nq, y.qs i ≠ .idle) :
    (∃ t < y.s.nt, y.s.pcs t ≠ .idle ∧ ¬ y.BlockedT t ∧ ∃ a y', (∀ o, a ≠ .call o) ∧ a ≠ .switchCp ∧ Sys.Step y (.op t a) y') ∨
    (∃ i < y.nq, y.qs i ≠ .idle ∧ ¬ y.BlockedQ i ∧ ∃ a y', (∀ q, a ≠ .ask q) ∧ a ≠ .fail ∧ Sys.Step y (.query i a) y') := by
  have h := sinv_reach hr (sinv_init nt nq)
  have hL := linv_reach hr (sinv_init nt nq) fun i _ => List.Pairwise.nil
  have hrun := reach_run hr
  have hmem : ∀ (l : List Move) x, x ∈ opsOf l → .op x.1 x.2 ∈ l := by
    intro l
    induction l with
    | nil => exact fun x hx => by cases hx
    | cons m l ih =>
      intro x hx
      cases m with
      | op t a =>
        simp only [opsOf, List.mem_cons] at hx
        rcases hx with rfl | hx
        · exact List.mem_cons_self ..
        · exact List.mem_cons_of_mem _ (ih x hx)
      | query i a => exact List.mem_cons_of_mem _ (ih x hx)
  have h0 : y.s.leaks = 0 := by
    rcases hl with hl | hl
    · exact (oneCp_run _ _ ⟨rfl, fun _ => rfl, fun _ => rfl, rfl⟩ (fun x hx he => hl _ (hmem l x hx) x.1 (by rw [he])) hrun).2.2.2
    · exact (noRemove_run _ _ ⟨rfl, fun t o ho => by cases ho⟩ (fun x hx k he => hl _ (hmem l x hx) x.1 k (by rw [he])) hrun).1
  have hex : ∃ a, y.Busy a := by
    rcases hc with ⟨t, ht, hi⟩ | ⟨i, hi, hid⟩
    · exact ⟨.inl t, ht, hi⟩
    · exact ⟨.inr i, hi, hid⟩
  obtain ⟨a, ha, hb⟩ := some_goes_on h hL h0 hex
  cases a with
  | inl t => exact Or.inl ⟨t, ha.1, ha.2, hb, thread_goes_on h ha.1 ha.2 hb⟩
  | inr i => exact Or.inr ⟨i, ha.1, ha.2, hb, query_goes_on h ha.1 ha.2 hb⟩

/-- Query 0 is in the first leaf and about to lock the second; a thread has locked the root and waits for the first leaf, to set a key; a second thread
is in the second leaf, to set a key there. -/
def waiting : List Move := six ++
  [.query 0 (.ask (wide 9 true fun _ _ => true)), .query 0 .lockRoot, .query 0 .down, .query 0 .read] ++
  byOps [(1, .call (.put .upsert 3 31)), (1, .lockRoot), (1, .child), (1, .descend), (0, .call (.put .upsert 1 11)), (0, .lockRoot)]

/-- `C87_some_call_or_query_goes_on_partial` is about such states: both the query and a thread must wait. -/
example : ∃ y, Sys.Reach (Sys.init 2 1) waiting y ∧ (∀ x ∈ waiting, ∀ t, x ≠ .op t .switchCp) ∧ y.s.pcs 0 ≠ .idle ∧ y.qs 0 ≠ .idle ∧
    y.BlockedT 0 ∧ y.BlockedQ 0 := by
  have h : ((Sys.init 2 1).run waiting).any (fun y => decide (y.s.nt = 2) && decide (y.nq = 1) &&
      decide (y.s.awaits (y.s.pcs 0) = some (0, true)) && decide (0 ∈ (y.qs 0).locks) &&
      decide (y.qAwaits (y.qs 0) = some 2) && decide ((2, true) ∈ (y.s.pcs 1).locks)) = true := by decide +kernel
  cases hr : (Sys.init 2 1).run waiting with
  | none => rw [hr] at h; cases h
  | some y =>
    rw [hr] at h
    simp only [Option.any_some, Bool.and_eq_true, decide_eq_true_eq] at h
    obtain ⟨⟨⟨⟨⟨h1, h2⟩, h3⟩, h4⟩, h5⟩, h6⟩ := h
    refine ⟨y, run_reach hr, ?_, ?_, ?_, Or.inr (Or.inl ⟨0, h3, fun hu => hu 0 (by omega) h4⟩),
      ⟨2, h5, Or.inl fun hc => hc 1 (by omega) h6⟩⟩
    · intro x hx t he
      subst he
      simp [waiting, six, five, four, byOps, setAt] at hx
    · intro hp; rw [hp] at h3; cases h3
    · intro hp; rw [hp] at h4; cases h4

/-- C87 does not hold: a remove that runs into a node of a later checkpoint at the root keeps the lock of the tree; a put that must split the
root then waits for ever, whatever other calls and queries do. -/
theorem C87_some_call_or_query_goes_on_violated :
    ∃ (nt nq : Nat) (l : List Move) (y : Sys) (t : Nat), Sys.Reach (Sys.init nt nq) l y ∧ t < nt ∧ y.s.pcs t ≠ .idle ∧
      (∀ u < nt, u ≠ t → y.s.pcs u = .idle) ∧ (∀ i < nq, y.qs i = .idle) ∧
      ∀ l' y', Sys.Reach y l' y' → y'.s.pcs t ≠ .idle ∧ ∃ ext, y'.s.tr = y.s.tr ++ ext ∧ ∀ r, .ret t r ∉ ext := by
  have h : ((Sys.init 2 1).run (byOps leaky)).any (fun y => decide (y.s.pcs 0 = .idle) && decide (y.s.pcs 1 = .excl (.put .upsert 7 70)) &&
      decide (y.s.leaks = 1) && (match y.qs 0 with | .idle => true | _ => false)) = true := by decide +kernel
  cases hr : (Sys.init 2 1).run (byOps leaky) with
  | none => rw [hr] at h; cases h
  | some y =>
    rw [hr] at h
    simp only [Option.any_some, Bool.and_eq_true, decide_eq_true_eq] at h
    obtain ⟨⟨⟨h0, h1⟩, h2⟩, h3⟩ := h
    refine ⟨2, 1, byOps leaky, y, 1, run_reach hr, by decide, by rw [h1]; simp, fun u hu hne => ?_, fun i hi => ?_, fun l' y' hr' => ?_⟩
    · have : u = 0 := by omega
      rw [this]; exact h0
    · have : i = 0 := by omega
      subst this
      cases hq : y.qs 0 with
      | idle => rfl
      | _ => rw [hq] at h3; cases h3
    · obtain ⟨k1, ext, k2, k3⟩ := stuck_run _ y.s (by omega) h1 (reach_run hr')
      exact ⟨by rw [k1]; simp, ext, k2, fun r hm => k3 _ hm rfl⟩

end HS.Scan
