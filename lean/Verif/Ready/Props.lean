import Verif.Ready.Model
/-!
# C106: a leader that says it is ready has committed what it had when it became leader
-/
namespace HS.Ready

structure Inv (s : St) : Prop where
  gate : s.gate ≤ s.log
  base : s.leader = true → s.base ≤ s.log
  lead : s.leader = true → s.cb = none → s.base ≤ s.gate
  follow : s.leader = false → s.cb = none → s.gate = 0
  cbT : s.cb = some true → s.leader = true
  cbF : s.cb = some false → s.leader = false

theorem inv_init (log committed : Nat) : Inv (St.init log committed) :=
  ⟨Nat.zero_le _, by simp [St.init], by simp [St.init], by simp [St.init], by simp [St.init], by simp [St.init]⟩

theorem inv_step {s : St} {e : Ev} (h : Inv s) : step s e ≠ .abort ∧ ∀ s', step s e = .ok s' → Inv s' := by
  have no : Out.no ≠ .abort ∧ ∀ s', Out.no = .ok s' → Inv s' := ⟨by simp, by intro s' h; cases h⟩
  have ok : ∀ {t : St}, Inv t → Out.ok t ≠ .abort ∧ ∀ s', Out.ok t = .ok s' → Inv s' := by
    intro t ht
    refine ⟨by simp, ?_⟩
    intro s' h; injection h with h; subst h; exact ht
  obtain ⟨h1, h2, h3, h4, h5, h6⟩ := h
  cases e with
  | lead =>
    simp only [step]; split
    · exact ok ⟨h1, fun _ => Nat.le_refl _, by simp, by simp, by simp, by simp⟩
    · exact no
  | leadCb =>
    simp only [step]; split
    · rename_i hc
      exact ok ⟨Nat.le_refl _, h2, fun h _ => h2 h, by simp [h5 hc], by simp, by simp⟩
    · exact no
  | follow =>
    simp only [step]; split
    · exact ok ⟨h1, by simp, by simp, by simp, by simp, by simp⟩
    · exact no
  | followCb =>
    simp only [step]; split
    · rename_i hc
      exact ok ⟨Nat.zero_le _, h2, by simp [h6 hc], by simp, by simp, by simp⟩
    · exact no
  | append =>
    simp only [step]; split
    · exact ok ⟨Nat.le_succ_of_le h1, fun h => Nat.le_succ_of_le (h2 h), h3, h4, h5, h6⟩
    · exact no
  | truncate n =>
    simp only [step]; split
    · rename_i hc
      exact ok ⟨by simp [h4 hc.2.1 hc.1], by simp [hc.2.1], h3, h4, h5, h6⟩
    · exact no
  | snapshot n =>
    simp only [step]; split
    · rename_i hc
      exact ok ⟨by simp [h4 hc.2.1 hc.1], by simp [hc.2.1], h3, h4, h5, h6⟩
    · exact no
  | commit =>
    simp only [step]; split
    · exact ok ⟨h1, h2, h3, h4, h5, h6⟩
    · exact no
  | ask =>
    simp only [step]; split
    · exact ok ⟨h1, h2, h3, h4, h5, h6⟩
    · exact no
  | answer r =>
    simp only [step]; split
    · split
      · exact ok ⟨h1, h2, h3, h4, h5, h6⟩
      · exact no
    · exact no

theorem inv_run {l : List Ev} : ∀ {s : St}, Inv s → run s l ≠ .abort ∧ ∀ s', run s l = .ok s' → Inv s' := by
  induction l with
  | nil => intro s h; exact ⟨by simp [run], by intro s' hs; injection hs with hs; subst hs; exact h⟩
  | cons e l ih =>
    intro s h
    have hs := inv_step (e := e) h
    simp only [run]
    cases hc : step s e with
    | ok s' => exact ih (hs.2 s' hc)
    | abort => exact absurd hc hs.1
    | no => exact ⟨by simp, by intro s' h; cases h⟩

/-- **C106**.  The check that the gate does not go back never fails. -/
theorem C106_no_abort (log committed : Nat) (l : List Ev) : run (St.init log committed) l ≠ .abort := (inv_run (inv_init log committed)).1

/-- Raft does not change the role. -/
def Stays (l : List Ev) : Prop := Ev.lead ∉ l ∧ Ev.follow ∉ l

/-- As long as the role stays: what was true of a leader, and a question that is being answered. -/
structure Asked (s0 : St) (c : Nat) (s : St) : Prop where
  cb : s.cb = none
  leader : s.leader = true
  base : s.base = s0.base
  gate : s.gate = s0.gate
  committed : c ≤ s.committed
  asked : s.asked = some c

theorem asked_step {s0 s s' : St} {c : Nat} {e : Ev} (h : Asked s0 c s) (he : e ≠ .lead ∧ e ≠ .follow ∧ ∀ r, e ≠ .answer r)
    (hs : step s e = .ok s') : Asked s0 c s' := by
  obtain ⟨h1, h2, h3, h4, h5, h6⟩ := h
  cases e with
  | lead => exact absurd rfl he.1
  | follow => exact absurd rfl he.2.1
  | answer r => exact absurd rfl (he.2.2 r)
  | leadCb => simp [step, h1] at hs
  | followCb => simp [step, h1] at hs
  | append => simp [step, h1] at hs; subst hs; exact ⟨rfl, h2, h3, h4, h5, h6⟩
  | truncate n => simp [step, h2] at hs
  | snapshot n => simp [step, h2] at hs
  | commit =>
    simp only [step] at hs
    split at hs
    · injection hs with hs; subst hs; exact ⟨h1, h2, h3, h4, Nat.le_succ_of_le h5, h6⟩
    · cases hs
  | ask => simp [step, h6] at hs

/-- **C106**.  An application thread asks a leader, after raft has told the device that it leads, whether it is ready for traffic,
and raft does not change the role before the answer.  If the answer is yes, all entries that were in the log when the
member became leader are committed. -/
theorem C106_ready_partial {log committed : Nat} {before during : List Ev} {s1 s2 : St}
    (h1 : run (St.init log committed) before = .ok s1) (hl : s1.leader = true) (hc : s1.cb = none)
    (hd : Stays during) (hn : ∀ r, Ev.answer r ∉ during)
    (h2 : run s1 (.ask :: during ++ [.answer true]) = .ok s2) : s1.base ≤ s2.committed := by
  have i1 := (inv_run (inv_init log committed)).2 s1 h1
  have key : ∀ {l : List Ev} {s : St}, Asked s1 s1.committed s → Stays l → (∀ r, Ev.answer r ∉ l) → run s (l ++ [.answer true]) = .ok s2 →
      s1.gate ≤ s2.committed := by
    intro l
    induction l with
    | nil =>
      intro s ha _ _ h
      simp only [List.nil_append, run, step, ha.asked] at h
      split at h
      · rename_i s3 hs3
        split at hs3
        · rename_i hr
          injection hs3 with hs3; subst hs3
          injection h with h; subst h
          have : s1.committed ≥ s.gate := by simpa using hr
          rw [ha.gate] at this
          exact Nat.le_trans this ha.committed
        · cases hs3
      · cases h
      · cases h
    | cons e l ih =>
      intro s ha hst hn h
      simp only [List.cons_append, run] at h
      split at h
      · rename_i s3 hs3
        refine ih (asked_step ha ⟨?_, ?_, ?_⟩ hs3) ⟨fun h => hst.1 (List.mem_cons_of_mem _ h), fun h => hst.2 (List.mem_cons_of_mem _ h)⟩
          (fun r h => hn r (List.mem_cons_of_mem _ h)) h
        · intro e'; exact hst.1 (e' ▸ List.mem_cons_self)
        · intro e'; exact hst.2 (e' ▸ List.mem_cons_self)
        · intro r e'; exact hn r (e' ▸ List.mem_cons_self)
      · cases h
      · cases h
  simp only [List.cons_append, run] at h2
  split at h2
  · rename_i s3 hs3
    refine Nat.le_trans (i1.lead hl hc) (key ?_ hd hn h2)
    simp only [step] at hs3
    split at hs3
    · injection hs3 with hs3; subst hs3
      exact ⟨hc, hl, rfl, rfl, Nat.le_refl _, rfl⟩
    · cases hs3
  · cases h2
  · cases h2

/-- **C106**.  The answer is yes once everything is committed that was in the log when raft told the device that it leads. -/
theorem C106_becomes_ready {s : St} (h : s.gate ≤ s.committed) (ha : s.asked = none) :
    ∃ s', run s [.ask, .answer true] = .ok s' := by
  refine ⟨s, ?_⟩
  simp [run, step, ha, h]
  cases s; simp_all

/-- **C106 (violated)**.  Raft makes a member the leader before it tells the device: in between the member leads, and says that
it is ready, with entries in its log that are not committed. -/
theorem C106_early_violated :
    ∃ s1 s2, run (St.init 5 3) [.lead] = .ok s1 ∧ s1.leader = true ∧ run s1 [.ask, .answer true] = .ok s2 ∧ s2.leader = true ∧
      ¬ s1.base ≤ s2.committed :=
  ⟨_, _, rfl, rfl, rfl, rfl, by decide⟩

/-! ## A case that meets the hypotheses: elected, told, three entries committed while writes come in, asked again -/

example : ∃ s1 s2, run (St.init 5 3) [.lead, .leadCb, .append, .ask, .answer false, .commit, .commit] = .ok s1 ∧
    run s1 (.ask :: [.append, .commit] ++ [.answer true]) = .ok s2 ∧ s1.base = 5 ∧ s1.base ≤ s2.committed := by
  refine ⟨_, _, rfl, rfl, rfl, ?_⟩
  exact C106_ready_partial (log := 5) (committed := 3) (before := [.lead, .leadCb, .append, .ask, .answer false, .commit, .commit])
    (during := [.append, .commit]) rfl rfl rfl ⟨by decide, by decide⟩ (by intro r; simp) rfl

/-- Re-elected without having been a follower, with a longer log. -/
example : ∃ s, run (St.init 2 2) [.lead, .leadCb, .append, .append, .lead, .leadCb, .follow, .followCb, .truncate 3, .lead, .leadCb] = .ok s ∧ s.gate = 3 :=
  ⟨_, rfl, rfl⟩

end HS.Ready
