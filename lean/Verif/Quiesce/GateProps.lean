import Verif.Quiesce.Gate
/-!
# C103: after `quiesce_reqs` has returned, no request gets blocks until `resume_accepting_reqs` is called
-/
namespace HS.Quiesce

theorem upd_same {α : Type} {f : Tid → α} {t : Tid} {x : α} : upd f t x t = x := by simp [upd]

theorem upd_other {α : Type} {f : Tid → α} {t u : Tid} {x : α} (h : u ≠ t) : upd f t x u = f u := by simp [upd, h]

/-- A thread is in `init_req_ctx`. -/
def inside (p : Pc) : Prop := p = .counted ∨ p = .admitted ∨ p = .leaving

instance (p : Pc) : Decidable (inside p) := by unfold inside; infer_instance

/-- The counter is the number of threads in `init_req_ctx`; only threads in `resume_accepting_reqs` have a `false` that did
not reach memory. -/
structure Inv (s : St) : Prop where
  count : ∃ l : List Tid, l.Nodup ∧ l.length = s.cnt ∧ ∀ u, u ∈ l ↔ inside (s.pc u)
  bufs : ∀ u, s.pc u ≠ .resuming → ∀ b ∈ s.buf u, b = true

theorem inv_init : Inv St.init := by
  refine ⟨⟨[], List.nodup_nil, rfl, fun u => ?_⟩, fun u _ b hb => by cases hb⟩
  simp [inside, St.init]

/-- The list stays if a thread stays inside or outside. -/
theorem count_same {s : St} {t : Tid} {p : Pc} {n : Nat} (hn : n = s.cnt) (hp : inside p ↔ inside (s.pc t))
    (h : ∃ l : List Tid, l.Nodup ∧ l.length = s.cnt ∧ ∀ u, u ∈ l ↔ inside (s.pc u)) :
    ∃ l : List Tid, l.Nodup ∧ l.length = n ∧ ∀ u, u ∈ l ↔ inside (upd s.pc t p u) := by
  obtain ⟨l, h1, h2, h3⟩ := h
  refine ⟨l, h1, by rw [h2, hn], fun u => ?_⟩
  by_cases e : u = t
  · subst e; rw [upd_same, h3, hp]
  · rw [upd_other e]; exact h3 u

theorem bufs_pc {s : St} {t : Tid} {p : Pc} (ht : s.pc t ≠ .resuming)
    (h : ∀ u, s.pc u ≠ .resuming → ∀ b ∈ s.buf u, b = true) :
    ∀ u, upd s.pc t p u ≠ .resuming → ∀ b ∈ s.buf u, b = true := by
  intro u hu
  by_cases e : u = t
  · subst e; exact h u ht
  · rw [upd_other e] at hu; exact h u hu

theorem inv_step {s s' : St} {e : Ev} (hi : Inv s) (h : step s e = some s') : Inv s' := by
  cases e with
  | enter t =>
    simp only [step] at h
    split at h
    · rename_i hc
      injection h with h; subst h
      obtain ⟨l, h1, h2, h3⟩ := hi.count
      refine ⟨⟨t :: l, ?_, ?_, ?_⟩, bufs_pc (by rw [hc.1]; simp) hi.bufs⟩
      · refine List.nodup_cons.2 ⟨?_, h1⟩
        rw [h3, hc.1]; simp [inside]
      · simp [h2]
      · intro u
        show u ∈ t :: l ↔ inside (upd s.pc t .counted u)
        by_cases e : u = t
        · subst e; simp [upd_same, inside]
        · rw [upd_other e]; simp [e, h3]
    · cases h
  | check t =>
    simp only [step] at h
    split at h
    · rename_i hc
      injection h with h; subst h
      refine ⟨count_same rfl ?_ hi.count, bufs_pc (by rw [hc]; simp) hi.bufs⟩
      rw [hc]; split <;> simp [inside]
    · cases h
  | alloc t =>
    simp only [step] at h
    split at h
    · rename_i hc
      injection h with h; subst h
      exact ⟨count_same rfl (by rw [hc]; simp [inside]) hi.count, bufs_pc (by rw [hc]; simp) hi.bufs⟩
    · cases h
  | skip t =>
    simp only [step] at h
    split at h
    · rename_i hc
      injection h with h; subst h
      exact ⟨count_same rfl (by rw [hc]; simp [inside]) hi.count, bufs_pc (by rw [hc]; simp) hi.bufs⟩
    · cases h
  | leave t =>
    simp only [step] at h
    split at h
    · rename_i hc
      injection h with h; subst h
      obtain ⟨l, h1, h2, h3⟩ := hi.count
      have hm : t ∈ l := by rw [h3, hc.1]; simp [inside]
      refine ⟨⟨l.erase t, h1.erase t, ?_, ?_⟩, bufs_pc (by rw [hc.1]; simp) hi.bufs⟩
      · rw [List.length_erase_of_mem hm, h2]
      · intro u
        show u ∈ l.erase t ↔ inside (upd s.pc t .idle u)
        by_cases e : u = t
        · subst e
          rw [upd_same]
          constructor
          · intro h
            exact absurd h h1.not_mem_erase
          · intro h; simp [inside] at h
        · rw [upd_other e, List.mem_erase_of_ne e]; exact h3 u
    · cases h
  | quiesce t =>
    simp only [step] at h
    split at h
    · rename_i hc
      injection h with h; subst h
      refine ⟨count_same rfl (by rw [hc]; simp [inside]) hi.count, ?_⟩
      intro u hu b hb
      by_cases e : u = t
      · subst e
        change b ∈ upd s.buf u _ u at hb
        rw [upd_same] at hb
        rcases List.mem_append.1 hb with hb | hb
        · exact hi.bufs u (by rw [hc]; simp) b hb
        · simpa using hb
      · change b ∈ upd s.buf t _ u at hb
        change upd s.pc t _ u ≠ _ at hu
        rw [upd_other e] at hb hu
        exact hi.bufs u hu b hb
    · cases h
  | poll t =>
    simp only [step] at h
    split at h
    · injection h with h; subst h; exact hi
    · cases h
  | ret t =>
    simp only [step] at h
    split at h
    · rename_i hc
      injection h with h; subst h
      exact ⟨count_same rfl (by rw [hc.1]; simp [inside]) hi.count, bufs_pc (by rw [hc.1]; simp) hi.bufs⟩
    · cases h
  | resume t =>
    simp only [step] at h
    split at h
    · rename_i hc
      injection h with h; subst h
      refine ⟨count_same rfl (by rw [hc]; simp [inside]) hi.count, ?_⟩
      intro u hu b hb
      by_cases e : u = t
      · subst e
        change upd s.pc u _ u ≠ _ at hu
        rw [upd_same] at hu
        exact absurd rfl hu
      · change b ∈ upd s.buf t _ u at hb
        change upd s.pc t _ u ≠ _ at hu
        rw [upd_other e] at hb hu
        exact hi.bufs u hu b hb
    · cases h
  | resumed t =>
    simp only [step] at h
    split at h
    · rename_i hc
      injection h with h; subst h
      refine ⟨count_same rfl (by rw [hc.1]; simp [inside]) hi.count, ?_⟩
      intro u hu b hb
      by_cases e : u = t
      · subst e
        change b ∈ s.buf u at hb
        rw [hc.2] at hb; cases hb
      · change upd s.pc t _ u ≠ _ at hu
        rw [upd_other e] at hu
        exact hi.bufs u hu b hb
    · cases h
  | drain t =>
    simp only [step] at h
    split at h
    · cases h
    · rename_i b0 l hb0
      injection h with h; subst h
      refine ⟨hi.count, ?_⟩
      intro u hu b hb
      change b ∈ upd s.buf t l u at hb
      by_cases e : u = t
      · subst e
        rw [upd_same] at hb
        exact hi.bufs u hu b (by rw [hb0]; exact List.mem_cons_of_mem _ hb)
      · rw [upd_other e] at hb
        exact hi.bufs u hu b hb

theorem inv_run {s s' : St} : ∀ {l : List Ev}, Inv s → run s l = some s' → Inv s' := by
  intro l
  induction l generalizing s with
  | nil => intro hi h; injection h with h; subst h; exact hi
  | cons e l ih =>
    intro hi h
    simp only [run] at h
    split at h
    · rename_i s1 hs; exact ih (inv_step hi hs) h
    · cases h

/-- No `resume_accepting_reqs` is called. -/
def NoResume (l : List Ev) : Prop := ∀ t, Ev.resume t ∉ l

/-- Nobody is in `resume_accepting_reqs`, and no `false` is on its way to memory. -/
structure Still (s : St) : Prop where
  pc : ∀ u, s.pc u ≠ .resuming
  bufs : ∀ u, ∀ b ∈ s.buf u, b = true

theorem still_step {s s' : St} {e : Ev} (hs : Still s) (he : ∀ t, e ≠ .resume t) (h : step s e = some s') :
    Still s' ∧ (s.flag = true → s'.flag = true) := by
  have hpc : ∀ {t : Tid} {p : Pc}, p ≠ .resuming → ∀ u, upd s.pc t p u ≠ .resuming := by
    intro t p hp u
    by_cases e : u = t
    · subst e; rw [upd_same]; exact hp
    · rw [upd_other e]; exact hs.pc u
  cases e with
  | resume t => exact absurd rfl (he t)
  | drain t =>
    simp only [step] at h
    split at h
    · cases h
    · rename_i b l hb
      injection h with h; subst h
      have hbt : b = true := hs.bufs t b (by rw [hb]; exact List.mem_cons_self)
      refine ⟨⟨hs.pc, ?_⟩, fun _ => hbt⟩
      intro u b' hb'
      change b' ∈ upd s.buf t l u at hb'
      by_cases e : u = t
      · subst e
        rw [upd_same] at hb'
        exact hs.bufs u b' (by rw [hb]; exact List.mem_cons_of_mem _ hb')
      · rw [upd_other e] at hb'
        exact hs.bufs u b' hb'
  | quiesce t =>
    simp only [step] at h
    split at h
    · injection h with h; subst h
      refine ⟨⟨hpc (by simp), ?_⟩, id⟩
      intro u b' hb'
      change b' ∈ upd s.buf t _ u at hb'
      by_cases e : u = t
      · subst e
        rw [upd_same] at hb'
        rcases List.mem_append.1 hb' with hb' | hb'
        · exact hs.bufs u b' hb'
        · simpa using hb'
      · rw [upd_other e] at hb'
        exact hs.bufs u b' hb'
    · cases h
  | enter t =>
    simp only [step] at h
    split at h
    · injection h with h; subst h; exact ⟨⟨hpc (by simp), hs.bufs⟩, id⟩
    · cases h
  | check t =>
    simp only [step] at h
    split at h
    · injection h with h; subst h; exact ⟨⟨hpc (by split <;> simp), hs.bufs⟩, id⟩
    · cases h
  | alloc t =>
    simp only [step] at h
    split at h
    · injection h with h; subst h; exact ⟨⟨hpc (by simp), hs.bufs⟩, id⟩
    · cases h
  | skip t =>
    simp only [step] at h
    split at h
    · injection h with h; subst h; exact ⟨⟨hpc (by simp), hs.bufs⟩, id⟩
    · cases h
  | leave t =>
    simp only [step] at h
    split at h
    · injection h with h; subst h; exact ⟨⟨hpc (by simp), hs.bufs⟩, id⟩
    · cases h
  | poll t =>
    simp only [step] at h
    split at h
    · injection h with h; subst h; exact ⟨hs, id⟩
    · cases h
  | ret t =>
    simp only [step] at h
    split at h
    · injection h with h; subst h; exact ⟨⟨hpc (by simp), hs.bufs⟩, id⟩
    · cases h
  | resumed t =>
    simp only [step] at h
    split at h
    · injection h with h; subst h; exact ⟨⟨hpc (by simp), hs.bufs⟩, id⟩
    · cases h

/-- After the store of `t`: it is on its way or in memory. -/
structure Stored (t : Tid) (s : St) : Prop where
  still : Still s
  stored : s.flag = true ∨ s.buf t ≠ []

theorem stored_step {t : Tid} {s s' : St} {e : Ev} (hs : Stored t s) (he : ∀ u, e ≠ .resume u) (h : step s e = some s') :
    Stored t s' := by
  have hst := still_step hs.still he h
  refine ⟨hst.1, ?_⟩
  rcases hs.stored with hf | hb
  · exact Or.inl (hst.2 hf)
  · cases e with
    | drain u =>
      simp only [step] at h
      split at h
      · cases h
      · rename_i b l hbu
        injection h with h; subst h
        left
        exact hs.still.bufs u b (by rw [hbu]; exact List.mem_cons_self)
    | quiesce u =>
      simp only [step] at h
      split at h
      · injection h with h; subst h
        right
        show upd s.buf u _ t ≠ []
        by_cases e : t = u
        · subst e; rw [upd_same]; simp
        · rw [upd_other e]; exact hb
      · cases h
    | resume u => exact absurd rfl (he u)
    | enter u =>
      simp only [step] at h
      split at h
      · injection h with h; subst h; exact Or.inr hb
      · cases h
    | check u =>
      simp only [step] at h
      split at h
      · injection h with h; subst h; exact Or.inr hb
      · cases h
    | alloc u =>
      simp only [step] at h
      split at h
      · injection h with h; subst h; exact Or.inr hb
      · cases h
    | skip u =>
      simp only [step] at h
      split at h
      · injection h with h; subst h; exact Or.inr hb
      · cases h
    | leave u =>
      simp only [step] at h
      split at h
      · injection h with h; subst h; exact Or.inr hb
      · cases h
    | poll u =>
      simp only [step] at h
      split at h
      · injection h with h; subst h; exact Or.inr hb
      · cases h
    | ret u =>
      simp only [step] at h
      split at h
      · injection h with h; subst h; exact Or.inr hb
      · cases h
    | resumed u =>
      simp only [step] at h
      split at h
      · injection h with h; subst h; exact Or.inr hb
      · cases h

theorem stored_run {t : Tid} {s' : St} : ∀ {l : List Ev} {s : St}, Stored t s → NoResume l → run s l = some s' → Stored t s' := by
  intro l
  induction l with
  | nil => intro s hi _ h; injection h with h; subst h; exact hi
  | cons e l ih =>
    intro s hi hn h
    simp only [run] at h
    split at h
    · rename_i s1 hs
      refine ih (stored_step hi ?_ hs) (fun u hu => hn u (List.mem_cons_of_mem _ hu)) h
      intro u e'
      exact hn u (by rw [e']; exact List.mem_cons_self)
    · cases h

/-- The flag is set and nobody is past the check. -/
structure Shut (s : St) : Prop where
  still : Still s
  flag : s.flag = true
  none : ∀ u, s.pc u ≠ .admitted

theorem shut_read {s : St} (h : Shut s) (u : Tid) : s.read u = true := by
  rw [St.read]
  split
  · rename_i b hb
    exact h.still.bufs u b (List.mem_of_getLast? hb)
  · exact h.flag

theorem shut_step {s s' : St} {e : Ev} (hs : Shut s) (he : ∀ u, e ≠ .resume u) (h : step s e = some s') :
    Shut s' ∧ ∀ u, e ≠ .alloc u := by
  have hst := still_step hs.still he h
  have hna : ∀ u, e ≠ .alloc u := by
    intro u hu
    subst hu
    simp only [step] at h
    split at h
    · rename_i hc; exact hs.none u hc
    · cases h
  have hpc : ∀ {t : Tid} {p : Pc}, p ≠ .admitted → ∀ u, upd s.pc t p u ≠ .admitted := by
    intro t p hp u
    by_cases e : u = t
    · subst e; rw [upd_same]; exact hp
    · rw [upd_other e]; exact hs.none u
  refine ⟨⟨hst.1, hst.2 hs.flag, ?_⟩, hna⟩
  cases e with
  | resume t => exact absurd rfl (he t)
  | alloc t => exact absurd rfl (hna t)
  | drain t =>
    simp only [step] at h
    split at h
    · cases h
    · injection h with h; subst h; exact hs.none
  | check t =>
    simp only [step] at h
    split at h
    · injection h with h; subst h
      rw [shut_read hs t]
      exact hpc (by simp)
    · cases h
  | poll t =>
    simp only [step] at h
    split at h
    · injection h with h; subst h; exact hs.none
    · cases h
  | quiesce t | enter t | skip t | leave t | ret t | resumed t =>
    simp only [step] at h
    split at h
    · injection h with h; subst h; exact hpc (by simp)
    · cases h

theorem shut_run {s' : St} : ∀ {l : List Ev} {s : St}, Shut s → NoResume l → run s l = some s' → ∀ u, Ev.alloc u ∉ l := by
  intro l
  induction l with
  | nil => intro s _ _ _ u hu; cases hu
  | cons e l ih =>
    intro s hi hn h u hu
    simp only [run] at h
    split at h
    · rename_i s1 hs
      have he : ∀ u, e ≠ .resume u := by
        intro u e'
        exact hn u (by rw [e']; exact List.mem_cons_self)
      have := shut_step hi he hs
      rcases List.mem_cons.1 hu with hu | hu
      · exact this.2 u hu.symm
      · exact ih this.1 (fun u hu => hn u (List.mem_cons_of_mem _ hu)) h u hu
    · cases h

theorem inside_none {s : St} (hi : Inv s) (h0 : s.cnt = 0) (u : Tid) : ¬ inside (s.pc u) := by
  obtain ⟨l, -, h2, h3⟩ := hi.count
  intro h
  have := (h3 u).2 h
  rw [h0] at h2
  rw [List.eq_nil_of_length_eq_zero h2] at this
  cases this

/-- **C103**.  Thread `t` calls `quiesce_reqs` when nobody is in `resume_accepting_reqs`, its store to the flag is in memory
when it last reads the counter, and it returns.  From then on no request gets blocks until `resume_accepting_reqs` is
called, whatever other threads do, and however many there are. -/
theorem C103_quiesced_partial {before during after : List Ev} {t : Tid} {s1 s2 s3 : St}
    (h1 : run St.init before = some s1) (hr : ∀ u, s1.pc u ≠ .resuming)
    (h2 : run s1 (.quiesce t :: during) = some s2) (hd : NoResume during) (hvis : s2.buf t = [])
    (h3 : run s2 (.ret t :: after) = some s3) (ha : NoResume after) : ∀ u, Ev.alloc u ∉ after := by
  have i1 := inv_run inv_init h1
  have i2 := inv_run i1 h2
  have st1 : Still s1 := ⟨hr, fun u => i1.bufs u (hr u)⟩
  simp only [run] at h2
  split at h2
  · rename_i s1' hs
    have he : ∀ u, Ev.quiesce t ≠ .resume u := by intro u; simp
    have hst : Stored t s1' := by
      refine ⟨(still_step st1 he hs).1, Or.inr ?_⟩
      simp only [step] at hs
      split at hs
      · injection hs with hs; subst hs
        show upd s1.buf t _ t ≠ []
        rw [upd_same]; simp
      · cases hs
    have hst2 := stored_run hst hd h2
    simp only [run] at h3
    split at h3
    · rename_i s2' hs2
      have hflag : s2.flag = true := by
        rcases hst2.stored with h | h
        · exact h
        · exact absurd hvis h
      simp only [step] at hs2
      split at hs2
      · rename_i hc
        have hsh : Shut s2 := ⟨hst2.still, hflag, fun u hu => inside_none i2 hc.2 u (by simp [inside, hu])⟩
        have hsh' := (shut_step (e := .ret t) hsh (by simp) (by rw [step, if_pos hc] : step s2 (.ret t) = some _)).1
        injection hs2 with hs2
        rw [← hs2] at h3
        exact shut_run hsh' ha h3
      · cases hs2
    · cases h3
  · cases h2

/-- **C103**.  `quiesce_reqs` waits for nothing else: when no thread is in `init_req_ctx`, it returns. -/
theorem C103_returns {l : List Ev} {s : St} {t : Tid} (h : run St.init l = some s) (ht : s.pc t = .waiting)
    (hn : ∀ u, ¬ inside (s.pc u)) : ∃ s', step s (.ret t) = some s' := by
  obtain ⟨l, h1, h2, h3⟩ := (inv_run inv_init h).count
  have : s.cnt = 0 := by
    cases l with
    | nil => exact h2.symm
    | cons x l => exact absurd ((h3 x).1 List.mem_cons_self) (hn x)
  exact ⟨_, by rw [step, if_pos ⟨ht, this⟩]⟩

/-- A thread in `init_req_ctx` can always go on, whatever the others do: three steps and it is out. -/
theorem C103_requests_end {s : St} {t : Tid} (ht : inside (s.pc t)) (hb : s.buf t = []) :
    ∃ l' s', l'.length ≤ 3 ∧ run s l' = some s' ∧ s'.pc t = .idle ∧ ∀ u, u ≠ t → s'.pc u = s.pc u := by
  have hl : ∀ {s : St}, s.pc t = .leaving → s.buf t = [] → ∃ s', run s [.leave t] = some s' ∧ s'.pc t = .idle ∧ ∀ u, u ≠ t → s'.pc u = s.pc u := by
    intro s hp hb
    exact ⟨_, by simp only [run, step, hp, hb]; simp; rfl, upd_same, fun u hu => upd_other hu⟩
  have hA : ∀ {s : St}, s.pc t = .admitted → s.buf t = [] → ∃ s', run s [.skip t, .leave t] = some s' ∧ s'.pc t = .idle ∧ ∀ u, u ≠ t → s'.pc u = s.pc u := by
    intro s hp hb
    obtain ⟨s', a, b, c⟩ := hl (s := { s with pc := upd s.pc t .leaving }) upd_same hb
    refine ⟨s', ?_, b, fun u hu => (c u hu).trans (upd_other hu)⟩
    rw [run]
    simp only [step, hp, if_true]
    exact a
  rcases ht with hp | hp | hp
  · cases hf : s.read t with
    | true =>
      obtain ⟨s', a, b, c⟩ := hl (s := { s with pc := upd s.pc t .leaving }) upd_same hb
      refine ⟨[.check t, .leave t], s', by simp, ?_, b, fun u hu => (c u hu).trans (upd_other hu)⟩
      rw [run]
      simp only [step, hp, if_true, hf]
      exact a
    | false =>
      obtain ⟨s', a, b, c⟩ := hA (s := { s with pc := upd s.pc t .admitted }) upd_same hb
      refine ⟨[.check t, .skip t, .leave t], s', by simp, ?_, b, fun u hu => (c u hu).trans (upd_other hu)⟩
      rw [run]
      simp only [step, hp, if_true, hf, Bool.false_eq_true, if_false]
      exact a
  · obtain ⟨s', a, b, c⟩ := hA hp hb
    exact ⟨_, s', by simp, a, b, c⟩
  · obtain ⟨s', a, b, c⟩ := hl hp hb
    exact ⟨_, s', by simp, a, b, c⟩

/-- **C103 (violated)**.  The store to the flag need not be in memory when the counter is read: `quiesce_reqs` returns, and
then a request gets blocks, though nobody has called `resume_accepting_reqs`. -/
theorem C103_store_delayed_violated :
    ∃ (after : List Ev) (t u : Tid) (s1 s2 s3 : St), run St.init [] = some s1 ∧ run s1 [.quiesce t] = some s2 ∧
      run s2 (.ret t :: after) = some s3 ∧ NoResume after ∧ Ev.alloc u ∈ after := by
  refine ⟨[.enter 2, .check 2, .alloc 2, .leave 2, .drain 1], 1, 2, _, _, _, rfl, rfl, rfl, ?_, by decide⟩
  intro t h
  simp at h

/-! ## A case that meets the hypotheses: a request is being initialized, another is refused, a third thread quiesces too -/

example : ∀ u, Ev.alloc u ∉ [Ev.enter 7, .check 7, .leave 7, .quiesce 5, .drain 5, .ret 5] := by
  refine C103_quiesced_partial (before := [.enter 2, .check 2, .enter 3])
    (during := [.poll 1, .check 3, .drain 1, .alloc 2, .skip 3, .poll 1, .leave 2, .leave 3]) (t := 1) rfl ?_ rfl ?_ rfl rfl ?_
  · intro u
    simp only [upd, St.init, St.read]
    by_cases h3 : u = 3
    · simp [h3]
    · by_cases h2 : u = 2
      · simp [h3, h2]
      · simp [h3, h2]
  · intro t h; simp at h
  · intro t h; simp at h

end HS.Quiesce
