import Verif.Quiesce.Latch
/-!
# What creating, preparing and finishing a request do
-/
namespace HS.Quiesce.Latch

theorem upd_same {β : Type} {f : Key → β} {k : Key} {x : β} : upd f k x k = x := by simp [upd]

theorem upd_other {β : Type} {f : Key → β} {k k' : Key} {x : β} (h : k' ≠ k) : upd f k x k' = f k' := by simp [upd, h]

/-- The log finds the request of a key and takes it as it is, with its blocks if it has data. -/
def ReadyIn (m : Key → Option Req) (k : Key) : Prop :=
  ∃ q, m k = some q ∧ q.pending = false ∧ (k.linked = true → q.blk.isSome = true)

/-- Whether a member has blocks for a key. -/
def HasBlk (m : Key → Option Req) (k : Key) : Prop := ∃ q, m k = some q ∧ q.blk.isSome = true

/-- What `create` does, whatever the request. -/
structure Created (s : St) (k : Key) (lsn : Option Nat) (r : St × Bool) : Prop where
  me : r.1.me = s.me
  quiet : r.1.quiet = s.quiet
  log : r.1.log = s.log
  committed : r.1.committed = s.committed
  batch : r.1.batch = s.batch
  begun : r.1.begun = s.begun
  others : ∀ k', k' ≠ k → r.1.map k' = s.map k'
  ready : ReadyIn s.map k → ReadyIn r.1.map k
  made : r.2 = true → ∃ q, r.1.map k = some q ∧ (k.linked = true → q.blk.isSome = true)
  latch : r.1.latch = s.latch ∨ (r.2 = false ∧ r.1.latch = lsn ∧ lsn.isSome = true)
  plain : s.quiet = false → k.linked = false → r.2 = true
  freedO : ∀ k', k' ≠ k → r.1.freed k' = s.freed k'
  freedK : r.1.freed k = true → s.freed k = true
  freedN : HasBlk r.1.map k → r.1.freed k = true → k ∈ s.log ∨ (HasBlk s.map k ∧ s.freed k = true)
  noBlk : s.quiet = true → ∀ c q, r.1.map k = some q → q.blk = some c → ∃ q', s.map k = some q' ∧ q'.blk = some c
  freedL : k ∈ s.log → r.1.freed k = s.freed k

theorem created_refl {s : St} {k : Key} {lsn : Option Nat} {q : Req} (h : s.map k = some q) (hb : q.blk.isSome = true) : Created s k lsn (s, true) where
  me := rfl
  quiet := rfl
  log := rfl
  committed := rfl
  batch := rfl
  begun := rfl
  others _ _ := rfl
  ready := id
  made _ := ⟨q, h, fun _ => hb⟩
  latch := Or.inl rfl
  plain _ _ := rfl
  freedO _ _ := rfl
  freedK := id
  freedN h1 h2 := Or.inr ⟨h1, h2⟩
  noBlk _ c q h1 h2 := ⟨q, h1, h2⟩
  freedL _ := rfl

theorem created (s : St) (k : Key) (lsn : Option Nat) (g : Got) : Created s k lsn (s.create k lsn g) := by
  unfold St.create
  simp only
  split
  · rename_i hh
    cases hq : s.map k with
    | none => simp [St.old, hq] at hh
    | some q =>
      refine created_refl hq ?_
      simpa [St.old, hq] using hh
  · rename_i hh
    have hold : (s.old k).blk = none := by simpa using hh
    split
    · rename_i hq
      refine ⟨rfl, rfl, rfl, rfl, rfl, rfl, fun k' h => upd_other h, ?_, ?_, Or.inl rfl, ?_, fun _ _ => rfl, id, ?_, ?_, fun _ => rfl⟩
      · rintro ⟨q, h1, h2, h3⟩
        refine ⟨q, ?_, h2, h3⟩
        show upd s.map k _ k = _
        rw [upd_same]
        simp [St.old, h1]
      · intro h; cases h
      · intro h; rw [hq] at h; cases h
      · rintro ⟨q, h1, h2⟩ -
        change upd s.map k _ k = _ at h1
        rw [upd_same] at h1
        injection h1 with h1
        rw [← h1, hold] at h2
        cases h2
      · intro _ c q h1 h2
        change upd s.map k _ k = _ at h1
        rw [upd_same] at h1
        injection h1 with h1
        rw [← h1, hold] at h2
        cases h2
    · rename_i hq
      have hq : s.quiet = false := by simpa using hq
      have hnb : ∀ {P : Prop}, s.quiet = true → P := by intro P h; rw [hq] at h; cases h
      have hinit : ((s.old k).init s.me k g).2 = none → (k.linked = true → ((s.old k).init s.me k g).1.blk.isSome = true) := by
        unfold Req.init
        simp only [hold]
        cases k.linked <;> cases g <;> simp
      have hinit1 : ((s.old k).init s.me k g).2 ≠ none → ((s.old k).init s.me k g).1.blk = none := by
        unfold Req.init
        simp only [hold]
        cases k.linked <;> cases g <;> simp [hold]
      have hinit2 : k.linked = false → ((s.old k).init s.me k g).2 = none ∧ ((s.old k).init s.me k g).1.pending = false := by
        unfold Req.init
        intro h
        simp [h]
      have hready : ReadyIn s.map k → k.linked = false := by
        rintro ⟨q, h1, h2, h3⟩
        cases hl : k.linked with
        | false => rfl
        | true =>
          exfalso
          have := h3 hl
          have ho : s.old k = q := by simp [St.old, h1]
          rw [ho] at hold
          rw [hold] at this
          cases this
      split
      · rename_i hr
        refine ⟨rfl, rfl, rfl, rfl, rfl, rfl, fun k' h => upd_other h, ?_, ?_, Or.inl rfl, fun _ _ => rfl, fun k' h => upd_other h, ?_, ?_, hnb, ?_⟩
        · intro h
          have hl := hready h
          refine ⟨((s.old k).init s.me k g).1, upd_same, (hinit2 hl).2, ?_⟩
          intro h; rw [hl] at h; cases h
        · intro _
          exact ⟨((s.old k).init s.me k g).1, upd_same, hinit hr⟩
        · intro h
          change upd s.freed k _ k = true at h
          rw [upd_same] at h
          simp only [Bool.and_eq_true] at h
          exact h.1
        · intro _ h
          change upd s.freed k _ k = true at h
          rw [upd_same] at h
          simp only [Bool.and_eq_true, decide_eq_true_eq] at h
          exact Or.inl h.2
        · intro h
          show upd s.freed k _ k = _
          rw [upd_same]
          simp [h]
      · rename_i hr
        have hf : ((s.old k).init s.me k g).2 ≠ none := by rw [hr]; simp
        have hlk : k.linked = true := by
          cases hl : k.linked with
          | true => rfl
          | false => exact absurd (hinit2 hl).1 hf
        have key : ∀ s2 : St, s2.me = s.me → s2.quiet = s.quiet → s2.log = s.log → s2.committed = s.committed → s2.batch = s.batch →
            s2.begun = s.begun → s2.map = upd s.map k (some ((s.old k).init s.me k g).1) → s2.freed = s.freed →
            (s2.latch = s.latch ∨ (s2.latch = lsn ∧ lsn.isSome = true)) → Created s k lsn (s2, false) := by
          intro s2 e1 e2 e3 e4 e5 e6 e7 e8 e9
          refine ⟨e1, e2, e3, e4, e5, e6, ?_, ?_, ?_, ?_, ?_, ?_, ?_, ?_, hnb, ?_⟩
          · intro k' h; show s2.map k' = _; rw [e7]; exact upd_other h
          · intro h; rw [hready h] at hlk; cases hlk
          · intro h; cases h
          · rcases e9 with h | h
            · exact Or.inl h
            · exact Or.inr ⟨rfl, h⟩
          · intro _ h; rw [h] at hlk; cases hlk
          · intro k' _; show s2.freed k' = _; rw [e8]
          · intro h; change s2.freed k = _ at h; rw [e8] at h; exact h
          · rintro ⟨q, h1, h2⟩ -
            change s2.map k = _ at h1
            rw [e7, upd_same] at h1
            injection h1 with h1
            rw [← h1, hinit1 hf] at h2
            cases h2
          · intro _; show s2.freed k = _; rw [e8]
        split
        · rename_i hc
          exact key _ rfl rfl rfl rfl rfl rfl rfl rfl (Or.inr ⟨rfl, hc.1⟩)
        · exact key _ rfl rfl rfl rfl rfl rfl rfl rfl (Or.inl rfl)
      · rename_i g' hr hg'
        have hf : ((s.old k).init s.me k g).2 ≠ none := by rw [hg']; simp
        have hlk : k.linked = true := by
          cases hl : k.linked with
          | true => rfl
          | false => exact absurd (hinit2 hl).1 hf
        refine ⟨rfl, rfl, rfl, rfl, rfl, rfl, fun k' h => upd_other h, ?_, ?_, Or.inl rfl, ?_, fun _ _ => rfl, id, ?_, hnb, fun _ => rfl⟩
        · intro h; rw [hready h] at hlk; cases hlk
        · intro h; cases h
        · intro _ h; rw [h] at hlk; cases hlk
        · rintro ⟨q, h1, h2⟩ -
          change upd s.map k _ k = _ at h1
          rw [upd_same] at h1
          injection h1 with h1
          rw [← h1, hinit1 hf] at h2
          cases h2

/-- `prepare`, when it succeeds, leaves a request the log will take; when it does not, it did what `create` did. -/
theorem prepared (s : St) (k : Key) (lsn : Nat) (g : Got) :
    Created s k (some lsn) (s.prepare k lsn g) ∧ ((s.prepare k lsn g).2 = true → ReadyIn (s.prepare k lsn g).1.map k) := by
  have h := created s k (some lsn) g
  unfold St.prepare
  simp only
  split
  · rename_i hr
    obtain ⟨q, hq, hb⟩ := h.made hr
    simp only [hq]
    have hready : ReadyIn (upd (s.create k (some lsn) g).1.map k (some { q with pending := false })) k := ⟨_, upd_same, rfl, hb⟩
    refine ⟨⟨h.me, h.quiet, h.log, h.committed, h.batch, h.begun, ?_, fun _ => hready, ?_, ?_, fun _ _ => rfl, h.freedO, h.freedK, ?_, ?_, h.freedL⟩, fun _ => hready⟩
    · intro k' hk
      exact (upd_other hk).trans (h.others k' hk)
    · intro _
      exact ⟨_, upd_same, hb⟩
    · rcases h.latch with h' | h'
      · exact Or.inl h'
      · rw [hr] at h'; cases h'.1
    · rintro ⟨q', h1, h2⟩ h3
      change upd _ k _ k = _ at h1
      rw [upd_same] at h1
      injection h1 with h1
      subst h1
      exact h.freedN ⟨q, hq, h2⟩ h3
    · intro hqt c q' h1 h2
      change upd _ k _ k = _ at h1
      rw [upd_same] at h1
      injection h1 with h1
      subst h1
      exact h.noBlk hqt c q hq h2
  · rename_i hr
    refine ⟨h, fun h' => absurd h' hr⟩

/-- The log takes a request that is ready. -/
theorem finish_ready {s : St} {k : Key} (g : Got) (h : ReadyIn s.map k) : s.finish k g = some s := by
  obtain ⟨q, h1, h2, -⟩ := h
  simp [St.finish, h1, h2]

/-- What `finish` does when it does not abort. -/
theorem finished {s s1 : St} {k : Key} {g : Got} (h : s.finish k g = some s1) :
    s1 = s ∨ (Created s k (some 0) (s1, true) ∧ ReadyIn s1.map k) := by
  unfold St.finish at h
  simp only at h
  split at h
  · injection h with h; exact Or.inl h.symm
  · split at h
    · rename_i hr
      injection h with h
      right
      have := prepared s k 0 g
      have e : s.prepare k 0 g = (s1, true) := by rw [← h, ← hr]
      rw [e] at this
      exact ⟨this.1, this.2 rfl⟩
    · cases h

theorem finish_plain {s : St} {k : Key} {g : Got} (hq : s.quiet = false) (hl : k.linked = false) : ∃ s1, s.finish k g = some s1 := by
  unfold St.finish
  simp only
  split
  · exact ⟨_, rfl⟩
  · have := (prepared s k 0 g).1.plain hq hl
    rw [if_pos this]
    exact ⟨_, rfl⟩

/-- Other requests are as ready as they were. -/
theorem Created.readyAll {s : St} {k : Key} {lsn : Option Nat} {r : St × Bool} (h : Created s k lsn r) {k' : Key} (hr : ReadyIn s.map k') :
    ReadyIn r.1.map k' := by
  by_cases e : k' = k
  · subst e; exact h.ready hr
  · obtain ⟨q, h1, h2⟩ := hr
    exact ⟨q, by rw [h.others k' e]; exact h1, h2⟩

end HS.Quiesce.Latch
