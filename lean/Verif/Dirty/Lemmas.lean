import Verif.Dirty.Model
/-! Lemmas for C113. -/
namespace HS.Dirty
open HS.Cp

/-- A checkpoint that may have dirty buffers: it is not flushing yet, or the index service has not completed. -/
def Open (idx : Nat) (r : CP) : Prop :=
  r.status = .ready ∨ r.status = .trigger ∨ r.status = .prepare ∨ (r.status = .flushing ∧ idx ∈ r.running)

/-- Facts about one row of a state of the checkpoint manager. -/
theorem row_facts {k s} (h : Inv k s) (c : Nat) :
    (0 < (s.cp c).starters → (s.cp c).status = .prepare) ∧
    (0 < (s.cp c).refs → (s.cp c).status = .ready ∨ (s.cp c).status = .trigger ∨ (s.cp c).status = .prepare) ∧
    ((s.cp c).stage = .recorded → (s.cp c).status = .gone) ∧
    (∀ m, s.tpc = some (c, m) → s.inFlush = true ∧ ((m = .switching → (s.cp c).status = .trigger ∧ (s.cp (c + 1)).status = .unknown))) ∧
    (s.inFlush = false → (s.cp c).status ≠ .unknown → (s.cp c).status ≠ .gone → c = s.cur ∧ (s.cp c).status = .ready) ∧
    (∀ c', (s.cp c').stage = .recorded → s.inFlush = true ∧ ((s.cp c).status ≠ .unknown → (s.cp c).status ≠ .gone → (s.cp c).status = .ready)) := by
  obtain ⟨p, n, hg, hr⟩ := h
  have hrow : ∀ x, RowOk k p n x (s.cp x) := hr
  have A : ∀ x, ((s.cp x).stage = .recorded → p = .fl ∧ x = n ∧ Recorded k x (s.cp x)) := by
    intro x hx
    have hr := hrow x
    rcases cases4 n x with h1 | h1 | h1 | h1
    · rw [RowOk.lt h1] at hr; exact absurd hx hr.2.2.2.2.2.2.1
    · subst h1; rw [RowOk.eq] at hr
      cases p <;> simp only [Ready, Trig, Prep1, Prep2, Flushing, Done, NotYet, hx] at hr <;> simp at hr
      exact ⟨rfl, rfl, hr⟩
    · subst h1; rw [RowOk.succ] at hr
      cases p <;> simp only [Ready, Fresh, NotYet, hx] at hr <;> simp at hr
    · rw [RowOk.gt h1] at hr; simp only [Fresh, NotYet, hx] at hr; simp at hr
  have hc := hrow c
  refine ⟨?_, ?_, ?_, ?_, ?_, ?_⟩
  · intro h0
    rcases cases4 n c with h1 | h1 | h1 | h1
    · rw [RowOk.lt h1] at hc; simp only [Past, Quietly] at hc; omega
    · subst h1; rw [RowOk.eq] at hc
      cases p <;> simp only [Ready, Trig, Prep1, Prep2, Flushing, Done, Recorded, Quietly] at hc <;> grind
    · subst h1; rw [RowOk.succ] at hc
      cases p <;> simp only [Ready, Fresh, Quietly] at hc <;> grind
    · rw [RowOk.gt h1] at hc; simp only [Fresh, Quietly] at hc; omega
  · intro h0
    rcases cases4 n c with h1 | h1 | h1 | h1
    · rw [RowOk.lt h1] at hc; simp only [Past, Quietly] at hc; omega
    · subst h1; rw [RowOk.eq] at hc
      cases p <;> simp only [Ready, Trig, Prep1, Prep2, Flushing, Done, Recorded, Quietly] at hc <;> grind
    · subst h1; rw [RowOk.succ] at hc
      cases p <;> simp only [Ready, Fresh, Quietly] at hc <;> grind
    · rw [RowOk.gt h1] at hc; simp only [Fresh, Quietly] at hc; omega
  · intro h0; exact (A c h0).2.2.1
  · intro m hm
    cases p <;> simp only [GOk] at hg <;> obtain ⟨_, _, g3, g4, _, _⟩ := hg <;> rw [hm] at g4 <;> simp at g4
    · obtain ⟨e, e2⟩ := g4; subst e; subst e2
      have h2 := hrow (c + 1)
      rw [RowOk.eq] at hc; rw [RowOk.succ] at h2
      exact ⟨g3, fun _ => ⟨hc.1, h2.1⟩⟩
    · obtain ⟨e, e2⟩ := g4; subst e2; exact ⟨g3, by simp⟩
    · obtain ⟨e, e2⟩ := g4; subst e2; exact ⟨g3, by simp⟩
  · intro h0 hu hgn
    cases p <;> simp only [GOk] at hg <;> obtain ⟨_, _, g3, _, g5, _⟩ := hg <;> rw [h0] at g3 <;> simp at g3
    rcases cases4 n c with h1 | h1 | h1 | h1
    · rw [RowOk.lt h1] at hc; exact absurd hc.1 hgn
    · subst h1; rw [RowOk.eq] at hc; exact ⟨g5.symm, hc.1⟩
    · subst h1; rw [RowOk.succ] at hc; exact absurd hc.1 hu
    · rw [RowOk.gt h1] at hc; exact absurd hc.1 hu
  · intro c' h0
    obtain ⟨hp, hn, hrec⟩ := A c' h0
    subst hp; subst hn
    simp only [GOk] at hg
    refine ⟨hg.2.2.1, fun hu hgn => ?_⟩
    rcases cases4 c' c with h1 | h1 | h1 | h1
    · rw [RowOk.lt h1] at hc; exact absurd hc.1 hgn
    · subst h1; exact absurd hrec.1 hgn
    · subst h1; rw [RowOk.succ] at hc; exact hc.1
    · rw [RowOk.gt h1] at hc; exact absurd hc.1 hu

/-- What a trigger does to a checkpoint that may have dirty buffers. -/
theorem trigger_open {k s s' idx f o t c} (h : Inv k s) (hs : trigger s f o t = some s') (ho : Open idx (s.cp c)) :
    Open idx (s'.cp c) ∧ ((s'.cp c).status = .ready → (s.cp c).status = .ready) ∧
    (s.inFlush = false → (s'.cp c).status ≠ .ready) := by
  simp only [trigger] at hs
  split at hs
  · simp at hs
  split at hs
  · rename_i hf
    have : s'.cp = s.cp := by
      split at hs
      · split at hs <;> (simp only [Option.some.injEq] at hs; subst hs; rfl)
      · simp only [Option.some.injEq] at hs; subst hs; rfl
    rw [this]
    exact ⟨ho, id, by simp [hf]⟩
  · rename_i hf
    simp only [Bool.not_eq_true] at hf
    have hu : (s.cp c).status ≠ .unknown ∧ (s.cp c).status ≠ .gone := by
      simp only [Open] at ho; rcases ho with h | h | h | h <;> simp [h]
    have hcc := (row_facts h c).2.2.2.2.1 hf hu.1 hu.2
    have key : ∀ c', c' = s.cur → s' = beginTrig s c' → Open idx (s'.cp c) ∧ ((s'.cp c).status = .ready → (s.cp c).status = .ready) ∧
        (s.inFlush = false → (s'.cp c).status ≠ .ready) := by
      intro c' e1 e2
      subst e2
      simp only [beginTrig, St.set, upd]
      rw [if_pos (by rw [e1]; exact hcc.1)]
      simp [Open]
    split at hs
    · simp only [Option.some.injEq] at hs; exact key _ rfl hs.symm
    · rename_i c'
      split at hs
      · simp at hs
      rename_i h0
      simp only [Option.some.injEq] at hs
      have h1 := (row_facts h c').2.1 (by omega)
      have h2 := (row_facts h c').2.2.2.2.1 hf (by rcases h1 with h | h | h <;> simp [h]) (by rcases h1 with h | h | h <;> simp [h])
      exact key _ h2.1 hs.symm

theorem trigger_inFlush {s s' f o t} (hs : trigger s f o t = some s') : s'.inFlush = true ∧ (∀ c, (s'.cp c).refs = (s.cp c).refs) := by
  simp only [trigger] at hs
  split at hs
  · simp at hs
  split at hs
  · split at hs
    · split at hs <;> (simp only [Option.some.injEq] at hs; subst hs; simp_all)
    · simp only [Option.some.injEq] at hs; subst hs; simp_all
  · split at hs
    · simp only [Option.some.injEq] at hs; subst hs; refine ⟨rfl, fun c => ?_⟩
      simp only [beginTrig, St.set, upd]; split <;> simp_all
    · split at hs
      · simp at hs
      simp only [Option.some.injEq] at hs; subst hs; refine ⟨rfl, fun c => ?_⟩
      simp only [beginTrig, St.set, upd]; split <;> simp_all

/-- What a step of the checkpoint manager does to a checkpoint that may have dirty buffers. -/
theorem step_open {k s a s' idx c} (h : Inv k s) (hs : step k s a = some s') (hcr : a ≠ .crash)
    (hd : ∀ ok, a ≠ .consDone c idx ok) (hp : idx ∈ k.parts c) (ho : Open idx (s.cp c)) :
    Open idx (s'.cp c) ∧ ((s'.cp c).status = .ready → (s.cp c).status = .ready) ∧
    (s.inFlush = false → s'.inFlush = true → (s'.cp c).status ≠ .ready) := by
  have triv : s'.cp c = s.cp c → s'.inFlush = s.inFlush ∨ s'.inFlush = false → Open idx (s'.cp c) ∧ ((s'.cp c).status = .ready → (s.cp c).status = .ready) ∧
      (s.inFlush = false → s'.inFlush = true → (s'.cp c).status ≠ .ready) := by
    intro e1 e2; rw [e1]; refine ⟨ho, id, ?_⟩; intro h1 h2; rcases e2 with e2 | e2 <;> simp_all
  have hu : (s.cp c).status ≠ .unknown ∧ (s.cp c).status ≠ .gone ∧ (s.cp c).status ≠ .done := by
    simp only [Open] at ho; rcases ho with h | h | h | h <;> simp [h]
  have rows : ∀ x r', s'.cp = upd s.cp x r' → s'.inFlush = s.inFlush ∨ s'.inFlush = false →
      (x = c → Open idx r' ∧ (r'.status = .ready → (s.cp c).status = .ready)) →
      Open idx (s'.cp c) ∧ ((s'.cp c).status = .ready → (s.cp c).status = .ready) ∧
      (s.inFlush = false → s'.inFlush = true → (s'.cp c).status ≠ .ready) := by
    intro x r' e1 e2 e3
    by_cases hx : x = c
    · obtain ⟨q1, q2⟩ := e3 hx
      rw [e1]; subst hx; simp only [upd, if_true]
      exact ⟨q1, q2, fun h1 h2 => by rcases e2 with e2 | e2 <;> simp_all⟩
    · refine triv ?_ e2; rw [e1]; simp only [upd]; rw [if_neg (fun e => hx e.symm)]
  cases a with
  | trig f o t =>
    obtain ⟨h1, h2, h3⟩ := trigger_open h hs ho
    exact ⟨h1, h2, fun q _ => h3 q⟩
  | trigB2b =>
    simp only [step] at hs
    split at hs
    · simp at hs
    have h' : Inv k { s with b2b := s.b2b - 1 } := by
      obtain ⟨p, n, hg, hr⟩ := h; exact ⟨p, n, by simpa only [GOk] using hg, hr⟩
    obtain ⟨h1, h2, h3⟩ := trigger_open (c := c) (idx := idx) h' hs ho
    exact ⟨h1, h2, fun q _ => h3 q⟩
  | crash => exact absurd rfl hcr
  | tPrepare =>
    simp only [step] at hs
    split at hs
    rotate_left
    · simp at hs
    rename_i x htp
    simp only [Option.some.injEq] at hs; subst hs
    obtain ⟨f1, f2⟩ := (row_facts h x).2.2.2.1 _ htp
    obtain ⟨f2, f3⟩ := f2 rfl
    have n1 : c ≠ x + 1 := fun e => by subst e; exact hu.1 f3
    by_cases hx : c = x
    · subst hx
      simp only [St.set, upd]
      rw [if_neg n1]; simp [Open, f1]
    · apply triv
      · simp only [St.set, upd]; rw [if_neg n1, if_neg hx]
      · exact Or.inl rfl
  | tXchg =>
    simp only [step] at hs; split at hs
    · simp only [Option.some.injEq] at hs; subst hs; exact triv rfl (Or.inl rfl)
    · simp at hs
  | shutInit => simp only [step, Option.some.injEq] at hs; subst hs; exact triv rfl (Or.inl rfl)
  | ioRead =>
    simp only [step, Option.some.injEq] at hs; subst hs
    exact rows _ _ rfl (Or.inl rfl) fun e => by subst e; exact ⟨ho, id⟩
  | tSync =>
    simp only [step] at hs; split at hs
    · split at hs
      · simp only [Option.some.injEq] at hs; subst hs
        exact rows _ _ rfl (Or.inl rfl) fun e => by subst e; exact ⟨ho, id⟩
      · simp at hs
    · simp at hs
  | consDone x y ok =>
    simp only [step] at hs; split at hs
    · simp only [Option.some.injEq] at hs; subst hs
      refine rows _ _ rfl (Or.inl rfl) fun e => ?_
      subst e
      have hy : y ≠ idx := fun e => hd ok (by rw [e])
      refine ⟨?_, id⟩
      simp only [Open] at ho ⊢
      rcases ho with h | h | h | h
      · exact Or.inl h
      · exact Or.inr (Or.inl h)
      · exact Or.inr (Or.inr (Or.inl h))
      · exact Or.inr (Or.inr (Or.inr ⟨h.1, (List.mem_erase_of_ne (fun e => hy e.symm)).2 h.2⟩))
    · simp at hs
  | startFlush x =>
    simp only [step] at hs; split at hs
    · simp at hs
    simp only [Option.some.injEq] at hs; subst hs
    refine rows _ _ rfl (Or.inl rfl) fun e => ?_
    subst e
    exact ⟨Or.inr (Or.inr (Or.inr ⟨rfl, by simp [hp]⟩)), by simp⟩
  | sealStart x =>
    simp only [step] at hs; split at hs
    · simp only [Option.some.injEq] at hs; subst hs
      exact rows _ _ rfl (Or.inl rfl) fun e => by subst e; exact ⟨ho, id⟩
    · simp at hs
  | sealDone x ok =>
    have hs0 := hs
    simp only [step] at hs; split at hs
    · rename_i hc
      simp only [Option.some.injEq] at hs; subst hs
      refine rows _ _ rfl (Or.inl rfl) fun e => ?_
      subst e
      exfalso
      obtain ⟨p, n, hg, hr⟩ := h
      have hn := (at_fl ⟨hg, hr⟩ (Or.inl hc.1)).2
      subst hn
      have hp := (at_fl ⟨hg, hr⟩ (Or.inl hc.1)).1
      subst hp
      have hx := hr x
      rw [RowOk.eq] at hx
      simp only [Prep2, Flushing, Done, Recorded, hc.1] at hx
      simp at hx
      have := (hx.2.2.2.1 hc.2).1
      simp only [Open, hc.1, this] at ho
      simp at ho
    · simp at hs
  | noSeal x =>
    simp only [step] at hs; split at hs
    · rename_i hc
      simp only [Option.some.injEq] at hs; subst hs
      refine rows _ _ rfl (Or.inl rfl) fun e => ?_
      subst e
      simp only [Open, hc.1, hc.2.1] at ho
      simp at ho
    · simp at hs
  | record x =>
    simp only [step] at hs; split at hs
    · rename_i hc
      simp only [Option.some.injEq] at hs; subst hs
      exact rows _ _ rfl (Or.inl rfl) fun e => by subst e; exact absurd hc hu.2.2
    · simp at hs
  | finLock x =>
    simp only [step] at hs; split at hs
    · rename_i hc
      simp only [Option.some.injEq] at hs; subst hs
      exact rows _ _ rfl (Or.inr rfl) fun e => by subst e; exact ⟨ho, id⟩
    · simp at hs
  | finProm x =>
    simp only [step] at hs; split at hs
    · simp only [Option.some.injEq] at hs; subst hs
      exact rows _ _ rfl (Or.inl rfl) fun e => by subst e; exact ⟨ho, id⟩
    · simp at hs
  | _ =>
    simp only [step] at hs; split at hs
    · simp at hs
    simp only [Option.some.injEq] at hs; subst hs
    exact rows _ _ rfl (Or.inl rfl) fun e => by subst e; exact ⟨ho, id⟩

/-- Only `finLock` ends the flush phase. -/
theorem step_end {k s a s'} (h : Inv k s) (hs : step k s a = some s') (hcr : a ≠ .crash) (h1 : s.inFlush = true) (h2 : s'.inFlush = false) :
    ∃ c, (s.cp c).stage = .recorded := by
  cases a with
  | trig f o t => have := (trigger_inFlush hs).1; simp_all
  | trigB2b =>
    simp only [step] at hs; split at hs
    · simp at hs
    have := (trigger_inFlush hs).1; simp_all
  | finLock c => simp only [step] at hs; split at hs <;> first | (rename_i hc; exact ⟨c, hc.1⟩) | simp at hs
  | crash => exact absurd rfl hcr
  | _ =>
    exfalso
    simp only [step] at hs
    repeat' split at hs
    all_goals first | (simp only [Option.some.injEq] at hs; subst hs; simp [St.set, St.touch, h1] at h2) | simp at hs

/-- References disappear only by `exitDec`. -/
theorem step_refs {k s a s'} (hs : step k s a = some s') (hcr : a ≠ .crash) (c : Nat) (hd : a ≠ .exitDec c) :
    (s.cp c).refs ≤ (s'.cp c).refs := by
  cases a with
  | trig f o t => exact Nat.le_of_eq ((trigger_inFlush hs).2 c).symm
  | trigB2b =>
    simp only [step] at hs; split at hs
    · simp at hs
    exact Nat.le_of_eq ((trigger_inFlush hs).2 c).symm
  | crash => exact absurd rfl hcr
  | exitDec x =>
    have : c ≠ x := fun e => hd (by rw [e])
    simp only [step] at hs
    split at hs
    · simp at hs
    · simp only [Option.some.injEq] at hs; subst hs; simp only [St.set, St.touch, upd]; rw [if_neg this]; exact Nat.le_refl _
  | _ =>
    simp only [step] at hs
    repeat' split at hs
    all_goals first
      | (simp only [Option.some.injEq] at hs; subst hs; simp only [St.set, St.touch, upd]; grind)
      | simp at hs

end HS.Dirty
