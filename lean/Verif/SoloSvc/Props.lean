import Verif.SoloSvc.Model
/-!
# C118: a solo replication device is found again until it is removed

The specification is in the theorems: `s.st g` is what the user knows of group `g`, `s.acked g` the
entries it acknowledged; `m.map g` is what `get_repl_dev` finds, and the entries of the log device
are what a start delivers.
-/
namespace HS.SoloSvc

@[simp] theorem upd_same {α : Type} (f : Nat → α) (i : Nat) (a : α) : upd f i a i = a := by
  simp [upd]

theorem upd_other {α : Type} (f : Nat → α) {i j : Nat} (a : α) (h : j ≠ i) : upd f i a j = f j := by
  simp [upd, h]

/-! ## In any history -/

/-- What holds of the memory, in any history: what is named belongs to the group and was made. -/
structure BaseM (d : Disk) (m : Mem) : Prop where
  map : ∀ g l, m.map g = some l → (d.lds l).gid = g ∧ l ≤ d.last
  cr : ∀ l k, m.cr l = some k → l ≤ d.last
  rms : ∀ l, m.rms l ≠ [] → l ≤ d.last

/-- What holds in any history. -/
structure Base (s : St) : Prop where
  rds : ∀ r ∈ s.disk.rds, (s.disk.lds r.ld).gid = r.gid ∧ r.ld ≤ s.disk.last
  recs : ∀ l v, v ∈ (s.disk.lds l).recs → v ∈ s.wrote (s.disk.lds l).gid
  mem : ∀ m, s.proc = .up m → BaseM s.disk m

theorem base_init : Base St.init := by
  refine ⟨by simp [St.init], by simp [St.init, LD.blank], ?_⟩
  intro m hm
  simp [St.init] at hm
  subst hm
  exact ⟨by simp [Mem.new], by simp [Mem.new], by simp [Mem.new]⟩

/-- A change of one log device that keeps its group, and of nothing else on disk. -/
theorem base_ld {s : St} (h : Base s) (l : Nat) (d' : LD) (p : Proc) (hg : d'.gid = (s.disk.lds l).gid)
    (hr : ∀ v ∈ d'.recs, v ∈ (s.disk.lds l).recs)
    (hm : ∀ m, p = .up m → BaseM s.disk m) :
    Base { s with disk := { s.disk with lds := upd s.disk.lds l d' }, proc := p } := by
  have gid : ∀ i, (upd s.disk.lds l d' i).gid = (s.disk.lds i).gid := by
    intro i; by_cases hi : i = l
    · subst hi; simp [hg]
    · rw [upd_other _ _ hi]
  refine ⟨fun r hr => by simpa [gid] using h.rds r hr, ?_, ?_⟩
  · intro i v hv
    simp only [gid]
    by_cases hi : i = l
    · subst hi; simp at hv; exact h.recs _ _ (hr v hv)
    · simp only [upd_other _ _ hi] at hv; exact h.recs _ _ hv
  · intro m hm'
    have := hm m hm'
    exact ⟨fun g i hi => by simpa [gid] using this.map g i hi, this.cr, this.rms⟩

theorem loaded_some {rds : List Rd} {g l : Nat} (h : loaded rds g = some l) :
    ∃ r ∈ rds, r.gid = g ∧ r.ld = l := by
  unfold loaded at h
  cases hf : rds.find? (fun r => r.gid = g) with
  | none => simp [hf] at h
  | some r =>
    simp [hf] at h
    exact ⟨r, List.mem_of_find?_eq_some hf, by simpa using List.find?_some hf, h⟩

theorem loaded_none {rds : List Rd} {g : Nat} (h : loaded rds g = none) : ∀ r ∈ rds, r.gid ≠ g := by
  unfold loaded at h
  intro r hr
  simp at h
  exact h r hr

theorem mem_insert {α : Type} (a b : α) (l : List α) (k : Nat) :
    b ∈ l.insertIdx (min k l.length) a ↔ b = a ∨ b ∈ l :=
  List.mem_insertIdx (Nat.min_le_right _ _)

theorem base_step {s s' : St} (o : Op) (h : Base s) (hs : step s o = some s') : Base s' := by
  obtain ⟨d, p, st, acked, wrote⟩ := s
  cases p with
  | down =>
    cases o <;> simp [step] at hs
    subst hs
    unfold doBoot
    split
    · exact ⟨h.rds, h.recs, by simp⟩
    split
    · exact ⟨h.rds, h.recs, by simp⟩
    refine ⟨h.rds, h.recs, ?_⟩
    intro m hm
    simp at hm
    subst hm
    refine ⟨?_, by simp [started], by simp [started]⟩
    intro g l hl
    obtain ⟨r, hr, rfl, rfl⟩ := loaded_some hl
    exact h.rds r hr
  | failed =>
    cases o <;> simp [step] at hs
    subst hs
    unfold doBoot
    split
    · exact ⟨h.rds, h.recs, by simp⟩
    split
    · exact ⟨h.rds, h.recs, by simp⟩
    refine ⟨h.rds, h.recs, ?_⟩
    intro m hm
    simp at hm
    subst hm
    refine ⟨?_, by simp [started], by simp [started]⟩
    intro g l hl
    obtain ⟨r, hr, rfl, rfl⟩ := loaded_some hl
    exact h.rds r hr
  | ub => cases o <;> simp [step] at hs
  | up m =>
    have hm := h.mem m rfl
    cases o with
    | boot => simp [step] at hs
    | crash =>
      simp [step] at hs; subst hs
      exact ⟨h.rds, h.recs, by simp⟩
    | create g =>
      simp [step] at hs; subst hs
      have ne : ∀ i, i ≤ d.last → i ≠ d.last + 1 := by intro i hi; omega
      refine ⟨?_, ?_, ?_⟩
      · intro r hr
        obtain ⟨h1, h2⟩ := h.rds r hr
        exact ⟨by simp only [doCreate]; rw [upd_other _ _ (ne _ h2)]; exact h1,
          by simp only [doCreate]; exact Nat.le_succ_of_le h2⟩
      · intro l v hv
        simp only [doCreate] at hv ⊢
        by_cases hl : l = d.last + 1
        · subst hl; simp [LD.blank] at hv
        · rw [upd_other _ _ hl] at hv ⊢; exact h.recs l v hv
      · intro m' hm'
        simp [doCreate] at hm'
        subst hm'
        refine ⟨?_, ?_, ?_⟩
        · intro g' l hl
          obtain ⟨h1, h2⟩ := hm.map g' l hl
          exact ⟨by simp only [doCreate]; rw [upd_other _ _ (ne _ h2)]; exact h1,
            by simp only [doCreate]; exact Nat.le_succ_of_le h2⟩
        · intro l k hk
          simp only [doCreate] at hk ⊢
          by_cases hl : l = d.last + 1
          · omega
          · rw [upd_other _ _ hl] at hk; exact Nat.le_succ_of_le (hm.cr l k hk)
        · intro l hl
          exact Nat.le_succ_of_le (hm.rms l hl)
    | crStep l k =>
      simp only [step, doCrStep] at hs
      have crm : ∀ n k, m.cr l = some k → BaseM d { m with cr := upd m.cr l n } := by
        intro n k hk
        refine ⟨hm.map, ?_, hm.rms⟩
        intro i j hj
        by_cases hi : i = l
        · subst hi; exact hm.cr _ _ hk
        · simp only [upd_other _ _ hi] at hj; exact hm.cr _ _ hj
      split at hs
      · next hk =>
        simp at hs; subst hs
        exact base_ld (s := ⟨d, .up m, st, acked, wrote⟩) h l { d.lds l with sb := true } _ rfl (fun v hv => hv) (by rintro _ ⟨⟩; exact crm _ _ hk)
      · next hk =>
        simp at hs; subst hs
        exact base_ld (s := ⟨d, .up m, st, acked, wrote⟩) h l { d.lds l with rb := true } _ rfl (fun v hv => hv) (by rintro _ ⟨⟩; exact crm _ _ hk)
      · next hk =>
        simp at hs; subst hs
        exact base_ld (s := ⟨d, .up m, st, acked, wrote⟩) h l { d.lds l with store := true } _ rfl (fun v hv => hv) (by rintro _ ⟨⟩; exact crm _ _ hk)
      · next hk =>
        simp at hs; subst hs
        refine ⟨?_, h.recs, ?_⟩
        · intro r hr
          rcases (mem_insert _ _ _ _).1 hr with rfl | hr
          · exact ⟨rfl, hm.cr _ _ hk⟩
          · exact h.rds r hr
        · intro m' hm'
          simp at hm'; subst hm'
          have := crm (some 5) 4 hk
          exact ⟨this.map, this.cr, this.rms⟩
      · next hk =>
        have c0 := crm none 5 hk
        split at hs
        · simp at hs; subst hs
          refine ⟨h.rds, h.recs, ?_⟩
          intro m' hm'
          simp at hm'; subst hm'
          refine ⟨?_, c0.cr, c0.rms⟩
          intro g i hi
          by_cases hg : g = (d.lds l).gid
          · subst hg
            simp at hi
            subst hi
            exact ⟨rfl, hm.cr _ _ hk⟩
          · simp only [upd_other _ _ hg] at hi; exact hm.map g i hi
        · simp at hs; subst hs
          refine ⟨h.rds, h.recs, ?_⟩
          intro m' hm'
          simp at hm'; subst hm'
          exact ⟨c0.map, c0.cr, c0.rms⟩
      · simp at hs
    | remove g =>
      simp [step, doRemove] at hs
      split at hs
      · subst hs; exact h
      · next l hl =>
        subst hs
        refine ⟨h.rds, h.recs, ?_⟩
        intro m' hm'
        simp at hm'; subst hm'
        refine ⟨hm.map, hm.cr, ?_⟩
        intro i hi
        by_cases h' : i = l
        · subst h'; exact (hm.map _ _ hl).2
        · simp only [upd_other _ _ h'] at hi; exact hm.rms i hi
    | rmStep l k t =>
      simp only [step, doRmStep] at hs
      split at hs
      · next hk =>
        have hl : l ≤ d.last := hm.rms l (by intro h0; simp [h0] at hk)
        have rmm : ∀ n, BaseM d { m with rms := upd m.rms l n } := by
          intro n
          refine ⟨hm.map, hm.cr, ?_⟩
          intro i hi
          by_cases h' : i = l
          · subst h'; exact hl
          · simp only [upd_other _ _ h'] at hi; exact hm.rms i hi
        split at hs
        · split at hs
          · simp at hs; subst hs
            exact base_ld (s := ⟨d, .up m, st, acked, wrote⟩) h l (d.lds l) _ rfl (fun v hv => hv)
              (by rintro _ ⟨⟩; exact rmm _)
          · simp at hs
        · split at hs
          · simp at hs
          · split at hs
            · simp at hs; subst hs
              refine base_ld (s := ⟨d, .up m, st, acked, wrote⟩) h l _ _ ?_ ?_ (by rintro _ ⟨⟩; exact rmm _)
              · cases t <;> rfl
              · cases t <;> simp
            · simp at hs; subst hs
              exact base_ld (s := ⟨d, .up m, st, acked, wrote⟩) h l (d.lds l) _ rfl (fun v hv => hv)
                (by rintro _ ⟨⟩; exact rmm _)
        · simp at hs; subst hs
          exact base_ld (s := ⟨d, .up m, st, acked, wrote⟩) h l { d.lds l with recs := [] } _ rfl (by simp)
            (by rintro _ ⟨⟩; exact rmm _)
        · simp at hs; subst hs
          exact base_ld (s := ⟨d, .up m, st, acked, wrote⟩) h l { d.lds l with rb := false } _ rfl (fun v hv => hv)
            (by rintro _ ⟨⟩; exact rmm _)
        · simp at hs; subst hs
          exact base_ld (s := ⟨d, .up m, st, acked, wrote⟩) h l { d.lds l with sb := false } _ rfl (fun v hv => hv)
            (by rintro _ ⟨⟩; exact rmm _)
        · simp at hs; subst hs
          refine ⟨?_, h.recs, ?_⟩
          · intro r hr
            exact h.rds r (List.mem_filter.1 hr).1
          · intro m' hm'
            simp at hm'; subst hm'
            have := rmm (6 :: (m.rms l).erase 5)
            exact ⟨this.map, this.cr, this.rms⟩
        · simp at hs; subst hs
          refine ⟨h.rds, h.recs, ?_⟩
          intro m' hm'
          simp at hm'; subst hm'
          have := rmm ((m.rms l).erase k)
          refine ⟨?_, this.cr, this.rms⟩
          intro g i hi
          by_cases hg : g = (d.lds l).gid
          · subst hg; simp at hi
          · simp only [upd_other _ _ hg] at hi; exact hm.map g i hi
      · simp at hs
    | write g v =>
      simp only [step, doWrite] at hs
      split at hs
      · simp at hs
      · next l hl =>
        split at hs
        · split at hs
          · simp at hs; subst hs
            obtain ⟨hg, hl'⟩ := hm.map g l hl
            have gid : ∀ i, (upd d.lds l { d.lds l with recs := (d.lds l).recs ++ [v] } i).gid = (d.lds i).gid := by
              intro i; by_cases hi : i = l
              · subst hi; simp
              · rw [upd_other _ _ hi]
            refine ⟨fun r hr => by simpa [gid] using h.rds r hr, ?_, ?_⟩
            · intro i w hw
              simp only [gid]
              have sub : ∀ j, w ∈ wrote j → w ∈ upd wrote g (wrote g ++ [v]) j := by
                intro j hj
                by_cases hjg : j = g
                · subst hjg; simp [hj]
                · rw [upd_other _ _ hjg]; exact hj
              by_cases hi : i = l
              · subst hi
                simp at hw
                rcases hw with hw | hw
                · exact sub _ (h.recs _ _ hw)
                · subst hw; have hg2 : (d.lds i).gid = g := hg
                  rw [hg2]; simp
              · simp only [upd_other _ _ hi] at hw
                exact sub _ (h.recs _ _ hw)
            · intro m' hm'
              simp at hm'; subst hm'
              exact ⟨fun g i hi => by simpa [gid] using hm.map g i hi, hm.cr, hm.rms⟩
          · simp at hs; subst hs
            exact ⟨h.rds, h.recs, by simp⟩
        · simp at hs
    | cp g =>
      simp only [step, doCp] at hs
      split at hs
      · simp at hs
      · split at hs
        · simp at hs; subst hs; exact h
        · simp at hs; subst hs
          exact ⟨h.rds, h.recs, by simp⟩

theorem base_reach {ok : St → Op → Prop} {s : St} (h : Reach ok s) : Base s := by
  induction h with
  | init => exact base_init
  | step o _ _ hs ih => exact base_step o ih hs

/-- In any history, every entry in the journal of the device found for a group was given to that
group. -/
theorem C118_own {s : St} (h : Reach anyHistory s) (m : Mem) (hm : s.proc = .up m) (g l : Nat)
    (hl : m.map g = some l) : ∀ v ∈ (s.disk.lds l).recs, v ∈ s.wrote g := by
  have b := base_reach h
  intro v hv
  have := b.recs l v hv
  rwa [((b.mem m hm).map g l hl).1] at this

/-- In any history, two groups never have the same log device. -/
theorem C118_apart {s : St} (h : Reach anyHistory s) (m : Mem) (hm : s.proc = .up m) (g g' l : Nat)
    (hl : m.map g = some l) (hl' : m.map g' = some l) : g = g' := by
  have b := (base_reach h).mem m hm
  rw [← (b.map g l hl).1, ← (b.map g' l hl').1]

end HS.SoloSvc
