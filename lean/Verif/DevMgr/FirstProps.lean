import Verif.DevMgr.BootProps

/-!
# A first start that is interrupted (C107)

A start on devices without a HomeStore first block formats all of them (device_manager.cpp:102-160), lets the services create
their virtual devices and meta blocks and take a checkpoint (homestore.cpp:260-308), and then marks the devices as
formatted, one after the other (device_manager.cpp:311-334; homestore.cpp:309).
-/

namespace HS.DevMgr

/-- Distinct devices without a HomeStore first block. -/
def NewDevs (disk : Disks) (devs : List Nat) : Prop := devs.Nodup ∧ ∀ d ∈ devs, ∀ f, ¬ Valid disk d f

/-- The start on these devices takes them for new ones, and creates the store. -/
def FirstStart (disk : Disks) (devs : List Nat) : Prop := (ctorHdr disk devs).2 = true

/-! ## What a first start writes -/

def fmtW (gen : Nat) : Nat → List Nat → List (Nat × FB)
  | _, [] => []
  | cur, d :: L => (d, ⟨gen, cur, cur + 1, false⟩) :: fmtW gen (cur + 1) L

def tab : Nat → List Nat → Pdevs
  | _, [] => []
  | cur, d :: L => (cur + 1, d) :: tab (cur + 1) L

theorem set_end {t : Pdevs} {id d : Nat} (h : ∀ x ∈ t, x.1 < id) : t.set id d = t ++ [(id, d)] := by
  induction t with
  | nil => rfl
  | cons e t ih =>
    obtain ⟨i, e⟩ := e
    have hi : i < id := h (i, e) List.mem_cons_self
    unfold Pdevs.set
    rw [if_neg (by omega), if_neg (by omega), ih (fun x hx => h x (List.mem_cons_of_mem _ hx)), List.cons_append]

theorem formatAll_exact (L : List Nat) : ∀ (r : Run), (∀ x ∈ r.pdevs, x.1 ≤ r.hdr.cur) →
    L.foldl formatOne r = { hdr := ⟨r.hdr.gen, r.hdr.cur + L.length⟩, pdevs := r.pdevs ++ tab r.hdr.cur L,
                            writes := r.writes ++ fmtW r.hdr.gen r.hdr.cur L } := by
  induction L with
  | nil => intro r _; cases r; simp [tab, fmtW]
  | cons d L ih =>
    intro r hr
    have hs : r.pdevs.set (r.hdr.cur + 1) d = r.pdevs ++ [(r.hdr.cur + 1, d)] := set_end (fun x hx => by have := hr x hx; omega)
    rw [List.foldl_cons, ih]
    · simp only [formatOne, hs, tab, fmtW, List.length_cons, List.append_assoc, List.singleton_append]
      rw [Nat.add_right_comm, Nat.add_assoc]
    · intro x hx
      show x.1 ≤ r.hdr.cur + 1
      simp only [formatOne] at hx
      rcases mem_set hx with h | h
      · rw [h]; exact Nat.le_refl _
      · have := hr x h; omega

theorem fmtW_length (gen : Nat) (L : List Nat) : ∀ cur, (fmtW gen cur L).length = L.length := by
  induction L with
  | nil => intro cur; rfl
  | cons d L ih => intro cur; simp [fmtW, ih]

theorem fmtW_done {gen : Nat} {L : List Nat} : ∀ {cur : Nat} {w : Nat × FB}, w ∈ fmtW gen cur L → w.2.done = false := by
  induction L with
  | nil => intro cur w h; cases h
  | cons d L ih =>
    intro cur w h
    rcases List.mem_cons.1 h with h | h
    · rw [h]
    · exact ih h

theorem fmtW_has {gen : Nat} {L : List Nat} : ∀ {cur d : Nat}, d ∈ L → ∃ f, (d, f) ∈ fmtW gen cur L := by
  induction L with
  | nil => intro cur d h; cases h
  | cons e L ih =>
    intro cur d h
    rcases List.mem_cons.1 h with h | h
    · rw [h]; exact ⟨_, List.mem_cons_self⟩
    · obtain ⟨f, hf⟩ := ih (cur := cur + 1) h
      exact ⟨f, List.mem_cons_of_mem _ hf⟩

theorem tab_mem {L : List Nat} : ∀ {cur : Nat} {x : Nat × Nat}, x ∈ tab cur L → x.2 ∈ L ∧ cur < x.1 := by
  induction L with
  | nil => intro cur x h; cases h
  | cons e L ih =>
    intro cur x h
    rcases List.mem_cons.1 h with h | h
    · rw [h]; exact ⟨List.mem_cons_self, Nat.lt_succ_self _⟩
    · have := ih h; exact ⟨List.mem_cons_of_mem _ this.1, by omega⟩

theorem tab_length (L : List Nat) : ∀ cur, (tab cur L).length = L.length := by
  induction L with
  | nil => intro cur; rfl
  | cons d L ih => intro cur; simp [tab, ih]

/-- The writes to a device decide what is there, whatever was there before. -/
theorem applyWrites_written {ws : List (Nat × FB)} {d : Nat} (h : ∃ f, (d, f) ∈ ws) (k1 k2 : Disks) :
    applyWrites k1 ws d = applyWrites k2 ws d := by
  have key : ∀ (ws : List (Nat × FB)) (k1 k2 : Disks), (k1 d = k2 d ∨ ∃ f, (d, f) ∈ ws) → applyWrites k1 ws d = applyWrites k2 ws d := by
    intro ws
    induction ws with
    | nil =>
      intro k1 k2 h
      rcases h with h | ⟨f, h⟩
      · exact h
      · cases h
    | cons w ws ih =>
      intro k1 k2 h
      apply ih (fun x => if x = w.1 then some w.2 else k1 x) (fun x => if x = w.1 then some w.2 else k2 x)
      by_cases hd : d = w.1
      · left; simp only [if_pos hd]
      · rcases h with h | ⟨f, h⟩
        · left; simp only [if_neg hd]; exact h
        · right
          rcases List.mem_cons.1 h with h | h
          · exact absurd (by rw [← h]) hd
          · exact ⟨f, h⟩
  exact key ws k1 k2 (Or.inr h)

theorem commitWrites_congr {k1 k2 : Disks} {h : Hdr} {t : Pdevs} (he : ∀ x ∈ t, k1 x.2 = k2 x.2) :
    commitWrites k1 h t = commitWrites k2 h t := by
  induction t with
  | nil => rfl
  | cons e t ih =>
    obtain ⟨i, e⟩ := e
    unfold commitWrites
    rw [ih (fun x hx => he x (List.mem_cons_of_mem _ hx))]
    have : k1 e = k2 e := he (i, e) List.mem_cons_self
    rw [this]

theorem commitWrites_length {k : Disks} {h : Hdr} {t : Pdevs} (he : ∀ x ∈ t, k x.2 ≠ none) : (commitWrites k h t).length = t.length := by
  induction t with
  | nil => rfl
  | cons e t ih =>
    obtain ⟨i, e⟩ := e
    unfold commitWrites
    rw [List.length_append, ih (fun x hx => he x (List.mem_cons_of_mem _ hx))]
    have : k e ≠ none := he (i, e) List.mem_cons_self
    cases hk : k e with
    | none => exact absurd hk this
    | some f => simp [Nat.add_comm]

theorem ctorHdr_new {disk : Disks} {devs : List Nat} (h : ∀ d ∈ devs, ∀ f, ¬ Valid disk d f) : ctorHdr disk devs = (⟨0, 0⟩, true) := by
  induction devs with
  | nil => rfl
  | cons d ds ih =>
    unfold ctorHdr
    cases hv : validFB (disk d) with
    | some f => exact absurd (validFB_iff.1 hv) (h d List.mem_cons_self f)
    | none => exact ih (fun e he => h e (List.mem_cons_of_mem _ he))

theorem ctorHdr_old {disk : Disks} {devs : List Nat} (hn : devs ≠ []) (h : ∀ d ∈ devs, ∃ f, Valid disk d f ∧ f.gen = 1 ∧ f.cur = devs.length) :
    ctorHdr disk devs = (⟨1, devs.length⟩, false) := by
  cases devs with
  | nil => exact absurd rfl hn
  | cons d ds =>
    obtain ⟨f, hf, h1, h2⟩ := h d List.mem_cons_self
    unfold ctorHdr
    rw [validFB_iff.2 hf]
    simp only [h1, h2]
    rfl

def commits (disk : Disks) (devs : List Nat) : List (Nat × FB) :=
  commitWrites (applyWrites disk (fmtW 1 0 devs)) ⟨1, devs.length⟩ (tab 0 devs)

theorem firstRun {disk : Disks} {devs : List Nat} (h : ∀ d ∈ devs, ∀ f, ¬ Valid disk d f) :
    bootRun disk devs = { hdr := ⟨1, devs.length⟩, pdevs := tab 0 devs, writes := fmtW 1 0 devs ++ commits disk devs } := by
  unfold bootRun commits
  rw [ctorHdr_new h]
  simp only [if_true]
  rw [formatAll_exact devs _ (by intro x hx; cases hx)]
  simp

theorem commits_length (disk : Disks) (devs : List Nat) : (commits disk devs).length = devs.length := by
  unfold commits
  rw [commitWrites_length, tab_length]
  intro x hx
  obtain ⟨f, hf⟩ := fmtW_has (gen := 1) (cur := 0) (tab_mem hx).1
  rcases applyWrites_spec (fmtW 1 0 devs) disk x.2 with ⟨_, h2⟩ | ⟨g, _, h2⟩
  · exact absurd rfl (h2 _ hf)
  · rw [h2]; simp

/-! ## What formatting and marking leave on each device -/

theorem fmtW_at {gen : Nat} {L : List Nat} (hnd : L.Nodup) : ∀ {cur : Nat} {disk : Disks} {x : Nat × Nat}, x ∈ tab cur L →
    ∃ c, applyWrites disk (fmtW gen cur L) x.2 = some ⟨gen, c, x.1, false⟩ := by
  induction L with
  | nil => intro cur disk x h; cases h
  | cons d L ih =>
    intro cur disk x h
    rcases List.mem_cons.1 h with h | h
    · rcases applyWrites_spec (fmtW gen (cur + 1) L) (fun y => if y = d then some ⟨gen, cur, cur + 1, false⟩ else disk y) d with ⟨h1, _⟩ | ⟨g, h1, _⟩
      · refine ⟨cur, ?_⟩
        rw [h]
        simp only [if_pos] at h1
        exact h1
      · exfalso
        have hm : ∀ {L : List Nat} {c : Nat} {w : Nat × FB}, w ∈ fmtW gen c L → w.1 ∈ L := by
          intro L
          induction L with
          | nil => intro c w h; cases h
          | cons e L ih2 =>
            intro c w h
            rcases List.mem_cons.1 h with h | h
            · rw [h]; exact List.mem_cons_self
            · exact List.mem_cons_of_mem _ (ih2 h)
        exact (List.nodup_cons.1 hnd).1 (hm h1)
    · exact ih (List.nodup_cons.1 hnd).2 h

theorem boot_first_at {disk : Disks} {devs : List Nat} (hn : NewDevs disk devs) {x : Nat × Nat} (hx : x ∈ tab 0 devs) :
    Ev.apply disk (.boot devs) x.2 = some ⟨1, devs.length, x.1, true⟩ := by
  show applyWrites disk (bootRun disk devs).writes x.2 = _
  rw [firstRun hn.2]
  show applyWrites disk (fmtW 1 0 devs ++ commits disk devs) x.2 = _
  rw [applyWrites_append]
  obtain ⟨c, hc⟩ := fmtW_at (gen := 1) hn.1 (disk := disk) hx
  have hm := mem_commitWrites_of (h := ⟨1, devs.length⟩) (t := tab 0 devs) (id := x.1) (d := x.2) hx hc
  rcases applyWrites_spec (commits disk devs) (applyWrites disk (fmtW 1 0 devs)) x.2 with ⟨_, h2⟩ | ⟨g, h1, h2⟩
  · exact absurd rfl (h2 _ hm)
  · obtain ⟨_, f', _, hf', he⟩ := mem_commitWrites h1
    have hf' : applyWrites disk (fmtW 1 0 devs) x.2 = some f' := hf'
    rw [hc] at hf'
    injection hf' with hf'
    rw [h2]
    have he : g = { f' with gen := 1, cur := devs.length, done := true } := he
    rw [he, ← hf']

theorem tab_has {L : List Nat} : ∀ {cur d : Nat}, d ∈ L → ∃ x ∈ tab cur L, x.2 = d := by
  induction L with
  | nil => intro cur d h; cases h
  | cons e L ih =>
    intro cur d h
    rcases List.mem_cons.1 h with h | h
    · rw [h]; exact ⟨_, List.mem_cons_self, rfl⟩
    · obtain ⟨x, h1, h2⟩ := ih (cur := cur + 1) h
      exact ⟨x, List.mem_cons_of_mem _ h1, h2⟩

theorem loadLoop_all {disk : Disks} {c : Nat} (L : List Nat) : ∀ {cur : Nat} {t : Pdevs},
    (∀ x ∈ tab cur L, disk x.2 = some ⟨1, c, x.1, true⟩) → (∀ x ∈ t, x.1 ≤ cur) →
    loadLoop disk L ⟨⟨1, c⟩, t, []⟩ false [] = (⟨⟨1, c⟩, t ++ tab cur L, []⟩, false, []) := by
  induction L with
  | nil => intro cur t _ _; simp [loadLoop, tab]
  | cons d L ih =>
    intro cur t h ht
    have hd : disk d = some ⟨1, c, cur + 1, true⟩ := h (cur + 1, d) List.mem_cons_self
    have hs : t.set (cur + 1) d = t ++ [(cur + 1, d)] := set_end (fun x hx => by have := ht x hx; omega)
    unfold loadLoop
    simp only [hd, validFB, if_true]
    rw [hs]
    have := ih (cur := cur + 1) (t := t ++ [(cur + 1, d)]) (fun x hx => h x (List.mem_cons_of_mem _ hx)) (by
      intro x hx
      rcases List.mem_append.1 hx with hx | hx
      · have := ht x hx; omega
      · rw [List.mem_singleton.1 hx]; exact Nat.le_refl _)
    simpa [tab] using this

/-! ## The theorems -/

/-- **C107 (part)**.  A first start that is interrupted before it marks the first device as formatted leaves nothing: the next start
with these devices is a first start again, gives the devices the ids it would have given, and leaves on them what the first would
have left. -/
theorem C107_nothing_partial {disk : Disks} {devs : List Nat} (hn : NewDevs disk devs) {k : Nat} (hk : k ≤ devs.length) :
    FirstStart (Ev.apply disk (.crash devs k)) devs ∧
    (bootRun (Ev.apply disk (.crash devs k)) devs).pdevs = (bootRun disk devs).pdevs ∧
    ∀ d ∈ devs, Ev.apply (Ev.apply disk (.crash devs k)) (.boot devs) d = Ev.apply disk (.boot devs) d := by
  have hnew : ∀ d ∈ devs, ∀ f, ¬ Valid (Ev.apply disk (.crash devs k)) d f := by
    intro d hd f hv
    have hv1 : applyWrites disk ((bootRun disk devs).writes.take k) d = some f := hv.1
    rw [firstRun hn.2] at hv1
    simp only [List.take_append_of_le_length (Nat.le_trans hk (Nat.le_of_eq (fmtW_length 1 devs 0).symm))] at hv1
    rcases applyWrites_spec ((fmtW 1 0 devs).take k) disk d with ⟨h1, _⟩ | ⟨g, h1, h2⟩
    · rw [h1] at hv1; exact hn.2 d hd f ⟨hv1, hv.2⟩
    · rw [h2] at hv1
      injection hv1 with hv1
      have := fmtW_done (List.mem_of_mem_take h1)
      have this : g.done = false := this
      have h3 := hv.2
      rw [← hv1, this] at h3
      cases h3
  refine ⟨by unfold FirstStart; rw [ctorHdr_new hnew], by rw [firstRun hnew, firstRun hn.2], ?_⟩
  intro d hd
  obtain ⟨x, hx, he⟩ := tab_has (cur := 0) hd
  rw [← he, boot_first_at ⟨hn.1, hnew⟩ hx, boot_first_at hn hx]

/-- **C107 (part)**.  A first start that is interrupted when it has marked all devices has created the store: the next start with
these devices is not a first one, finds each device with the id the first start gave it, and formats none. -/
theorem C107_all_partial {disk : Disks} {devs : List Nat} (hn : NewDevs disk devs) (hne : devs ≠ []) {k : Nat} (hk : 2 * devs.length ≤ k) :
    ¬ FirstStart (Ev.apply disk (.crash devs k)) devs ∧
    (bootRun (Ev.apply disk (.crash devs k)) devs).pdevs = (bootRun disk devs).pdevs ∧
    (bootRun (Ev.apply disk (.crash devs k)) devs).writes = [] := by
  have hfull : Ev.apply disk (.crash devs k) = Ev.apply disk (.boot devs) := by
    show applyWrites disk ((bootRun disk devs).writes.take k) = applyWrites disk (bootRun disk devs).writes
    rw [List.take_of_length_le]
    rw [firstRun hn.2]
    show (fmtW 1 0 devs ++ commits disk devs).length ≤ k
    rw [List.length_append, fmtW_length, commits_length]
    omega
  rw [hfull]
  have hat : ∀ x ∈ tab 0 devs, Ev.apply disk (.boot devs) x.2 = some ⟨1, devs.length, x.1, true⟩ := fun x hx => boot_first_at hn hx
  have hold : ctorHdr (Ev.apply disk (.boot devs)) devs = (⟨1, devs.length⟩, false) := by
    refine ctorHdr_old hne (fun d hd => ?_)
    obtain ⟨x, hx, he⟩ := tab_has (cur := 0) hd
    exact ⟨_, ⟨he ▸ hat x hx, rfl⟩, rfl, rfl⟩
  have hrun : bootRun (Ev.apply disk (.boot devs)) devs = ⟨⟨1, devs.length⟩, tab 0 devs, []⟩ := by
    unfold bootRun
    rw [hold]
    have := loadLoop_all (c := devs.length) devs (cur := 0) (t := []) hat (by intro x hx; cases hx)
    simp [this]
  refine ⟨by unfold FirstStart; rw [hold]; simp, by rw [hrun, firstRun hn.2], by rw [hrun]⟩

/-- **C107 (part)**.  On one device a first start is all or nothing. -/
theorem C107_one_device {disk : Disks} {d : Nat} (hd : ∀ f, ¬ Valid disk d f) (k : Nat) :
    (FirstStart (Ev.apply disk (.crash [d] k)) [d] ∧ Ev.apply (Ev.apply disk (.crash [d] k)) (.boot [d]) d = Ev.apply disk (.boot [d]) d) ∨
    (Ev.apply disk (.crash [d] k) d = Ev.apply disk (.boot [d]) d ∧ (bootRun (Ev.apply disk (.crash [d] k)) [d]).writes = []) := by
  have hn : NewDevs disk [d] := ⟨by simp, by intro e he; rw [List.mem_singleton.1 he]; exact hd⟩
  by_cases hk : k ≤ 1
  · obtain ⟨h1, _, h3⟩ := C107_nothing_partial hn (k := k) hk
    exact Or.inl ⟨h1, h3 d (List.mem_singleton.2 rfl)⟩
  · obtain ⟨_, _, h3⟩ := C107_all_partial hn (by simp) (k := k) (by simp; omega)
    refine Or.inr ⟨?_, h3⟩
    show applyWrites disk ((bootRun disk [d]).writes.take k) d = applyWrites disk (bootRun disk [d]).writes d
    rw [List.take_of_length_le]
    rw [firstRun hn.2]
    show (fmtW 1 0 [d] ++ commits disk [d]).length ≤ k
    rw [List.length_append, fmtW_length, commits_length]
    simp; omega

/-- **C107 (violated)**.  Two devices; the start stops when it has marked one of them.  The next start is not a first one, so that the
services look for what the first start has put on both devices; the device not marked is formatted again and gets another id. -/
theorem C107_half_violated :
    ∃ disk', disk' = Ev.apply blank (.crash [0, 1] 3) ∧ ¬ FirstStart disk' [0, 1] ∧
      (bootRun blank [0, 1]).pdevs = [(1, 0), (2, 1)] ∧ (bootRun disk' [0, 1]).pdevs = [(1, 0), (3, 1)] ∧
      (1, ⟨1, 2, 3, false⟩) ∈ (bootRun disk' [0, 1]).writes :=
  ⟨_, rfl, by unfold FirstStart; decide, rfl, rfl, by decide⟩

/-! ## Cases that meet the hypotheses: three devices, one of them with an unfinished first block of another start -/

def exDisks : Disks := fun d => if d = 5 then some ⟨1, 0, 1, false⟩ else none

theorem exDisks_new : NewDevs exDisks [4, 5, 6] := by
  refine ⟨by decide, ?_⟩
  intro d hd f hv
  simp only [exDisks, Valid] at hv
  split at hv
  · obtain ⟨h1, h2⟩ := hv
    injection h1 with h1
    rw [← h1] at h2; cases h2
  · cases hv.1

example : FirstStart (Ev.apply exDisks (.crash [4, 5, 6] 2)) [4, 5, 6] := (C107_nothing_partial exDisks_new (k := 2) (by decide)).1
example : Ev.apply exDisks (.crash [4, 5, 6] 2) 5 ≠ exDisks 5 ∨ Ev.apply exDisks (.crash [4, 5, 6] 2) 4 ≠ exDisks 4 := by decide
example : (bootRun (Ev.apply exDisks (.crash [4, 5, 6] 6)) [4, 5, 6]).writes = [] := (C107_all_partial exDisks_new (by decide) (k := 6) (by decide)).2.2

end HS.DevMgr
