import Verif.DevMgr.Boot

/-!
# Device ids over any history of boots: theorems (C18)
-/

namespace HS.DevMgr

/-- A device that a boot recognises. -/
def Valid (disk : Disks) (d : Nat) (f : FB) : Prop := disk d = some f ∧ f.done = true

/-- No two devices have the same id. -/
def UniqueIds (disk : Disks) : Prop := ∀ d e f g, Valid disk d f → Valid disk e g → f.id = g.id → d = e

/-- One of the devices is of the newest generation there is, or there is no HomeStore device at all. -/
def HasNewest (disk : Disks) (devs : List Nat) : Prop :=
  (∀ d f, ¬ Valid disk d f) ∨ ∃ d f, d ∈ devs ∧ Valid disk d f ∧ ∀ e g, Valid disk e g → g.gen ≤ f.gen

/-- Every boot includes a device of the newest generation. -/
def Boots : Disks → List Ev → Prop
  | _, [] => True
  | disk, ev :: evs =>
    (match ev with
      | .boot devs => HasNewest disk devs
      | .crash devs _ => HasNewest disk devs
      | .wipe _ => True) ∧ Boots (ev.apply disk) evs

def after (disk : Disks) (evs : List Ev) : Disks := evs.foldl Ev.apply disk

/-! ## The invariant -/

structure BInv (disk : Disks) : Prop where
  pos : ∀ d f, Valid disk d f → 0 < f.gen
  le : ∀ d f, Valid disk d f → f.id ≤ f.cur
  mono : ∀ d e f g, Valid disk d f → Valid disk e g → f.gen ≤ g.gen → f.cur ≤ g.cur
  uniq : UniqueIds disk

theorem validFB_iff {disk : Disks} {d : Nat} {f : FB} : validFB (disk d) = some f ↔ Valid disk d f := by
  unfold validFB Valid
  cases h : disk d with
  | none => simp
  | some g =>
    by_cases hg : g.done = true
    · simp only [hg, if_true, Option.some.injEq]
      constructor
      · intro e; subst e; exact ⟨rfl, hg⟩
      · intro e; exact e.1
    · simp only [hg]
      constructor
      · intro e; cases e
      · rintro ⟨e, h2⟩; cases e; exact absurd h2 hg

theorem validFB_none {disk : Disks} {d : Nat} (h : validFB (disk d) = none) (f : FB) : ¬ Valid disk d f := by
  intro hv
  rw [validFB_iff.2 hv] at h
  cases h

theorem mem_set {t : Pdevs} {id d : Nat} {x : Nat × Nat} (h : x ∈ t.set id d) : x = (id, d) ∨ x ∈ t := by
  induction t with
  | nil => simpa [Pdevs.set] using h
  | cons e t ih =>
    obtain ⟨i, e⟩ := e
    unfold Pdevs.set at h
    split at h
    · rcases List.mem_cons.1 h with h | h
      · exact Or.inl h
      · exact Or.inr h
    · split at h
      · rcases List.mem_cons.1 h with h | h
        · exact Or.inl h
        · exact Or.inr (List.mem_cons_of_mem _ h)
      · rcases List.mem_cons.1 h with h | h
        · exact Or.inr (by rw [h]; exact List.mem_cons_self)
        · rcases ih h with h | h
          · exact Or.inl h
          · exact Or.inr (List.mem_cons_of_mem _ h)

theorem ctorHdr_spec {disk : Disks} (hi : BInv disk) (devs : List Nat) :
    ((ctorHdr disk devs).2 = true ∧ (ctorHdr disk devs).1 = ⟨0, 0⟩ ∧ ∀ d ∈ devs, ∀ f, ¬ Valid disk d f) ∨
    ((ctorHdr disk devs).2 = false ∧ ∃ d f, d ∈ devs ∧ Valid disk d f ∧ (ctorHdr disk devs).1 = ⟨f.gen, f.cur⟩) := by
  induction devs with
  | nil => exact Or.inl ⟨rfl, rfl, by simp⟩
  | cons d ds ih =>
    unfold ctorHdr
    cases h : validFB (disk d) with
    | some f =>
      have hv := validFB_iff.1 h
      refine Or.inr ⟨rfl, d, f, List.mem_cons_self, hv, ?_⟩
      simp only [if_pos (hi.pos d f hv)]
    | none =>
      rcases ih with ⟨h1, h2, h3⟩ | ⟨h1, e, f, he, hv, h2⟩
      · refine Or.inl ⟨h1, h2, fun e he => ?_⟩
        rcases List.mem_cons.1 he with he | he
        · rw [he]; exact validFB_none h
        · exact h3 e he
      · exact Or.inr ⟨h1, e, f, List.mem_cons_of_mem _ he, hv, h2⟩

theorem loadLoop_spec (disk : Disks) (devs : List Nat) : ∀ (r : Run) (stale : Bool) (tf : List Nat),
    (loadLoop disk devs r stale tf).1.writes = r.writes ∧
    (∀ d, d ∈ (loadLoop disk devs r stale tf).2.2 → d ∈ tf ∨ (d ∈ devs ∧ ∀ f, ¬ Valid disk d f)) ∧
    (∀ id d, (id, d) ∈ (loadLoop disk devs r stale tf).1.pdevs → (id, d) ∈ r.pdevs ∨
      (d ∈ devs ∧ ∃ f, Valid disk d f ∧ f.id = id)) ∧
    r.hdr.gen ≤ (loadLoop disk devs r stale tf).1.hdr.gen ∧
    (∀ d ∈ devs, ∀ f, Valid disk d f → f.gen ≤ (loadLoop disk devs r stale tf).1.hdr.gen) ∧
    ((loadLoop disk devs r stale tf).1.hdr = r.hdr ∨
      ∃ d f, d ∈ devs ∧ Valid disk d f ∧ (loadLoop disk devs r stale tf).1.hdr = ⟨f.gen, f.cur⟩) := by
  induction devs with
  | nil => intro r stale tf; simp [loadLoop]
  | cons d ds ih =>
    intro r stale tf
    unfold loadLoop
    cases h : validFB (disk d) with
    | none =>
      obtain ⟨i1, i2, i3, i4, i5, i6⟩ := ih r stale (tf ++ [d])
      refine ⟨i1, ?_, ?_, i4, ?_, ?_⟩
      · intro e he
        rcases i2 e he with h1 | ⟨h1, h2⟩
        · rcases List.mem_append.1 h1 with h1 | h1
          · exact Or.inl h1
          · rw [List.mem_singleton] at h1
            rw [h1]
            exact Or.inr ⟨List.mem_cons_self, validFB_none h⟩
        · exact Or.inr ⟨List.mem_cons_of_mem _ h1, h2⟩
      · intro id e he
        rcases i3 id e he with h1 | ⟨h1, h2⟩
        · exact Or.inl h1
        · exact Or.inr ⟨List.mem_cons_of_mem _ h1, h2⟩
      · intro e he f hf
        rcases List.mem_cons.1 he with h1 | h1
        · rw [h1] at hf; exact absurd hf (validFB_none h f)
        · exact i5 e h1 f hf
      · rcases i6 with h1 | ⟨e, f, h1, h2⟩
        · exact Or.inl h1
        · exact Or.inr ⟨e, f, List.mem_cons_of_mem _ h1, h2⟩
    | some f =>
      have hv := validFB_iff.1 h
      simp only
      generalize hr : (if r.hdr.gen < f.gen then (⟨f.gen, f.cur⟩ : Hdr) else r.hdr) = h1
      have hge : r.hdr.gen ≤ h1.gen ∧ f.gen ≤ h1.gen ∧ (h1 = r.hdr ∨ h1 = ⟨f.gen, f.cur⟩) := by
        rw [← hr]
        split
        · exact ⟨by show r.hdr.gen ≤ f.gen; omega, Nat.le_refl _, Or.inr rfl⟩
        · exact ⟨Nat.le_refl _, by omega, Or.inl rfl⟩
      obtain ⟨i1, i2, i3, i4, i5, i6⟩ :=
        ih { r with pdevs := r.pdevs.set f.id d, hdr := h1 } (decide (f.gen ≠ r.hdr.gen)) tf
      refine ⟨i1, ?_, ?_, ?_, ?_, ?_⟩
      · intro e he
        rcases i2 e he with h1 | ⟨h1, h2⟩
        · exact Or.inl h1
        · exact Or.inr ⟨List.mem_cons_of_mem _ h1, h2⟩
      · intro id e he
        rcases i3 id e he with h1 | ⟨h1, h2⟩
        · rcases mem_set h1 with h1 | h1
          · cases h1
            exact Or.inr ⟨List.mem_cons_self, f, hv, rfl⟩
          · exact Or.inl h1
        · exact Or.inr ⟨List.mem_cons_of_mem _ h1, h2⟩
      · exact Nat.le_trans hge.1 i4
      · intro e he g hg
        rcases List.mem_cons.1 he with h2 | h2
        · rw [h2] at hg
          have : f = g := by
            have h3 := hv.1; rw [hg.1] at h3; cases h3; rfl
          rw [← this]
          exact Nat.le_trans hge.2.1 i4
        · exact i5 e h2 g hg
      · rcases i6 with h2 | ⟨e, g, h2, h3⟩
        · rcases hge.2.2 with h3 | h3
          · exact Or.inl (h2.trans h3)
          · exact Or.inr ⟨d, f, List.mem_cons_self, hv, h2.trans h3⟩
        · exact Or.inr ⟨e, g, List.mem_cons_of_mem _ h2, h3⟩

/-- The first blocks that formatting writes: device, id. -/
def FmtWrite (L : List Nat) (cur : Nat) (w : Nat × FB) : Prop :=
  ∃ i : Nat, L[i]? = some w.1 ∧ w.2.id = cur + i + 1 ∧ w.2.done = false

theorem formatAll_spec (L : List Nat) : ∀ (r : Run),
    (L.foldl formatOne r).hdr = ⟨r.hdr.gen, r.hdr.cur + L.length⟩ ∧
    (∀ w ∈ (L.foldl formatOne r).writes, w ∈ r.writes ∨ FmtWrite L r.hdr.cur w) ∧
    (∀ d ∈ L, ∃ w ∈ (L.foldl formatOne r).writes, w.1 = d) ∧
    (∀ w ∈ r.writes, w ∈ (L.foldl formatOne r).writes) ∧
    (∀ x ∈ (L.foldl formatOne r).pdevs, x ∈ r.pdevs ∨ x.2 ∈ L) := by
  induction L with
  | nil => intro r; exact ⟨rfl, fun w hw => Or.inl hw, by simp, fun w hw => hw, fun x hx => Or.inl hx⟩
  | cons d L ih =>
    intro r
    rw [List.foldl_cons]
    obtain ⟨i1, i2, i3, i4, i5⟩ := ih (formatOne r d)
    refine ⟨?_, ?_, ?_, ?_, ?_⟩
    · rw [i1]
      simp only [formatOne, Hdr.mk.injEq, List.length_cons, true_and]
      omega
    · intro w hw
      rcases i2 w hw with h | ⟨i, h1, h2, h3⟩
      · rcases List.mem_append.1 h with h | h
        · exact Or.inl h
        · rw [List.mem_singleton] at h
          subst h
          exact Or.inr ⟨0, rfl, rfl, rfl⟩
      · refine Or.inr ⟨i + 1, by simpa using h1, ?_, h3⟩
        rw [h2]
        show r.hdr.cur + 1 + i + 1 = _
        omega
    · intro e he
      rcases List.mem_cons.1 he with he | he
      · rw [he]
        exact ⟨_, i4 (d, ⟨r.hdr.gen, r.hdr.cur, r.hdr.cur + 1, false⟩) (List.mem_append_right _ (List.mem_singleton.2 rfl)), rfl⟩
      · exact i3 e he
    · intro w hw
      exact i4 w (List.mem_append_left _ hw)
    · intro x hx
      rcases i5 x hx with h | h
      · rcases mem_set h with h | h
        · rw [h]; exact Or.inr List.mem_cons_self
        · exact Or.inl h
      · exact Or.inr (List.mem_cons_of_mem _ h)

theorem applyWrites_append (disk : Disks) (a b : List (Nat × FB)) :
    applyWrites disk (a ++ b) = applyWrites (applyWrites disk a) b := by
  unfold applyWrites; rw [List.foldl_append]

theorem applyWrites_spec (ws : List (Nat × FB)) : ∀ (disk : Disks) (d : Nat),
    (applyWrites disk ws d = disk d ∧ ∀ w ∈ ws, w.1 ≠ d) ∨ ∃ f, (d, f) ∈ ws ∧ applyWrites disk ws d = some f := by
  induction ws with
  | nil => intro disk d; exact Or.inl ⟨rfl, by simp⟩
  | cons w ws ih =>
    intro disk d
    have e : applyWrites disk (w :: ws) = applyWrites (fun x => if x = w.1 then some w.2 else disk x) ws := rfl
    rw [e]
    rcases ih (fun x => if x = w.1 then some w.2 else disk x) d with ⟨h, hn⟩ | ⟨f, h1, h2⟩
    · by_cases hd : d = w.1
      · refine Or.inr ⟨w.2, ?_, ?_⟩
        · rw [hd]; exact List.mem_cons_self
        · rw [h, if_pos hd]
      · refine Or.inl ⟨by rw [h, if_neg hd], fun v hv => ?_⟩
        rcases List.mem_cons.1 hv with hv | hv
        · rw [hv]; exact fun e => hd e.symm
        · exact hn v hv
    · exact Or.inr ⟨f, List.mem_cons_of_mem _ h1, h2⟩

theorem mem_commitWrites {disk : Disks} {h : Hdr} {t : Pdevs} {w : Nat × FB} (hw : w ∈ commitWrites disk h t) :
    ∃ id f, (id, w.1) ∈ t ∧ disk w.1 = some f ∧ w.2 = { f with gen := h.gen, cur := h.cur, done := true } := by
  induction t with
  | nil => simp [commitWrites] at hw
  | cons e t ih =>
    obtain ⟨i, e⟩ := e
    unfold commitWrites at hw
    rcases List.mem_append.1 hw with hw | hw
    · cases hd : disk e with
      | none => rw [hd] at hw; simp at hw
      | some f =>
        rw [hd, List.mem_singleton] at hw
        subst hw
        exact ⟨i, f, List.mem_cons_self, hd, rfl⟩
    · obtain ⟨id, f, h1, h2⟩ := ih hw
      exact ⟨id, f, List.mem_cons_of_mem _ h1, h2⟩

/-- What a boot can write: blocks that are not valid, and valid blocks with the header `h` and the device's old id or a
new one. -/
def GoodWrite (disk : Disks) (tf : List Nat) (c : Nat) (h : Hdr) (w : Nat × FB) : Prop :=
  w.2.done = false ∨
    (w.2.gen = h.gen ∧ w.2.cur = h.cur ∧
      ((∃ f, Valid disk w.1 f ∧ w.2.id = f.id) ∨ (∃ i : Nat, tf[i]? = some w.1 ∧ w.2.id = c + i + 1)))

theorem goodWrites_inv {disk : Disks} (hi : BInv disk) {tf : List Nat} {c : Nat} {h : Hdr} {ws : List (Nat × FB)}
    (hw : ∀ w ∈ ws, GoodWrite disk tf c h w) (hpos : 0 < h.gen)
    (hgen : ∀ d f, Valid disk d f → f.gen ≤ h.gen ∧ f.cur ≤ c ∧ (h.gen ≤ f.gen → h.cur ≤ f.cur))
    (hcur : h.cur = c + tf.length) : BInv (applyWrites disk ws) := by
  have hcase : ∀ d f, Valid (applyWrites disk ws) d f → Valid disk d f ∨
      (f.gen = h.gen ∧ f.cur = h.cur ∧
        ((∃ f', Valid disk d f' ∧ f.id = f'.id) ∨ (∃ i : Nat, tf[i]? = some d ∧ f.id = c + i + 1))) := by
    intro d f hv
    rcases applyWrites_spec ws disk d with ⟨h1, _⟩ | ⟨g, h1, h2⟩
    · exact Or.inl ⟨by rw [← h1]; exact hv.1, hv.2⟩
    · have hfg : f = g := by have := hv.1; rw [h2] at this; cases this; rfl
      subst hfg
      rcases hw _ h1 with h3 | h3
      · rw [hv.2] at h3; cases h3
      · exact Or.inr h3
  -- the id of a device: an old one, or a new one above all old ones
  have hid : ∀ d f, Valid (applyWrites disk ws) d f →
      (∃ f', Valid disk d f' ∧ f.id = f'.id ∧ f.id ≤ c) ∨ (∃ i : Nat, tf[i]? = some d ∧ f.id = c + i + 1) := by
    intro d f hv
    rcases hcase d f hv with h1 | ⟨_, _, ⟨f', h1, h2⟩ | h1⟩
    · exact Or.inl ⟨f, h1, rfl, Nat.le_trans (hi.le d f h1) (hgen d f h1).2.1⟩
    · exact Or.inl ⟨f', h1, h2, by rw [h2]; exact Nat.le_trans (hi.le d f' h1) (hgen d f' h1).2.1⟩
    · exact Or.inr h1
  have hlt : ∀ i d, tf[i]? = some d → i < tf.length := by
    intro i d h
    exact (List.getElem?_eq_some_iff.1 h).1
  refine ⟨?_, ?_, ?_, ?_⟩
  · intro d f hv
    rcases hcase d f hv with h1 | ⟨h1, _, _⟩
    · exact hi.pos d f h1
    · rw [h1]; exact hpos
  · intro d f hv
    rcases hcase d f hv with h1 | ⟨_, h2, _⟩
    · exact hi.le d f h1
    · rw [h2, hcur]
      rcases hid d f hv with ⟨_, _, _, h3⟩ | ⟨i, h3, h4⟩
      · omega
      · have := hlt i d h3; omega
  · intro d e f g hf hg hle
    rcases hcase d f hf with h1 | ⟨h1, h2, _⟩ <;> rcases hcase e g hg with h3 | ⟨h3, h4, _⟩
    · exact hi.mono d e f g h1 h3 hle
    · rw [h4, hcur]
      have := (hgen d f h1).2.1
      omega
    · rw [h2]
      exact (hgen e g h3).2.2 (by omega)
    · omega
  · intro d e f g hf hg he
    rcases hid d f hf with ⟨f', h1, h2, h3⟩ | ⟨i, h1, h2⟩ <;> rcases hid e g hg with ⟨g', h4, h5, h6⟩ | ⟨j, h4, h5⟩
    · exact hi.uniq d e f' g' h1 h4 (by rw [← h2, ← h5]; exact he)
    · omega
    · omega
    · have hij : i = j := by omega
      subst hij
      rw [h1] at h4
      cases h4
      rfl

/-- Formatting and committing writes only good blocks. -/
theorem format_commit_good {disk : Disks} {r0 : Run} {tf : List Nat} {h : Hdr} (hw0 : r0.writes = [])
    (hp : ∀ id d, (id, d) ∈ r0.pdevs → ∃ f, Valid disk d f) :
    ∀ w ∈ (tf.foldl formatOne r0).writes ++
        commitWrites (applyWrites disk (tf.foldl formatOne r0).writes) h (tf.foldl formatOne r0).pdevs,
      GoodWrite disk tf r0.hdr.cur h w := by
  obtain ⟨_, f2, f3, _, f5⟩ := formatAll_spec tf r0
  have hfw : ∀ w ∈ (tf.foldl formatOne r0).writes, FmtWrite tf r0.hdr.cur w := by
    intro w hw
    rcases f2 w hw with h | h
    · rw [hw0] at h; cases h
    · exact h
  intro w hw
  rcases List.mem_append.1 hw with hw | hw
  · obtain ⟨_, _, _, h3⟩ := hfw w hw
    exact Or.inl h3
  · obtain ⟨id, f, h1, h2, h3⟩ := mem_commitWrites hw
    refine Or.inr ⟨by rw [h3], by rw [h3], ?_⟩
    have hwid : w.2.id = f.id := by rw [h3]
    rcases applyWrites_spec (tf.foldl formatOne r0).writes disk w.1 with ⟨h4, h5⟩ | ⟨g, h4, h5⟩
    · rcases f5 _ h1 with h6 | h6
      · obtain ⟨f', hv⟩ := hp _ _ h6
        refine Or.inl ⟨f', hv, ?_⟩
        rw [h4, hv.1] at h2
        cases h2
        exact hwid
      · obtain ⟨v, hv1, hv2⟩ := f3 _ h6
        exact absurd hv2 (h5 v hv1)
    · rw [h5] at h2
      cases h2
      obtain ⟨i, hi1, hi2, _⟩ := hfw _ h4
      exact Or.inr ⟨i, hi1, by rw [hwid, hi2]⟩

theorem boot_inv {disk : Disks} (hi : BInv disk) {devs : List Nat} (hn : HasNewest disk devs) (k : Nat) :
    BInv (applyWrites disk ((bootRun disk devs).writes.take k)) := by
  unfold bootRun
  rcases ctorHdr_spec hi devs with ⟨h1, h2, h3⟩ | ⟨h1, d0, f0, hd0, hv0, h2⟩
  · -- the first boot
    have hnone : ∀ d f, ¬ Valid disk d f := by
      rcases hn with h | ⟨d, f, hd, hv, _⟩
      · exact h
      · exact absurd hv (h3 d hd f)
    have he : ctorHdr disk devs = (⟨0, 0⟩, true) := by rw [← h1, ← h2]
    rw [he]
    simp only [if_true]
    have hg := format_commit_good (disk := disk) (r0 := ⟨⟨0 + 1, 0⟩, [], []⟩) (tf := devs)
      (h := (devs.foldl formatOne ⟨⟨0 + 1, 0⟩, [], []⟩).hdr) rfl (by intro id d h; cases h)
    have hh := (formatAll_spec devs ⟨⟨0 + 1, 0⟩, [], []⟩).1
    refine goodWrites_inv hi (tf := devs) (c := 0) (h := (devs.foldl formatOne ⟨⟨0 + 1, 0⟩, [], []⟩).hdr)
      (fun w hw => hg w (List.mem_of_mem_take hw)) ?_ ?_ ?_
    · rw [hh]; exact Nat.one_pos
    · intro d f hv; exact absurd hv (hnone d f)
    · rw [hh]
  · obtain ⟨dn, fn, hdn, hvn, hmax⟩ : ∃ d f, d ∈ devs ∧ Valid disk d f ∧ ∀ e g, Valid disk e g → g.gen ≤ f.gen := by
      rcases hn with h | h
      · exact absurd hv0 (h d0 f0)
      · exact h
    have he : ctorHdr disk devs = (⟨f0.gen, f0.cur⟩, false) := by rw [← h1, ← h2]
    rw [he]
    simp only [Bool.false_eq_true, if_false]
    obtain ⟨l1, l2, l3, l4, l5, l6⟩ := loadLoop_spec disk devs ⟨⟨f0.gen, f0.cur⟩, [], []⟩ false []
    generalize hL : loadLoop disk devs ⟨⟨f0.gen, f0.cur⟩, [], []⟩ false [] = L at *
    obtain ⟨r, stale, tf⟩ := L
    simp only at l1 l2 l3 l4 l5 l6 ⊢
    -- the header after the loop is the newest
    have hhdr : ∃ d f, Valid disk d f ∧ r.hdr = ⟨f.gen, f.cur⟩ := by
      rcases l6 with h | ⟨d, f, _, hv, h⟩
      · exact ⟨d0, f0, hv0, h⟩
      · exact ⟨d, f, hv, h⟩
    obtain ⟨dh, fh, hvh, hrh⟩ := hhdr
    have hnew : ∀ d f, Valid disk d f → f.gen ≤ r.hdr.gen ∧ f.cur ≤ r.hdr.cur ∧ (r.hdr.gen ≤ f.gen → r.hdr.cur ≤ f.cur) := by
      intro d f hv
      have h1 : f.gen ≤ r.hdr.gen := Nat.le_trans (hmax d f hv) (l5 dn hdn fn hvn)
      rw [hrh] at h1 ⊢
      exact ⟨h1, hi.mono d dh f fh hv hvh h1, fun h => hi.mono dh d fh f hvh hv h⟩
    have hp : ∀ id d, (id, d) ∈ r.pdevs → ∃ f, Valid disk d f := by
      intro id d h
      rcases l3 id d h with h | ⟨_, f, hv, _⟩
      · cases h
      · exact ⟨f, hv⟩
    have hf1 := (formatAll_spec tf r).1
    have hgpos : 0 < r.hdr.gen := by rw [hrh]; exact hi.pos dh fh hvh
    by_cases ht : tf = []
    · subst ht
      by_cases hst : stale = false
      · simp only [hst, and_self, if_true, List.foldl_nil]
        rw [l1]
        simpa [applyWrites] using hi
      · simp only [hst, and_false, if_false, if_true, List.foldl_nil]
        have hg := format_commit_good (disk := disk) (r0 := r) (tf := []) (h := r.hdr) l1 hp
        refine goodWrites_inv hi (tf := []) (c := r.hdr.cur) (h := r.hdr)
          (fun w hw => hg w (List.mem_of_mem_take hw)) hgpos hnew rfl
    · simp only [ht, false_and, if_false]
      have hg := format_commit_good (disk := disk) (r0 := r) (tf := tf)
        (h := { (tf.foldl formatOne r).hdr with gen := (tf.foldl formatOne r).hdr.gen + 1 }) l1 hp
      refine goodWrites_inv hi (tf := tf) (c := r.hdr.cur)
        (h := { (tf.foldl formatOne r).hdr with gen := (tf.foldl formatOne r).hdr.gen + 1 })
        (fun w hw => hg w (List.mem_of_mem_take hw)) (Nat.succ_pos _) ?_ ?_
      · intro d f hv
        obtain ⟨n1, n2, _⟩ := hnew d f hv
        rw [hf1]
        refine ⟨by show f.gen ≤ r.hdr.gen + 1; omega, n2, fun h => ?_⟩
        have : r.hdr.gen + 1 ≤ f.gen := h
        omega
      · rw [hf1]

theorem wipe_inv {disk : Disks} (hi : BInv disk) (d : Nat) : BInv (Ev.apply disk (.wipe d)) := by
  have h : ∀ x f, Valid (Ev.apply disk (.wipe d)) x f → Valid disk x f := by
    intro x f hv
    refine ⟨?_, hv.2⟩
    have := hv.1
    simp only [Ev.apply] at this
    split at this
    · cases this
    · exact this
  exact ⟨fun x f hv => hi.pos x f (h x f hv), fun x f hv => hi.le x f (h x f hv),
    fun x y f g hf hg => hi.mono x y f g (h x f hf) (h y g hg), fun x y f g hf hg => hi.uniq x y f g (h x f hf) (h y g hg)⟩

theorem blank_inv : BInv blank := by
  refine ⟨?_, ?_, ?_, ?_⟩ <;> intro d <;> simp [Valid, blank]

theorem history_inv {disk : Disks} (hi : BInv disk) : ∀ {evs : List Ev}, Boots disk evs → BInv (after disk evs) := by
  intro evs
  induction evs generalizing disk with
  | nil => intro _; exact hi
  | cons ev evs ih =>
    intro hb
    refine ih ?_ hb.2
    have h1 := hb.1
    cases ev with
    | boot devs =>
      have := boot_inv hi h1 (bootRun disk devs).writes.length
      rw [List.take_length] at this
      exact this
    | crash devs k => exact boot_inv hi h1 k
    | wipe d => exact wipe_inv hi d

/-- **C18.** Over every history of boots with any sets of devices, crashes at any write of a first block, and
replacements of devices by blank ones, in which every boot includes a device of the newest generation: no two devices of
the system have the same id. -/
theorem C18_unique_ids {evs : List Ev} (h : Boots blank evs) : UniqueIds (after blank evs) :=
  (history_inv blank_inv h).uniq

/-- A newly formatted device gets an id no other device has, and keeps the ids of all others as they were. -/
theorem C18_new_device {evs : List Ev} {devs : List Nat} {d : Nat} {f : FB}
    (h : Boots blank (evs ++ [.boot devs])) (hold : ∀ g, ¬ Valid (after blank evs) d g)
    (hnew : Valid (after blank (evs ++ [.boot devs])) d f) :
    ∀ e g, Valid (after blank (evs ++ [.boot devs])) e g → e ≠ d → g.id ≠ f.id :=
  fun e g hg hne he => hne ((C18_unique_ids h) e d g f hg hnew he)

/-! ### A history that meets the hypothesis -/

/-- Three devices; device 1 is replaced by 3; a crash while device 4 is added, with one device committed; then all. -/
def sampleBoots : List Ev :=
  [.crash [0, 1, 2] 2, .boot [0, 1, 2], .wipe 1, .boot [0, 3, 2], .crash [0, 2, 3, 4] 2, .boot [4, 3, 2, 0]]

example : [0, 1, 2, 3, 4].map (after blank sampleBoots) =
    [some ⟨4, 6, 1, true⟩, none, some ⟨4, 6, 3, true⟩, some ⟨4, 6, 4, true⟩, some ⟨4, 6, 6, true⟩] := by decide +kernel

/-- A history whose boots each include a device of the newest generation. -/
theorem sampleBoots_ok : Boots blank [.boot [0, 1], .wipe 1, .boot [2, 0]] := by
  have e1 : after blank [.boot [0, 1], .wipe 1] = fun d => if d = 0 then some ⟨1, 2, 1, true⟩ else none := by
    funext d
    by_cases h0 : d = 0
    · subst h0; decide
    · by_cases h1 : d = 1
      · subst h1; decide
      · simp only [after, List.foldl, Ev.apply, if_neg h1, if_neg h0]
        rcases applyWrites_spec (bootRun blank [0, 1]).writes blank d with ⟨h, _⟩ | ⟨f, h, _⟩
        · rw [h]; rfl
        · exfalso
          have : ∀ w ∈ (bootRun blank [0, 1]).writes, w.1 = 0 ∨ w.1 = 1 := by decide
          rcases this _ h with h | h
          · exact h0 h
          · exact h1 h
  refine ⟨Or.inl (by intro d f; simp [Valid, blank]), trivial, ?_, trivial⟩
  show HasNewest (after blank [.boot [0, 1], .wipe 1]) [2, 0]
  rw [e1]
  refine Or.inr ⟨0, ⟨1, 2, 1, true⟩, by decide, ⟨rfl, rfl⟩, ?_⟩
  intro e g hv
  have := hv.1
  simp only at this
  split at this
  · cases this; exact Nat.le_refl _
  · cases this

/-! ## C55: a device that takes part in a boot is brought up to date -/

theorem set_has (t : Pdevs) (id d : Nat) : (id, d) ∈ t.set id d := by
  induction t with
  | nil => exact List.mem_singleton.2 rfl
  | cons e t ih =>
    obtain ⟨i, e⟩ := e
    unfold Pdevs.set
    split
    · exact List.mem_cons_self
    · split
      · exact List.mem_cons_self
      · exact List.mem_cons_of_mem _ ih

/-- An entry of the table stays until another device with the same id is put there. -/
theorem set_keeps {t : Pdevs} {id d : Nat} {x : Nat × Nat} (hx : x ∈ t) (hne : x.1 ≠ id) : x ∈ t.set id d := by
  induction t with
  | nil => cases hx
  | cons e t ih =>
    obtain ⟨i, e⟩ := e
    unfold Pdevs.set
    split
    · exact List.mem_cons_of_mem _ hx
    · split
      · rcases List.mem_cons.1 hx with h | h
        · rw [h] at hne; exact absurd (by assumption : id = i).symm hne
        · exact List.mem_cons_of_mem _ h
      · rcases List.mem_cons.1 hx with h | h
        · rw [h]; exact List.mem_cons_self
        · exact List.mem_cons_of_mem _ (ih h)

theorem mem_commitWrites_of {disk : Disks} {h : Hdr} {t : Pdevs} {id d : Nat} {f : FB} (ht : (id, d) ∈ t)
    (hd : disk d = some f) : (d, { f with gen := h.gen, cur := h.cur, done := true }) ∈ commitWrites disk h t := by
  induction t with
  | nil => cases ht
  | cons e t ih =>
    obtain ⟨i, e⟩ := e
    unfold commitWrites
    rcases List.mem_cons.1 ht with h1 | h1
    · cases h1
      rw [hd]
      exact List.mem_append_left _ (List.mem_singleton.2 rfl)
    · exact List.mem_append_right _ (ih h1)

/-- Every valid device of the list is in the table after the loop. -/
theorem loadLoop_has {disk : Disks} (hu : UniqueIds disk) (devs : List Nat) : ∀ (r : Run) (stale : Bool) (tf : List Nat),
    (∀ id d, (id, d) ∈ r.pdevs → ∃ f, Valid disk d f ∧ f.id = id) →
    (∀ x ∈ r.pdevs, x ∈ (loadLoop disk devs r stale tf).1.pdevs) ∧
    (∀ d ∈ devs, ∀ f, Valid disk d f → (f.id, d) ∈ (loadLoop disk devs r stale tf).1.pdevs) ∧
    (∀ d ∈ devs, (∀ f, ¬ Valid disk d f) → d ∈ (loadLoop disk devs r stale tf).2.2) ∧
    (∀ d ∈ tf, d ∈ (loadLoop disk devs r stale tf).2.2) := by
  induction devs with
  | nil => intro r stale tf _; simp [loadLoop]
  | cons d ds ih =>
    intro r stale tf hr
    unfold loadLoop
    cases h : validFB (disk d) with
    | none =>
      obtain ⟨i1, i2, i3, i4⟩ := ih r stale (tf ++ [d]) hr
      refine ⟨i1, ?_, ?_, fun e he => i4 e (List.mem_append_left _ he)⟩
      · intro e he f hf
        rcases List.mem_cons.1 he with h1 | h1
        · rw [h1] at hf; exact absurd hf (validFB_none h f)
        · exact i2 e h1 f hf
      · intro e he hn
        rcases List.mem_cons.1 he with h1 | h1
        · rw [h1]; exact i4 d (List.mem_append_right _ (List.mem_singleton.2 rfl))
        · exact i3 e h1 hn
    | some f =>
      have hv := validFB_iff.1 h
      simp only
      have hr' : ∀ id e, (id, e) ∈ r.pdevs.set f.id d → ∃ g, Valid disk e g ∧ g.id = id := by
        intro id e he
        rcases mem_set he with h1 | h1
        · cases h1; exact ⟨f, hv, rfl⟩
        · exact hr id e h1
      obtain ⟨i1, i2, i3, i4⟩ := ih { r with pdevs := r.pdevs.set f.id d
                                             hdr := if r.hdr.gen < f.gen then ⟨f.gen, f.cur⟩ else r.hdr }
        (decide (f.gen ≠ r.hdr.gen)) tf hr'
      refine ⟨?_, ?_, ?_, i4⟩
      · intro x hx
        by_cases hid : x.1 = f.id
        · obtain ⟨g, hg1, hg2⟩ := hr x.1 x.2 hx
          have : x.2 = d := hu _ _ g f hg1 hv (by rw [hg2, hid])
          have hxe : x = (f.id, d) := by rw [← hid, ← this]
          rw [hxe]
          exact i1 _ (set_has _ _ _)
        · exact i1 x (set_keeps hx hid)
      · intro e he g hg
        rcases List.mem_cons.1 he with h1 | h1
        · rw [h1] at hg ⊢
          have : f = g := by have h3 := hv.1; rw [hg.1] at h3; cases h3; rfl
          rw [← this]
          exact i1 _ (set_has _ _ _)
        · exact i2 e h1 g hg
      · intro e he hn
        rcases List.mem_cons.1 he with h1 | h1
        · rw [h1] at hn; exact absurd hv (hn f)
        · exact i3 e h1 hn

/-- Formatting adds each device to the table under its own new id and drops none of a smaller id. -/
theorem formatAll_has (L : List Nat) : ∀ (r : Run), (∀ x ∈ r.pdevs, x.1 ≤ r.hdr.cur) →
    (∀ x ∈ r.pdevs, x ∈ (L.foldl formatOne r).pdevs) ∧ (∀ d ∈ L, ∃ id, (id, d) ∈ (L.foldl formatOne r).pdevs) := by
  induction L with
  | nil => intro r _; simp
  | cons d L ih =>
    intro r hr
    rw [List.foldl_cons]
    obtain ⟨i1, i2⟩ := ih (formatOne r d) (by
      intro x hx
      show x.1 ≤ r.hdr.cur + 1
      rcases mem_set hx with h | h
      · rw [h]; exact Nat.le_refl _
      · have := hr x h; omega)
    refine ⟨fun x hx => i1 x (set_keeps hx (by have := hr x hx; omega)), ?_⟩
    intro e he
    rcases List.mem_cons.1 he with h | h
    · rw [h]; exact ⟨_, i1 _ (set_has _ _ _)⟩
    · exact i2 e h

/-- What the commit leaves on a device of the table. -/
theorem commit_after {disk : Disks} {h : Hdr} {t : Pdevs} {d : Nat} (ht : ∃ id, (id, d) ∈ t) (hd : disk d ≠ none) :
    ∃ f, Valid (applyWrites disk (commitWrites disk h t)) d f ∧ f.gen = h.gen ∧ f.cur = h.cur := by
  obtain ⟨id, ht⟩ := ht
  cases hf : disk d with
  | none => exact absurd hf hd
  | some f =>
    have hm := mem_commitWrites_of (h := h) ht hf
    rcases applyWrites_spec (commitWrites disk h t) disk d with ⟨_, h2⟩ | ⟨g, h1, h2⟩
    · exact absurd rfl (h2 _ hm)
    · obtain ⟨_, f', _, _, he⟩ := mem_commitWrites h1
      have he : g = { f' with gen := h.gen, cur := h.cur, done := true } := he
      exact ⟨g, ⟨h2, by rw [he]⟩, by rw [he], by rw [he]⟩

/-- **C55 (part).** When a boot includes a device of the newest generation and a device that is not formatted yet,
then after it every device of the boot is a formatted device of a generation newer than any device had before, and the
devices of the boot all know the last id given. -/
theorem C55_refreshed_partial {evs : List Ev} {devs : List Nat} (hb : Boots blank (evs ++ [.boot devs]))
    {n : Nat} (hn : n ∈ devs) (hnew : ∀ f, ¬ Valid (after blank evs) n f) :
    ∃ gen cur, (∀ d ∈ devs, ∃ f, Valid (after blank (evs ++ [.boot devs])) d f ∧ f.gen = gen ∧ f.cur = cur) ∧
      ∀ e g, Valid (after blank evs) e g → g.gen < gen := by
  have hsplit : ∀ (evs : List Ev) (disk : Disks) (ev : Ev), Boots disk (evs ++ [ev]) → Boots disk evs ∧
      (match ev with
        | .boot devs => HasNewest (after disk evs) devs
        | .crash devs _ => HasNewest (after disk evs) devs
        | .wipe _ => True) := by
    intro evs
    induction evs with
    | nil => intro disk ev h; exact ⟨trivial, h.1⟩
    | cons a evs ih => intro disk ev h; exact ⟨⟨h.1, (ih _ ev h.2).1⟩, (ih _ ev h.2).2⟩
  obtain ⟨hb1, hhn⟩ := hsplit _ _ _ hb
  have hi := history_inv blank_inv hb1
  have he : after blank (evs ++ [.boot devs]) = Ev.apply (after blank evs) (.boot devs) := by
    unfold after; rw [List.foldl_append]; rfl
  rw [he]
  generalize after blank evs = disk at *
  simp only at hhn
  have key : ∀ (r : Run) (h : Hdr) (tf : List Nat), r.writes = [] →
      (∀ x ∈ r.pdevs, x.1 ≤ r.hdr.cur) →
      (∀ d ∈ devs, (∃ id, (id, d) ∈ r.pdevs ∧ disk d ≠ none) ∨ d ∈ tf) →
      ∀ d ∈ devs, ∃ f, Valid (applyWrites disk ((tf.foldl formatOne r).writes ++
        commitWrites (applyWrites disk (tf.foldl formatOne r).writes) h (tf.foldl formatOne r).pdevs)) d f ∧
        f.gen = h.gen ∧ f.cur = h.cur := by
    intro r h tf hw hle hcov d hd
    rw [applyWrites_append]
    obtain ⟨h1, h2⟩ := formatAll_has tf r hle
    obtain ⟨_, _, f3, _, _⟩ := formatAll_spec tf r
    rcases hcov d hd with ⟨id, h3, h4⟩ | h3
    · refine commit_after ⟨id, h1 _ h3⟩ ?_
      rcases applyWrites_spec (tf.foldl formatOne r).writes disk d with ⟨h5, _⟩ | ⟨g, _, h5⟩
      · rw [h5]; exact h4
      · rw [h5]; intro h; cases h
    · refine commit_after (h2 d h3) ?_
      obtain ⟨w, hw1, hw2⟩ := f3 d h3
      rcases applyWrites_spec (tf.foldl formatOne r).writes disk d with ⟨_, h5⟩ | ⟨g, _, h5⟩
      · exact absurd hw2 (h5 w hw1)
      · rw [h5]; intro h; cases h
  show ∃ gen cur, (∀ d ∈ devs, ∃ f, Valid (applyWrites disk (bootRun disk devs).writes) d f ∧ f.gen = gen ∧ f.cur = cur) ∧
    ∀ e g, Valid disk e g → g.gen < gen
  unfold bootRun
  rcases ctorHdr_spec hi devs with ⟨h1, h2, h3⟩ | ⟨h1, d0, f0, hd0, hv0, h2⟩
  · have hnone : ∀ d f, ¬ Valid disk d f := by
      rcases hhn with h | ⟨d, f, hd, hv, _⟩
      · exact h
      · exact absurd hv (h3 d hd f)
    have he : ctorHdr disk devs = (⟨0, 0⟩, true) := by rw [← h1, ← h2]
    rw [he]
    simp only [if_true]
    refine ⟨_, _, key ⟨⟨0 + 1, 0⟩, [], []⟩ _ devs rfl (by intro x h; cases h) (fun d hd => Or.inr hd), ?_⟩
    intro e g hv; exact absurd hv (hnone e g)
  · obtain ⟨dn, fn, hdn, hvn, hmax⟩ : ∃ d f, d ∈ devs ∧ Valid disk d f ∧ ∀ e g, Valid disk e g → g.gen ≤ f.gen := by
      rcases hhn with h | h
      · exact absurd hv0 (h d0 f0)
      · exact h
    have he : ctorHdr disk devs = (⟨f0.gen, f0.cur⟩, false) := by rw [← h1, ← h2]
    rw [he]
    simp only [Bool.false_eq_true, if_false]
    obtain ⟨l1, l2, l3, l4, l5, l6⟩ := loadLoop_spec disk devs ⟨⟨f0.gen, f0.cur⟩, [], []⟩ false []
    obtain ⟨_, m2, m3, _⟩ := loadLoop_has hi.uniq devs ⟨⟨f0.gen, f0.cur⟩, [], []⟩ false [] (by intro id d h; cases h)
    generalize hL : loadLoop disk devs ⟨⟨f0.gen, f0.cur⟩, [], []⟩ false [] = L at *
    obtain ⟨r, stale, tf⟩ := L
    simp only at l1 l2 l3 l4 l5 l6 m2 m3 ⊢
    obtain ⟨dh, fh, hvh, hrh⟩ : ∃ d f, Valid disk d f ∧ r.hdr = ⟨f.gen, f.cur⟩ := by
      rcases l6 with h | ⟨d, f, _, hv, h⟩
      · exact ⟨d0, f0, hv0, h⟩
      · exact ⟨d, f, hv, h⟩
    have ht : tf ≠ [] := by intro h; have := m3 n hn hnew; rw [h] at this; cases this
    simp only [ht, false_and, if_false]
    have hnew2 : ∀ d f, Valid disk d f → f.gen ≤ r.hdr.gen ∧ f.id ≤ r.hdr.cur := by
      intro d f hv
      have h1 : f.gen ≤ r.hdr.gen := Nat.le_trans (hmax d f hv) (l5 dn hdn fn hvn)
      refine ⟨h1, ?_⟩
      rw [hrh] at h1 ⊢
      exact Nat.le_trans (hi.le d f hv) (hi.mono d dh f fh hv hvh h1)
    refine ⟨_, _, key r { (tf.foldl formatOne r).hdr with gen := (tf.foldl formatOne r).hdr.gen + 1 } tf l1 ?_ ?_, ?_⟩
    · intro x hx
      rcases l3 x.1 x.2 hx with h | ⟨_, f, hv, hf⟩
      · cases h
      · rw [← hf]; exact (hnew2 _ f hv).2
    · intro d hd
      by_cases hv : ∃ f, Valid disk d f
      · obtain ⟨f, hv⟩ := hv
        exact Or.inl ⟨f.id, m2 d hd f hv, by rw [hv.1]; intro h; cases h⟩
      · exact Or.inr (m3 d hd (fun f hf => hv ⟨f, hf⟩))
    · intro e g hv
      rw [(formatAll_spec tf r).1]
      have := (hnew2 e g hv).1
      show g.gen < r.hdr.gen + 1
      omega

example : ∃ gen cur, (∀ d ∈ [2, 0], ∃ f, Valid (after blank ([Ev.boot [0, 1], .wipe 1] ++ [.boot [2, 0]])) d f ∧
    f.gen = gen ∧ f.cur = cur) ∧ ∀ e g, Valid (after blank [Ev.boot [0, 1], .wipe 1]) e g → g.gen < gen :=
  C55_refreshed_partial sampleBoots_ok (n := 2) (by decide) (by
    intro f hv
    have h : after blank [Ev.boot [0, 1], .wipe 1] 2 = none := by decide +kernel
    rw [hv.1] at h
    cases h)

/-- **C55 fails** without a new device: devices 0, 1, 2 are formatted; device 3 is added while 2 is away; all four are
booted, with device 2 first.  It is stale, but the flag is overwritten by the devices behind it
(`device_manager.cpp` 228), and its header is not renewed. -/
theorem C55_stale_header_violated :
    let evs := [Ev.boot [0, 1, 2], .boot [0, 1, 3], .boot [2, 0, 1, 3]]
    after blank evs 2 = some ⟨1, 3, 3, true⟩ ∧ after blank evs 3 = some ⟨2, 4, 4, true⟩ := by decide +kernel

/-- What comes of it: device 2 is then booted with a new device 4, which gets the id of device 3.  Every boot here
includes a device that took part in the boot before. -/
theorem C55_same_id_violated :
    let evs := [Ev.boot [0, 1, 2], .boot [0, 1, 3], .boot [2, 0, 1, 3], .boot [2, 4]]
    (after blank evs 3).map (·.id) = some 4 ∧ (after blank evs 4).map (·.id) = some 4 := by decide +kernel

/-- The end of `load_devices` and `format_devices` checks that no two devices have the same id (308, 121), but it looks
at the table by id, in which the second device has replaced the first: booting all five devices of the last theorem
goes through, without device 3. -/
theorem C55_duplicate_not_noticed_violated :
    let evs := [Ev.boot [0, 1, 2], .boot [0, 1, 3], .boot [2, 0, 1, 3], .boot [2, 4]]
    (bootRun (after blank evs) [0, 1, 2, 3, 4]).pdevs = [(1, 0), (2, 1), (3, 2), (4, 4)] := by decide +kernel

end HS.DevMgr
