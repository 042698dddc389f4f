import Verif.Pdev.Model
/-! Helper lemmas for C16/C17. -/
namespace HS.Pdev

/-- Data areas of two records share no byte. -/
def Disj (x y : Info) : Prop := x.start + x.size ≤ y.start ∨ y.start + y.size ≤ x.start

def InB (g : Geo) (x : Info) : Prop := 1 ≤ x.size ∧ g.dataStart ≤ x.start ∧ x.start + x.size ≤ g.dataEnd

/-- Same record up to the allocated flag. -/
def Same (x y : Info) : Prop := x.start = y.start ∧ x.size = y.size ∧ x.id = y.id ∧ x.vdev = y.vdev

theorem Same.refl (x : Info) : Same x x := ⟨rfl, rfl, rfl, rfl⟩

/-- The list of chunks is well formed: distinct slots, disjoint in-range areas. -/
structure LOk (g : Geo) (L : List (Nat × Info)) : Prop where
  pw : L.Pairwise fun x y => x.1 ≠ y.1 ∧ Disj x.2 y.2
  inb : ∀ c ∈ L, InB g c.2

structure SOk (as : List (Nat × Nat)) : Prop where
  srt : as.Pairwise fun x y => x.2 ≤ y.1
  ne : ∀ x ∈ as, x.1 < x.2

structure Core (g : Geo) (m : Mem) : Prop where
  as : SOk m.areas
  lok : LOk g m.chunks
  cov : ∀ x, x ∈ m.areas ↔ ∃ c ∈ m.chunks, c.2.start = x.1 ∧ c.2.start + c.2.size = x.2
  sts : ∀ x ∈ m.starts, ∃ c ∈ m.chunks, c.2.start = x
  snd : m.starts.Nodup

def BitOk (m : Mem) : Prop := ∀ c ∈ m.chunks, m.bm[c.1]? = some true

theorem Disj.symm {x y : Info} (h : Disj x y) : Disj y x := Or.symm h

theorem LOk.get {g L} (h : LOk g L) {x y : Nat × Info} (hx : x ∈ L) (hy : y ∈ L) :
    x = y ∨ (x.1 ≠ y.1 ∧ Disj x.2 y.2) := by
  have h1 := h.pw
  induction L with
  | nil => simp at hx
  | cons a L ih =>
    rw [List.pairwise_cons] at h1
    rcases List.mem_cons.1 hx with e1 | m1 <;> rcases List.mem_cons.1 hy with e2 | m2
    · left; rw [e1, e2]
    · right; rw [e1]; exact h1.1 _ m2
    · right; rw [e2]; exact ⟨fun e => (h1.1 _ m1).1 e.symm, (h1.1 _ m1).2.symm⟩
    · exact ih ⟨h1.2, fun c hc => h.inb c (by simp [hc])⟩ m1 m2 h1.2

/-! ## intervals -/

theorem insertIval_spec {l h : Nat} (hlt : l < h) : ∀ {as : List (Nat × Nat)}, SOk as →
    (∀ x ∈ as, h ≤ x.1 ∨ x.2 ≤ l) →
    SOk (insertIval l h as) ∧ ∀ x, x ∈ insertIval l h as ↔ x = (l, h) ∨ x ∈ as := by
  intro as
  induction as with
  | nil => intro _ _; simp only [insertIval, hlt, if_true]; exact ⟨⟨by simp, by simp [hlt]⟩, by simp⟩
  | cons a t ih =>
    intro ok dj
    obtain ⟨a, b⟩ := a
    have hab := ok.ne (a, b) (by simp)
    have hp := List.pairwise_cons.1 ok.srt
    simp only [insertIval, hlt, not_true_eq_false, if_false]
    have ha := dj (a, b) (by simp)
    simp only at ha hab
    split
    · rename_i hle
      refine ⟨⟨?_, ?_⟩, by simp⟩
      · rw [List.pairwise_cons]
        refine ⟨?_, ok.srt⟩
        intro x hx
        rcases List.mem_cons.1 hx with e | hx
        · subst e; exact hle
        · have := hp.1 x hx; simp only at this ⊢; omega
      · intro x hx
        rcases List.mem_cons.1 hx with e | hx
        · subst e; exact hlt
        · exact ok.ne x hx
    · rename_i hle
      have hbl : b ≤ l := by omega
      rw [if_pos hbl]
      obtain ⟨i1, i2⟩ := ih ⟨hp.2, fun x hx => ok.ne x (by simp [hx])⟩ (fun x hx => dj x (by simp [hx]))
      refine ⟨⟨?_, ?_⟩, ?_⟩
      · rw [List.pairwise_cons]
        refine ⟨?_, i1.srt⟩
        intro x hx
        rcases (i2 x).1 hx with e | hx
        · subst e; exact hbl
        · exact hp.1 x hx
      · intro x hx
        rcases List.mem_cons.1 hx with e | hx
        · subst e; exact hab
        · exact i1.ne x hx
      · intro x
        simp only [List.mem_cons, i2]
        grind

theorem eraseIval_spec {l h : Nat} (hlt : l < h) : ∀ {as : List (Nat × Nat)}, SOk as →
    (∀ x ∈ as, x = (l, h) ∨ h ≤ x.1 ∨ x.2 ≤ l) →
    SOk (eraseIval l h as) ∧ ∀ x, x ∈ eraseIval l h as ↔ x ≠ (l, h) ∧ x ∈ as := by
  intro as
  induction as with
  | nil => intro _ _; simp only [eraseIval]; exact ⟨⟨by simp, by simp⟩, by simp⟩
  | cons a t ih =>
    intro ok dj
    obtain ⟨a, b⟩ := a
    have hab := ok.ne (a, b) (by simp)
    have hp := List.pairwise_cons.1 ok.srt
    have ha := dj (a, b) (by simp)
    simp only at ha hab
    obtain ⟨i1, i2⟩ := ih ⟨hp.2, fun x hx => ok.ne x (by simp [hx])⟩ (fun x hx => dj x (by simp [hx]))
    simp only [eraseIval, hlt, not_true_eq_false, false_or]
    by_cases e : (a, b) = (l, h)
    · injection e with e1 e2
      subst e1; subst e2
      have c1 : ¬ (b ≤ a ∨ b ≤ a) := by omega
      rw [if_neg c1]
      simp only [Nat.lt_irrefl, if_false, List.nil_append]
      refine ⟨i1, fun x => ?_⟩
      rw [i2, List.mem_cons]
      constructor
      · rintro ⟨p, q⟩; exact ⟨p, .inr q⟩
      · rintro ⟨p, q | q⟩
        · exact absurd q p
        · exact ⟨p, q⟩
    · have c1 : h ≤ a ∨ b ≤ l := by
        rcases ha with ha | ha
        · exact absurd ha e
        · exact ha
      rw [if_pos c1]
      simp only [List.cons_append, List.nil_append]
      refine ⟨⟨?_, ?_⟩, ?_⟩
      · rw [List.pairwise_cons]
        exact ⟨fun x hx => hp.1 x ((i2 x).1 hx).2, i1.srt⟩
      · intro x hx
        rcases List.mem_cons.1 hx with e | hx
        · subst e; exact hab
        · exact i1.ne x hx
      · intro x
        rw [List.mem_cons, i2, List.mem_cons]
        constructor
        · rintro (p | ⟨p, q⟩)
          · subst p; exact ⟨e, .inl rfl⟩
          · exact ⟨p, .inr q⟩
        · rintro ⟨p, q | q⟩
          · exact .inl q
          · exact .inr ⟨p, q⟩

theorem nextArea_spec (size : Nat) : ∀ {as : List (Nat × Nat)} {lo : Nat}, SOk as → (∀ x ∈ as, lo ≤ x.1) →
    lo ≤ nextArea size lo as ∧ (∀ x ∈ as, nextArea size lo as + size ≤ x.1 ∨ x.2 ≤ nextArea size lo as) ∧
    (∀ y, lo ≤ y → (∀ x ∈ as, y + size ≤ x.1 ∨ x.2 ≤ y) → nextArea size lo as ≤ y) := by
  intro as
  induction as with
  | nil => intro lo _ _; simp [nextArea]
  | cons a t ih =>
    intro lo ok hlo
    obtain ⟨a, b⟩ := a
    have hab := ok.ne (a, b) (by simp)
    have hla := hlo (a, b) (by simp)
    have hp := List.pairwise_cons.1 ok.srt
    simp only at hab hla
    simp only [nextArea]
    split
    · rename_i hle
      refine ⟨Nat.le_refl _, ?_, fun y h1 _ => h1⟩
      intro x hx
      rcases List.mem_cons.1 hx with e | hx
      · subst e; exact .inl hle
      · have := hp.1 x hx
        simp only at this
        left; omega
    · rename_i hle
      obtain ⟨i1, i2, i3⟩ := ih (lo := b) ⟨hp.2, fun x hx => ok.ne x (by simp [hx])⟩ (fun x hx => hp.1 x hx)
      refine ⟨by omega, ?_, ?_⟩
      · intro x hx
        rcases List.mem_cons.1 hx with e | hx
        · subst e; right; exact i1
        · exact i2 x hx
      · intro y h1 h2
        have := h2 (a, b) (by simp)
        simp only at this
        exact i3 y (by omega) (fun x hx => h2 x (by simp [hx]))

/-! ## allocation -/

theorem Core.areas_ge {g m} (h : Core g m) : ∀ x ∈ m.areas, g.dataStart ≤ x.1 := by
  intro x hx
  obtain ⟨c, hc, h1, h2⟩ := (h.cov x).1 hx
  have := (h.lok.inb c hc).2.1
  omega

theorem findArea_some {g m size lo} (h : Core g m) (hf : findArea g m size = some lo) :
    g.dataStart ≤ lo ∧ lo + size ≤ g.dataEnd ∧
    ∀ c ∈ m.chunks, lo + size ≤ c.2.start ∨ c.2.start + c.2.size ≤ lo := by
  unfold findArea at hf
  simp only at hf
  split at hf
  · simp at hf
  · injection hf with hf
    obtain ⟨a, b, _⟩ := nextArea_spec size h.as h.areas_ge
    rw [hf] at a b
    refine ⟨a, by omega, ?_⟩
    intro c hc
    exact b (c.2.start, c.2.start + c.2.size) ((h.cov _).2 ⟨c, hc, rfl, rfl⟩)

theorem findArea_none {g m size} (h : Core g m) (hf : findArea g m size = none) :
    ∀ lo, g.dataStart ≤ lo → lo + size ≤ g.dataEnd →
      ∃ c ∈ m.chunks, ¬ (lo + size ≤ c.2.start ∨ c.2.start + c.2.size ≤ lo) := by
  unfold findArea at hf
  simp only at hf
  split at hf
  · rename_i hgt
    intro lo h1 h2
    obtain ⟨_, _, c⟩ := nextArea_spec size h.as h.areas_ge
    apply Classical.byContradiction
    intro hne
    have hall : ∀ x ∈ m.areas, lo + size ≤ x.1 ∨ x.2 ≤ lo := by
      intro x hx
      obtain ⟨ch, hch, e1, e2⟩ := (h.cov x).1 hx
      apply Classical.byContradiction
      intro hc
      exact hne ⟨ch, hch, by rw [e2, e1]; exact hc⟩
    have := c lo h1 hall
    omega
  · simp at hf

/-- `populate_chunk_info` never aborts; if it finds room the record is in range and disjoint from all others,
and adding it under a fresh slot keeps everything well formed. -/
theorem populate_spec {g m vdev size id} (h : Core g m) (hs : 1 ≤ size) :
    (populate g m vdev size id = .noRoom m ∧ findArea g m size = none) ∨
    ∃ info m1, populate g m vdev size id = .ok (info, m1) ∧ info.size = size ∧ info.id = id ∧ info.vdev = vdev ∧
      InB g info ∧ (∀ c ∈ m.chunks, Disj info c.2) ∧ m1.bm = m.bm ∧ m1.chunks = m.chunks ∧
      ∀ s, (∀ c ∈ m.chunks, c.1 ≠ s) → Core g { m1 with chunks := (s, info) :: m1.chunks } := by
  unfold populate
  cases hf : findArea g m size with
  | none => left; simp
  | some lo =>
    right
    obtain ⟨f1, f2, f3⟩ := findArea_some h hf
    have hns : lo ∉ m.starts := by
      intro hm
      obtain ⟨c, hc, e⟩ := h.sts lo hm
      have := f3 c hc
      have := (h.lok.inb c hc).1
      omega
    simp only [hns, if_false]
    refine ⟨_, _, rfl, rfl, rfl, rfl, ⟨hs, f1, f2⟩, fun c hc => f3 c hc, rfl, rfl, ?_⟩
    intro s hsl
    have hdj : ∀ x ∈ m.areas, lo + size ≤ x.1 ∨ x.2 ≤ lo := by
      intro x hx
      obtain ⟨c, hc, e1, e2⟩ := (h.cov x).1 hx
      have := f3 c hc
      omega
    obtain ⟨i1, i2⟩ := insertIval_spec (l := lo) (h := lo + size) (by omega) h.as hdj
    refine ⟨i1, ⟨?_, ?_⟩, ?_, ?_, ?_⟩
    · simp only [List.pairwise_cons]
      exact ⟨fun c hc => ⟨fun e => hsl c hc e.symm, f3 c hc⟩, h.lok.pw⟩
    · intro c hc
      rcases List.mem_cons.1 hc with e | hc
      · subst e; exact ⟨hs, f1, f2⟩
      · exact h.lok.inb c hc
    · intro x
      simp only [i2, List.mem_cons, exists_eq_or_imp]
      rw [h.cov]
      constructor
      · rintro (p | p)
        · subst p; exact .inl ⟨rfl, rfl⟩
        · exact .inr p
      · rintro (p | p)
        · left; exact Prod.ext p.1.symm p.2.symm
        · exact .inr p
    · intro x hx
      rcases List.mem_cons.1 hx with e | hx
      · exact ⟨_, List.mem_cons_self, e.symm⟩
      · obtain ⟨c, hc, e⟩ := h.sts x hx
        exact ⟨c, by simp [hc], e⟩
    · exact List.nodup_cons.2 ⟨hns, h.snd⟩

theorem firstReset_spec : ∀ {bm : List Bool}, match firstReset bm with
    | none => ∀ i : Nat, bm[i]? ≠ some false
    | some s => bm[s]? = some false := by
  intro bm
  induction bm with
  | nil => simp [firstReset]
  | cons b t ih =>
    cases b with
    | false => simp [firstReset]
    | true =>
      simp only [firstReset]
      cases hf : firstReset t with
      | none =>
        rw [hf] at ih
        simp only [Option.map_none]
        intro i
        cases i with
        | zero => simp
        | succ i => simpa using ih i
      | some s =>
        rw [hf] at ih
        simpa using ih

/-! ## removal -/

theorem removeChunk_spec {g m} {c : Nat × Info} (h : Core g m) (hc : c ∈ m.chunks) :
    Core g (removeChunk m c).1 := by
  have inb := h.lok.inb c hc
  have hother : ∀ y ∈ m.chunks, y = c ∨ (y.1 ≠ c.1 ∧ Disj y.2 c.2) := fun y hy => h.lok.get hy hc
  have hmem : ∀ y, y ∈ m.chunks.filter (fun x => x.1 ≠ c.1) ↔ y ∈ m.chunks ∧ y ≠ c := by
    intro y
    simp only [List.mem_filter, decide_eq_true_eq]
    constructor
    · rintro ⟨p, q⟩; exact ⟨p, fun e => q (by rw [e])⟩
    · rintro ⟨p, q⟩
      rcases hother y p with e | e
      · exact absurd e q
      · exact ⟨p, e.1⟩
  obtain ⟨e1, e2⟩ := eraseIval_spec (l := c.2.start) (h := c.2.start + c.2.size) (by have := inb.1; omega) h.as (by
    intro x hx
    obtain ⟨y, hy, p, q⟩ := (h.cov x).1 hx
    rcases hother y hy with e | e
    · left; subst e; exact Prod.ext p.symm q.symm
    · right
      rcases e.2 with e | e
      · right; omega
      · left; omega)
  refine ⟨e1, ⟨?_, ?_⟩, ?_, ?_, ?_⟩
  · exact h.lok.pw.sublist List.filter_sublist
  · intro y hy; exact h.lok.inb y ((hmem y).1 hy).1
  · intro x
    simp only [removeChunk]
    rw [e2, h.cov]
    constructor
    · rintro ⟨p, y, hy, q1, q2⟩
      refine ⟨y, (hmem y).2 ⟨hy, ?_⟩, q1, q2⟩
      intro e; subst e; exact p (by rw [q2, q1])
    · rintro ⟨y, hy, q1, q2⟩
      have hy' := (hmem y).1 hy
      refine ⟨?_, y, hy'.1, q1, q2⟩
      intro e
      rcases hother y hy'.1 with e' | e'
      · exact hy'.2 e'
      · have := (h.lok.inb y hy'.1).1
        have h1 : y.2.start = c.2.start := by rw [q1, e]
        rcases e'.2 with e'' | e'' <;> have := inb.1 <;> omega
  · intro x hx
    simp only [removeChunk] at hx
    have hne : x ≠ c.2.start := (List.Nodup.mem_erase_iff h.snd).1 hx |>.1
    obtain ⟨y, hy, e⟩ := h.sts x (List.mem_of_mem_erase hx)
    exact ⟨y, (hmem y).2 ⟨hy, fun e' => hne (by rw [← e, e'])⟩, e⟩
  · exact h.snd.erase _

theorem removeChunk_mem {g m} {c : Nat × Info} (h : Core g m) (hc : c ∈ m.chunks) (y : Nat × Info) :
    y ∈ (removeChunk m c).1.chunks ↔ y ∈ m.chunks ∧ y ≠ c := by
  simp only [removeChunk, List.mem_filter, decide_eq_true_eq]
  constructor
  · rintro ⟨p, q⟩; exact ⟨p, fun e => q (by rw [e])⟩
  · rintro ⟨p, q⟩
    rcases h.lok.get p hc with e | e
    · exact absurd e q
    · exact ⟨p, e.1⟩

/-! ## disk images -/

/-- Every set bit has a written record, which is one of the chunks in `L`. -/
def Img (L : List (Nat × Info)) (bm : List Bool) (slots : List (Option Info)) : Prop :=
  ∀ i : Nat, bm[i]? = some true → ∃ info, slots[i]? = some (some info) ∧ ∃ c ∈ L, c.1 = i ∧ Same info c.2

/-- The write sequence keeps the disk an image of chunks in `L` at every point. -/
def WOk (L : List (Nat × Info)) : List (Option Info) → List Write → Prop
  | _, [] => True
  | sl, .slot i info :: ws => (i < sl.length ∧ ∃ c ∈ L, c.1 = i ∧ Same info c.2) ∧ WOk L (sl.set i (some info)) ws
  | sl, .bitmap bm :: ws => (bm.length = sl.length ∧ Img L bm sl) ∧ WOk L sl ws

def slotsAfter (sl : List (Option Info)) (ws : List Write) : List (Option Info) :=
  (Disk.applyAll ⟨[], sl⟩ ws).slots

theorem applyAll_slots (d : Disk) (ws : List Write) : (d.applyAll ws).slots = slotsAfter d.slots ws := by
  unfold slotsAfter Disk.applyAll
  have : ∀ (d1 d2 : Disk), d1.slots = d2.slots → (ws.foldl Disk.apply d1).slots = (ws.foldl Disk.apply d2).slots := by
    induction ws with
    | nil => intro d1 d2 h; exact h
    | cons w ws ih =>
      intro d1 d2 h
      simp only [List.foldl_cons]
      apply ih
      cases w <;> simp [Disk.apply, h]
  exact this _ _ rfl

theorem slotsAfter_cons (sl : List (Option Info)) (w : Write) (ws : List Write) :
    slotsAfter sl (w :: ws) = slotsAfter (Disk.apply ⟨[], sl⟩ w).slots ws := by
  have : slotsAfter sl (w :: ws) = (Disk.applyAll (Disk.apply ⟨[], sl⟩ w) ws).slots := rfl
  rw [this, applyAll_slots]

theorem WOk_append {L : List (Nat × Info)} : ∀ {ws1 ws2 : List Write} {sl}, WOk L sl ws1 →
    WOk L (slotsAfter sl ws1) ws2 → WOk L sl (ws1 ++ ws2) := by
  intro ws1
  induction ws1 with
  | nil => intro ws2 sl _ h; exact h
  | cons w ws1 ih =>
    intro ws2 sl h1 h2
    rw [slotsAfter_cons] at h2
    cases w with
    | bitmap bm => exact ⟨h1.1, ih h1.2 h2⟩
    | slot i info => exact ⟨h1.1, ih h1.2 h2⟩

theorem Img_set {L bm sl i info} (h : Img L bm sl) (hi : i < sl.length) (hc : ∃ c ∈ L, c.1 = i ∧ Same info c.2) :
    Img L bm (sl.set i (some info)) := by
  intro j hj
  by_cases e : i = j
  · subst e; exact ⟨info, by simp [hi], hc⟩
  · obtain ⟨x, h1, h2⟩ := h j hj
    exact ⟨x, by rw [List.getElem?_set_ne e]; exact h1, h2⟩

theorem WOk_img {L : List (Nat × Info)} : ∀ {ws : List Write} {d : Disk}, WOk L d.slots ws → d.bm.length = d.slots.length →
    Img L d.bm d.slots → ∀ k, Img L (d.applyAll (ws.take k)).bm (d.applyAll (ws.take k)).slots ∧
      (d.applyAll (ws.take k)).bm.length = (d.applyAll (ws.take k)).slots.length ∧
      (d.applyAll (ws.take k)).slots.length = d.slots.length := by
  intro ws
  induction ws with
  | nil => intro d _ hl h k; simp [Disk.applyAll]; exact ⟨h, hl⟩
  | cons w ws ih =>
    intro d hw hl h k
    cases k with
    | zero => simp [Disk.applyAll]; exact ⟨h, hl⟩
    | succ k =>
      have e : d.applyAll ((w :: ws).take (k + 1)) = (d.apply w).applyAll (ws.take k) := by simp [Disk.applyAll]
      rw [e]
      cases w with
      | bitmap bm =>
        have := ih (d := d.apply (.bitmap bm)) hw.2 hw.1.1 hw.1.2 k
        exact this
      | slot i info =>
        have := ih (d := d.apply (.slot i info)) hw.2 (by simpa [Disk.apply] using hl) (Img_set h hw.1.1 hw.1.2) k
        refine ⟨this.1, this.2.1, ?_⟩
        rw [this.2.2]; simp [Disk.apply]

/-- The write leaves the record and the bit of chunk `c` alone. -/
def KeepW (c : Nat × Info) : Write → Prop
  | .slot i _ => i ≠ c.1
  | .bitmap bm => bm[c.1]? = some true

theorem keep_all {c : Nat × Info} : ∀ {ws : List Write} {d : Disk}, (∀ w ∈ ws, KeepW c w) →
    d.bm[c.1]? = some true → d.slots[c.1]? = some (some c.2) →
    ∀ k, (d.applyAll (ws.take k)).bm[c.1]? = some true ∧ (d.applyAll (ws.take k)).slots[c.1]? = some (some c.2) := by
  intro ws
  induction ws with
  | nil => intro d _ h1 h2 k; simp [Disk.applyAll]; exact ⟨h1, h2⟩
  | cons w ws ih =>
    intro d hw h1 h2 k
    cases k with
    | zero => simp [Disk.applyAll]; exact ⟨h1, h2⟩
    | succ k =>
      have e : d.applyAll ((w :: ws).take (k + 1)) = (d.apply w).applyAll (ws.take k) := by simp [Disk.applyAll]
      rw [e]
      have hw1 := hw w (by simp)
      apply ih (fun w' h' => hw w' (by simp [h']))
      · cases w with
        | bitmap bm => exact hw1
        | slot i info => exact h1
      · cases w with
        | bitmap bm => exact h2
        | slot i info =>
          simp only [Disk.apply]
          rw [List.getElem?_set_ne hw1]; exact h2

/-! ## loading -/

theorem loadFrom_spec {g : Geo} : ∀ {bm : List Bool} {i : Nat} {sl : List (Option Info)} {m : Mem}, Core g m → m.starts = [] →
    (∀ c ∈ m.chunks, c.1 < i) →
    (∀ j : Nat, bm[j]? = some true → ∃ info, sl[j]? = some (some info) ∧ InB g info ∧ ∀ c ∈ m.chunks, Disj info c.2) →
    (∀ (j k : Nat) x y, j ≠ k → bm[j]? = some true → bm[k]? = some true → sl[j]? = some (some x) → sl[k]? = some (some y) → Disj x y) →
    ∃ m', loadFrom i bm sl m = some m' ∧ Core g m' ∧ m'.bm = m.bm ∧
      ∀ c, c ∈ m'.chunks ↔ c ∈ m.chunks ∨ ∃ j : Nat, c.1 = i + j ∧ bm[j]? = some true ∧ sl[j]? = some (some c.2) := by
  intro bm
  induction bm with
  | nil => intro i sl m h _ _ _ _; exact ⟨m, by cases sl <;> rfl, h, rfl, by simp⟩
  | cons b bm ih =>
    intro i sl m hm hst hlt hw hd
    cases b with
    | false =>
      obtain ⟨m', e1, e2, e3, e4⟩ := ih (i := i + 1) (sl := sl.tail) (m := m) hm hst (fun c hc => by have := hlt c hc; omega)
        (fun j hj => by
          obtain ⟨x, h1, h2⟩ := hw (j + 1) (by simpa using hj)
          exact ⟨x, by simpa using h1, h2⟩)
        (fun j k x y hjk hj hk hx hy => hd (j + 1) (k + 1) x y (by omega) (by simpa using hj) (by simpa using hk)
          (by simpa using hx) (by simpa using hy))
      refine ⟨m', e1, e2, e3, ?_⟩
      intro c
      rw [e4]
      constructor
      · rintro (p | ⟨j, p, q, r⟩)
        · exact .inl p
        · exact .inr ⟨j + 1, by omega, by simpa using q, by simpa using r⟩
      · rintro (p | ⟨j, p, q, r⟩)
        · exact .inl p
        · cases j with
          | zero => simp at q
          | succ j => exact .inr ⟨j, by omega, by simpa using q, by simpa using r⟩
    | true =>
      obtain ⟨info, h1, h2, h3⟩ := hw 0 (by simp)
      have hh : sl.head? = some (some info) := by cases sl <;> simp_all
      simp only [loadFrom, hh]
      have hdj : ∀ x ∈ m.areas, info.start + info.size ≤ x.1 ∨ x.2 ≤ info.start := by
        intro x hx
        obtain ⟨c, hc, e1, e2⟩ := (hm.cov x).1 hx
        have := h3 c hc
        unfold Disj at this
        omega
      obtain ⟨i1, i2⟩ := insertIval_spec (l := info.start) (h := info.start + info.size) (by have := h2.1; omega) hm.as hdj
      have hm' : Core g { m with areas := insertIval info.start (info.start + info.size) m.areas, chunks := (i, info) :: m.chunks } := by
        refine ⟨i1, ⟨?_, ?_⟩, ?_, ?_, ?_⟩
        · simp only [List.pairwise_cons]
          exact ⟨fun c hc => ⟨fun e => by have := hlt c hc; omega, h3 c hc⟩, hm.lok.pw⟩
        · intro c hc
          rcases List.mem_cons.1 hc with e | hc
          · subst e; exact h2
          · exact hm.lok.inb c hc
        · intro x
          simp only [i2, List.mem_cons, exists_eq_or_imp]
          rw [hm.cov]
          constructor
          · rintro (p | p)
            · subst p; exact .inl ⟨rfl, rfl⟩
            · exact .inr p
          · rintro (p | p)
            · left; exact Prod.ext p.1.symm p.2.symm
            · exact .inr p
        · intro x hx; simp only [hst] at hx; simp at hx
        · simp only [hst]; simp
      obtain ⟨m', e1, e2, e3, e4⟩ := ih (i := i + 1) (sl := sl.tail) hm' (by simpa using hst)
        (fun c hc => by
          rcases List.mem_cons.1 hc with e | hc
          · subst e; simp
          · have := hlt c hc; omega)
        (fun j hj => by
          obtain ⟨x, q1, q2, q3⟩ := hw (j + 1) (by simpa using hj)
          refine ⟨x, by simpa using q1, q2, ?_⟩
          intro c hc
          rcases List.mem_cons.1 hc with e | hc
          · subst e; exact hd (j + 1) 0 x info (by omega) (by simpa using hj) (by simp) q1 h1
          · exact q3 c hc)
        (fun j k x y hjk hj hk hx hy => hd (j + 1) (k + 1) x y (by omega) (by simpa using hj) (by simpa using hk)
          (by simpa using hx) (by simpa using hy))
      refine ⟨m', e1, e2, e3, ?_⟩
      intro c
      rw [e4, List.mem_cons]
      constructor
      · rintro ((p | p) | ⟨j, p, q, r⟩)
        · subst p; exact .inr ⟨0, by simp, by simp, h1⟩
        · exact .inl p
        · exact .inr ⟨j + 1, by omega, by simpa using q, by simpa using r⟩
      · rintro (p | ⟨j, p, q, r⟩)
        · exact .inl (.inr p)
        · cases j with
          | zero =>
            left; left
            rw [h1] at r
            injection r with r; injection r with r
            obtain ⟨c1, c2⟩ := c
            simp only at p r
            rw [p, r]; simp
          | succ j => exact .inr ⟨j, by omega, by simpa using q, by simpa using r⟩

theorem load_spec {g : Geo} {L : List (Nat × Info)} {d : Disk} (hL : LOk g L) (h : Img L d.bm d.slots) :
    ∃ m', load d = some m' ∧ Core g m' ∧ BitOk m' ∧ m'.bm = d.bm ∧
      (∀ i : Nat, d.bm[i]? = some true → ∃ c ∈ m'.chunks, c.1 = i) ∧
      ∀ c, c ∈ m'.chunks ↔ d.bm[c.1]? = some true ∧ d.slots[c.1]? = some (some c.2) := by
  obtain ⟨m', e1, e2, e3, e4⟩ := loadFrom_spec (g := g) (bm := d.bm) (i := 0) (sl := d.slots) (m := ⟨[], d.bm, [], []⟩)
    ⟨⟨by simp, by simp⟩, ⟨by simp, by simp⟩, by simp, by simp, by simp⟩ rfl (by simp)
    (by
      intro j hj
      obtain ⟨info, h1, c, hc, h2, h3⟩ := h j hj
      refine ⟨info, h1, ?_, by simp⟩
      have := hL.inb c hc
      unfold InB at *
      rw [h3.1, h3.2.1]; exact this)
    (by
      intro j k x y hjk hj hk hx hy
      obtain ⟨x', h1, c, hc, h2, h3⟩ := h j hj
      obtain ⟨y', h1', c', hc', h2', h3'⟩ := h k hk
      rw [hx] at h1; injection h1 with h1; injection h1 with h1; subst h1
      rw [hy] at h1'; injection h1' with h1'; injection h1' with h1'; subst h1'
      rcases hL.get hc hc' with e | e
      · subst e; omega
      · have := e.2
        unfold Disj at *
        rw [h3.1, h3.2.1, h3'.1, h3'.2.1]; exact this)
  have hmem : ∀ c, c ∈ m'.chunks ↔ d.bm[c.1]? = some true ∧ d.slots[c.1]? = some (some c.2) := by
    intro c
    rw [e4]
    constructor
    · rintro (p | ⟨j, p, q, r⟩)
      · simp at p
      · simp only [Nat.zero_add] at p; rw [p]; exact ⟨q, r⟩
    · rintro ⟨p, q⟩
      exact .inr ⟨c.1, by simp, p, q⟩
  refine ⟨m', e1, e2, ?_, e3, ?_, hmem⟩
  · intro c hc
    rw [e3]; exact ((hmem c).1 hc).1
  · intro i hi
    obtain ⟨info, h1, _⟩ := h i hi
    exact ⟨(i, info), (hmem _).2 ⟨hi, h1⟩, rfl⟩

end HS.Pdev
