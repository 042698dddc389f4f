import Verif.SoloSvc.Props
/-!
# C118 in careful histories
-/
namespace HS.SoloSvc

/-- A log device with its two blocks, its log store and the given entries. -/
def Full (x : LD) (a : List Nat) : Prop :=
  x.sb = true ∧ x.rb = true ∧ x.store = true ∧ x.recs = a

/-- All that concerns one log device `l`: the device on disk, the creation and the removals under
way, the map at its group, the instance, what the user knows of the group, and whether a superblock
of the group names it. -/
structure V where
  x : LD
  c : Option Nat
  rs : List Nat
  mp : Option Nat
  sb : Bool
  jr : Bool
  st : Status
  a : List Nat
  r : Prop

def view (s : St) (m : Mem) (l : Nat) : V :=
  let g := (s.disk.lds l).gid
  ⟨s.disk.lds l, m.cr l, m.rms l, m.map g, m.sb l, m.jr l, s.st g, s.acked g, ⟨g, l⟩ ∈ s.disk.rds⟩

/-- It is being made. -/
def Making (v : V) (k : Nat) : Prop :=
  v.c = some k ∧ v.rs = [] ∧ v.mp = none ∧ v.st = .either ∧ v.a = [] ∧ 1 ≤ k ∧ k ≤ 5 ∧
  v.x.sb = decide (2 ≤ k) ∧ v.x.rb = decide (3 ≤ k) ∧ v.x.store = decide (4 ≤ k) ∧ v.x.recs = [] ∧
  (v.r ↔ k = 5) ∧ (k = 5 → v.sb = true ∧ v.jr = true)

/-- It is being removed. -/
def Removing (v : V) (l k : Nat) : Prop :=
  v.c = none ∧ v.rs = [k] ∧ v.mp = some l ∧ v.st = .either ∧ k ≤ 6 ∧ (k ≤ 1 → Full v.x v.a) ∧
  v.x.sb = decide (k ≤ 4) ∧ v.x.rb = decide (k ≤ 3) ∧ (v.r ↔ k ≤ 5) ∧ v.sb = decide (k ≤ 5) ∧
  v.jr = true

/-- A device uses it. -/
def Used (v : V) (l : Nat) : Prop :=
  v.c = none ∧ v.rs = [] ∧ v.mp = some l ∧ v.st = .present ∧ Full v.x v.a ∧ v.r ∧ v.sb = true ∧
  v.jr = true

/-- Nobody uses it. -/
def Free (v : V) (l : Nat) : Prop :=
  v.c = none ∧ v.rs = [] ∧ v.mp ≠ some l ∧ v.x.sb = v.x.rb ∧ ¬ v.r

def At (v : V) (l : Nat) : Prop :=
  (∃ k, Making v k) ∨ (∃ k, Removing v l k) ∨ Used v l ∨ Free v l

/-- What holds of a running process in a careful history. -/
structure KM (s : St) (m : Mem) : Prop where
  at' : ∀ l, At (view s m l) l
  cr1 : ∀ l l', m.cr l ≠ none → m.cr l' ≠ none → (s.disk.lds l).gid = (s.disk.lds l').gid → l = l'
  no : ∀ g, m.map g = none → (∀ l, (s.disk.lds l).gid = g → m.cr l = none) →
    s.st g = .absent ∧ s.acked g = []

/-- What holds when the process is not running. -/
structure KD (s : St) : Prop where
  pair : ∀ l, (s.disk.lds l).sb = (s.disk.lds l).rb
  full : ∀ r ∈ s.disk.rds, Full (s.disk.lds r.ld) (s.acked r.gid)
  uniq : ∀ r ∈ s.disk.rds, ∀ r' ∈ s.disk.rds, r.gid = r'.gid → r.ld = r'.ld
  pres : ∀ g, s.st g = .present → ∃ r ∈ s.disk.rds, r.gid = g
  abs : ∀ g, s.st g = .absent → s.acked g = [] ∧ ∀ r ∈ s.disk.rds, r.gid ≠ g

def Inv (s : St) : Prop :=
  match s.proc with
  | .up m => KM s m
  | .down => KD s
  | _ => False

theorem inv_init : Inv St.init := by
  refine ⟨?_, ?_, ?_⟩
  · intro l
    refine Or.inr (Or.inr (Or.inr ?_))
    simp [Free, view, St.init, Mem.new, LD.blank]
  · intro l l' h; simp [Mem.new] at h
  · intro g _ _; simp [St.init]

/-- A log device other than the one in the map is free, if the group is in the map. -/
theorem at_mapped {v : V} {l l' : Nat} (h : At v l') (hm : v.mp = some l) (hl : l' ≠ l) :
    Free v l' := by
  rcases h with ⟨k, h⟩ | ⟨k, h⟩ | h | h
  · have := h.2.2.1; simp [hm] at this
  · have := h.2.2.1; rw [hm] at this; simp at this; exact absurd this.symm hl
  · have := h.2.2.1; rw [hm] at this; simp at this; exact absurd this.symm hl
  · exact h

theorem at_unmapped {v : V} {l' : Nat} (h : At v l') (hm : v.mp = none) (hc : v.c = none) :
    Free v l' := by
  rcases h with ⟨k, h⟩ | ⟨k, h⟩ | h | h
  · have := h.1; simp [hc] at this
  · have := h.2.2.1; simp [hm] at this
  · have := h.2.2.1; simp [hm] at this
  · exact h

theorem at_c {v : V} {l k : Nat} (h : At v l) (hc : v.c = some k) : Making v k := by
  rcases h with ⟨k', h⟩ | ⟨k', h⟩ | h | h
  · have := h.1; rw [hc] at this; simp at this; subst this; exact h
  · have := h.1; simp [hc] at this
  · have := h.1; simp [hc] at this
  · have := h.1; simp [hc] at this

theorem at_rs {v : V} {l k : Nat} (h : At v l) (hc : k ∈ v.rs) : Removing v l k := by
  rcases h with ⟨k', h⟩ | ⟨k', h⟩ | h | h
  · simp [h.2.1] at hc
  · simp [h.2.1] at hc; subst hc; exact h
  · simp [h.2.1] at hc
  · simp [h.2.1] at hc

theorem at_used {v : V} {l : Nat} (h : At v l) (hm : v.mp = some l) (hr : v.rs = []) : Used v l := by
  rcases h with ⟨k', h⟩ | ⟨k', h⟩ | h | h
  · have := h.2.2.1; simp [hm] at this
  · have := h.2.1; simp [hr] at this
  · exact h
  · exact absurd hm h.2.2.1

theorem inv_boot {s : St} (h : KD s) : Inv (doBoot s) := by
  have ld : ∀ r ∈ s.disk.rds, loaded s.disk.rds r.gid = some r.ld := by
    intro r hr
    cases hl : loaded s.disk.rds r.gid with
    | none => exact absurd rfl (loaded_none hl r hr)
    | some l =>
      obtain ⟨r', hr', hg, rfl⟩ := loaded_some hl
      rw [h.uniq r' hr' r hr hg]
  have h1 : stops s.disk = false := by
    unfold stops
    simp only [Bool.or_eq_false_iff, List.any_eq_false]
    refine ⟨?_, ?_⟩
    · intro i _; simp [h.pair i]
    · intro r hr; simp [(h.full r hr).1]
  have h2 : dangles s.disk = false := by
    unfold dangles
    simp only [List.any_eq_false]
    intro r hr; simp [ld r hr]
  simp only [doBoot, h1, h2, Inv]
  refine ⟨?_, ?_, ?_⟩
  · intro l
    by_cases hr : (⟨(s.disk.lds l).gid, l⟩ : Rd) ∈ s.disk.rds
    · refine Or.inr (Or.inr (Or.inl ?_))
      have hl := ld _ hr
      have hf := h.full _ hr
      simp only at hl hf
      refine ⟨rfl, rfl, hl, ?_, ?_, hr, rfl, ?_⟩
      · simp only [view]
        cases hs : s.st (s.disk.lds l).gid with
        | absent => exact absurd rfl ((h.abs _ hs).2 _ hr)
        | present => simp [hs]
        | either => simp [hs, hl]
      · simp only [view]; simpa [hl] using hf
      · simpa [view, started] using hf.2.2.1
    · refine Or.inr (Or.inr (Or.inr ⟨rfl, rfl, ?_, h.pair l, hr⟩))
      intro hl
      obtain ⟨r, hr', h3, h4⟩ := loaded_some hl
      apply hr
      obtain ⟨a, b⟩ := r
      simp at h3 h4
      rw [← h4, ← h3] at *
      exact hr'
  · intro l l' hc; simp [started] at hc
  · intro g hg _
    have hn := loaded_none hg
    have hg' : loaded s.disk.rds g = none := hg
    cases hs : s.st g with
    | absent => simp [hs, (h.abs g hs).1]
    | present => obtain ⟨r, hr, h'⟩ := h.pres g hs; exact absurd h' (hn r hr)
    | either => simp [hs, hg']

theorem inv_crash {s : St} {m : Mem} (hb : Base s) (hp : s.proc = .up m) (h : KM s m)
    (ok : careful s .crash) : KD { s with proc := .down } := by
  simp only [careful, hp] at ok
  have bm := hb.mem m hp
  have key : ∀ r ∈ s.disk.rds, (Making (view s m r.ld) 5 ∨ (∃ k, k ≤ 1 ∧ Removing (view s m r.ld) r.ld k) ∨
      Used (view s m r.ld) r.ld) := by
    intro r hr
    obtain ⟨hg, hl⟩ := hb.rds r hr
    have hv : (view s m r.ld).r := by simp only [view]; rw [hg]; exact hr
    rcases h.at' r.ld with ⟨k, hk⟩ | ⟨k, hk⟩ | hk | hk
    · have := hk.2.2.2.2.2.2.2.2.2.2.2.1.1 hv
      subst this; exact Or.inl hk
    · have h5 := hk.2.2.2.2.2.2.2.2.1.1 hv
      have := (ok r.ld hl).2 k (by have := hk.2.1; simp only [view] at this; simp [this])
      exact Or.inr (Or.inl ⟨k, by omega, hk⟩)
    · exact Or.inr (Or.inr hk)
    · exact absurd hv hk.2.2.2.2
  have full : ∀ r ∈ s.disk.rds, Full (s.disk.lds r.ld) (s.acked r.gid) := by
    intro r hr
    have hg := (hb.rds r hr).1
    rw [← hg]
    rcases key r hr with hk | ⟨k, h1, hk⟩ | hk
    · obtain ⟨_, _, _, _, ha, _, _, h1, h2, h3, h4, _, _⟩ := hk
      simp only [view] at ha h1 h2 h3 h4
      exact ⟨by simpa using h1, by simpa using h2, by simpa using h3, by rw [ha, h4]⟩
    · exact hk.2.2.2.2.2.1 h1
    · exact hk.2.2.2.2.1
  have notabs : ∀ r ∈ s.disk.rds, s.st r.gid ≠ .absent := by
    intro r hr
    have hg := (hb.rds r hr).1
    rw [← hg]
    rcases key r hr with hk | ⟨k, h1, hk⟩ | hk
    · have := hk.2.2.2.1; simp only [view] at this; simp [this]
    · have := hk.2.2.2.1; simp only [view] at this; simp [this]
    · have := hk.2.2.2.1; simp only [view] at this; simp [this]
  have mapped : ∀ r ∈ s.disk.rds, m.map r.gid = some r.ld ∨ (m.map r.gid = none ∧ m.cr r.ld ≠ none) := by
    intro r hr
    have hg := (hb.rds r hr).1
    rw [← hg]
    rcases key r hr with hk | ⟨k, h1, hk⟩ | hk
    · right; have h1 := hk.2.2.1; have h2 := hk.1; simp only [view] at h1 h2; simp [h1, h2]
    · left; exact hk.2.2.1
    · left; exact hk.2.2.1
  have cases' : ∀ g, (m.map g = none ∧ s.st g = .absent ∧ s.acked g = []) ∨ s.st g = .either ∨
      (s.st g = .present ∧ ∃ r ∈ s.disk.rds, r.gid = g) := by
    intro g
    cases hm : m.map g with
    | none =>
      by_cases hc : ∀ l, (s.disk.lds l).gid = g → m.cr l = none
      · exact Or.inl ⟨rfl, h.no g hm hc⟩
      · obtain ⟨l, hl'⟩ := Classical.not_forall.1 hc
        obtain ⟨rfl, hl⟩ := Classical.not_imp.1 hl'
        obtain ⟨k, hk⟩ := Option.ne_none_iff_exists'.1 hl
        have := at_c (h.at' l) (k := k) hk
        exact Or.inr (Or.inl this.2.2.2.1)
    | some l =>
      have hg := (bm.map g l hm).1
      subst hg
      rcases h.at' l with ⟨k, hk⟩ | ⟨k, hk⟩ | hk | hk
      · exact Or.inr (Or.inl hk.2.2.2.1)
      · exact Or.inr (Or.inl hk.2.2.2.1)
      · exact Or.inr (Or.inr ⟨hk.2.2.2.1, _, hk.2.2.2.2.2.1, rfl⟩)
      · exact absurd hm hk.2.2.1
  refine ⟨?_, full, ?_, ?_, ?_⟩
  · intro l
    rcases h.at' l with ⟨k, hk⟩ | ⟨k, hk⟩ | hk | hk
    · have hl : l ≤ s.disk.last := bm.cr l k hk.1
      have h2 := (ok l hl).1
      have hc := hk.1
      simp only [view] at hc
      obtain ⟨_, _, _, _, _, _, _, h3, h4, _⟩ := hk
      simp only [view] at h3 h4
      rw [hc] at h2
      simp at h2
      rw [h3, h4]
      congr 1
      apply propext; omega
    · have hr := hk.2.1
      simp only [view] at hr
      have hl : l ≤ s.disk.last := bm.rms l (by simp [hr])
      have h2 := (ok l hl).2 k (by simp [hr])
      obtain ⟨_, _, _, _, _, _, h3, h4, _⟩ := hk
      simp only [view] at h3 h4
      rw [h3, h4]
      congr 1
      apply propext; omega
    · obtain ⟨h1, h2, _⟩ := hk.2.2.2.2.1
      simp only [view] at h1 h2
      rw [h1, h2]
    · exact hk.2.2.2.1
  · intro r hr r' hr' he
    rcases mapped r hr with h1 | ⟨h1, h2⟩ <;> rcases mapped r' hr' with h3 | ⟨h3, h4⟩
    · rw [he, h3] at h1; simpa using h1.symm
    · rw [he, h3] at h1; simp at h1
    · rw [he, h3] at h1; simp at h1
    · exact h.cr1 _ _ h2 h4 (by rw [(hb.rds r hr).1, (hb.rds r' hr').1, he])
  · intro g hg
    rcases cases' g with ⟨_, h1, _⟩ | h1 | ⟨_, h1⟩
    · rw [hg] at h1; simp at h1
    · rw [hg] at h1; simp at h1
    · exact h1
  · intro g hg
    rcases cases' g with ⟨_, _, h1⟩ | h1 | ⟨h1, _⟩
    · refine ⟨h1, ?_⟩
      rintro r hr rfl
      exact notabs r hr hg
    · rw [hg] at h1; simp at h1
    · rw [hg] at h1; simp at h1

theorem inv_create {s : St} {m : Mem} (g : Nat) (hb : Base s) (hp : s.proc = .up m) (h : KM s m)
    (ok : careful s (.create g)) : Inv (doCreate s m g) := by
  simp only [careful, hp] at ok
  have bm := hb.mem m hp
  obtain ⟨hmap, hcr⟩ := ok
  have hcr' : ∀ l, (s.disk.lds l).gid = g → m.cr l = none := by
    intro l hl
    cases hc : m.cr l with
    | none => rfl
    | some k => have := hcr l (bm.cr l k hc) hl; rw [hc] at this; exact this
  obtain ⟨hst, hack⟩ := h.no g hmap hcr'
  have c0 : m.cr (s.disk.last + 1) = none := by
    cases hc : m.cr (s.disk.last + 1) with
    | none => rfl
    | some k => have := bm.cr _ k hc; omega
  have r0 : m.rms (s.disk.last + 1) = [] := by
    cases hc : m.rms (s.disk.last + 1) with
    | nil => rfl
    | cons a b => have := bm.rms _ (by rw [hc]; simp); omega
  have nr : (⟨g, s.disk.last + 1⟩ : Rd) ∉ s.disk.rds := by
    intro hr; have := (hb.rds _ hr).2; simp at this; omega
  simp only [Inv, doCreate, hst, if_pos]
  refine ⟨?_, ?_, ?_⟩
  · intro l
    by_cases hl : l = s.disk.last + 1
    · subst hl
      refine Or.inl ⟨1, ?_⟩
      simp [Making, view, LD.blank, hmap, hack, r0, nr]
    · have ha := h.at' l
      by_cases hg : (s.disk.lds l).gid = g
      · have := at_unmapped ha (by simp only [view]; rw [hg]; exact hmap) (hcr' l hg)
        refine Or.inr (Or.inr (Or.inr ?_))
        simp only [Free, view, upd_other _ _ hl] at this ⊢
        exact this
      · simp only [view, upd_other _ _ hl, upd_other _ _ hg] at ha ⊢
        exact ha
  · intro l l' hl hl' hg
    simp only at hl hl' hg
    by_cases h1 : l = s.disk.last + 1 <;> by_cases h2 : l' = s.disk.last + 1
    · rw [h1, h2]
    · subst h1
      simp only [upd_same, upd_other _ _ h2] at hl hl' hg
      exact absurd (hcr' l' hg.symm) hl'
    · subst h2
      simp only [upd_same, upd_other _ _ h1] at hl hl' hg
      exact absurd (hcr' l hg) hl
    · simp only [upd_other _ _ h1, upd_other _ _ h2] at hl hl' hg
      exact h.cr1 l l' hl hl' hg
  · intro g' hm' hc'
    by_cases hg : g' = g
    · subst hg
      have := hc' (s.disk.last + 1) (by simp only [upd_same])
      simp only [upd_same] at this
      cases this
    · simp only [upd_other _ _ hg]
      refine h.no g' hm' ?_
      intro l hl
      by_cases h1 : l = s.disk.last + 1
      · subst h1; exact c0
      · have := hc' l (by simp only [upd_other _ _ h1]; exact hl)
        simp only [upd_other _ _ h1] at this
        exact this

/-- A step that changes nothing but what concerns `l`, and of that not the group, the map at the
group nor what the user knows of it. -/
theorem km_at {s s' : St} {m m' : Mem} (l : Nat) (h : KM s m)
    (hg : ∀ i, (s'.disk.lds i).gid = (s.disk.lds i).gid)
    (ho : ∀ i, i ≠ l → view s' m' i = view s m i) (hl : At (view s' m' l) l)
    (hmap : m'.map = m.map) (hst : s'.st = s.st) (hack : s'.acked = s.acked)
    (hcr : m'.cr l = none ↔ m.cr l = none) : KM s' m' := by
  have cr' : ∀ i, m'.cr i = none ↔ m.cr i = none := by
    intro i
    by_cases hi : i = l
    · rw [hi]; exact hcr
    · have := ho i hi
      simp only [view, V.mk.injEq] at this
      rw [this.2.1]
  refine ⟨?_, ?_, ?_⟩
  · intro i
    by_cases hi : i = l
    · rw [hi]; exact hl
    · rw [ho i hi]; exact h.at' i
  · intro i j hi hj hg'
    rw [hg, hg] at hg'
    exact h.cr1 i j (fun h' => hi ((cr' i).2 h')) (fun h' => hj ((cr' j).2 h')) hg'
  · intro g hm hc
    rw [hst, hack]
    refine h.no g (by rw [← hmap]; exact hm) ?_
    intro i hi
    exact (cr' i).1 (hc i (by rw [hg]; exact hi))

theorem inv_crStep {s s' : St} {m : Mem} (l k : Nat) (h : KM s m)
    (hs : doCrStep s m l k = some s') : Inv s' := by
  simp only [doCrStep] at hs
  have ha := h.at' l
  have gid : ∀ (x : LD), x.gid = (s.disk.lds l).gid → ∀ i, (upd s.disk.lds l x i).gid = (s.disk.lds i).gid := by
    intro x hx i
    by_cases hi : i = l
    · subst hi; simp [hx]
    · rw [upd_other _ _ hi]
  split at hs
  · next hk =>
    obtain ⟨_, h2, h3, h4, h5, _, _, h8, h9, h10, h11, h12, h13⟩ := at_c ha (k := 1) hk
    simp only [view] at h2 h3 h4 h5 h8 h9 h10 h11 h12
    simp at hs h8 h9 h10 h12; subst hs
    refine km_at l h (gid _ rfl) ?_ ?_ rfl rfl rfl (by simp [hk])
    · intro i hi; simp [view, upd_other _ _ hi]
    · refine Or.inl ⟨2, ?_⟩
      simp [Making, view, h2, h3, h4, h5, h8, h9, h10, h11, h12]
  · next hk =>
    obtain ⟨_, h2, h3, h4, h5, _, _, h8, h9, h10, h11, h12, h13⟩ := at_c ha (k := 2) hk
    simp only [view] at h2 h3 h4 h5 h8 h9 h10 h11 h12
    simp at hs h8 h9 h10 h12; subst hs
    refine km_at l h (gid _ rfl) ?_ ?_ rfl rfl rfl (by simp [hk])
    · intro i hi; simp [view, upd_other _ _ hi]
    · refine Or.inl ⟨3, ?_⟩
      simp [Making, view, h2, h3, h4, h5, h8, h9, h10, h11, h12]
  · next hk =>
    obtain ⟨_, h2, h3, h4, h5, _, _, h8, h9, h10, h11, h12, h13⟩ := at_c ha (k := 3) hk
    simp only [view] at h2 h3 h4 h5 h8 h9 h10 h11 h12
    simp at hs h8 h9 h10 h12; subst hs
    refine km_at l h (gid _ rfl) ?_ ?_ rfl rfl rfl (by simp [hk])
    · intro i hi; simp [view, upd_other _ _ hi]
    · refine Or.inl ⟨4, ?_⟩
      simp [Making, view, h2, h3, h4, h5, h8, h9, h10, h11, h12]
  · next hk =>
    obtain ⟨_, h2, h3, h4, h5, _, _, h8, h9, h10, h11, h12, h13⟩ := at_c ha (k := 4) hk
    simp only [view] at h2 h3 h4 h5 h8 h9 h10 h11 h12
    simp at hs h8 h9 h10 h12; subst hs
    refine km_at l h (fun _ => rfl) ?_ ?_ rfl rfl rfl (by simp [hk])
    · intro i hi
      simp only [view, upd_other _ _ hi, V.mk.injEq, true_and]
      apply propext
      rw [mem_insert]
      simp [hi]
    · refine Or.inl ⟨5, ?_⟩
      simp [Making, view, h2, h3, h4, h5, h8, h9, h10, h11, mem_insert]
  · next hk =>
    obtain ⟨_, h2, h3, h4, h5, _, _, h8, h9, h10, h11, h12, h13⟩ := at_c ha (k := 5) hk
    simp only [view] at h2 h3 h4 h5 h8 h9 h10 h11 h12 h13
    simp at h8 h9 h10 h12 h13
    rw [if_pos (by simp [h3])] at hs
    simp at hs; subst hs
    have oth : ∀ i, i ≠ l → (s.disk.lds i).gid = (s.disk.lds l).gid → m.cr i = none := by
      intro i hi hg
      cases hc : m.cr i with
      | none => rfl
      | some k => exact absurd (h.cr1 i l (by simp [hc]) (by simp [hk]) hg) hi
    refine ⟨?_, ?_, ?_⟩
    · intro i
      by_cases hi : i = l
      · subst hi
        refine Or.inr (Or.inr (Or.inl ?_))
        simp [Used, Full, view, h2, h5, h8, h9, h10, h11, h12, h13]
      · have hai := h.at' i
        by_cases hg : (s.disk.lds i).gid = (s.disk.lds l).gid
        · have := at_unmapped hai (by simp only [view]; rw [hg]; exact h3) (oth i hi hg)
          refine Or.inr (Or.inr (Or.inr ?_))
          obtain ⟨f1, f2, _, f4, f5⟩ := this
          simp only [view] at f1 f2 f4 f5
          refine ⟨by simpa only [view, upd_other _ _ hi] using f1, f2, ?_, f4, f5⟩
          simp [view, hg]; exact fun h' => hi h'.symm
        · simp only [view, upd_other _ _ hi, upd_other _ _ hg] at hai ⊢
          exact hai
    · intro i j hi hj hg
      simp only at hi hj hg
      by_cases h1 : i = l
      · subst h1; simp at hi
      by_cases h2 : j = l
      · subst h2; simp at hj
      simp only [upd_other _ _ h1, upd_other _ _ h2] at hi hj
      exact h.cr1 i j hi hj hg
    · intro g hm hc
      simp only at hm hc ⊢
      by_cases hg : g = (s.disk.lds l).gid
      · subst hg; simp at hm
      · simp only [upd_other _ _ hg] at hm ⊢
        refine h.no g hm ?_
        intro i hi
        have hil : i ≠ l := by rintro rfl; exact hg hi.symm
        have := hc i hi
        simpa only [upd_other _ _ hil] using this
  · simp at hs

theorem inv_remove {s : St} {m : Mem} (g : Nat) (hb : Base s) (hp : s.proc = .up m) (h : KM s m)
    (ok : careful s (.remove g)) : Inv (doRemove s m g) := by
  simp only [careful, hp] at ok
  have bm := hb.mem m hp
  simp only [doRemove]
  split
  · simp only [Inv, hp]; exact h
  · next l hl =>
    obtain ⟨rfl, hll⟩ := bm.map g l hl
    have hr := ok l hll hl
    obtain ⟨h1, h2, h3, h4, h5, h6, h7, h8⟩ := at_used (h.at' l) hl hr
    obtain ⟨e1, e2, e3, e4⟩ := h5
    simp only [view] at h1 h2 h3 h4 h6 h7 h8 e1 e2 e3 e4
    refine ⟨?_, h.cr1, ?_⟩
    · intro i
      by_cases hi : i = l
      · subst hi
        refine Or.inr (Or.inl ⟨0, ?_⟩)
        simp [Removing, Full, view, h1, h2, h3, h6, h7, h8, e1, e2, e3, e4]
      · have hai := h.at' i
        by_cases hg : (s.disk.lds i).gid = (s.disk.lds l).gid
        · have := at_mapped hai (by simp only [view]; rw [hg]; exact hl) hi
          refine Or.inr (Or.inr (Or.inr ?_))
          simp only [Free, view, upd_other _ _ hi] at this ⊢
          exact this
        · simp only [view, upd_other _ _ hi, upd_other _ _ hg] at hai ⊢
          exact hai
    · intro g' hm hc
      simp only at hm hc ⊢
      have hg : g' ≠ (s.disk.lds l).gid := by rintro rfl; rw [hl] at hm; simp at hm
      rw [upd_other _ _ hg]
      exact h.no g' hm hc

theorem inv_rmStep {s s' : St} {m : Mem} (l k : Nat) (t : Bool) (hb : Base s) (hp : s.proc = .up m)
    (h : KM s m) (hs : doRmStep s m l k t = some s') : Inv s' := by
  simp only [doRmStep] at hs
  have ha := h.at' l
  have gid : ∀ (x : LD), x.gid = (s.disk.lds l).gid → ∀ i, (upd s.disk.lds l x i).gid = (s.disk.lds i).gid := by
    intro x hx i
    by_cases hi : i = l
    · subst hi; simp [hx]
    · rw [upd_other _ _ hi]
  have go : ∀ (x : LD) (n : Nat), x.gid = (s.disk.lds l).gid →
      Removing { view s m l with x := x, rs := [n] } l n →
      KM { s with disk := { s.disk with lds := upd s.disk.lds l x },
                  proc := .up { m with rms := upd m.rms l [n] } } { m with rms := upd m.rms l [n] } := by
    intro x n hx hr
    refine km_at l h (gid x hx) ?_ ?_ rfl rfl rfl Iff.rfl
    · intro i hi; simp [view, upd_other _ _ hi]
    · refine Or.inr (Or.inl ⟨n, ?_⟩)
      have e : ∀ (p : Proc), view { s with disk := { s.disk with lds := upd s.disk.lds l x }, proc := p }
          { m with rms := upd m.rms l [n] } l = { view s m l with x := x, rs := [n] } := by
        intro p; simp [view, hx]
      rw [e]; exact hr
  split at hs
  · next hk =>
    have hR := at_rs ha hk
    obtain ⟨h1, h2, h3, h4, h5, h6, h7, h8, h9, h10, h11⟩ := hR
    have hrs : m.rms l = [k] := h2
    have her : (m.rms l).erase k = [] := by simp [hrs]
    simp only [her] at hs
    split at hs
    · split at hs
      · simp at hs; subst hs
        refine go (s.disk.lds l) 1 rfl ⟨h1, rfl, h3, h4, by omega, fun _ => h6 (by omega), ?_, ?_, ?_, ?_, h11⟩
        · simpa [view] using h7
        · simpa [view] using h8
        · simpa using h9
        · simpa using h10
      · simp at hs
    · have hx : (s.disk.lds l).sb = true := by simpa [view] using h7
      rw [if_pos hx] at hs
      split at hs
      · simp at hs
      · simp at hs; subst hs
        refine go _ 2 (by cases t <;> rfl) ⟨h1, rfl, h3, h4, by omega, by omega, ?_, ?_, ?_, ?_, h11⟩
        · cases t <;> simpa [view] using h7
        · cases t <;> simpa [view] using h8
        · simpa using h9
        · simpa using h10
    · simp at hs; subst hs
      refine go { s.disk.lds l with recs := [] } 3 rfl ⟨h1, rfl, h3, h4, by omega, by omega, ?_, ?_, ?_, ?_, h11⟩
      · simpa [view] using h7
      · simpa [view] using h8
      · simpa using h9
      · simpa using h10
    · simp at hs; subst hs
      refine go { s.disk.lds l with rb := false } 4 rfl ⟨h1, rfl, h3, h4, by omega, by omega, ?_, ?_, ?_, ?_, h11⟩
      · simpa [view] using h7
      · simp
      · simpa using h9
      · simpa using h10
    · simp at hs; subst hs
      refine go { s.disk.lds l with sb := false } 5 rfl ⟨h1, rfl, h3, h4, by omega, by omega, ?_, ?_, ?_, ?_, h11⟩
      · simp
      · simpa [view] using h8
      · simpa using h9
      · simpa using h10
    · simp at hs; subst hs
      refine km_at l h (fun _ => rfl) ?_ ?_ rfl rfl rfl Iff.rfl
      · intro i hi
        simp only [view, upd_other _ _ hi, V.mk.injEq, true_and]
        apply propext
        simp [hi]
      · refine Or.inr (Or.inl ⟨6, h1, by simp [view], h3, h4, by omega, by omega, ?_, ?_, ?_, ?_, h11⟩)
        · simpa [view] using h7
        · simpa [view] using h8
        · simp [view]
        · simp [view]
    · next n0 n1 n2 n3 n4 n5 =>
      have h6' : k = 6 := by
        have a0 : k ≠ 0 := fun h => n0 h
        have a1 : k ≠ 1 := fun h => n1 h
        have a2 : k ≠ 2 := fun h => n2 h
        have a3 : k ≠ 3 := fun h => n3 h
        have a4 : k ≠ 4 := fun h => n4 h
        have a5 : k ≠ 5 := fun h => n5 h
        omega
      subst h6'
      simp at hs; subst hs
      have hl : m.map (s.disk.lds l).gid = some l := h3
      refine ⟨?_, h.cr1, ?_⟩
      · intro i
        refine if hi : i = l then ?_ else ?_
        · subst hi
          refine Or.inr (Or.inr (Or.inr ?_))
          simp only [view] at h1 h7 h8 h9
          simp [Free, view, h1, h7, h8, h9]
        · have hai := h.at' i
          by_cases hg : (s.disk.lds i).gid = (s.disk.lds l).gid
          · have := at_mapped hai (by simp only [view]; rw [hg]; exact hl) hi
            refine Or.inr (Or.inr (Or.inr ?_))
            obtain ⟨f1, f2, _, f4, f5⟩ := this
            refine ⟨f1, by simpa only [view, upd_other _ _ hi] using f2, ?_, f4, f5⟩
            simp [view, hg]
          · simp only [view, upd_other _ _ hi, upd_other _ _ hg] at hai ⊢
            exact hai
      · intro g hm hc
        simp only at hm hc ⊢
        by_cases hg : g = (s.disk.lds l).gid
        · subst hg; simp
        · simp only [upd_other _ _ hg] at hm ⊢
          exact h.no g hm hc
  · simp at hs

theorem inv_write {s s' : St} {m : Mem} (g v : Nat) (hb : Base s) (hp : s.proc = .up m)
    (h : KM s m) (hs : doWrite s m g v = some s') : Inv s' := by
  have bm := hb.mem m hp
  simp only [doWrite] at hs
  split at hs
  · simp at hs
  · next l hl =>
    split at hs
    · next hr =>
      obtain ⟨rfl, hll⟩ := bm.map g l hl
      obtain ⟨h1, h2, h3, h4, h5, h6, h7, h8⟩ := at_used (h.at' l) hl hr
      obtain ⟨e1, e2, e3, e4⟩ := h5
      simp only [view] at h1 h2 h3 h4 h6 h7 h8 e1 e2 e3 e4
      rw [if_pos h8] at hs
      simp at hs; subst hs
      have gid : ∀ i, (upd s.disk.lds l { s.disk.lds l with recs := (s.disk.lds l).recs ++ [v] } i).gid
          = (s.disk.lds i).gid := by
        intro i
        by_cases hi : i = l
        · subst hi; simp
        · rw [upd_other _ _ hi]
      simp only [Inv, hp]
      refine ⟨?_, ?_, ?_⟩
      · intro i
        by_cases hi : i = l
        · subst hi
          refine Or.inr (Or.inr (Or.inl ?_))
          simp [Used, Full, view, h1, h2, h3, h4, h6, h7, h8, e1, e2, e3, e4]
        · have hai := h.at' i
          by_cases hg : (s.disk.lds i).gid = (s.disk.lds l).gid
          · have := at_mapped hai (by simp only [view]; rw [hg]; exact hl) hi
            refine Or.inr (Or.inr (Or.inr ?_))
            simp only [Free, view, upd_other _ _ hi] at this ⊢
            exact this
          · simp only [view, upd_other _ _ hi, upd_other _ _ hg] at hai ⊢
            exact hai
      · intro i j hi hj hg
        simp only [gid] at hg
        exact h.cr1 i j hi hj hg
      · intro g' hm hc
        have hg : g' ≠ (s.disk.lds l).gid := by rintro rfl; rw [hl] at hm; simp at hm
        simp only [gid] at hc
        simp only [upd_other _ _ hg]
        exact h.no g' hm hc
    · simp at hs

theorem inv_cp {s s' : St} {m : Mem} (g : Nat) (hb : Base s) (hp : s.proc = .up m)
    (h : KM s m) (ok : careful s (.cp g)) (hs : doCp s m g = some s') : Inv s' := by
  simp only [careful, hp] at ok
  have bm := hb.mem m hp
  simp only [doCp] at hs
  split at hs
  · simp at hs
  · next l hl =>
    obtain ⟨rfl, hll⟩ := bm.map g l hl
    have h6 := ok l hll hl
    have hsb : m.sb l = true := by
      rcases h.at' l with ⟨k, hk⟩ | ⟨k, hk⟩ | hk | hk
      · have := hk.2.2.1; simp only [view] at this; rw [hl] at this; simp at this
      · have h2 := hk.2.1
        have h5 := hk.2.2.2.2.1
        have h10 := hk.2.2.2.2.2.2.2.2.2.1
        simp only [view] at h2 h10
        rw [h2] at h6
        simp at h6
        rw [h10]; simp; omega
      · exact hk.2.2.2.2.2.2.1
      · exact absurd hl hk.2.2.1
    rw [if_pos hsb] at hs
    simp at hs; subst hs
    simp only [Inv, hp]; exact h

theorem inv_step {s s' : St} (o : Op) (hb : Base s) (h : Inv s) (ok : careful s o)
    (hs : step s o = some s') : Inv s' := by
  cases hp : s.proc with
  | failed => simp [Inv, hp] at h
  | ub => simp [Inv, hp] at h
  | down =>
    simp only [Inv, hp] at h
    cases o <;> simp [step, hp] at hs
    subst hs; exact inv_boot h
  | up m =>
    simp only [Inv, hp] at h
    cases o with
    | boot => simp [step, hp] at hs
    | crash =>
      simp [step, hp] at hs; subst hs
      exact inv_crash hb hp h ok
    | create g => simp [step, hp] at hs; subst hs; exact inv_create g hb hp h ok
    | crStep l k => simp only [step, hp] at hs; exact inv_crStep l k h hs
    | remove g => simp [step, hp] at hs; subst hs; exact inv_remove g hb hp h ok
    | rmStep l k t => simp only [step, hp] at hs; exact inv_rmStep l k t hb hp h hs
    | write g v => simp only [step, hp] at hs; exact inv_write g v hb hp h hs
    | cp g => simp only [step, hp] at hs; exact inv_cp g hb hp h ok hs

theorem inv_reach {s : St} (h : Reach careful s) : Inv s := by
  induction h with
  | init => exact inv_init
  | step o h ok hs ih => exact inv_step o (base_reach h) ih ok hs

/-! ## The property -/

/-- In careful histories the program never ends itself and has no undefined behaviour, and every
start completes: after it the process runs. Full statement: the same of any history. -/
theorem C118_starts_partial {s : St} (h : Reach careful s) :
    s.proc ≠ .failed ∧ s.proc ≠ .ub ∧
    (s.proc = .down → ∃ s' m, step s .boot = some s' ∧ s'.proc = .up m) := by
  have hi := inv_reach h
  refine ⟨?_, ?_, ?_⟩
  · intro hp; simp [Inv, hp] at hi
  · intro hp; simp [Inv, hp] at hi
  · intro hp
    have hs : step s .boot = some (doBoot s) := by simp [step, hp]
    simp only [Inv, hp] at hi
    have hb := inv_boot hi
    refine ⟨doBoot s, ?_⟩
    cases hq : (doBoot s).proc with
    | up m => exact ⟨m, hs, rfl⟩
    | down =>
      exfalso
      revert hq
      simp only [doBoot]
      split
      · simp
      · split <;> simp
    | failed => simp [Inv, hq] at hb
    | ub => simp [Inv, hq] at hb

/-- In careful histories, a group whose creation has returned and whose removal was not called is
found, with a journal that holds exactly the entries it acknowledged: before and after restarts.
Full statement: the same of any history. -/
theorem C118_found_partial {s : St} (h : Reach careful s) (m : Mem) (hm : s.proc = .up m) (g : Nat)
    (hg : s.st g = .present) :
    ∃ l, m.map g = some l ∧ m.jr l = true ∧ (s.disk.lds l).recs = s.acked g := by
  have hi := inv_reach h
  have bm := (base_reach h).mem m hm
  simp only [Inv, hm] at hi
  cases hl : m.map g with
  | none =>
    exfalso
    by_cases hc : ∀ l, (s.disk.lds l).gid = g → m.cr l = none
    · have := (hi.no g hl hc).1; rw [hg] at this; simp at this
    · obtain ⟨l, hl'⟩ := Classical.not_forall.1 hc
      obtain ⟨rfl, hcl⟩ := Classical.not_imp.1 hl'
      obtain ⟨k, hk⟩ := Option.ne_none_iff_exists'.1 hcl
      have := (at_c (hi.at' l) (k := k) hk).2.2.2.1
      simp only [view] at this; rw [hg] at this; simp at this
  | some l =>
    have hgl := (bm.map g l hl).1
    subst hgl
    refine ⟨l, rfl, ?_⟩
    rcases hi.at' l with ⟨k, hk⟩ | ⟨k, hk⟩ | hk | hk
    · have := hk.2.2.2.1; simp only [view] at this; rw [hg] at this; simp at this
    · have := hk.2.2.2.1; simp only [view] at this; rw [hg] at this; simp at this
    · exact ⟨hk.2.2.2.2.2.2.2, hk.2.2.2.2.1.2.2.2⟩
    · exact absurd hl hk.2.2.1

/-- In careful histories, a group that was never created, or whose removal has returned, is not
found, and no superblock of it is on disk. Full statement: the same of any history. -/
theorem C118_gone_partial {s : St} (h : Reach careful s) (m : Mem) (hm : s.proc = .up m) (g : Nat)
    (hg : s.st g = .absent) : m.map g = none ∧ ∀ r ∈ s.disk.rds, r.gid ≠ g := by
  have hi := inv_reach h
  have hb := base_reach h
  have bm := hb.mem m hm
  simp only [Inv, hm] at hi
  have key : ∀ l, (s.disk.lds l).gid = g → Free (view s m l) l := by
    rintro l rfl
    rcases hi.at' l with ⟨k, hk⟩ | ⟨k, hk⟩ | hk | hk
    · have := hk.2.2.2.1; simp only [view] at this; rw [hg] at this; simp at this
    · have := hk.2.2.2.1; simp only [view] at this; rw [hg] at this; simp at this
    · have := hk.2.2.2.1; simp only [view] at this; rw [hg] at this; simp at this
    · exact hk
  refine ⟨?_, ?_⟩
  · cases hl : m.map g with
    | none => rfl
    | some l =>
      have hgl := (bm.map g l hl).1
      subst hgl
      exact absurd hl (key l rfl).2.2.1
  · rintro r hr rfl
    have hg' := (hb.rds r hr).1
    refine (key r.ld hg').2.2.2.2 ?_
    simp only [view]; rw [hg']; exact hr

/-- In careful histories, what a start finds of a group in whose creation or removal the machine
failed is whole: a device with a journal that holds all the group acknowledged, or nothing. Full
statement: the same of any history. -/
theorem C118_whole_partial {s s' : St} (h : Reach careful s) (hs : step s .boot = some s') (m : Mem)
    (hm : s'.proc = .up m) (g l : Nat) (hl : m.map g = some l) :
    s'.st g = .present ∧ m.jr l = true ∧ (s'.disk.lds l).recs = s.acked g := by
  have hok : careful s .boot := by simp only [careful]; split <;> simp_all
  have h' : Reach careful s' := .step .boot h hok hs
  have hi := inv_reach h'
  have bm := (base_reach h').mem m hm
  have hgl := (bm.map g l hl).1
  subst hgl
  have hd : s' = doBoot s := by
    simp only [step] at hs
    split at hs <;> simp_all
  have hr : m.rms l = [] := by
    rw [hd] at hm
    simp only [doBoot] at hm
    split at hm
    · simp at hm
    · split at hm
      · simp at hm
      · simp at hm; subst hm; rfl
  simp only [Inv, hm] at hi
  have hu := at_used (hi.at' l) hl hr
  refine ⟨hu.2.2.2.1, hu.2.2.2.2.2.2.2, ?_⟩
  have := hu.2.2.2.2.1.2.2.2
  simp only [view] at this
  rw [this]
  revert hl this
  rw [hd] at hm ⊢
  simp only [doBoot] at hm ⊢
  split at hm
  · simp at hm
  · split at hm
    · simp at hm
    · simp at hm; subst hm
      intro hl _
      have hl2 : loaded s.disk.rds (s.disk.lds l).gid = some l := by
        simp_all [started]
      simp_all

end HS.SoloSvc
