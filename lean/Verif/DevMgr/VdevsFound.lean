import Verif.DevMgr.VdevsProps

/-!
# Finding the virtual devices again (C56)
-/

namespace HS.DevMgr

/-! ## Specification

A store is set up on the devices `D`: first start, creation of the virtual devices `kinds` (dynamic size or not), commit,
where the last may be interrupted.  Then anything happens except that another virtual device is created. -/

def isMkVdev : Op → Bool
  | .mkVdev _ _ => true
  | _ => false

/-- What may happen to a store in use, when the device `d0` is never replaced. -/
def Use (d0 : Nat) : VEv → Prop
  | .run op => isMkVdev op = false
  | .crash op _ => isMkVdev op = false
  | .wipe d => d ≠ d0
  | .down => True

/-- First start and creation of virtual devices. -/
def setup (D : List Nat) (cnt : Nat → Nat → Nat) (kinds : List (Bool × (Nat → Nat))) : List VEv :=
  .run (.boot D cnt) :: kinds.map (fun k => .run (.mkVdev k.1 k.2))

/-- The start with `order` finds all virtual devices and all chunks recorded on the devices. -/
def Finds (s : Sys) (order : List Nat) (cnt : Nat → Nat → Nat) (vds : List Bool) : Prop :=
  ∃ m, (VEv.step s (.run (.boot order cnt))).mem = some m ∧ m.vd = vds.map some ∧
    ∀ i d v, (i, d, v) ∈ m.chunks ↔ d ∈ order ∧ (i, v) ∈ ((VEv.step s (.run (.boot order cnt))).world d).chunks

/-! ## What writes do to a device -/

/-- The records of a device are about virtual devices of the store. -/
def Snd (vds : List Bool) (dev : Dev) : Prop :=
  (∀ i ∈ dev.infos, vds[i.1]? = some i.2) ∧ ∀ c ∈ dev.chunks, c.2 < vds.length

/-- The device has the record of every virtual device of fixed size. -/
def Sta (vds : List Bool) (dev : Dev) : Prop := ∀ v, vds[v]? = some false → (v, false) ∈ dev.infos

/-- The device has the record of every virtual device. -/
def Full (vds : List Bool) (dev : Dev) : Prop := ∀ v b, vds[v]? = some b → (v, b) ∈ dev.infos

theorem Full.sta {vds : List Bool} {dev : Dev} (h : Full vds dev) : Sta vds dev := fun v hv => h v false hv

def WrOK (vds : List Bool) : Wr → Prop
  | .format _ => False
  | .chunks _ l => ∀ c ∈ l, c.2 < vds.length
  | .info _ v b => vds[v]? = some b
  | _ => True

theorem change_snd {vds : List Bool} {dev : Dev} {x : Wr} (hx : WrOK vds x) (h : Snd vds dev) : Snd vds (x.change dev) := by
  cases x with
  | format d => cases hx
  | chunks d l =>
    refine ⟨h.1, fun c hc => ?_⟩
    rcases List.mem_append.1 hc with hc | hc
    · exact h.2 c hc
    · exact hx c hc
  | rm d id => exact ⟨h.1, fun c hc => h.2 c (List.mem_filter.1 hc).1⟩
  | info d v b =>
    refine ⟨fun i hi => ?_, h.2⟩
    rcases List.mem_append.1 hi with hi | hi
    · exact h.1 i (List.mem_filter.1 hi).1
    · rw [List.mem_singleton] at hi
      rw [hi]; exact hx
  | commit d => exact h

theorem change_has {vds : List Bool} {dev : Dev} {x : Wr} (hx : WrOK vds x) {v : Nat} {b : Bool} (hv : vds[v]? = some b)
    (h : (v, b) ∈ dev.infos) : (v, b) ∈ (x.change dev).infos := by
  cases x with
  | format d => cases hx
  | chunks d l => exact h
  | rm d id => exact h
  | info d u b' =>
    show (v, b) ∈ dev.infos.filter _ ++ [(u, b')]
    by_cases huv : v = u
    · subst huv
      have hx : vds[v]? = some b' := hx
      rw [hv] at hx
      cases hx
      exact List.mem_append_right _ (List.mem_singleton.2 rfl)
    · exact List.mem_append_left _ (List.mem_filter.2 ⟨h, by simpa using huv⟩)
  | commit d => exact h

theorem change_valid {vds : List Bool} {dev : Dev} {x : Wr} (hx : WrOK vds x) (h : dev.valid = true) :
    (x.change dev).valid = true := by
  cases x with
  | format d => cases hx
  | commit d => rfl
  | chunks d l => exact h
  | rm d id => exact h
  | info d u b => exact h

/-- A property of devices that writes keep is kept by any number of writes. -/
theorem applyAll_keeps {vds : List Bool} {P : Dev → Prop} (hP : ∀ x dev, WrOK vds x → P dev → P (x.change dev)) (d : Nat) :
    ∀ {ws : List Wr} {w : World}, (∀ x ∈ ws, WrOK vds x) → P (w d) → P (applyAll w ws d) := by
  intro ws
  induction ws with
  | nil => intro w _ h; exact h
  | cons x ws ih =>
    intro w hws h
    refine ih (fun y hy => hws y (List.mem_cons_of_mem _ hy)) ?_
    by_cases hd : d = x.dev
    · subst hd
      rw [apply_same]
      exact hP x _ (hws x List.mem_cons_self) h
    · rw [apply_other hd]; exact h

theorem applyAll_snd {vds : List Bool} {ws : List Wr} {w : World} {d : Nat} (hws : ∀ x ∈ ws, WrOK vds x)
    (h : Snd vds (w d)) : Snd vds (applyAll w ws d) :=
  applyAll_keeps (P := Snd vds) (fun _ _ hx h => change_snd hx h) d hws h

theorem applyAll_has {vds : List Bool} {ws : List Wr} {w : World} {d : Nat} (hws : ∀ x ∈ ws, WrOK vds x) {v : Nat} {b : Bool}
    (hv : vds[v]? = some b) (h : (v, b) ∈ (w d).infos) : (v, b) ∈ (applyAll w ws d).infos :=
  applyAll_keeps (P := fun dev => (v, b) ∈ dev.infos) (fun _ _ hx h => change_has hx hv h) d hws h

theorem applyAll_valid {vds : List Bool} {ws : List Wr} {w : World} {d : Nat} (hws : ∀ x ∈ ws, WrOK vds x)
    (h : IsValid w d) : IsValid (applyAll w ws) d :=
  applyAll_keeps (P := fun dev => dev.valid = true) (fun _ _ hx h => change_valid hx h) d hws h

/-- A record that is written is there afterwards. -/
theorem applyAll_written {vds : List Bool} {d v : Nat} {b : Bool} :
    ∀ {ws : List Wr} {w : World}, (∀ x ∈ ws, WrOK vds x) → Wr.info d v b ∈ ws → (v, b) ∈ (applyAll w ws d).infos := by
  intro ws
  induction ws with
  | nil => intro w _ h; cases h
  | cons x ws ih =>
    intro w hws h
    rcases List.mem_cons.1 h with h | h
    · subst h
      refine applyAll_has (fun y hy => hws y (List.mem_cons_of_mem _ hy)) (hws _ List.mem_cons_self) ?_
      have e : (Wr.info d v b).apply w d = (Wr.info d v b).change (w d) := apply_same
      rw [e]
      exact List.mem_append_right _ (List.mem_singleton.2 rfl)
    · exact ih (fun y hy => hws y (List.mem_cons_of_mem _ hy)) h

/-- A device becomes valid only by a commit. -/
theorem applyAll_newly {d : Nat} : ∀ {ws : List Wr} {w : World}, IsValid (applyAll w ws) d → IsValid w d ∨ Wr.commit d ∈ ws := by
  intro ws
  induction ws with
  | nil => intro w h; exact Or.inl h
  | cons x ws ih =>
    intro w h
    rcases ih (w := x.apply w) h with h | h
    · by_cases hd : d = x.dev
      · subst hd
        unfold IsValid at h
        rw [apply_same] at h
        cases x with
        | format d => cases h
        | commit d => exact Or.inr List.mem_cons_self
        | chunks d l => exact Or.inl h
        | rm d id => exact Or.inl h
        | info d u b => exact Or.inl h
      · unfold IsValid at h
        rw [apply_other hd] at h
        exact Or.inl h
    · exact Or.inr (List.mem_cons_of_mem _ h)

/-! ## The table of virtual devices when a start loads it -/

theorem getElem?_grow (vd : List (Option Bool)) (n v : Nat) :
    (grow vd n)[v]? = if v < vd.length then vd[v]? else if v < n then some none else none := by
  unfold grow
  rw [List.getElem?_append]
  split
  · rfl
  · rw [List.getElem?_replicate]
    split <;> split <;> first | rfl | omega

theorem length_grow (vd : List (Option Bool)) (n : Nat) : (grow vd n).length = max vd.length n := by
  unfold grow
  rw [List.length_append, List.length_replicate]
  omega

theorem getElem?_setVd (vd : List (Option Bool)) (i : Nat × Bool) (v : Nat) :
    (setVd vd i)[v]? = if v = i.1 then some (some i.2) else (grow vd (i.1 + 1))[v]? := by
  unfold setVd
  rw [List.getElem?_set]
  by_cases h : i.1 = v
  · rw [if_pos h, if_pos h.symm, if_pos (by rw [length_grow]; omega)]
  · rw [if_neg h, if_neg (fun e => h e.symm)]

/-- The table is right as far as it goes. -/
def VdOK (vds : List Bool) (vd : List (Option Bool)) : Prop :=
  vd.length ≤ vds.length ∧ ∀ (v : Nat) (b : Bool), vd[v]? = some (some b) → vds[v]? = some b

theorem VdOK.setVd {vds : List Bool} {vd : List (Option Bool)} (h : VdOK vds vd) {i : Nat × Bool} (hi : vds[i.1]? = some i.2) :
    VdOK vds (setVd vd i) := by
  have hlt : i.1 < vds.length := (List.getElem?_eq_some_iff.1 hi).1
  refine ⟨?_, fun v b hv => ?_⟩
  · have h1 := h.1
    unfold DevMgr.setVd
    rw [List.length_set, length_grow]
    omega
  · rw [getElem?_setVd] at hv
    split at hv
    · rename_i hvi
      cases hv
      rw [hvi]; exact hi
    · rw [getElem?_grow] at hv
      split at hv
      · exact h.2 v b hv
      · split at hv <;> cases hv

theorem setVd_keeps {vds : List Bool} {vd : List (Option Bool)} {i : Nat × Bool} (hi : vds[i.1]? = some i.2) {v : Nat} {b : Bool}
    (hb : vds[v]? = some b) (h : vd[v]? = some (some b)) : (setVd vd i)[v]? = some (some b) := by
  rw [getElem?_setVd]
  split
  · rename_i hvi
    rw [hvi, hi] at hb
    cases hb
    rfl
  · rw [getElem?_grow, if_pos (List.getElem?_eq_some_iff.1 h).1]
    exact h

theorem setFold {vds : List Bool} : ∀ {infos : List (Nat × Bool)} {vd : List (Option Bool)}, VdOK vds vd →
    (∀ i ∈ infos, vds[i.1]? = some i.2) → VdOK vds (infos.foldl setVd vd) ∧
    (∀ (v : Nat) (b : Bool), vds[v]? = some b → vd[v]? = some (some b) ∨ (v, b) ∈ infos → (infos.foldl setVd vd)[v]? = some (some b)) := by
  intro infos
  induction infos with
  | nil =>
    intro vd h _
    refine ⟨h, fun v b _ hv => ?_⟩
    rcases hv with hv | hv
    · exact hv
    · cases hv
  | cons i infos ih =>
    intro vd h hi
    have hi0 := hi i List.mem_cons_self
    obtain ⟨h1, h2⟩ := ih (h.setVd hi0) (fun j hj => hi j (List.mem_cons_of_mem _ hj))
    rw [List.foldl_cons]
    refine ⟨h1, fun v b hb hv => h2 v b hb ?_⟩
    rcases hv with hv | hv
    · exact Or.inl (setVd_keeps hi0 hb hv)
    · rcases List.mem_cons.1 hv with hv | hv
      · refine Or.inl ?_
        rw [getElem?_setVd, ← hv, if_pos rfl]
      · exact Or.inr hv

theorem VdOK.full {vds : List Bool} {vd : List (Option Bool)} (h : VdOK vds vd)
    (hf : ∀ (v : Nat) (b : Bool), vds[v]? = some b → vd[v]? = some (some b)) : vd = vds.map some := by
  refine List.ext_getElem? (fun v => ?_)
  rw [List.getElem?_map]
  by_cases hv : v < vds.length
  · rw [List.getElem?_eq_getElem hv]
    exact hf v _ (List.getElem?_eq_getElem hv)
  · rw [List.getElem?_eq_none (Nat.le_trans h.1 (Nat.le_of_not_lt hv)), List.getElem?_eq_none (Nat.le_of_not_lt hv)]
    rfl

theorem VdOK.grow {vds : List Bool} {vd : List (Option Bool)} (h : VdOK vds vd) {n : Nat} (hn : n ≤ vds.length) :
    VdOK vds (grow vd n) := by
  refine ⟨by have := h.1; rw [length_grow]; omega, fun v b hv => ?_⟩
  rw [getElem?_grow] at hv
  split at hv
  · exact h.2 v b hv
  · split at hv <;> cases hv

theorem found_vd {vds : List Bool} (l : List (Nat × (Nat × Nat))) : ∀ (m : Mem), (∀ x ∈ l, x.2.2 < vds.length) → VdOK vds m.vd →
    VdOK vds (l.foldl (fun m x => foundChunk x.1 m x.2) m).vd ∧
    (∀ (v : Nat) (b : Bool), m.vd[v]? = some (some b) → (l.foldl (fun m x => foundChunk x.1 m x.2) m).vd[v]? = some (some b)) ∧
    (vds.length ≤ m.vd.length → (l.foldl (fun m x => foundChunk x.1 m x.2) m).vd = m.vd) := by
  induction l with
  | nil => intro m _ h; exact ⟨h, fun _ _ h => h, fun _ => rfl⟩
  | cons x l ih =>
    intro m hl h
    have hx := hl x List.mem_cons_self
    have hvd : (foundChunk x.1 m x.2).vd = grow m.vd (x.2.2 + 1) := by
      unfold foundChunk
      simp only
      split <;> rfl
    obtain ⟨i1, i2, i3⟩ := ih (foundChunk x.1 m x.2) (fun y hy => hl y (List.mem_cons_of_mem _ hy)) (by rw [hvd]; exact h.grow hx)
    rw [List.foldl_cons]
    refine ⟨i1, fun v b hv => i2 v b ?_, fun hle => ?_⟩
    · rw [hvd, getElem?_grow, if_pos (List.getElem?_eq_some_iff.1 hv).1]; exact hv
    · have hg : grow m.vd (x.2.2 + 1) = m.vd := by
        unfold DevMgr.grow
        rw [show x.2.2 + 1 - m.vd.length = 0 by omega]
        simp
      rw [i3 (by rw [hvd, hg]; exact hle), hvd, hg]

theorem loadVdevs_cons (w : World) (d : Nat) (pd news : List Nat) : loadVdevs w (d :: pd) news =
    if ((w d).infos.foldl setVd []).length = 0 then
      some ⟨d :: pd, (w d).infos.foldl setVd [], [], [], decide (∀ e ∈ d :: pd, e ∈ news)⟩
    else if none ∈ ((d :: pd).foldl (fun m d => (w d).chunks.foldl (foundChunk d) m)
        ⟨d :: pd, (w d).infos.foldl setVd [], [], [], true⟩).vd then none
    else some ((d :: pd).foldl (fun m d => (w d).chunks.foldl (foundChunk d) m)
        ⟨d :: pd, (w d).infos.foldl setVd [], [], [], true⟩) := rfl

theorem loadVdevs_vd {vds : List Bool} {w : World} {d : Nat} {pd news : List Nat} (hs : Snd vds (w d))
    (hb : ∀ e ∈ d :: pd, ∀ c ∈ (w e).chunks, c.2 < vds.length) :
    (∀ m, loadVdevs w (d :: pd) news = some m → VdOK vds m.vd ∧ none ∉ m.vd ∧
      ∀ (v : Nat) (b : Bool), (v, b) ∈ (w d).infos → m.vd[v]? = some (some b)) ∧
    (Full vds (w d) → ∃ m, loadVdevs w (d :: pd) news = some m ∧ m.vd = vds.map some ∧ (vds ≠ [] → m.slots = true)) := by
  obtain ⟨f1, f2⟩ := setFold (vds := vds) (infos := (w d).infos) (vd := []) ⟨Nat.zero_le _, by simp⟩ hs.1
  have hall : ∀ x ∈ allChunks w (d :: pd), x.2.2 < vds.length := by
    intro x hx
    obtain ⟨h1, h2⟩ := mem_allChunks.1 hx
    exact hb x.1 h1 x.2 h2
  have hfirst : ∀ (v : Nat) (b : Bool), (v, b) ∈ (w d).infos → ((w d).infos.foldl setVd [])[v]? = some (some b) :=
    fun v b h => f2 v b (hs.1 _ h) (Or.inr h)
  obtain ⟨g1, g2, g3⟩ := found_vd (vds := vds) (allChunks w (d :: pd)) ⟨d :: pd, (w d).infos.foldl setVd [], [], [], true⟩ hall f1
  have e := foldl_pairs foundChunk (fun d => (w d).chunks) (d :: pd) ⟨d :: pd, (w d).infos.foldl setVd [], [], [], true⟩
  have ho := found_order (allChunks w (d :: pd)) ⟨d :: pd, (w d).infos.foldl setVd [], [], [], true⟩
  refine ⟨fun m hl => ?_, fun hfull => ?_⟩
  · rw [loadVdevs_cons] at hl
    by_cases h0 : ((w d).infos.foldl setVd []).length = 0
    · rw [if_pos h0] at hl
      cases hl
      refine ⟨f1, ?_, hfirst⟩
      rw [List.eq_nil_of_length_eq_zero h0]
      exact List.not_mem_nil
    · rw [if_neg h0, e] at hl
      split at hl
      · cases hl
      · rename_i hnone
        cases hl
        exact ⟨g1, hnone, fun v b h => g2 v b (hfirst v b h)⟩
  · have hvd : (w d).infos.foldl setVd [] = vds.map some := f1.full (fun v b h => hfirst v b (hfull v b h))
    rw [loadVdevs_cons]
    by_cases h0 : ((w d).infos.foldl setVd []).length = 0
    · rw [if_pos h0]
      refine ⟨_, rfl, hvd, fun hne => ?_⟩
      rw [hvd, List.length_map] at h0
      exact absurd (List.eq_nil_of_length_eq_zero h0) hne
    · rw [if_neg h0, e]
      have h3 := g3 (by rw [hvd, List.length_map])
      have h3 : (List.foldl (fun m x => foundChunk x.1 m x.2) ⟨d :: pd, (w d).infos.foldl setVd [], [], [], true⟩
          (List.flatMap (fun d => List.map (fun c => (d, c)) (w d).chunks) (d :: pd))).vd = (w d).infos.foldl setVd [] := h3
      rw [if_neg (by rw [h3, hvd]; simp)]
      exact ⟨_, rfl, by rw [h3, hvd], fun _ => ho.2⟩

/-! ## What new devices get -/

theorem growAll_ws (cnt : Nat → Nat) (had : List (Nat × Nat × Nat)) (v : Nat) : ∀ (l : List Nat) (acc : Mem × List Wr),
    (∀ x ∈ acc.2, x ∈ (l.foldl (growOne cnt had v) acc).2) ∧
    (∀ x ∈ (l.foldl (growOne cnt had v) acc).2, x ∈ acc.2 ∨ (x.dev ∈ l ∧ ((∃ (d : Nat) (ids : List Nat), x = Wr.chunks d (ids.map (fun i => (i, v)))) ∨
      ∃ d, x = Wr.info d v false))) ∧
    (∀ d ∈ l, (∀ c ∈ had, ¬ (c.2.1 = d ∧ c.2.2 = v)) → Wr.info d v false ∈ (l.foldl (growOne cnt had v) acc).2) ∧
    (∀ c ∈ (l.foldl (growOne cnt had v) acc).1.chunks, c ∈ acc.1.chunks ∨ c.2.2 = v) ∧
    (l.foldl (growOne cnt had v) acc).1.vd = acc.1.vd ∧ (l.foldl (growOne cnt had v) acc).1.order = acc.1.order := by
  intro l
  induction l with
  | nil => intro acc; exact ⟨fun _ h => h, fun _ h => Or.inl h, by simp, fun _ h => Or.inl h, rfl, rfl⟩
  | cons d l ih =>
    intro acc
    rw [List.foldl_cons]
    obtain ⟨i1, i2, i3, i4, i5, i6⟩ := ih (growOne cnt had v acc d)
    obtain ⟨o1, o2, _⟩ := growOne_order cnt had v acc d
    by_cases hh : had.any (fun c => decide (c.2.1 = d ∧ c.2.2 = v)) = true
    · have he : growOne cnt had v acc d = acc := by unfold growOne; rw [if_pos hh]
      rw [he] at i1 i2 i3 i4 i5 i6 ⊢
      refine ⟨i1, ?_, ?_, i4, i5, i6⟩
      · intro x hx
        rcases i2 x hx with h | ⟨h1, h2⟩
        · exact Or.inl h
        · exact Or.inr ⟨List.mem_cons_of_mem _ h1, h2⟩
      · intro e he' hno
        rcases List.mem_cons.1 he' with h | h
        · subst h
          obtain ⟨c, hc1, hc2⟩ := List.any_eq_true.1 hh
          exact absurd (of_decide_eq_true hc2) (hno c hc1)
        · exact i3 e h hno
    · have he : growOne cnt had v acc d = ((addPdev v acc.1 d (cnt d)).1,
          acc.2 ++ (addPdev v acc.1 d (cnt d)).2 ++ [Wr.info d v false]) := by unfold growOne; rw [if_neg hh]
      refine ⟨?_, ?_, ?_, ?_, i5.trans o2, i6.trans o1⟩
      · intro x hx
        refine i1 x ?_
        rw [he]
        exact List.mem_append_left _ (List.mem_append_left _ hx)
      · intro x hx
        rcases i2 x hx with h | ⟨h1, h2⟩
        · rw [he] at h
          rcases List.mem_append.1 h with h | h
          · rcases List.mem_append.1 h with h | h
            · exact Or.inl h
            · have h : x ∈ [Wr.chunks d ((takeIds (cnt d) acc.1.used).map (fun i => (i, v)))] := h
              rw [List.mem_singleton] at h
              subst h
              exact Or.inr ⟨List.mem_cons_self, Or.inl ⟨d, _, rfl⟩⟩
          · rw [List.mem_singleton] at h
            subst h
            exact Or.inr ⟨List.mem_cons_self, Or.inr ⟨d, rfl⟩⟩
        · exact Or.inr ⟨List.mem_cons_of_mem _ h1, h2⟩
      · intro e he' hno
        rcases List.mem_cons.1 he' with h | h
        · subst h
          refine i1 _ ?_
          rw [he]
          exact List.mem_append_right _ (List.mem_singleton.2 rfl)
        · exact i3 e h hno
      · intro c hc
        rcases i4 c hc with h | h
        · rw [he] at h
          have h : c ∈ acc.1.chunks ++ (takeIds (cnt d) acc.1.used).map (fun i => (i, d, v)) := h
          rcases List.mem_append.1 h with h | h
          · exact Or.inl h
          · obtain ⟨i, _, rfl⟩ := List.mem_map.1 h
            exact Or.inr rfl
        · exact Or.inr h

theorem growVdevs_ws (cnt : Nat → Nat → Nat) {m : Mem} {news : List Nat} (hnews : ∀ d ∈ news, d ∈ m.order)
    (hno : ∀ c ∈ m.chunks, c.2.1 ∉ news) : ∀ n,
    (∀ x ∈ (growVdevs cnt (m, []) n).2, x.dev ∈ m.order ∧ ∃ v, m.vd[v]? = some (some false) ∧
      ((∃ (d : Nat) (ids : List Nat), x = Wr.chunks d (ids.map (fun i => (i, v)))) ∨ ∃ d, x = Wr.info d v false)) ∧
    (∀ v < n, m.vd[v]? = some (some false) → ∀ d ∈ news, Wr.info d v false ∈ (growVdevs cnt (m, []) n).2) ∧
    (∀ c ∈ (growVdevs cnt (m, []) n).1.chunks, c.2.1 ∈ news → c.2.2 < n) ∧
    (growVdevs cnt (m, []) n).1.vd = m.vd ∧ (growVdevs cnt (m, []) n).1.order = m.order := by
  intro n
  induction n with
  | zero =>
    refine ⟨by simp [growVdevs], by intro v hv; omega, ?_, rfl, rfl⟩
    intro c hc hcn
    exact absurd hcn (hno c hc)
  | succ n ih =>
    obtain ⟨i1, i2, i3, i4, i5⟩ := ih
    unfold growVdevs
    simp only
    split
    · rename_i hst
      rw [i4] at hst
      obtain ⟨g1, g2, g3, g4, g5, g6⟩ := growAll_ws (cnt n) (growVdevs cnt (m, []) n).1.chunks n
        (growVdevs cnt (m, []) n).1.order (growVdevs cnt (m, []) n)
      refine ⟨?_, ?_, ?_, g5.trans i4, g6.trans i5⟩
      · intro x hx
        rcases g2 x hx with h | ⟨h1, h2⟩
        · exact i1 x h
        · rw [i5] at h1
          exact ⟨h1, n, hst, h2⟩
      · intro v hv hvs d hd
        by_cases hvn : v = n
        · subst hvn
          refine g3 d (by rw [i5]; exact hnews d hd) (fun c hc hcc => ?_)
          have := i3 c hc (by rw [hcc.1]; exact hd)
          omega
        · exact g1 _ (i2 v (by omega) hvs d hd)
      · intro c hc hcn
        rcases g4 c hc with h | h
        · have := i3 c h hcn; omega
        · omega
    · rename_i hst
      rw [i4] at hst
      refine ⟨i1, ?_, fun c hc hcn => by have := i3 c hc hcn; omega, i4, i5⟩
      intro v hv hvs d hd
      by_cases hvn : v = n
      · subst hvn; exact absurd hvs hst
      · exact i2 v (by omega) hvs d hd

/-! ## The invariant -/

structure SInv (vds : List Bool) (d0 : Nat) (s : Sys) : Prop where
  dev : ∀ d, IsValid s.world d → Snd vds (s.world d) ∧ Sta vds (s.world d)
  first : IsValid s.world d0 ∧ Full vds (s.world d0)
  mem : ∀ m, s.mem = some m → (∀ d ∈ m.order, Snd vds (s.world d) ∧ Sta vds (s.world d)) ∧ VdOK vds m.vd

/-- A running system makes only right writes, on its own devices. -/
theorem op_writes {vds : List Bool} {w : World} {m : Mem} (hr : RunInv w m) (hvd : VdOK vds m.vd) {op : Op}
    (h1 : isMkVdev op = false) (h2 : ∀ order cnt, op ≠ .boot order cnt) :
    (∀ x ∈ (op.run w (some m)).1, WrOK vds x ∧ x.dev ∈ m.order) ∧
    ∀ m', (op.run w (some m)).2 = some m' → m'.order = m.order ∧ m'.vd = m.vd := by
  have hlt : ∀ {v : Nat} {b : Bool}, m.vd[v]? = some (some b) → v < vds.length :=
    fun h => (List.getElem?_eq_some_iff.1 (hvd.2 _ _ h)).1
  cases op with
  | boot order cnt => exact absurd rfl (h2 order cnt)
  | mkVdev dyn cnt => cases h1
  | mkChunk v d =>
    simp only [Op.run]
    split
    · exact ⟨by simp, by intro m' h; cases h⟩
    · split
      · exact ⟨by simp, by intro m' h; cases h; exact ⟨rfl, rfl⟩⟩
      · rename_i hd
        have hd : d ∈ m.order := by simpa using hd
        split
        · rename_i dyn hv
          refine ⟨fun x hx => ?_, by intro m' h; cases h; exact ⟨rfl, rfl⟩⟩
          rcases List.mem_append.1 hx with hx | hx
          · have hx : x ∈ [Wr.chunks d ((takeIds 1 m.used).map (fun i => (i, v)))] := hx
            rw [List.mem_singleton] at hx
            subst hx
            refine ⟨fun c hc => ?_, hd⟩
            obtain ⟨i, _, rfl⟩ := List.mem_map.1 hc
            exact hlt hv
          · rw [List.mem_singleton] at hx
            subst hx
            exact ⟨hvd.2 _ _ hv, hd⟩
        · exact ⟨by simp, by intro m' h; cases h⟩
  | rmChunk id =>
    simp only [Op.run]
    split
    · exact ⟨by simp, by intro m' h; cases h; exact ⟨rfl, rfl⟩⟩
    · rename_i c hc
      have hcm : c ∈ m.chunks := List.mem_of_find?_eq_some hc
      have hdev : c.2.1 ∈ m.order := by
        obtain ⟨_, _, ⟨m', hg, hs⟩, hi⟩ := hr
        by_cases hsl : m.slots = true
        · rw [← (hs hsl).2] at hcm
          exact ((hg.known c.1 c.2.1 c.2.2).1 hcm).1
        · rw [hi (by simpa using hsl)] at hcm
          cases hcm
      split
      · rename_i dyn hv
        refine ⟨fun x hx => ?_, by intro m' h; cases h; exact ⟨rfl, rfl⟩⟩
        rcases List.mem_cons.1 hx with hx | hx
        · subst hx; exact ⟨trivial, hdev⟩
        · rw [List.mem_singleton] at hx
          subst hx
          exact ⟨hvd.2 _ _ hv, hdev⟩
      · exact ⟨by simp, by intro m' h; cases h⟩
  | commit =>
    simp only [Op.run]
    refine ⟨fun x hx => ?_, by intro m' h; cases h; exact ⟨rfl, rfl⟩⟩
    obtain ⟨d, hd, rfl⟩ := List.mem_map.1 hx
    exact ⟨trivial, hd⟩

/-- Right writes on devices that are all in order. -/
theorem SInv.writes {vds : List Bool} {d0 : Nat} {s : Sys} (h : SInv vds d0 s) {ws : List Wr} {ds : List Nat}
    (hws : ∀ x ∈ ws, WrOK vds x ∧ x.dev ∈ ds) (hds : ∀ d ∈ ds, Snd vds (s.world d) ∧ Sta vds (s.world d)) :
    (∀ d, IsValid (applyAll s.world ws) d → Snd vds (applyAll s.world ws d) ∧ Sta vds (applyAll s.world ws d)) ∧
    (IsValid (applyAll s.world ws) d0 ∧ Full vds (applyAll s.world ws d0)) ∧
    (∀ d ∈ ds, Snd vds (applyAll s.world ws d) ∧ Sta vds (applyAll s.world ws d)) := by
  have hok : ∀ x ∈ ws, WrOK vds x := fun x hx => (hws x hx).1
  have hkeep : ∀ d, Snd vds (s.world d) ∧ Sta vds (s.world d) →
      Snd vds (applyAll s.world ws d) ∧ Sta vds (applyAll s.world ws d) :=
    fun d hd => ⟨applyAll_snd hok hd.1, fun v hv => applyAll_has hok hv (hd.2 v hv)⟩
  refine ⟨fun d hd => ?_, ⟨applyAll_valid hok h.first.1, fun v b hv => applyAll_has hok hv (h.first.2 v b hv)⟩,
    fun d hd => hkeep d (hds d hd)⟩
  rcases applyAll_newly hd with h1 | h1
  · exact hkeep d (h.dev d h1)
  · exact hkeep d (hds d (hws _ h1).2)

theorem boot_sinv {vds : List Bool} {d0 : Nat} {s : Sys} (hv : VInv s) (h : SInv vds d0 s) {order : List Nat}
    (hn : order.Nodup) (hp : ∀ d, IsValid s.world d → d ∈ order) (cnt : Nat → Nat → Nat) :
    (∀ k mo, mo = none ∨ (k = (Op.run s.world s.mem (.boot order cnt)).1.length ∧ mo = (Op.run s.world s.mem (.boot order cnt)).2) →
      SInv vds d0 ⟨applyAll s.world ((Op.run s.world s.mem (.boot order cnt)).1.take k), mo⟩) ∧
    ((∀ d, order.find? (fun d => (s.world d).valid) = some d → Full vds (s.world d)) → vds ≠ [] →
      ∃ m, (Op.run s.world s.mem (.boot order cnt)).2 = some m ∧ m.vd = vds.map some ∧ m.slots = true ∧
        ∀ d, d ∈ m.order ↔ d ∈ order) := by
  obtain ⟨world, mem⟩ := s
  simp only [Op.run] at *
  generalize holds : order.filter (fun d => (world d).valid) = olds
  generalize hnews : order.filter (fun d => ! (world d).valid) = news
  have hnv : ∀ d ∈ news, (world d).valid = false := by
    intro d h
    rw [← hnews, List.mem_filter] at h
    simpa using h.2
  have hov : ∀ d ∈ olds, IsValid world d := by
    intro d h
    rw [← holds, List.mem_filter] at h
    exact h.2
  have hmemo : ∀ d, d ∈ olds ++ news ↔ d ∈ order := by
    intro d
    rw [List.mem_append, ← holds, ← hnews, List.mem_filter, List.mem_filter]
    cases (world d).valid <;> simp
  have hd0 : d0 ∈ olds := by
    rw [← holds, List.mem_filter]
    exact ⟨hp d0 h.first.1, h.first.1⟩
  have hpd : (olds ++ news).Nodup := by
    refine List.nodup_append.2 ⟨by rw [← holds]; exact hn.filter _, by rw [← hnews]; exact hn.filter _, ?_⟩
    intro a ha b hb hab
    have h1 := hov a ha
    rw [hab] at h1
    unfold IsValid at h1
    rw [hnv b hb] at h1
    cases h1
  obtain ⟨dh, olds', hoe⟩ : ∃ dh olds', olds = dh :: olds' := by
    cases olds with
    | nil => cases hd0
    | cons a l => exact ⟨a, l, rfl⟩
  have hfind : order.find? (fun d => (world d).valid) = some dh := by
    rw [← List.head?_filter, holds, hoe]; rfl
  -- formatting
  have hfw : ∀ l : List Nat, (∀ d ∈ l, (world d).valid = false) → ∀ d, IsValid (applyAll world (l.map Wr.format)) d →
      IsValid world d ∧ applyAll world (l.map Wr.format) d = world d := fun l _ d hd => formats_valid hd
  have hsame : ∀ l : List Nat, (∀ d ∈ l, (world d).valid = false) → ∀ d, IsValid world d →
      applyAll world (l.map Wr.format) d = world d := by
    intro l hl d hd
    rw [formats, if_neg (fun hm => by unfold IsValid at hd; rw [hl d hm] at hd; cases hd)]
  have hfs : ∀ (l : List Nat) mo, mo = none → (∀ d ∈ l, (world d).valid = false) → SInv vds d0 ⟨applyAll world (l.map Wr.format), mo⟩ := by
    intro l mo hmo hl
    refine ⟨fun d hd => ?_, ?_, ?_⟩
    · obtain ⟨h1, h2⟩ := hfw l hl d hd
      show Snd vds (applyAll world (l.map Wr.format) d) ∧ Sta vds (applyAll world (l.map Wr.format) d)
      rw [h2]; exact h.dev d h1
    · have e := hsame l hl d0 h.first.1
      show IsValid (applyAll world (l.map Wr.format)) d0 ∧ Full vds (applyAll world (l.map Wr.format) d0)
      unfold IsValid
      rw [e]; exact h.first
    · intro m hm; rw [hmo] at hm; cases hm
  have hfk : ∀ k, SInv vds d0 ⟨applyAll world ((news.map Wr.format).take k), none⟩ := by
    intro k
    rw [← List.map_take]
    exact hfs _ none rfl (fun d hd => hnv d (List.mem_of_mem_take hd))
  have hw1 : ∀ d ∈ olds, applyAll world (news.map Wr.format) d = world d := fun d hd => hsame news hnv d (hov d hd)
  have hw1n : ∀ d ∈ news, applyAll world (news.map Wr.format) d = .empty := fun d hd => by rw [formats, if_pos hd]
  have hsnd1 : ∀ d ∈ olds ++ news, Snd vds (applyAll world (news.map Wr.format) d) := by
    intro d hd
    rcases List.mem_append.1 hd with hd | hd
    · rw [hw1 d hd]; exact (h.dev d (hov d hd)).1
    · rw [hw1n d hd]; exact ⟨(fun i hi => nomatch hi), (fun c hc => nomatch hc)⟩
  have hload := loadVdevs_vd (vds := vds) (w := applyAll world (news.map Wr.format)) (d := dh) (pd := olds' ++ news) (news := news)
    (hsnd1 dh (by rw [hoe]; exact List.mem_append_left _ List.mem_cons_self))
    (fun e he => (hsnd1 e (by rw [hoe]; exact he)).2)
  have hpe : dh :: (olds' ++ news) = olds ++ news := by rw [hoe]; rfl
  rw [hpe] at hload
  have hne : olds ≠ [] := by rw [hoe]; exact List.cons_ne_nil _ _
  have hdist1 : DistinctOn (applyAll world (news.map Wr.format)) (· ∈ olds ++ news) := by
    have hc : ∀ d ∈ olds ++ news, ∀ c ∈ (applyAll world (news.map Wr.format) d).chunks, IsValid world d ∧ c ∈ (world d).chunks := by
      intro d hd c hc
      rcases List.mem_append.1 hd with hd | hd
      · rw [hw1 d hd] at hc; exact ⟨hov d hd, hc⟩
      · rw [hw1n d hd] at hc; cases hc
    refine ⟨fun d hd => ?_, fun d e hd he hde c hc1 c' hc2 => ?_⟩
    · rcases List.mem_append.1 hd with hd | hd
      · rw [hw1 d hd]; exact hv.distinct.1 d (hov d hd)
      · rw [hw1n d hd]; exact List.nodup_nil
    · obtain ⟨a1, a2⟩ := hc d hd c hc1
      obtain ⟨b1, b2⟩ := hc e he c' hc2
      exact hv.distinct.2 d e a1 b1 hde c a2 c' b2
  cases hl : loadVdevs (applyAll world (news.map Wr.format)) (olds ++ news) news with
  | none =>
    simp only
    refine ⟨fun k mo hk => ?_, fun hfull => ?_⟩
    · rcases hk with hk | ⟨_, hk⟩ <;> subst hk <;> exact hfk k
    · exfalso
      have hf : Full vds (applyAll world (news.map Wr.format) dh) := by
        rw [hw1 dh (by rw [hoe]; exact List.mem_cons_self)]
        exact hfull dh hfind
      obtain ⟨m, hm, _⟩ := hload.2 hf
      rw [hl] at hm
      cases hm
  | some m =>
    simp only [hne, if_false]
    obtain ⟨l1, l2, l3⟩ := loadVdevs_good hpd hdist1 (by intro d hd; rw [hw1n d hd]; rfl) hl
    obtain ⟨v1, v2, v3⟩ := hload.1 m hl
    have hfacts : (∀ d, order.find? (fun d => (world d).valid) = some d → Full vds (world d)) → vds ≠ [] →
        m.vd = vds.map some ∧ m.slots = true := by
      intro hfull hvne
      have hf : Full vds (applyAll world (news.map Wr.format) dh) := by
        rw [hw1 dh (by rw [hoe]; exact List.mem_cons_self)]
        exact hfull dh hfind
      obtain ⟨m2, hm2, h3, h4⟩ := hload.2 hf
      rw [hl] at hm2
      cases hm2
      exact ⟨h3, h4 hvne⟩
    by_cases hnn : news = []
    · subst hnn
      simp only [if_true, List.map_nil, List.take_nil]
      refine ⟨fun k mo hk => ?_, fun hfull hvne => ⟨m, rfl, (hfacts hfull hvne).1, (hfacts hfull hvne).2, fun d => by rw [l1]; exact hmemo d⟩⟩
      refine ⟨h.dev, h.first, fun m1 hm1 => ?_⟩
      rcases hk with hk | ⟨_, hk⟩
      · rw [hk] at hm1; cases hm1
      · have hm1 : mo = some m1 := hm1
        rw [hk] at hm1
        cases hm1
        refine ⟨fun d hd => ?_, v1⟩
        rw [l1, List.append_nil] at hd
        exact h.dev d (hov d hd)
    · simp only [hnn, if_false]
      have hnochunk : ∀ c ∈ m.chunks, c.2.1 ∉ news := by
        intro c hc hcn
        by_cases hsl : m.slots = true
        · have := ((l2 hsl).known c.1 c.2.1 c.2.2).1 hc
          have h2 : (c.1, c.2.2) ∈ (applyAll world (news.map Wr.format) c.2.1).chunks := this.2
          rw [hw1n c.2.1 hcn] at h2
          cases h2
        · rw [(l3 (by simpa using hsl)).1] at hc; cases hc
      obtain ⟨g1, g2, _, g4, g5⟩ := growVdevs_ws cnt (m := m) (news := news)
        (fun d hd => by rw [l1]; exact List.mem_append_right _ hd) hnochunk m.vd.length
      generalize hG : growVdevs cnt (m, []) m.vd.length = G at *
      obtain ⟨mg, ws⟩ := G
      simp only at g1 g2 g4 g5 ⊢
      have hwok : ∀ x ∈ ws, WrOK vds x ∧ x.dev ∈ olds ++ news := by
        intro x hx
        obtain ⟨hx1, v, hvv, hx2⟩ := g1 x hx
        rw [l1] at hx1
        refine ⟨?_, hx1⟩
        have hvs := v1.2 v false hvv
        rcases hx2 with ⟨d, ids, rfl⟩ | ⟨d, rfl⟩
        · intro c hc
          obtain ⟨i, _, rfl⟩ := List.mem_map.1 hc
          exact (List.getElem?_eq_some_iff.1 hvs).1
        · exact hvs
      have hwok' : ∀ x ∈ ws, WrOK vds x := fun x hx => (hwok x hx).1
      have hnocommit : ∀ d, Wr.commit d ∉ ws := by
        intro d hd
        obtain ⟨_, v, _, ⟨e, ids, h⟩ | ⟨e, h⟩⟩ := g1 _ hd <;> cases h
      -- after step 4 all devices are in order
      have hsta : ∀ d ∈ olds ++ news, Snd vds (applyAll (applyAll world (news.map Wr.format)) ws d) ∧
          Sta vds (applyAll (applyAll world (news.map Wr.format)) ws d) := by
        intro d hd
        refine ⟨applyAll_snd hwok' (hsnd1 d hd), fun v hvs => ?_⟩
        rcases List.mem_append.1 hd with hd | hd
        · refine applyAll_has hwok' hvs ?_
          rw [hw1 d hd]
          exact (h.dev d (hov d hd)).2 v hvs
        · have hmv : m.vd[v]? = some (some false) := by
            refine v3 v false ?_
            rw [hw1 dh (by rw [hoe]; exact List.mem_cons_self)]
            exact (h.dev dh (hov dh (by rw [hoe]; exact List.mem_cons_self))).2 v hvs
          exact applyAll_written hwok' (g2 v (List.getElem?_eq_some_iff.1 hmv).1 hmv d hd)
      -- a prefix of the writes of step 4
      have hmid : ∀ k, SInv vds d0 ⟨applyAll (applyAll world (news.map Wr.format)) (ws.take k), none⟩ := by
        intro k
        have hfs1 := hfs news none rfl hnv
        have hk' : ∀ x ∈ ws.take k, WrOK vds x := fun x hx => hwok' x (List.mem_of_mem_take hx)
        refine ⟨fun d hd => ?_, ⟨applyAll_valid hk' hfs1.first.1, fun v b hvb => applyAll_has hk' hvb (hfs1.first.2 v b hvb)⟩,
          by intro m hm; cases hm⟩
        rcases applyAll_newly hd with h1 | h1
        · have := hfs1.dev d h1
          exact ⟨applyAll_snd hk' this.1, fun v hvs => applyAll_has hk' hvs (this.2 v hvs)⟩
        · exact absurd (List.mem_of_mem_take h1) (hnocommit d)
      have hfull4 : SInv vds d0 ⟨applyAll (applyAll world (news.map Wr.format)) ws, none⟩ := by
        have := hmid ws.length
        rwa [List.take_length] at this
      have hcom : ∀ k, _ := fun k => hfull4.writes (ws := ((olds ++ news).map Wr.commit).take k) (ds := olds ++ news)
        (fun x hx => by
          obtain ⟨d, hd, rfl⟩ := List.mem_map.1 (List.mem_of_mem_take hx)
          exact ⟨trivial, hd⟩) hsta
      refine ⟨fun k mo hk => ?_, fun hfull hvne => ⟨mg, rfl, by rw [g4]; exact (hfacts hfull hvne).1, ?_, fun d => by rw [g5, l1]; exact hmemo d⟩⟩
      · rw [List.take_append, applyAll_append, List.take_append, applyAll_append]
        by_cases hk1 : k ≤ (news.map Wr.format).length
        · -- within formatting
          have e1 : k - (news.map Wr.format).length = 0 := by omega
          have e2 : k - (news.map Wr.format ++ ws).length = 0 := by rw [List.length_append]; omega
          rw [e1, e2, List.take_zero, List.take_zero]
          rcases hk with hk | ⟨hk, _⟩
          · subst hk; exact hfk k
          · exfalso
            rw [List.length_append, List.length_append, List.length_map] at hk
            rw [List.length_map, List.length_append] at hk
            have : news.length ≠ 0 := fun h0 => hnn (List.eq_nil_of_length_eq_zero h0)
            rw [List.length_map] at hk1
            omega
        · rw [List.take_of_length_le (l := news.map Wr.format) (by omega)]
          by_cases hk2 : k ≤ (news.map Wr.format ++ ws).length
          · rw [show k - (news.map Wr.format ++ ws).length = 0 by omega, List.take_zero]
            rcases hk with hk | ⟨hk, _⟩
            · subst hk; exact hmid _
            · exfalso
              rw [List.length_append (as := news.map Wr.format ++ ws)] at hk
              have h0 : ((olds ++ news).map Wr.commit).length = 0 := by omega
              rw [List.length_map, List.length_append] at h0
              exact hnn (List.eq_nil_of_length_eq_zero (by omega))
          · rw [List.take_of_length_le (l := ws) (by rw [List.length_append] at hk2; omega)]
            obtain ⟨c1, c2, c3⟩ := hcom (k - (news.map Wr.format ++ ws).length)
            refine ⟨c1, c2, fun m1 hm1 => ?_⟩
            rcases hk with hk | ⟨hk, hmo⟩
            · rw [hk] at hm1; cases hm1
            · have hm1 : mo = some m1 := hm1
              rw [hmo] at hm1
              cases hm1
              refine ⟨fun d hd => c3 d (by rw [g5, l1] at hd; exact hd), by rw [g4]; exact v1⟩
      · have hsl := (hfacts hfull hvne).2
        have hgm : Good (applyAll world (news.map Wr.format)) (olds ++ news) m ([] ++ []) := l2 hsl
        obtain ⟨_, _, _, g7⟩ := Good.growVdevs (acc := (m, [])) cnt hgm l1 m.vd.length
        rw [hG] at g7
        exact g7.trans hsl

theorem step_sinv {vds : List Bool} {d0 : Nat} {s : Sys} (hv : VInv s) (h : SInv vds d0 s) {ev : VEv} (hp : AllPresent s ev)
    (hu : Use d0 ev) : SInv vds d0 (ev.step s) := by
  have hop : ∀ op, isMkVdev op = false → (∀ order cnt, op ≠ .boot order cnt) → ∀ k mo,
      (mo = none ∨ (k = (op.run s.world s.mem).1.length ∧ mo = (op.run s.world s.mem).2)) →
      SInv vds d0 ⟨applyAll s.world ((op.run s.world s.mem).1.take k), mo⟩ := by
    intro op h1 h2 k mo hk
    cases hm : s.mem with
    | none =>
      have e : op.run s.world none = ([], none) := by
        cases op with
        | boot order cnt => exact absurd rfl (h2 order cnt)
        | _ => rfl
      rw [hm, e] at hk
      rw [e]
      have hmo : mo = none := by rcases hk with hk | ⟨_, hk⟩ <;> exact hk
      refine ⟨by simpa [applyAll] using h.dev, by simpa [applyAll] using h.first, fun m hm' => ?_⟩
      rw [hmo] at hm'; cases hm'
    | some m =>
      obtain ⟨m1, m2⟩ := h.mem m hm
      rw [hm] at hk
      obtain ⟨w1, w2⟩ := op_writes (hv.mem m hm) m2 h1 h2
      obtain ⟨c1, c2, c3⟩ := h.writes (ws := (op.run s.world (some m)).1.take k) (ds := m.order)
        (fun x hx => w1 x (List.mem_of_mem_take hx)) m1
      refine ⟨c1, c2, fun m' hm' => ?_⟩
      rcases hk with hk | ⟨_, hk⟩
      · rw [hk] at hm'; cases hm'
      · have hm' : mo = some m' := hm'
        rw [hk] at hm'
        obtain ⟨o1, o2⟩ := w2 m' hm'
        rw [o1, o2]
        exact ⟨c3, m2⟩
  cases ev with
  | run op =>
    have key : ∀ k mo, (mo = none ∨ (k = (op.run s.world s.mem).1.length ∧ mo = (op.run s.world s.mem).2)) →
        SInv vds d0 ⟨applyAll s.world ((op.run s.world s.mem).1.take k), mo⟩ := by
      by_cases hb : ∃ order cnt, op = .boot order cnt
      · obtain ⟨order, cnt, rfl⟩ := hb
        exact (boot_sinv hv h hp.1 hp.2 cnt).1
      · exact hop op hu (fun order cnt e => hb ⟨order, cnt, e⟩)
    have := key _ _ (Or.inr ⟨rfl, rfl⟩)
    rw [List.take_length] at this
    exact this
  | crash op k =>
    have key : ∀ k mo, (mo = none ∨ (k = (op.run s.world s.mem).1.length ∧ mo = (op.run s.world s.mem).2)) →
        SInv vds d0 ⟨applyAll s.world ((op.run s.world s.mem).1.take k), mo⟩ := by
      by_cases hb : ∃ order cnt, op = .boot order cnt
      · obtain ⟨order, cnt, rfl⟩ := hb
        exact (boot_sinv hv h hp.1 hp.2 cnt).1
      · exact hop op hu (fun order cnt e => hb ⟨order, cnt, e⟩)
    exact key k none (Or.inl rfl)
  | wipe d =>
    have hne : d ≠ d0 := hu
    refine ⟨fun x hx => ?_, ?_, by intro m hm; cases hm⟩
    · unfold IsValid at hx
      simp only [VEv.step] at hx ⊢
      split at hx
      · cases hx
      · rename_i hxd
        rw [if_neg hxd]
        exact h.dev x hx
    · unfold IsValid
      simp only [VEv.step]
      rw [if_neg (fun e => hne e.symm)]
      exact h.first
  | down => exact ⟨h.dev, h.first, by intro m hm; cases hm⟩

theorem after_sinv {vds : List Bool} {d0 : Nat} {evs : List VEv} : ∀ {s : Sys}, VInv s → SInv vds d0 s → AllPresents s evs →
    (∀ ev ∈ evs, Use d0 ev) → SInv vds d0 (s.after evs) := by
  induction evs with
  | nil => intro s _ h _ _; exact h
  | cons ev evs ih =>
    intro s hv h hp hu
    exact ih (step_inv hv hp.1) (step_sinv hv h hp.1 (hu ev List.mem_cons_self)) hp.2 (fun e he => hu e (List.mem_cons_of_mem _ he))

/-! ## Setting up -/

/-- The state while the virtual devices are created. -/
structure Base (D : List Nat) (vds : List Bool) (s : Sys) : Prop where
  mem : ∃ m, s.mem = some m ∧ m.order = D ∧ m.slots = true ∧ m.vd = vds.map some
  dev : ∀ d ∈ D, Snd vds (s.world d) ∧ Full vds (s.world d)
  none : ∀ d, ¬ IsValid s.world d

theorem base_boot {D : List Nat} (cnt : Nat → Nat → Nat) : Base D [] (VEv.step Sys.blank (.run (.boot D cnt))) := by
  have e1 : D.filter (fun d => (Sys.blank.world d).valid) = [] := by
    rw [List.filter_eq_nil_iff]; intro d _; simp [Sys.blank, Dev.empty]
  have e2 : D.filter (fun d => ! (Sys.blank.world d).valid) = D := by
    rw [List.filter_eq_self]; intro d _; rfl
  have e3 : applyAll Sys.blank.world (D.map Wr.format) = Sys.blank.world := by
    funext d; rw [formats]; split <;> rfl
  have e4 : loadVdevs Sys.blank.world D D = some ⟨D, [], [], [], true⟩ := by
    have hall : decide (∀ d ∈ D, d ∈ D) = true := by simp
    cases D with
    | nil => rfl
    | cons d D => rw [loadVdevs_cons, hall]; rfl
  have e5 : Op.run Sys.blank.world Sys.blank.mem (.boot D cnt) = (D.map Wr.format, some ⟨D, [], [], [], true⟩) := by
    simp only [Op.run, e1, e2, e3, List.nil_append, e4, if_true]
  show Base D [] ⟨applyAll Sys.blank.world (Op.run Sys.blank.world Sys.blank.mem (.boot D cnt)).1,
    (Op.run Sys.blank.world Sys.blank.mem (.boot D cnt)).2⟩
  rw [e5]
  simp only [e3]
  exact ⟨⟨_, rfl, rfl, rfl, rfl⟩, fun d _ => ⟨⟨(fun i hi => nomatch hi), (fun c hc => nomatch hc)⟩, by intro v b h; simp at h⟩,
    fun d h => by cases h⟩

theorem spread_ws (cnt : Nat → Nat) (v : Nat) : ∀ (l : List Nat) (acc : Mem × List Wr),
    (∀ x ∈ (l.foldl (spreadOne cnt v) acc).2, x ∈ acc.2 ∨ ∃ (d : Nat) (ids : List Nat), x = Wr.chunks d (ids.map (fun i => (i, v)))) ∧
    (l.foldl (spreadOne cnt v) acc).1.order = acc.1.order ∧ (l.foldl (spreadOne cnt v) acc).1.vd = acc.1.vd ∧
    (l.foldl (spreadOne cnt v) acc).1.slots = acc.1.slots := by
  intro l
  induction l with
  | nil => intro acc; exact ⟨fun _ h => Or.inl h, rfl, rfl, rfl⟩
  | cons d l ih =>
    intro acc
    rw [List.foldl_cons]
    obtain ⟨i1, i2, i3, i4⟩ := ih (spreadOne cnt v acc d)
    refine ⟨fun x hx => ?_, i2, i3, i4⟩
    rcases i1 x hx with h | h
    · have h : x ∈ acc.2 ++ [Wr.chunks d ((takeIds (cnt d) acc.1.used).map (fun i => (i, v)))] := h
      rcases List.mem_append.1 h with h | h
      · exact Or.inl h
      · rw [List.mem_singleton] at h
        exact Or.inr ⟨d, _, h⟩
    · exact Or.inr h

theorem base_step {D : List Nat} {vds : List Bool} {s : Sys} (h : Base D vds s) (b : Bool) (cnt : Nat → Nat) :
    Base D (vds ++ [b]) (VEv.step s (.run (.mkVdev b cnt))) := by
  obtain ⟨m, hm, ho, hs, hvd⟩ := h.mem
  have hlen : m.vd.length = vds.length := by rw [hvd, List.length_map]
  have hlast : (vds ++ [b])[vds.length]? = some b := by simp
  have hold : ∀ v c, vds[v]? = some c → (vds ++ [b])[v]? = some c := fun v c hc => by
    rw [List.getElem?_append_left (List.getElem?_eq_some_iff.1 hc).1]; exact hc
  obtain ⟨ws, m1, he, h1, h2, h3⟩ : ∃ ws m1, Op.run s.world s.mem (.mkVdev b cnt) =
      (ws ++ D.map (fun d => Wr.info d vds.length b), some m1) ∧
      (∀ x ∈ ws, ∃ (d : Nat) (ids : List Nat), x = Wr.chunks d (ids.map (fun i => (i, vds.length)))) ∧
      (m1.order = D ∧ m1.slots = true) ∧ m1.vd = (vds ++ [b]).map some := by
    rw [hm]
    simp only [Op.run, hlen]
    cases b with
    | true =>
      rw [if_pos rfl]
      exact ⟨[], { m with vd := m.vd ++ [some true] }, by rw [List.nil_append, ho], by simp, ⟨ho, hs⟩, by simp [hvd]⟩
    | false =>
      rw [if_neg (by decide), if_neg (by rw [hs]; simp)]
      obtain ⟨g1, g2, g3, g4⟩ := spread_ws cnt vds.length m.order ({ m with vd := m.vd ++ [some false] }, [])
      refine ⟨_, _, by rw [ho], ?_, ⟨?_, ?_⟩, ?_⟩
      · intro x hx
        rcases g1 x (by rw [ho]; exact hx) with h | h
        · cases h
        · exact h
      · rw [ho] at g2; exact g2
      · rw [ho] at g4; exact g4.trans hs
      · rw [ho] at g3; rw [g3]; simp [hvd]
  have hok : ∀ x ∈ ws ++ D.map (fun d => Wr.info d vds.length b), WrOK (vds ++ [b]) x := by
    intro x hx
    rcases List.mem_append.1 hx with hx | hx
    · obtain ⟨d, ids, rfl⟩ := h1 x hx
      intro c hc
      obtain ⟨i, _, rfl⟩ := List.mem_map.1 hc
      simp
    · obtain ⟨d, _, rfl⟩ := List.mem_map.1 hx
      exact hlast
  show Base D (vds ++ [b]) ⟨applyAll s.world (Op.run s.world s.mem (.mkVdev b cnt)).1, (Op.run s.world s.mem (.mkVdev b cnt)).2⟩
  rw [he]
  simp only
  refine ⟨⟨m1, rfl, h2.1, h2.2, h3⟩, fun d hd => ⟨applyAll_snd hok ?_, fun v c hv => ?_⟩, fun d hd => ?_⟩
  · obtain ⟨s1, s2⟩ := (h.dev d hd).1
    refine ⟨fun i hi => hold _ _ (s1 i hi), fun c hc => ?_⟩
    have := s2 c hc
    rw [List.length_append]
    omega
  · by_cases hvl : v < vds.length
    · refine applyAll_has hok hv ((h.dev d hd).2 v c ?_)
      rwa [List.getElem?_append_left hvl] at hv
    · have hve : v = vds.length := by
        have := (List.getElem?_eq_some_iff.1 hv).1
        rw [List.length_append, List.length_singleton] at this
        omega
      subst hve
      rw [hlast] at hv
      cases hv
      exact applyAll_written hok (List.mem_append_right _ (List.mem_map.2 ⟨d, hd, rfl⟩))
  · rcases applyAll_newly hd with h4 | h4
    · exact h.none d h4
    · rcases List.mem_append.1 h4 with h4 | h4
      · obtain ⟨e, ids, h5⟩ := h1 _ h4; cases h5
      · obtain ⟨e, _, h5⟩ := List.mem_map.1 h4; cases h5

theorem base_setup {D : List Nat} {cnt : Nat → Nat → Nat} (kinds : List (Bool × (Nat → Nat))) :
    Base D (kinds.map (·.1)) (Sys.blank.after (setup D cnt kinds)) := by
  induction kinds using List.reverseRecOn with
  | nil => exact base_boot cnt
  | append_singleton kinds k ih =>
    have : Sys.blank.after (setup D cnt (kinds ++ [k])) = VEv.step (Sys.blank.after (setup D cnt kinds)) (.run (.mkVdev k.1 k.2)) := by
      unfold Sys.after setup
      rw [List.map_append, ← List.cons_append, List.foldl_append]
      rfl
    rw [this, List.map_append]
    exact base_step ih k.1 k.2

theorem setup_present {D : List Nat} (hD : D.Nodup) (cnt : Nat → Nat → Nat) (kinds : List (Bool × (Nat → Nat))) :
    AllPresents Sys.blank (setup D cnt kinds) := by
  refine ⟨⟨hD, by intro d h; cases h⟩, ?_⟩
  generalize VEv.step Sys.blank (.run (.boot D cnt)) = s
  induction kinds generalizing s with
  | nil => trivial
  | cons k kinds ih => exact ⟨trivial, ih _⟩

/-- A commit, whole or interrupted, after the setup. -/
theorem base_commit {D : List Nat} {vds : List Bool} {s : Sys} (h : Base D vds s) {ev : VEv}
    (hev : ev = .run .commit ∨ ∃ k, ev = .crash .commit k) {d0 : Nat} (hd0 : IsValid (ev.step s).world d0) :
    SInv vds d0 (ev.step s) := by
  obtain ⟨m, hm, ho, hs, hvd⟩ := h.mem
  have key : ∀ (l : List Nat) (mo : Option Mem), (∀ d ∈ l, d ∈ D) → (mo = none ∨ mo = some m) →
      IsValid (applyAll s.world (l.map Wr.commit)) d0 → SInv vds d0 ⟨applyAll s.world (l.map Wr.commit), mo⟩ := by
    intro l mo hl hmo hv
    have hok : ∀ x ∈ l.map Wr.commit, WrOK vds x := by
      intro x hx; obtain ⟨d, _, rfl⟩ := List.mem_map.1 hx; trivial
    have hin : ∀ d, IsValid (applyAll s.world (l.map Wr.commit)) d → d ∈ D := by
      intro d hd
      rcases applyAll_newly hd with h1 | h1
      · exact absurd h1 (h.none d)
      · obtain ⟨e, he, h2⟩ := List.mem_map.1 h1
        cases h2
        exact hl d he
    have hfull : ∀ d ∈ D, Snd vds (applyAll s.world (l.map Wr.commit) d) ∧ Full vds (applyAll s.world (l.map Wr.commit) d) :=
      fun d hd => ⟨applyAll_snd hok (h.dev d hd).1, fun v b hvb => applyAll_has hok hvb ((h.dev d hd).2 v b hvb)⟩
    refine ⟨fun d hd => ⟨(hfull d (hin d hd)).1, (hfull d (hin d hd)).2.sta⟩, ⟨hv, (hfull d0 (hin d0 hv)).2⟩, fun m' hm' => ?_⟩
    have hm' : mo = some m' := hm'
    rcases hmo with hmo | hmo
    · rw [hmo] at hm'; cases hm'
    · rw [hmo] at hm'
      cases hm'
      refine ⟨fun d hd => ⟨(hfull d (by rw [← ho]; exact hd)).1, (hfull d (by rw [← ho]; exact hd)).2.sta⟩, ?_⟩
      rw [hvd]
      refine ⟨by rw [List.length_map], fun v b hvb => ?_⟩
      rw [List.getElem?_map] at hvb
      cases hh : vds[v]? with
      | none => rw [hh] at hvb; cases hvb
      | some c => rw [hh] at hvb; simpa using hvb
  rcases hev with rfl | ⟨k, rfl⟩
  · unfold VEv.step at hd0 ⊢
    simp only [Op.run, hm] at hd0 ⊢
    exact key m.order (some m) (by rw [ho]; exact fun _ h => h) (Or.inr rfl) hd0
  · unfold VEv.step at hd0 ⊢
    simp only [Op.run, hm] at hd0 ⊢
    rw [← List.map_take] at hd0 ⊢
    exact key (m.order.take k) none (fun d hd => by rw [← ho]; exact List.mem_of_mem_take hd) (Or.inl rfl) hd0

theorem AllPresents.append {a b : List VEv} : ∀ {s : Sys}, AllPresents s (a ++ b) → AllPresents s a ∧ AllPresents (s.after a) b := by
  induction a with
  | nil => intro s h; exact ⟨trivial, h⟩
  | cons e a ih => intro s h; exact ⟨⟨h.1, (ih h.2).1⟩, (ih h.2).2⟩

theorem after_append (s : Sys) (a b : List VEv) : s.after (a ++ b) = (s.after a).after b := by
  unfold Sys.after; rw [List.foldl_append]

/-- **C56.** A store is set up on the devices `D` with any virtual devices; `d0` is a device on which the setup was
committed and which is never replaced.  Whatever else happens — starts with all formatted devices in any order and any
new ones, creation and removal of chunks, crashes at any write, replacement of any other device — every start with all
formatted devices, of which `d0` is the first listed, succeeds and finds all virtual devices and chunks.  When no virtual
device has dynamic size, any formatted device may be listed first. -/
theorem C56_found_partial {D : List Nat} (hD : D.Nodup) {cnt0 : Nat → Nat → Nat} {kinds : List (Bool × (Nat → Nat))}
    (hk : kinds ≠ []) {com : VEv} (hcom : com = .run .commit ∨ ∃ k, com = .crash .commit k) {d0 : Nat}
    (hd0 : IsValid (Sys.blank.after (setup D cnt0 kinds ++ [com])).world d0) {evs : List VEv}
    (hu : ∀ ev ∈ evs, Use d0 ev) {order : List Nat} {cnt : Nat → Nat → Nat}
    (hp : AllPresents (Sys.blank.after (setup D cnt0 kinds ++ [com])) (evs ++ [.run (.boot order cnt)]))
    (hfirst : order.find? (fun d => (((Sys.blank.after (setup D cnt0 kinds ++ [com])).after evs).world d).valid) = some d0 ∨
      ∀ k ∈ kinds, k.1 = false) :
    Finds ((Sys.blank.after (setup D cnt0 kinds ++ [com])).after evs) order cnt (kinds.map (·.1)) := by
  have hvinv : VInv (Sys.blank.after (setup D cnt0 kinds)) := after_inv blank_vinv (setup_present hD cnt0 kinds)
  have hce : Sys.blank.after (setup D cnt0 kinds ++ [com]) = com.step (Sys.blank.after (setup D cnt0 kinds)) := by
    rw [after_append]; rfl
  rw [hce] at hd0 hp hfirst ⊢
  have hs0 := base_commit (base_setup (cnt := cnt0) kinds) hcom hd0
  have hv0 : VInv (com.step (Sys.blank.after (setup D cnt0 kinds))) :=
    step_inv hvinv (by rcases hcom with rfl | ⟨k, rfl⟩ <;> trivial)
  generalize com.step (Sys.blank.after (setup D cnt0 kinds)) = s0 at *
  obtain ⟨hp1, hp2, _⟩ := hp.append
  have hs := after_sinv hv0 hs0 hp1 hu
  have hv := after_inv hv0 hp1
  generalize s0.after evs = s at *
  obtain ⟨m, h1, h2, h3, h4⟩ := (boot_sinv hv hs hp2.1 hp2.2 cnt).2 (by
    intro d hd
    rcases hfirst with hf | hf
    · rw [hf] at hd; cases hd; exact hs.first.2
    · intro v b hvb
      have hb : b = false := by
        rw [List.getElem?_map] at hvb
        cases hh : kinds[v]? with
        | none => rw [hh] at hvb; cases hvb
        | some k =>
          rw [hh] at hvb
          have hbk : k.1 = b := by simpa using hvb
          rw [← hbk]
          exact hf k (List.mem_of_getElem? hh)
      subst hb
      have hval : IsValid s.world d := by
        have := List.find?_some hd
        exact this
      exact (hs.dev d hval).2 v hvb) (by simpa using hk)
  refine ⟨m, h1, h2, fun i d v => ?_⟩
  obtain ⟨_, _, ⟨m', hg, hsl⟩, _⟩ := (step_inv hv hp2).mem m h1
  rw [← (hsl h3).2, hg.known, h4]
  rfl

/-- The hypotheses, met: two devices, one virtual device of each kind; device 1 is replaced; then a start. -/
example : Finds ((Sys.blank.after (setup [0, 1] (fun _ _ => 0) [(false, fun _ => 2), (true, fun _ => 0)] ++ [.run .commit])).after
    [.wipe 1]) [0, 1] (fun _ _ => 1) [false, true] := by
  refine C56_found_partial (by decide) (by simp) (Or.inl rfl) (d0 := 0) (by unfold IsValid; decide +kernel)
    (by simp [Use]) ⟨trivial, ⟨by decide, ?_⟩, trivial⟩ (Or.inl (by decide +kernel))
  intro d hd
  by_contra hn
  have h0 : d ≠ 0 := fun e => hn (by rw [e]; decide)
  have h1 : d ≠ 1 := fun e => hn (by rw [e]; decide)
  have hinv : VInv (Sys.blank.after (setup [0, 1] (fun _ _ => 0) [(false, fun _ => 2), (true, fun _ => 0)] ++ [.run .commit])) := by
    rw [after_append]
    exact step_inv (ev := .run .commit) (after_inv blank_vinv (setup_present (by decide) _ _)) trivial
  have horder : ((Sys.blank.after (setup [0, 1] (fun _ _ => 0) [(false, fun _ => 2), (true, fun _ => 0)] ++ [.run .commit])).mem.map
      (·.order)) = some [0, 1] := by decide +kernel
  cases hm : (Sys.blank.after (setup [0, 1] (fun _ _ => 0) [(false, fun _ => 2), (true, fun _ => 0)] ++ [.run .commit])).mem with
  | none => rw [hm] at horder; cases horder
  | some m =>
    rw [hm] at horder
    have ho : m.order = [0, 1] := by simpa using horder
    have hd : IsValid (Sys.blank.after (setup [0, 1] (fun _ _ => 0) [(false, fun _ => 2), (true, fun _ => 0)] ++ [.run .commit])).world d := by
      unfold IsValid at hd ⊢
      simp only [VEv.step] at hd
      rw [if_neg h1] at hd
      exact hd
    have := (hinv.mem m hm).valid d hd
    rw [ho] at this
    exact hn this

/-- **C56 fails** for a virtual device of dynamic size (the journal) when the device listed first is replaced.  The start
with the blank device succeeds, but step 4 of `load_devices` (`device_manager.cpp` 256-264) skips the journal, so the new
device does not get its record.  At the next start the new device is the first, its records are the only ones read
(785), the chunks of the journal on the other device make a null pointer (593), and the process dies (609). -/
theorem C56_replaced_first_violated :
    let s := (Sys.blank.after (setup [0, 1] (fun _ _ => 0) [(false, fun _ => 1), (true, fun _ => 0)] ++
      [.run .commit, .run (.mkChunk 1 1), .down, .wipe 0, .run (.boot [0, 1] (fun _ _ => 1))]))
    s.mem.map (·.vd) = some [some false, some true] ∧
    ((s.after [.down, .run (.boot [0, 1] (fun _ _ => 0))]).mem = none) ∧
    ((s.after [.down, .run (.boot [1, 0] (fun _ _ => 0))]).mem.map (·.vd) = some [some false, some true]) := by decide +kernel

/-- ... and when no chunk of the journal happens to exist, the start succeeds without the journal. -/
theorem C56_journal_forgotten_violated :
    let s := (Sys.blank.after (setup [0, 1] (fun _ _ => 0) [(false, fun _ => 1), (true, fun _ => 0)] ++
      [.run .commit, .down, .wipe 0, .run (.boot [0, 1] (fun _ _ => 1)), .down, .run (.boot [0, 1] (fun _ _ => 0))]))
    s.mem.map (·.vd) = some [some false] := by decide +kernel

end HS.DevMgr
