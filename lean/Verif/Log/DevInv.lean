import Verif.Log.DevLemmas

/-! # The device implements the specification: the relation -/

namespace HS.Log

variable {D : Type}

/-- The device records a store would find from `base` on. -/
def Dev.live (c : Dev D) (id : Nat) (base : Int) : List (Nat × Nat × LRec D) :=
  (devRecs c.groups).filter (foundBy c.rolls id base)

/-- The pending records of a store. -/
def Dev.pendOf (c : Dev D) (id : Nat) : List (Int × D) :=
  (c.pending.filter (fun r => r.store == id)).map (fun r => (r.seq, r.data))

/-- A key a truncation may use: a group on the device, or nothing to truncate. -/
structure KeyOK (c : Dev D) (k : Key) : Prop where
  idx : k.idx = k.grp
  le : k.grp ≤ c.flushIdx
  there : k.grp ≤ c.start.grp ∨ ∃ g ∈ c.groups, g.start = k.grp

structure StoreOK (c : Dev D) (id : Nat) (t : SStore D) (s : Store) : Prop where
  base_le : t.base ≤ t.start
  start_le : t.start ≤ t.base + t.flushed
  flushed_le : t.flushed ≤ t.log.length
  start : s.start = t.start
  next : s.next = t.base + t.log.length
  tail : s.tail = t.base + t.flushed - 1
  first : c.first id = some t.base
  live : (c.live id t.base).map xkey = entries t.base (t.log.take t.flushed)
  pend : c.pendOf id = entries (t.base + t.flushed) (t.log.drop t.flushed)
  recs : ∀ x ∈ c.live id t.base, t.start ≤ x.2.2.seq →
    s.recs x.2.2.seq = some ⟨⟨x.1, x.2.1⟩, ⟨x.2.1, x.2.1⟩, true⟩
  recs_lo : ∀ l, l < t.start → s.recs l = none
  recs_hi : ∀ l, t.base + t.log.length ≤ l → s.recs l = none
  recs_pend : ∀ l, t.base + t.flushed ≤ l → l < t.base + t.log.length → s.recs l = some {}
  trunc : KeyOK c s.trunc
  trunc_le : ∀ x ∈ c.live id t.base, t.start ≤ x.2.2.seq → s.trunc.grp ≤ x.2.1

structure Rel (c : Dev D) (s : SDev D) : Prop where
  consec : Consec c.start.grp c.groups c.flushIdx
  startIdx : c.start.idx = c.start.grp
  nonempty : c.groups = [] → c.start.grp = 0
  lastTrunc : c.start.idx ≤ max c.lastTrunc 0
  lastFlush : KeyOK c c.lastFlush
  rolls : ∀ r ∈ c.rolls, r.hi < c.flushIdx
  ids : ∀ id, (c.stores id).isSome → id ∈ c.ids
  fresh : ∀ id, c.first id = none → c.stores id = none ∧ (∀ x ∈ devRecs c.groups, x.2.2.store ≠ id)
  garb : ∀ m id, (m, id) ∈ c.garbage → c.stores id = none ∧ c.first id ≠ none ∧
    ∀ x ∈ devRecs c.groups, x.2.2.store = id → (x.1 : Int) ≤ m
  garbNodup : (c.garbage.map Prod.snd).Nodup
  pendOpen : ∀ r ∈ c.pending, (c.stores r.store).isSome
  pend : s.pend = c.pending.map (fun r => r.store)
  noneIff : ∀ id, c.stores id = none ↔ s.stores id = none
  store : ∀ id t st, s.stores id = some t → c.stores id = some st → StoreOK c id t st

theorem Rel.get {c : Dev D} {s : SDev D} (h : Rel c s) {id : Nat} {t : SStore D} (ht : s.stores id = some t) :
    ∃ st, c.stores id = some st ∧ StoreOK c id t st := by
  cases hs : c.stores id with
  | none => rw [(h.noneIff id).1 hs] at ht; cases ht
  | some st => exact ⟨st, rfl, h.store id t st ht hs⟩

theorem Rel.get' {c : Dev D} {s : SDev D} (h : Rel c s) {id : Nat} {st : Store} (hs : c.stores id = some st) :
    ∃ t, s.stores id = some t ∧ StoreOK c id t st := by
  cases ht : s.stores id with
  | none => rw [(h.noneIff id).2 ht] at hs; cases hs
  | some t => exact ⟨t, rfl, h.store id t st ht hs⟩

theorem rel_format : Rel (Dev.format : Dev D) SDev.format where
  consec := rfl
  startIdx := rfl
  nonempty := fun _ => rfl
  lastTrunc := by show (0 : Int) ≤ max (-1) 0; decide
  lastFlush := ⟨rfl, Nat.le_refl _, Or.inl (Nat.le_refl _)⟩
  rolls := by simp [Dev.format]
  ids := by simp [Dev.format]
  fresh := by intro id _; exact ⟨rfl, by simp [Dev.format, devRecs]⟩
  garb := by simp [Dev.format]
  garbNodup := by simp [Dev.format]
  pendOpen := by simp [Dev.format]
  pend := rfl
  noneIff := by intro id; simp [Dev.format, SDev.format]
  store := by intro id t st h; simp [SDev.format] at h

/-- The live records of a store, by number. -/
theorem StoreOK.live_get {c : Dev D} {id : Nat} {t : SStore D} {st : Store} (h : StoreOK c id t st) {l : Int}
    (h1 : t.base ≤ l) (h2 : l < t.base + t.flushed) :
    ∃ x ∈ c.live id t.base, x.2.2.seq = l ∧ t.log[(l - t.base).toNat]? = some x.2.2.data := by
  have hlt : (l - t.base).toNat < t.log.length := by have := h.flushed_le; omega
  have hm : (l, t.log[(l - t.base).toNat]) ∈ entries t.base (t.log.take t.flushed) := by
    refine mem_entries.2 ⟨(l - t.base).toNat, ?_, ?_⟩
    · rw [List.getElem?_take_of_lt (by omega), List.getElem?_eq_getElem hlt]
    · show l = _; omega
  rw [← h.live, List.mem_map] at hm
  obtain ⟨x, hx, he⟩ := hm
  have e1 : x.2.2.seq = l := congrArg Prod.fst he
  have e2 : x.2.2.data = t.log[(l - t.base).toNat] := congrArg Prod.snd he
  exact ⟨x, hx, e1, by rw [List.getElem?_eq_getElem hlt, e2]⟩

theorem StoreOK.live_range {c : Dev D} {id : Nat} {t : SStore D} {st : Store} (h : StoreOK c id t st)
    {x : Nat × Nat × LRec D} (hx : x ∈ c.live id t.base) : t.base ≤ x.2.2.seq ∧ x.2.2.seq < t.base + t.flushed := by
  have : xkey x ∈ entries t.base (t.log.take t.flushed) := by rw [← h.live]; exact List.mem_map_of_mem hx
  have := mem_entries_range this
  rw [List.length_take, Nat.min_eq_left h.flushed_le] at this
  exact this

theorem mem_live {c : Dev D} {id : Nat} {b : Int} {x : Nat × Nat × LRec D} :
    x ∈ c.live id b ↔ x ∈ devRecs c.groups ∧ x.2.2.store = id ∧ rolledBack c.rolls id x.1 = false ∧ b ≤ x.2.2.seq := by
  simp [Dev.live, foundBy, and_assoc]

/-- A store that is not touched, when neither the device nor the metadata change for it. -/
theorem StoreOK.congr {c c' : Dev D} {id : Nat} {t : SStore D} {st : Store} (h : StoreOK c id t st)
    (hg : c'.groups = c.groups) (hr : c'.rolls = c.rolls) (hf : c'.flushIdx = c.flushIdx) (hs : c'.start = c.start)
    (hfi : c'.first id = c.first id) (hp : c'.pendOf id = c.pendOf id) : StoreOK c' id t st := by
  have hl : c'.live id t.base = c.live id t.base := by simp [Dev.live, hg, hr]
  exact { h with
    first := by rw [hfi]; exact h.first
    live := by rw [hl]; exact h.live
    pend := by rw [hp]; exact h.pend
    recs := by rw [hl]; exact h.recs
    trunc := ⟨h.trunc.idx, by rw [hf]; exact h.trunc.le, by rw [hs, hg]; exact h.trunc.there⟩
    trunc_le := by rw [hl]; exact h.trunc_le }

theorem KeyOK.congr {c c' : Dev D} {k : Key} (h : KeyOK c k) (hg : c'.groups = c.groups)
    (hf : c'.flushIdx = c.flushIdx) (hs : c'.start = c.start) : KeyOK c' k :=
  ⟨h.idx, by rw [hf]; exact h.le, by rw [hs, hg]; exact h.there⟩

/-! ## Creating a store and appending -/

theorem live_fresh {c : Dev D} {s : SDev D} (h : Rel c s) {id : Nat} (hf : c.first id = none) (b : Int) :
    c.live id b = [] := by
  rw [Dev.live, List.filter_eq_nil_iff]
  intro x hx
  have := (h.fresh id hf).2 x hx
  simp [foundBy, this]

theorem pendOf_fresh {c : Dev D} {s : SDev D} (h : Rel c s) {id : Nat} (hf : c.stores id = none) :
    c.pendOf id = [] := by
  rw [Dev.pendOf, List.map_eq_nil_iff, List.filter_eq_nil_iff]
  intro r hr
  have := h.pendOpen r hr
  simp only [beq_iff_eq]
  rintro rfl
  rw [hf] at this
  cases this

theorem step_create {c : Dev D} {s : SDev D} (h : Rel c s) (id : Nat) (hf : c.first id = none) :
    ∃ c', c.create id = .ok c' ∧ Rel c' (s.set id { base := 0, start := 0, log := [], flushed := 0 }) := by
  have hst : c.stores id = none := (h.fresh id hf).1
  refine ⟨_, by unfold Dev.create; rw [hf, hst]; simp; rfl, ?_⟩
  constructor
  · exact h.consec
  · exact h.startIdx
  · exact h.nonempty
  · exact h.lastTrunc
  · exact h.lastFlush.congr rfl rfl rfl
  · exact h.rolls
  · intro i hi
    show i ∈ c.ids ++ [id]
    by_cases e : i = id
    · simp [e]
    · simp only [Dev.setStore, if_neg e] at hi
      simp [h.ids i hi]
  · intro i hi
    by_cases e : i = id
    · simp [e] at hi
    · simp only [if_neg e] at hi
      simp only [Dev.setStore, if_neg e]
      exact h.fresh i hi
  · intro m i hi
    have hg := h.garb m i hi
    have e : i ≠ id := by rintro rfl; exact hg.2.1 hf
    simp only [Dev.setStore, if_neg e]
    exact hg
  · exact h.garbNodup
  · intro r hr
    have := h.pendOpen r hr
    by_cases e : r.store = id
    · simp [Dev.setStore, e]
    · simpa [Dev.setStore, if_neg e] using this
  · exact h.pend
  · intro i
    by_cases e : i = id
    · simp [Dev.setStore, SDev.set, e]
    · simp only [Dev.setStore, SDev.set, if_neg e]; exact h.noneIff i
  · intro i t st ht hs
    by_cases e : i = id
    · subst e
      simp only [Dev.setStore, SDev.set, if_pos] at ht hs
      cases ht; cases hs
      have hl := live_fresh h hf 0
      constructor
      · exact Int.le_refl _
      · exact Int.le_refl _
      · exact Nat.le_refl _
      · rfl
      · rfl
      · rfl
      · simp
      · show (c.live i 0).map xkey = _
        rw [hl]; rfl
      · show c.pendOf i = _
        rw [pendOf_fresh h hst]; rfl
      · show ∀ x ∈ c.live i 0, _
        rw [hl]; simp
      · intro l _; rfl
      · intro l _; rfl
      · intro l h1 h2; simp at h1 h2; omega
      · exact ⟨rfl, Nat.zero_le _, Or.inl (Nat.zero_le _)⟩
      · show ∀ x ∈ c.live i 0, _
        rw [hl]; simp
    · simp only [Dev.setStore, SDev.set, if_neg e] at ht hs
      exact (h.store i t st ht hs).congr rfl rfl rfl rfl (by simp [e]) rfl

/-- Replacing one store and its first number in the superblock. -/
theorem Rel.setStore' {c : Dev D} {s : SDev D} (h : Rel c s) {id : Nat} {t : SStore D} {st : Store}
    (hopen : (c.stores id).isSome)
    (hok : StoreOK { c with first := fun i => if i = id then some t.base else c.first i } id t st) :
    Rel { c.setStore id st with first := fun i => if i = id then some t.base else c.first i } (s.set id t) where
  consec := h.consec
  startIdx := h.startIdx
  nonempty := h.nonempty
  lastTrunc := h.lastTrunc
  lastFlush := h.lastFlush.congr rfl rfl rfl
  rolls := h.rolls
  ids := by
    intro i hi
    by_cases e : i = id
    · subst e; exact h.ids i hopen
    · simp only [Dev.setStore, if_neg e] at hi; exact h.ids i hi
  fresh := by
    intro i hi
    by_cases e : i = id
    · simp [e] at hi
    · simp only [if_neg e] at hi
      simp only [Dev.setStore, if_neg e]; exact h.fresh i hi
  garb := by
    intro m i hi
    have := h.garb m i hi
    have e : i ≠ id := by rintro rfl; rw [this.1] at hopen; cases hopen
    simp only [Dev.setStore, if_neg e]; exact this
  garbNodup := h.garbNodup
  pendOpen := by
    intro r hr
    have := h.pendOpen r hr
    by_cases e : r.store = id
    · simp [Dev.setStore, e]
    · simpa [Dev.setStore, if_neg e] using this
  pend := h.pend
  noneIff := by
    intro i
    by_cases e : i = id
    · simp [Dev.setStore, SDev.set, e]
    · simp only [Dev.setStore, SDev.set, if_neg e]; exact h.noneIff i
  store := by
    intro i t' st' ht hs
    by_cases e : i = id
    · subst e
      simp only [Dev.setStore, SDev.set, if_pos] at ht hs
      cases ht; cases hs
      exact hok.congr rfl rfl rfl rfl rfl rfl
    · simp only [Dev.setStore, SDev.set, if_neg e] at ht hs
      exact (h.store i t' st' ht hs).congr rfl rfl rfl rfl (by simp [e]) rfl

/-- Replacing one store. -/
theorem Rel.setStore {c : Dev D} {s : SDev D} (h : Rel c s) {id : Nat} {t : SStore D} {st : Store}
    (hopen : (c.stores id).isSome) (hok : StoreOK c id t st) : Rel (c.setStore id st) (s.set id t) := by
  have hf : (fun i => if i = id then some t.base else c.first i) = c.first := by
    funext i
    by_cases e : i = id
    · subst e; rw [if_pos rfl]; exact hok.first.symm
    · rw [if_neg e]
  have := h.setStore' (t := t) (st := st) hopen (hok.congr rfl rfl rfl rfl (by simp [hok.first]) rfl)
  rw [hf] at this
  exact this

theorem step_append {c : Dev D} {s : SDev D} (h : Rel c s) {id : Nat} {t : SStore D} (ht : s.stores id = some t) (d : D) :
    ∃ c', c.append id d = .ok (c', t.last + 1) ∧
      Rel c' { s.set id { t with log := t.log ++ [d] } with pend := s.pend ++ [id] } := by
  obtain ⟨st, hs, hok⟩ := h.get ht
  have hn : st.next = t.last + 1 := by rw [hok.next]; simp [SStore.last]
  have hfree : st.recs st.next = none := hok.recs_hi _ (by rw [hok.next]; omega)
  refine ⟨_, by
    unfold Dev.append Dev.reserve
    simp only [hs]
    unfold Dev.write
    simp only [Dev.setStore, if_pos, hfree]
    rw [hn], ?_⟩
  have hlast : t.last + 1 = t.base + t.log.length := by simp [SStore.last]
  constructor
  · exact h.consec
  · exact h.startIdx
  · exact h.nonempty
  · exact h.lastTrunc
  · exact h.lastFlush.congr rfl rfl rfl
  · exact h.rolls
  · intro i hi
    by_cases e : i = id
    · subst e; exact h.ids i (by simp [hs])
    · simp only [if_neg e] at hi; exact h.ids i hi
  · intro i hi
    have := h.fresh i hi
    have e : i ≠ id := by rintro rfl; rw [this.1] at hs; cases hs
    simp only [if_neg e]; exact this
  · intro m i hi
    have := h.garb m i hi
    have e : i ≠ id := by rintro rfl; rw [this.1] at hs; cases hs
    simp only [if_neg e]; exact this
  · exact h.garbNodup
  · intro r hr
    rcases List.mem_append.1 hr with hr | hr
    · have := h.pendOpen r hr
      by_cases e : r.store = id
      · simp [e]
      · simpa [if_neg e] using this
    · simp at hr; subst hr; simp
  · show s.pend ++ [id] = (c.pending ++ [_]).map _
    rw [h.pend]; simp
  · intro i
    by_cases e : i = id
    · simp [SDev.set, e]
    · simp only [SDev.set, if_neg e]; exact h.noneIff i
  · intro i t' st' ht' hs'
    by_cases e : i = id
    · subst e
      simp only [SDev.set, if_pos] at ht' hs'
      cases ht'
      simp only [Option.some.injEq] at hs'
      subst hs'
      have h1 := hok.flushed_le
      refine {
        base_le := hok.base_le
        start_le := hok.start_le
        flushed_le := by simp; omega
        start := hok.start
        next := ?_
        tail := hok.tail
        first := hok.first
        live := ?_
        pend := ?_
        recs := ?_
        recs_lo := ?_
        recs_hi := ?_
        recs_pend := ?_
        trunc := hok.trunc.congr rfl rfl rfl
        trunc_le := hok.trunc_le }
      · show t.last + 1 + 1 = t.base + ((t.log ++ [d]).length : Int)
        simp; omega
      · show (c.live i t.base).map xkey = _
        rw [hok.live]
        show _ = entries t.base ((t.log ++ [d]).take t.flushed)
        rw [List.take_append_of_le_length h1]
      · show ((c.pending ++ [_]).filter _).map _ = entries (t.base + t.flushed) ((t.log ++ [d]).drop t.flushed)
        rw [List.drop_append_of_le_length h1, List.filter_append, List.map_append, entries_append]
        have := hok.pend
        rw [Dev.pendOf] at this
        rw [this]
        simp [List.length_drop]
        omega
      · intro x hx hst
        have hx' : x ∈ c.live i t.base := hx
        have hr := hok.live_range hx'
        show (if x.2.2.seq = t.last + 1 then _ else st.recs x.2.2.seq) = _
        rw [if_neg (by omega)]
        exact hok.recs x hx' hst
      · intro l hl
        show (if l = t.last + 1 then _ else st.recs l) = _
        have := hok.start_le
        rw [if_neg (by simp at hl; omega)]
        exact hok.recs_lo l hl
      · intro l hl
        show (if l = t.last + 1 then _ else st.recs l) = _
        simp at hl
        rw [if_neg (by omega)]
        exact hok.recs_hi l (by omega)
      · intro l hl1 hl2
        show (if l = t.last + 1 then _ else st.recs l) = _
        simp at hl1 hl2
        by_cases e : l = t.last + 1
        · rw [if_pos e]
        · rw [if_neg e]; exact hok.recs_pend l hl1 (by omega)
    · simp only [SDev.set, if_neg e] at ht' hs'
      refine (h.store i t' st' ht' hs').congr rfl rfl rfl rfl rfl ?_
      show ((c.pending ++ [_]).filter _).map _ = _
      rw [List.filter_append, List.filter_cons_of_neg (by simpa using fun e' => e e'.symm)]
      simp [Dev.pendOf]

end HS.Log
