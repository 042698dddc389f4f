import Verif.Log.DevTrunc

/-! # Store truncation, rollback, removal, restart -/

namespace HS.Log

variable {D : Type}

/-- Numbered records in device order: by number means by index. -/
theorem live_order {L : List (Nat × Nat × LRec D)} {b : Int} {l : List D} (h : L.map xkey = entries b l)
    (hp : L.Pairwise (fun x y => x.1 < y.1 ∧ x.2.1 ≤ y.2.1)) {x y : Nat × Nat × LRec D} (hx : x ∈ L) (hy : y ∈ L) :
    (x.2.2.seq < y.2.2.seq → x.1 < y.1 ∧ x.2.1 ≤ y.2.1) ∧ (x.2.2.seq = y.2.2.seq → x = y) := by
  obtain ⟨i, hi⟩ := List.mem_iff_getElem?.1 hx
  obtain ⟨j, hj⟩ := List.mem_iff_getElem?.1 hy
  have hseq : ∀ (n : Nat) (z : Nat × Nat × LRec D), L[n]? = some z → z.2.2.seq = b + n := by
    intro n z hz
    have h1 : (L.map xkey)[n]? = some (xkey z) := by rw [List.getElem?_map, hz]; rfl
    rw [h, entries_get] at h1
    obtain ⟨d, _, h3⟩ := Option.map_eq_some_iff.1 h1
    exact (congrArg Prod.fst h3).symm
  have h1 := hseq i x hi
  have h2 := hseq j y hj
  obtain ⟨hi', rfl⟩ := List.getElem?_eq_some_iff.1 hi
  obtain ⟨hj', rfl⟩ := List.getElem?_eq_some_iff.1 hj
  refine ⟨fun hlt => ?_, fun he => ?_⟩
  · exact List.pairwise_iff_getElem.1 hp i j hi' hj' (by omega)
  · have : i = j := by omega
    subst this; rfl

theorem live_sorted {c : Dev D} {s : SDev D} (h : Rel c s) (id : Nat) (b : Int) :
    (c.live id b).Pairwise (fun x y => x.1 < y.1 ∧ x.2.1 ≤ y.2.1) :=
  (devRecs_sorted h.consec).sublist List.filter_sublist

/-- The in-memory part of a truncation inside the store. -/
theorem cut_inside {c : Dev D} {s : SDev D} (h : Rel c s) {id : Nat} {t : SStore D} {st : Store}
    (ht : s.stores id = some t) (hs : c.stores id = some st) (hfl : t.flushed = t.log.length) {upto : Int}
    (h1 : t.start ≤ upto) (h2 : upto ≤ t.last) :
    ∃ r, st.recs upto = some r ∧
      StoreOK c id { t with start := upto + 1 }
        { start := upto + 1, next := st.next, tail := st.tail, trunc := r.trunc,
          recs := fun l => if l ≤ upto then none else st.recs l } := by
  have hok := h.store id t st ht hs
  have hb := hok.base_le
  have hlast : t.last = t.base + t.flushed - 1 := by unfold SStore.last; rw [hfl]
  obtain ⟨x, hx, hxl, _⟩ := hok.live_get (l := upto) (by omega) (by omega)
  have hrec := hok.recs x hx (by omega)
  rw [hxl] at hrec
  refine ⟨_, hrec, ?_⟩
  have hxd := (mem_live.1 hx).1
  obtain ⟨g, hg, hxg⟩ := mem_devRecs hxd
  have hxr := mem_recsFrom hxg
  have hgr := devRecs_range h.consec hxd
  refine {
    base_le := by show t.base ≤ upto + 1; omega
    start_le := by show upto + 1 ≤ t.base + (t.flushed : Int); omega
    flushed_le := hok.flushed_le
    start := rfl
    next := hok.next
    tail := hok.tail
    first := hok.first
    live := hok.live
    pend := hok.pend
    recs := ?_
    recs_lo := ?_
    recs_hi := ?_
    recs_pend := ?_
    trunc := ⟨rfl, by show x.2.1 ≤ _; omega, Or.inr ⟨g, hg, by show g.start = x.2.1; omega⟩⟩
    trunc_le := ?_ }
  · intro y hy hys
    have hys' : upto + 1 ≤ y.2.2.seq := hys
    show (if y.2.2.seq ≤ upto then none else st.recs y.2.2.seq) = _
    rw [if_neg (by omega)]
    exact hok.recs y hy (by omega)
  · intro l hl
    have hl' : l < upto + 1 := hl
    show (if l ≤ upto then none else st.recs l) = _
    rw [if_pos (by omega)]
  · intro l hl
    show (if l ≤ upto then none else st.recs l) = _
    by_cases e : l ≤ upto
    · rw [if_pos e]
    · rw [if_neg e]; exact hok.recs_hi l hl
  · intro l hl1 hl2
    have hl1' : t.base + (t.flushed : Int) ≤ l := hl1
    show (if l ≤ upto then none else st.recs l) = _
    rw [if_neg (by omega)]
    exact hok.recs_pend l hl1 hl2
  · intro y hy hys
    have hys' : upto + 1 ≤ y.2.2.seq := hys
    exact ((live_order hok.live (live_sorted h id t.base) hx hy).1 (by omega)).2

theorem truncateDev_first {c : Dev D} {id : Nat} {st : Store} (f : Nat → Option Int) (hid : id ∈ c.ids)
    (hs : c.stores id = some st) (hf : ∀ i, i ≠ id → f i = c.first i) :
    ({ c with first := f } : Dev D).truncateDev = c.truncateDev := by
  have h1 : ({ c with first := f } : Dev D).firsts = c.firsts := by
    funext i
    by_cases e : i = id
    · subst e; simp [Dev.firsts, hs, hid]
    · simp only [Dev.firsts, hf i e]
  have h2 : ({ c with first := f } : Dev D).safeKey = c.safeKey := rfl
  unfold Dev.truncateDev
  rw [h1, h2]

/-- A store that was truncated beyond its end. -/
def Store.resynced (s : Store) (upto : Int) : Store :=
  { start := upto + 1, next := upto + 1, tail := upto, trunc := s.trunc, recs := fun _ => none }

theorem resync_ok {c1 : Dev D} {s1 : SDev D} (hrel1 : Rel c1 s1) {id : Nat} {t : SStore D} {st : Store}
    (ht : s1.stores id = some t) (hs : c1.stores id = some st) (hfl : t.flushed = t.log.length)
    (hpend1 : c1.pending = []) {upto : Int} (hin : t.last < upto) :
    Rel ({ c1.setStore id (st.resynced upto) with first := fun i => if i = id then some (upto + 1) else c1.first i })
      (s1.set id { base := upto + 1, start := upto + 1, log := [], flushed := 0 }) := by
  have hok := hrel1.store id t st ht hs
  have hlast : t.last = t.base + t.log.length - 1 := rfl
  have hlive : c1.live id (upto + 1) = [] := by
    rw [live_mono c1 id (b := t.base) (by have h1 := hok.base_le; omega), List.filter_eq_nil_iff]
    intro x hx
    have h1 := hok.live_range hx
    rw [hfl] at h1
    simp; omega
  exact hrel1.setStore' (t := { base := upto + 1, start := upto + 1, log := [], flushed := 0 })
      (st := st.resynced upto)
      (id := id) (by simp [hs]) {
        base_le := Int.le_refl _
        start_le := by simp
        flushed_le := Nat.le_refl _
        start := rfl
        next := by simp [Store.resynced]
        tail := by simp [Store.resynced]
        first := by simp
        live := by show (c1.live id (upto + 1)).map xkey = _; rw [hlive]; rfl
        pend := by show c1.pendOf id = _; rw [Dev.pendOf, hpend1]; rfl
        recs := by
          intro x hx
          have : x ∈ c1.live id (upto + 1) := hx
          rw [hlive] at this; simp at this
        recs_lo := fun _ _ => rfl
        recs_hi := fun _ _ => rfl
        recs_pend := by intro l h1 h2; simp at h1 h2; omega
        trunc := hok.trunc.congr rfl rfl rfl
        trunc_le := by
          intro x hx
          have : x ∈ c1.live id (upto + 1) := hx
          rw [hlive] at this; simp at this }

theorem step_truncate {c : Dev D} {s : SDev D} (h : Rel c s) {id : Nat} {t : SStore D} (ht : s.stores id = some t)
    {upto : Int} {inMem : Bool} (hlegal : inMem = true → upto ≤ t.last)
    (hsafe : inMem = false → ∀ c', c.truncate id upto true = .ok (c', true) → c'.NoClash) :
    ∃ c', c.step (.truncate id upto inMem) = .ok (c', (s.step (.truncate id upto inMem)).2) ∧
      Rel c' (s.step (.truncate id upto inMem)).1 := by
  obtain ⟨st0, hs0, hok0⟩ := h.get ht
  by_cases hlo : upto < t.start
  · refine ⟨c, ?_, ?_⟩
    · simp only [Dev.step, Dev.truncate, hs0, hok0.start, SDev.step, ht, if_pos hlo]; rfl
    · simp only [SDev.step, ht, if_pos hlo]; exact h
  · obtain ⟨c1, hc1, hrel1, hpend1⟩ := step_flush h
    have ht1 := flush_get h ht
    obtain ⟨st, hs, hok⟩ := hrel1.get ht1
    have htail : st.tail = t.last := by rw [hok.tail]; rfl
    have hlast1 : ({ t with flushed := t.log.length } : SStore D).last = t.last := rfl
    by_cases hin : upto ≤ t.last
    · obtain ⟨r, hr, hok2⟩ := cut_inside hrel1 ht1 hs rfl (by show t.start ≤ upto; omega) hin
      have hcut : ({ t with flushed := t.log.length } : SStore D).cut upto =
          { t with flushed := t.log.length, start := upto + 1 } := by
        unfold SStore.cut; rw [if_neg (by rw [hlast1]; omega)]
      have hrel2 := hrel1.setStore (by simp [hs]) hok2
      have hcode : ∀ b, c.truncate id upto b = .ok (if b then c1.setStore id
          { start := upto + 1, next := st.next, tail := st.tail, trunc := r.trunc,
            recs := fun l => if l ≤ upto then none else st.recs l } else (c1.setStore id
          { start := upto + 1, next := st.next, tail := st.tail, trunc := r.trunc,
            recs := fun l => if l ≤ upto then none else st.recs l }).truncateDev, true) := by
        intro b
        simp only [Dev.truncate, hs0, hok0.start, if_neg hlo, hc1, hs]
        rw [if_neg (by omega), hr]
      have hspec : s.step (.truncate id upto inMem) =
          (if inMem then s.flush.set id { t with flushed := t.log.length, start := upto + 1 }
           else (s.flush.set id { t with flushed := t.log.length, start := upto + 1 }).truncateDev, .bool true) := by
        simp only [SDev.step, ht, if_neg hlo, ht1, hcut]
      rw [hspec]
      refine ⟨_, by simp only [Dev.step, hcode]; first | done | rfl, ?_⟩
      cases inMem with
      | true => exact hrel2
      | false =>
        have hcl := hsafe rfl _ (by rw [hcode true]; first | done | rfl)
        exact step_truncateDev hrel2 hcl
    · -- beyond the end: the store starts afresh
      cases inMem with
      | true => exact absurd (hlegal rfl) hin
      | false =>
        have hcut : ({ t with flushed := t.log.length } : SStore D).cut upto =
            { base := upto + 1, start := upto + 1, log := [], flushed := 0 } := by
          unfold SStore.cut; rw [if_pos (by rw [hlast1]; omega)]
        have hmax : max st.next (upto + 1) = upto + 1 := by
          rw [hok.next]; show max (t.base + (t.log.length : Int)) (upto + 1) = _
          have : t.last = t.base + t.log.length - 1 := rfl
          omega
        have hcode : ∀ b, c.truncate id upto b = .ok (if b then c1.setStore id (st.resynced upto)
            else (c1.setStore id (st.resynced upto)).truncateDev, true) := by
          intro b
          simp only [Dev.truncate, hs0, hok0.start, if_neg hlo, hc1, hs]
          rw [if_pos (by omega)]
          simp only [Store.setRec, hmax]
          have hrecs : (fun l => if l ≤ upto then none else if l = upto then some (⟨{}, {}, true⟩ : SRec)
              else st.recs l) = fun _ => none := by
            funext l
            by_cases e : l ≤ upto
            · rw [if_pos e]
            · rw [if_neg e, if_neg (by omega)]
              apply hok.recs_hi
              show t.base + (t.log.length : Int) ≤ l
              have : t.last = t.base + t.log.length - 1 := rfl
              omega
          rw [hrecs]
          rfl
        have hspec : s.step (.truncate id upto false) =
            ((s.flush.set id { base := upto + 1, start := upto + 1, log := [], flushed := 0 }).truncateDev,
              .bool true) := by
          simp only [SDev.step, ht, if_neg hlo, ht1, hcut]; rfl
        rw [hspec]
        refine ⟨_, by simp only [Dev.step, hcode]; first | done | rfl, ?_⟩
        have hcl := hsafe rfl _ (by rw [hcode true]; first | done | rfl)
        simp only [Bool.false_eq_true, if_false]
        have hid : id ∈ (c1.setStore id (st.resynced upto)).ids := hrel1.ids id (by simp [hs])
        rw [← truncateDev_first (st := st.resynced upto) (fun i => if i = id then some (upto + 1) else c1.first i) hid
          (by simp [Dev.setStore])
          (fun i hi => by simp [hi, Dev.setStore])]
        have hrel2 := resync_ok hrel1 ht1 hs rfl hpend1 (upto := upto) (by show t.last < upto; omega)
        exact step_truncateDev hrel2 hcl

/-! ## Rollback -/

theorem filter_le_entries {L : List (Nat × Nat × LRec D)} {b : Int} {l : List D} (to : Int)
    (h : L.map xkey = entries b l) (hb : b - 1 ≤ to) :
    L.filter (fun x => decide (x.2.2.seq ≤ to)) = L.take (to + 1 - b).toNat := by
  induction L generalizing b l with
  | nil => simp
  | cons x L ih =>
    cases l with
    | nil => simp at h
    | cons d l =>
      simp only [List.map_cons, entries_cons, List.cons.injEq] at h
      obtain ⟨h1, h2⟩ := h
      have hseq : x.2.2.seq = b := by have := congrArg Prod.fst h1; simpa using this
      by_cases hs : b ≤ to
      · have e : (to + 1 - b).toNat = (to + 1 - (b + 1)).toNat + 1 := by omega
        rw [List.filter_cons_of_pos (by simp [hseq]; omega), e, List.take_succ_cons, ih h2 (by omega)]
      · have e : (to + 1 - b).toNat = 0 := by omega
        rw [e, List.take_zero, List.filter_eq_nil_iff]
        intro y hy
        simp only [decide_eq_true_eq]
        rcases List.mem_cons.1 hy with rfl | hy
        · omega
        · have : xkey y ∈ entries (b + 1) l := by rw [← h2]; exact List.mem_map_of_mem hy
          have := (mem_entries_range this).1
          simp only [xkey] at this
          omega

theorem rollbackNow_ok {c : Dev D} {s : SDev D} (h : Rel c s) {id : Nat} {t : SStore D} {st : Store}
    (ht : s.stores id = some t) (hs : c.stores id = some st) (hfl : t.flushed = t.log.length) {to : Int}
    (h1 : t.start - 1 ≤ to) (h2 : to < t.last) :
    ∃ c', c.rollbackNow id st to = .ok (c', true) ∧ Rel c' (s.set id (t.keep to)) := by
  have hok := h.store id t st ht hs
  have hb := hok.base_le
  have hlast : t.last = t.base + t.flushed - 1 := by unfold SStore.last; rw [hfl]
  have htail : st.tail = t.last := by rw [hok.tail, hlast]
  obtain ⟨x, hx, hxl, _⟩ := hok.live_get (l := to + 1) (by omega) (by omega)
  obtain ⟨y, hy, hyl, _⟩ := hok.live_get (l := t.last) (by omega) (by omega)
  have hrx := hok.recs x hx (by omega)
  have hry := hok.recs y hy (by omega)
  rw [hxl] at hrx
  rw [hyl] at hry
  have hpend : c.pendOf id = [] := by rw [hok.pend, hfl]; simp
  refine ⟨_, by unfold Dev.rollbackNow; rw [hrx, htail, hry], ?_⟩
  generalize hm : (to + 1 - t.base).toNat = m at *
  have hkeep : t.keep to = { t with log := t.log.take m, flushed := m } := by unfold SStore.keep; rw [hm]
  rw [hkeep]
  have hmlt : m < t.flushed := by omega
  -- the records that are still found
  have hother : ∀ i, i ≠ id → ∀ b, (devRecs c.groups).filter (foundBy (c.rolls ++ [⟨id, (x.1 : Int), (y.1 : Int)⟩]) i b) =
      c.live i b := by
    intro i hi b
    rw [Dev.live]
    apply List.filter_congr
    intro z _
    have : rolledBack (c.rolls ++ [⟨id, (x.1 : Int), (y.1 : Int)⟩]) i z.1 = rolledBack c.rolls i z.1 := by
      simp [rolledBack, List.any_append, Ne.symm hi]
    simp only [foundBy, this]
  have hself : (devRecs c.groups).filter (foundBy (c.rolls ++ [⟨id, (x.1 : Int), (y.1 : Int)⟩]) id t.base) =
      (c.live id t.base).filter (fun z => decide (z.2.2.seq ≤ to)) := by
    rw [Dev.live, List.filter_filter]
    apply List.filter_congr
    intro z hz
    by_cases hfb : foundBy c.rolls id t.base z = true
    · have hzl : z ∈ c.live id t.base := List.mem_filter.2 ⟨hz, hfb⟩
      have hzx := live_order hok.live (live_sorted h id t.base) hzl hx
      have hxz := live_order hok.live (live_sorted h id t.base) hx hzl
      have hzy := live_order hok.live (live_sorted h id t.base) hzl hy
      have hzr := hok.live_range hzl
      rw [hfb, Bool.and_true]
      have hiff : (x.1 ≤ z.1 ∧ z.1 ≤ y.1) ↔ ¬ z.2.2.seq ≤ to := by
        constructor
        · rintro ⟨ha, _⟩ hle
          have := (hzx.1 (by omega)).1
          omega
        · intro hgt
          constructor
          · by_cases e : x.2.2.seq = z.2.2.seq
            · exact Nat.le_of_eq (by rw [hxz.2 e])
            · have := (hxz.1 (by omega)).1; omega
          · by_cases e : z.2.2.seq = y.2.2.seq
            · exact Nat.le_of_eq (by rw [hzy.2 e])
            · have := (hzy.1 (by omega)).1; omega
      have hfb' := hfb
      simp only [foundBy, Bool.and_eq_true, beq_iff_eq, Bool.not_eq_true', decide_eq_true_eq] at hfb'
      have hroll : rolledBack (c.rolls ++ [⟨id, (x.1 : Int), (y.1 : Int)⟩]) id z.1 =
          !decide (z.2.2.seq ≤ to) := by
        rw [rolledBack, List.any_append]
        have h0 : (c.rolls.any fun r => decide (r.store = id) && decide (r.lo ≤ (z.1 : Int)) &&
            decide ((z.1 : Int) ≤ r.hi)) = false := hfb'.1.2
        rw [h0]
        simp only [List.any_cons, List.any_nil, Bool.or_false, Bool.false_or, decide_true, Bool.true_and]
        rw [Bool.eq_iff_iff]
        simp only [Bool.and_eq_true, decide_eq_true_eq, Bool.not_eq_true', decide_eq_false_iff_not]
        rw [← hiff]
        omega
      simp [foundBy, hroll, hfb'.1.1, hfb'.2]
    · have hfb' : foundBy c.rolls id t.base z = false := by simpa using hfb
      rw [hfb', Bool.and_false]
      rw [Bool.eq_false_iff]
      intro hc
      simp only [foundBy, Bool.and_eq_true, beq_iff_eq, Bool.not_eq_true', decide_eq_true_eq] at hc
      have hc2 : rolledBack c.rolls id z.1 = false := by
        have := hc.1.2
        rw [rolledBack, List.any_append, Bool.or_eq_false_iff] at this
        exact this.1
      simp [foundBy, hc.1.1, hc2, hc.2] at hfb'
  have hfront := filter_le_entries to hok.live (by omega)
  rw [hm] at hfront
  have hsub : ∀ z ∈ (c.live id t.base).filter (fun z => decide (z.2.2.seq ≤ to)), z ∈ c.live id t.base ∧ z.2.2.seq ≤ to := by
    intro z hz
    have := List.mem_filter.1 hz
    exact ⟨this.1, by simpa using this.2⟩
  have hokNew : StoreOK { c with rolls := c.rolls ++ [⟨id, (x.1 : Int), (y.1 : Int)⟩] } id
      { t with log := t.log.take m, flushed := m }
      { st with next := to + 1, tail := to, recs := fun l => if to < l then none else st.recs l } := by
    refine {
      base_le := hb
      start_le := by show t.start ≤ t.base + (m : Int); omega
      flushed_le := by show m ≤ (t.log.take m).length; rw [List.length_take]; omega
      start := hok.start
      next := by show to + 1 = t.base + ((t.log.take m).length : Int); rw [List.length_take]; omega
      tail := by show to = t.base + (m : Int) - 1; omega
      first := hok.first
      live := ?_
      pend := ?_
      recs := ?_
      recs_lo := ?_
      recs_hi := ?_
      recs_pend := ?_
      trunc := hok.trunc.congr rfl rfl rfl
      trunc_le := ?_ }
    · show ((devRecs c.groups).filter (foundBy _ id t.base)).map xkey = entries t.base ((t.log.take m).take m)
      rw [hself, hfront, List.map_take, hok.live]
      have e1 : t.log.take t.flushed = t.log.take m ++ (t.log.drop m).take (t.flushed - m) := by
        rw [← List.take_add]; congr 1; omega
      rw [e1, entries_append, List.take_left' (by rw [entries_length, List.length_take]; omega), List.take_take,
        Nat.min_self]
    · show c.pendOf id = entries _ ((t.log.take m).drop m)
      rw [hpend]
      have : (t.log.take m).drop m = [] := List.drop_eq_nil_of_le (by rw [List.length_take]; omega)
      rw [this]; rfl
    · intro z hz hzs
      have hz' : z ∈ (devRecs c.groups).filter (foundBy (c.rolls ++ [⟨id, (x.1 : Int), (y.1 : Int)⟩]) id t.base) := hz
      rw [hself] at hz'
      have := hsub z hz'
      show (if to < z.2.2.seq then none else st.recs z.2.2.seq) = _
      rw [if_neg (by omega)]
      exact hok.recs z this.1 hzs
    · intro l hl
      show (if to < l then none else st.recs l) = _
      by_cases e : to < l
      · rw [if_pos e]
      · rw [if_neg e]; exact hok.recs_lo l hl
    · intro l hl
      have hl' : t.base + ((t.log.take m).length : Int) ≤ l := hl
      rw [List.length_take] at hl'
      show (if to < l then none else st.recs l) = _
      rw [if_pos (by omega)]
    · intro l hl1 hl2
      have hl1' : t.base + (m : Int) ≤ l := hl1
      have hl2' : l < t.base + ((t.log.take m).length : Int) := hl2
      rw [List.length_take] at hl2'
      omega
    · intro z hz hzs
      have hz' : z ∈ (devRecs c.groups).filter (foundBy (c.rolls ++ [⟨id, (x.1 : Int), (y.1 : Int)⟩]) id t.base) := hz
      rw [hself] at hz'
      exact hok.trunc_le z (hsub z hz').1 hzs
  constructor
  · exact h.consec
  · exact h.startIdx
  · exact h.nonempty
  · exact h.lastTrunc
  · exact h.lastFlush.congr rfl rfl rfl
  · intro r hr
    rcases List.mem_append.1 hr with hr | hr
    · exact h.rolls r hr
    · simp at hr
      subst hr
      have := devRecs_range h.consec (mem_live.1 hy).1
      show (y.1 : Int) < (c.flushIdx : Int)
      omega
  · intro i hi
    by_cases e : i = id
    · subst e; exact h.ids i (by simp [hs])
    · simp only [Dev.setStore, if_neg e] at hi; exact h.ids i hi
  · intro i hi
    have hf := h.fresh i hi
    have e : i ≠ id := by rintro rfl; rw [hf.1] at hs; cases hs
    simp only [Dev.setStore, if_neg e]; exact hf
  · intro mk i hi
    have hg := h.garb mk i hi
    have e : i ≠ id := by rintro rfl; rw [hg.1] at hs; cases hs
    simp only [Dev.setStore, if_neg e]; exact hg
  · exact h.garbNodup
  · intro r hr
    have := h.pendOpen r hr
    by_cases e : r.store = id
    · simp [Dev.setStore, e]
    · simpa [Dev.setStore, if_neg e] using this
  · exact h.pend
  · intro i
    by_cases e : i = id
    · simp [Dev.setStore, SDev.set, e]
    · simp only [Dev.setStore, SDev.set, if_neg e]; exact h.noneIff i
  · intro i t' st' ht' hs'
    by_cases e : i = id
    · subst e
      simp only [Dev.setStore, SDev.set, if_pos] at ht' hs'
      cases ht'; cases hs'
      exact hokNew.congr rfl rfl rfl rfl rfl rfl
    · simp only [Dev.setStore, SDev.set, if_neg e] at ht' hs'
      have hoki := h.store i t' st' ht' hs'
      have hl : ∀ b, (devRecs c.groups).filter (foundBy (c.rolls ++ [⟨id, (x.1 : Int), (y.1 : Int)⟩]) i b) = c.live i b :=
        hother i e
      exact { hoki with
        live := by
          show ((devRecs c.groups).filter (foundBy _ i t'.base)).map xkey = _
          rw [hl]; exact hoki.live
        recs := by
          intro z hz
          have hz' : z ∈ (devRecs c.groups).filter (foundBy (c.rolls ++ [⟨id, (x.1 : Int), (y.1 : Int)⟩]) i t'.base) := hz
          rw [hl] at hz'; exact hoki.recs z hz'
        trunc := hoki.trunc.congr rfl rfl rfl
        trunc_le := by
          intro z hz
          have hz' : z ∈ (devRecs c.groups).filter (foundBy (c.rolls ++ [⟨id, (x.1 : Int), (y.1 : Int)⟩]) i t'.base) := hz
          rw [hl] at hz'; exact hoki.trunc_le z hz' }

theorem keep_flushed (t : SStore D) (n : Nat) (to : Int) : ({ t with flushed := n } : SStore D).keep to = t.keep to := rfl

theorem not_pend {c : Dev D} {s : SDev D} (h : Rel c s) {id : Nat} {t : SStore D} (ht : s.stores id = some t) :
    id ∉ s.pend ↔ t.flushed = t.log.length := by
  obtain ⟨st, hs, hok⟩ := h.get ht
  have h1 := congrArg List.length hok.pend
  rw [Dev.pendOf, List.length_map, entries_length, List.length_drop] at h1
  have h2 := hok.flushed_le
  have h3 : id ∈ s.pend ↔ 0 < (c.pending.filter (fun r => r.store == id)).length := by
    rw [h.pend, List.length_pos_iff_exists_mem]
    simp [List.mem_map, List.mem_filter]
  rw [h3, h1]
  omega

theorem step_rollback {c : Dev D} {s : SDev D} (h : Rel c s) {id : Nat} {t : SStore D} (ht : s.stores id = some t)
    {to : Int} (hlegal : id ∈ s.pend → to < t.lastFlushed) :
    ∃ c', c.step (.rollback id to) = .ok (c', (s.step (.rollback id to)).2) ∧ Rel c' (s.step (.rollback id to)).1 := by
  obtain ⟨st, hs, hok⟩ := h.get ht
  have htail : st.tail = t.lastFlushed := hok.tail
  have hfl := hok.flushed_le
  by_cases h0 : to = t.lastFlushed
  · refine ⟨c, ?_, ?_⟩
    · simp only [Dev.step, Dev.rollback, hs, SDev.step, ht, htail, if_pos h0]; rfl
    · simp only [SDev.step, ht, if_pos h0]; exact h
  · by_cases h1 : t.lastFlushed < to ∨ to < t.start - 1
    · refine ⟨c, ?_, ?_⟩
      · simp only [Dev.step, Dev.rollback, hs, SDev.step, ht, htail, hok.start, if_neg h0, if_pos h1]; rfl
      · simp only [SDev.step, ht, if_neg h0, if_pos h1]; exact h
    · by_cases h2 : t.flushed < t.log.length
      · obtain ⟨c1, hc1, hrel1, hpend1⟩ := step_flush h
        have ht1 := flush_get h ht
        obtain ⟨st1, hs1, hok1⟩ := hrel1.get ht1
        have hlast : t.lastFlushed ≤ t.last := by unfold SStore.lastFlushed SStore.last; omega
        obtain ⟨c2, hc2, hrel2⟩ := rollbackNow_ok hrel1 ht1 hs1 rfl (to := to) (by show t.start - 1 ≤ to; omega)
          (by show to < t.last; omega)
        have hn1 : ¬ st1.tail + 1 < st1.next := by rw [hok1.tail, hok1.next]; simp
        have hn : st.tail + 1 < st.next := by rw [hok.tail, hok.next]; omega
        refine ⟨c2, ?_, ?_⟩
        · simp only [Dev.step, Dev.rollback, hs, SDev.step, ht]
          rw [if_neg (by omega), if_neg (by rw [htail, hok.start]; exact h1), if_pos hn, hc1]
          simp only [hs1]
          rw [if_neg hn1, hc2, if_neg h0, if_neg h1]
          rfl
        · simp only [SDev.step, ht, if_neg h0, if_neg h1, if_pos h2]
          exact hrel2
      · have he : t.flushed = t.log.length := by omega
        have hlast : t.lastFlushed = t.last := by unfold SStore.lastFlushed SStore.last; rw [he]
        obtain ⟨c2, hc2, hrel2⟩ := rollbackNow_ok h ht hs he (to := to) (by omega) (by omega)
        have hn : ¬ st.tail + 1 < st.next := by rw [hok.tail, hok.next]; omega
        refine ⟨c2, ?_, ?_⟩
        · simp only [Dev.step, Dev.rollback, hs, SDev.step, ht]
          rw [if_neg (by omega), if_neg (by rw [htail, hok.start]; exact h1), if_neg hn, hc2, if_neg h0, if_neg h1]
          rfl
        · simp only [SDev.step, ht, if_neg h0, if_neg h1, if_neg h2]
          exact hrel2

/-! ## Removing a store -/

theorem step_remove {c : Dev D} {s : SDev D} (h : Rel c s) {id : Nat} (hp : id ∉ s.pend) :
    ∃ c', c.step (.remove id) = .ok (c', (s.step (.remove id)).2) ∧ Rel c' (s.step (.remove id)).1 := by
  cases ht : s.stores id with
  | none =>
    have hs := (h.noneIff id).2 ht
    refine ⟨c, ?_, ?_⟩
    · simp only [Dev.step, Dev.remove, hs, SDev.step, ht]
    · simp only [SDev.step, ht]; exact h
  | some t =>
    obtain ⟨st, hs, hok⟩ := h.get ht
    refine ⟨_, by simp only [Dev.step, Dev.remove, hs, SDev.step, ht]; rfl, ?_⟩
    simp only [SDev.step, ht]
    constructor
    · exact h.consec
    · exact h.startIdx
    · exact h.nonempty
    · exact h.lastTrunc
    · exact h.lastFlush.congr rfl rfl rfl
    · exact h.rolls
    · intro i hi
      by_cases e : i = id
      · simp [e] at hi
      · simp only [if_neg e] at hi
        exact List.mem_filter.2 ⟨h.ids i hi, by simpa using e⟩
    · intro i hi
      have hf := h.fresh i hi
      refine ⟨?_, hf.2⟩
      by_cases e : i = id
      · simp [e]
      · simp only [if_neg e]; exact hf.1
    · intro m i hi
      rcases List.mem_append.1 hi with hi | hi
      · have hg := h.garb m i hi
        refine ⟨?_, hg.2⟩
        by_cases e : i = id
        · simp [e]
        · simp only [if_neg e]; exact hg.1
      · simp only [List.mem_singleton, Prod.mk.injEq] at hi
        obtain ⟨rfl, rfl⟩ := hi
        refine ⟨by simp, by show c.first i ≠ none; rw [hok.first]; simp, ?_⟩
        intro x hx _
        have := devRecs_range h.consec hx
        omega
    · show ((c.garbage ++ [_]).map Prod.snd).Nodup
      rw [List.map_append, List.nodup_append]
      refine ⟨h.garbNodup, by simp, ?_⟩
      intro a ha b hb
      simp at hb
      subst hb
      rintro rfl
      obtain ⟨⟨m, i⟩, hm, he⟩ := List.mem_map.1 ha
      simp only at he
      subst he
      rw [(h.garb m i hm).1] at hs
      cases hs
    · intro r hr
      have := h.pendOpen r hr
      have e : r.store ≠ id := by
        rintro rfl
        exact hp (by rw [h.pend]; exact List.mem_map_of_mem hr)
      simpa [if_neg e] using this
    · exact h.pend
    · intro i
      by_cases e : i = id
      · simp [e]
      · simp only [if_neg e]; exact h.noneIff i
    · intro i t' st' ht' hs'
      by_cases e : i = id
      · simp [e] at ht'
      · simp only [if_neg e] at ht' hs'
        exact (h.store i t' st' ht' hs').congr rfl rfl rfl rfl rfl rfl

/-! ## Crash and restart -/

/-- A crash with a group of `k` records on the device is a flush of that group and a crash. -/
theorem restart_flushK {c c1 : Dev D} {k : Nat} (h : c.flushK k = .ok c1) (opened unopened : List Nat) :
    c.restart opened unopened k = c1.restart opened unopened 0 := by
  unfold Dev.flushK at h
  by_cases hP : c.pending.take k = []
  · rw [if_pos hP] at h
    cases h
    simp [Dev.restart, hP]
  · rw [if_neg hP] at h
    cases hc : completeAll c.flushIdx c.stores c.flushIdx (c.pending.take k) with
    | error e => rw [hc] at h; cases h
    | ok st =>
      rw [hc] at h
      cases h
      simp only [Dev.restart, if_neg hP, List.take_zero, if_true]

theorem restart_ok {c : Dev D} {s : SDev D} (h : Rel c s) {opened unopened : List Nat}
    (hopen : ∀ id ∈ opened, (s.stores id).isSome) (hnd : unopened.Nodup) :
    ∃ c' out, c.restart opened unopened 0 = .ok (c', out) ∧
      Rel c' { stores := fun id => if id ∈ opened then (s.stores id).map SStore.crash else none, pend := [] } ∧
      ∀ id ∈ opened, out id = match s.stores id with
        | none => []
        | some t => entries t.base (t.log.take t.flushed) := by
  have hidx : loadIdx true c.start.idx.toNat c.groups = .ok c.flushIdx := by
    have : c.start.idx.toNat = c.start.grp := by have := h.startIdx; omega
    rw [this]; exact loadIdx_consec true h.consec
  have hst0 : ∀ id s0, (if id ∈ opened then (c.first id).map Store.new else none) = some s0 →
      ∃ t, s.stores id = some t ∧ s0 = Store.new t.base ∧ id ∈ opened := by
    intro id s0 hs0
    by_cases hid : id ∈ opened
    · rw [if_pos hid] at hs0
      obtain ⟨t, ht⟩ := Option.isSome_iff_exists.1 (hopen id hid)
      obtain ⟨st, hs, hok⟩ := h.get ht
      rw [hok.first] at hs0
      cases hs0
      exact ⟨t, ht, rfl, hid⟩
    · rw [if_neg hid] at hs0; cases hs0
  obtain ⟨out, hload, hout⟩ := loadAll_inorder c.rolls (devRecs c.groups)
    (fun id => if id ∈ opened then (c.first id).map Store.new else none) (fun _ => []) (by
      intro id s0 hs0
      obtain ⟨t, ht, rfl, _⟩ := hst0 id s0 hs0
      obtain ⟨st, hs, hok⟩ := h.get ht
      refine ⟨t.log.take t.flushed, ?_⟩
      have := hok.live
      rw [Dev.live] at this
      show ((devRecs c.groups).filter (foundBy c.rolls id t.base)).map xkey = entries (t.base - 1 + 1) _
      rw [this]; congr 1; omega)
  have hst0' : ∀ id t, id ∈ opened → s.stores id = some t →
      (if id ∈ opened then (c.first id).map Store.new else none) = some (Store.new t.base) := by
    intro id t hid ht
    obtain ⟨st, hs, hok⟩ := h.get ht
    rw [if_pos hid, hok.first]; rfl
  refine ⟨_, out, by simp only [Dev.restart, List.take_zero, if_true, hidx, hload]; rfl, ?_, ?_⟩
  · constructor
    · exact h.consec
    · exact h.startIdx
    · exact h.nonempty
    · show c.start.idx ≤ max (match c.groups with | [] => -1 | g :: _ => (g.start : Int)) 0
      cases hg : c.groups with
      | nil =>
        have h1 := h.nonempty hg
        have h2 := h.startIdx
        simp only []
        omega
      | cons g gs =>
        have h1 := h.consec
        rw [hg] at h1
        have h2 := h1.1
        have h3 := h.startIdx
        simp only []
        omega
    · exact ⟨rfl, Nat.zero_le _, Or.inl (Nat.zero_le _)⟩
    · exact h.rolls
    · intro id hid
      simp only [Option.isSome_map] at hid
      by_cases ho : id ∈ opened
      · rw [if_pos ho, Option.isSome_map] at hid
        exact List.mem_filter.2 ⟨ho, hid⟩
      · rw [if_neg ho] at hid; cases hid
    · intro id hf
      have hf' : c.first id = none := hf
      refine ⟨?_, (h.fresh id hf').2⟩
      by_cases ho : id ∈ opened
      · simp [ho, hf']
      · simp [ho]
    · intro m id hm
      simp only [List.mem_map, List.mem_filter, Bool.and_eq_true, Bool.not_eq_true', decide_eq_false_iff_not,
        Prod.mk.injEq] at hm
      obtain ⟨i, ⟨_, hfi, hno⟩, rfl, rfl⟩ := hm
      refine ⟨by simp [hno], ?_, ?_⟩
      · intro hf
        have hf' : c.first i = none := hf
        rw [hf'] at hfi; cases hfi
      · intro x hx _
        have := devRecs_range h.consec hx
        omega
    · show (List.map Prod.snd (List.map _ _)).Nodup
      rw [List.map_map]
      have : (Prod.snd ∘ fun id : Nat => ((c.flushIdx : Int) - 1, id)) = id := rfl
      rw [this, List.map_id]
      exact hnd.sublist List.filter_sublist
    · intro r hr; simp at hr
    · rfl
    · intro id
      simp only []
      by_cases ho : id ∈ opened
      · obtain ⟨t, ht⟩ := Option.isSome_iff_exists.1 (hopen id ho)
        simp only [hst0' id t ho ht, ht, if_pos ho]
        simp
      · simp [ho]
    · intro id t' st' ht' hs'
      by_cases ho : id ∈ opened
      · obtain ⟨t, ht⟩ := Option.isSome_iff_exists.1 (hopen id ho)
        simp only [hst0' id t ho ht, Option.map_some, Option.some.injEq] at hs'
        simp only [if_pos ho, ht, Option.map_some, Option.some.injEq] at ht'
        subst ht' hs'
        obtain ⟨st, hs, hok⟩ := h.get ht
        have hfl := hok.flushed_le
        have hlive : (devRecs c.groups).filter (foundBy c.rolls id (Store.new t.base).start) = c.live id t.base := rfl
        rw [hlive]
        have hent : (c.live id t.base).map xkey = entries ((Store.new t.base).tail + 1) (t.log.take t.flushed) := by
          rw [hok.live]; congr 1; show t.base = t.base - 1 + 1; omega
        have hlen : (t.log.take t.flushed).length = t.flushed := by rw [List.length_take]; omega
        refine {
          base_le := Int.le_refl _
          start_le := by show t.base ≤ t.base + (t.flushed : Int); omega
          flushed_le := by show t.flushed ≤ (t.log.take t.flushed).length; omega
          start := by rw [Store.after_start]; rfl
          next := ?_
          tail := ?_
          first := hok.first
          live := ?_
          pend := ?_
          recs := ?_
          recs_lo := ?_
          recs_hi := ?_
          recs_pend := ?_
          trunc := by rw [Store.after_trunc]; exact ⟨rfl, Nat.zero_le _, Or.inl (Nat.zero_le _)⟩
          trunc_le := by rw [Store.after_trunc]; intro x _ _; exact Nat.zero_le _ }
        · rw [Store.after_next _ hent (by show t.base - 1 + 1 ≤ t.base; omega), hlen]
          show max t.base (t.base - 1 + 1 + (t.flushed : Int)) = t.base + ((t.log.take t.flushed).length : Int)
          rw [hlen]; omega
        · rw [Store.after_tail _ hent, hlen]
          show t.base - 1 + (t.flushed : Int) = t.base + (t.flushed : Int) - 1
          omega
        · show (c.live id t.base).map xkey = entries t.base ((t.log.take t.flushed).take t.flushed)
          rw [List.take_take, Nat.min_self]; exact hok.live
        · show _ = entries _ ((t.log.take t.flushed).drop t.flushed)
          rw [List.drop_eq_nil_of_le (by omega)]
          rfl
        · intro x hx _
          exact Store.after_recs _ hent hx
        · intro l hl
          rw [Store.after_recs_not]
          · rfl
          · intro x hx e
            have := hok.live_range hx
            have hl' : l < t.base := hl
            omega
        · intro l hl
          rw [Store.after_recs_not]
          · rfl
          · intro x hx e
            have := hok.live_range hx
            have hl' : t.base + ((t.log.take t.flushed).length : Int) ≤ l := hl
            omega
        · intro l hl1 hl2
          have hl1' : t.base + (t.flushed : Int) ≤ l := hl1
          have hl2' : l < t.base + ((t.log.take t.flushed).length : Int) := hl2
          omega
      · simp [ho] at ht'
  · intro id ho
    obtain ⟨t, ht⟩ := Option.isSome_iff_exists.1 (hopen id ho)
    obtain ⟨st, hs, hok⟩ := h.get ht
    rw [hout, hst0' id t ho ht, ht]
    simp only [List.nil_append]
    exact hok.live

theorem step_restart {c : Dev D} {s : SDev D} (h : Rel c s) {opened unopened : List Nat} {k : Nat}
    (hopen : ∀ id ∈ opened, (s.stores id).isSome) (hnd : unopened.Nodup) :
    ∃ c', c.step (.restart opened unopened k) = .ok (c', (s.step (.restart opened unopened k)).2) ∧
      Rel c' (s.step (.restart opened unopened k)).1 := by
  obtain ⟨c1, hc1, hrel1, _⟩ := step_flushK h k
  obtain ⟨c2, out, hc2, hrel2, hout⟩ := restart_ok hrel1 (opened := opened) (unopened := unopened)
    (fun id hid => by simpa [SDev.flushK] using hopen id hid) hnd
  refine ⟨c2, ?_, ?_⟩
  · simp only [Dev.step, restart_flushK hc1, hc2, SDev.step, Except.map]
    congr 3
    exact List.map_congr_left hout
  · exact hrel2

/-! ## Histories -/

theorem step_ok {c : Dev D} {s : SDev D} (h : Rel c s) (o : Op D) (hl : Legal s o) (hs : Safe c o) :
    ∃ c', c.step o = .ok (c', (s.step o).2) ∧ Rel c' (s.step o).1 := by
  cases o with
  | create id =>
    obtain ⟨c', h1, h2⟩ := step_create h id hs
    exact ⟨c', by simp only [Dev.step, h1, Except.map, SDev.step], h2⟩
  | append id d =>
    obtain ⟨t, ht⟩ := Option.isSome_iff_exists.1 hl
    obtain ⟨c', h1, h2⟩ := step_append h ht d
    exact ⟨c', by simp only [Dev.step, h1, Except.map, SDev.step, ht], by simp only [SDev.step, ht]; exact h2⟩
  | flush =>
    obtain ⟨c', h1, h2, _⟩ := step_flush h
    exact ⟨c', by simp only [Dev.step, h1, Except.map, SDev.step], h2⟩
  | flushK k =>
    obtain ⟨c', h1, h2, _⟩ := step_flushK h k
    exact ⟨c', by simp only [Dev.step, h1, Except.map, SDev.step], h2⟩
  | read id lsn => exact step_read h hl lsn
  | truncate id upto inMem =>
    obtain ⟨t, ht, hle⟩ := hl
    exact step_truncate h ht hle (fun hin => by subst hin; exact hs)
  | truncateDev => exact ⟨c.truncateDev, rfl, step_truncateDev h hs⟩
  | rollback id to =>
    obtain ⟨t, ht, hle⟩ := hl
    exact step_rollback h ht hle
  | remove id => exact step_remove h hl
  | restart opened unopened k => exact step_restart h hl hs

theorem exec_ok {c : Dev D} {s : SDev D} (h : Rel c s) (os : List (Op D)) (ha : Allowed c s os) :
    ∃ c', c.exec os = .ok (c', (s.exec os).2) ∧ Rel c' (s.exec os).1 := by
  induction os generalizing c s with
  | nil => exact ⟨c, rfl, h⟩
  | cons o os ih =>
    obtain ⟨hl, hs, hr⟩ := ha
    obtain ⟨c1, h1, h2⟩ := step_ok h o hl hs
    obtain ⟨c2, h3, h4⟩ := ih h2 (hr c1 _ h1)
    exact ⟨c2, by simp only [Dev.exec, h1, h3, SDev.exec], h4⟩

end HS.Log
