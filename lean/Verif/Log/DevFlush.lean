import Verif.Log.DevInv

/-! # Flushing and reading -/

namespace HS.Log

variable {D : Type}

theorem entries_split {b : Int} {l : List D} {A B : List (Int × D)} (h : A ++ B = entries b l) :
    A = entries b (l.take A.length) ∧ B = entries (b + A.length) (l.drop A.length) := by
  have hlen : A.length ≤ l.length := by
    have := congrArg List.length h
    simp at this
    omega
  have h2 : A ++ B = entries b (l.take A.length) ++ entries (b + A.length) (l.drop A.length) := by
    have := entries_append b (l.take A.length) (l.drop A.length)
    rw [List.take_append_drop, List.length_take, Nat.min_eq_left hlen] at this
    rw [h, this]
  exact List.append_inj h2 (by simp [List.length_take]; omega)

theorem rolledBack_new {rolls : List Roll} {f : Nat} (h : ∀ r ∈ rolls, r.hi < f) (id : Nat) {i : Nat} (hi : f ≤ i) :
    rolledBack rolls id i = false := by
  rw [rolledBack, List.any_eq_false]
  intro r hr
  have := h r hr
  simp
  intros
  omega

/-- The first `k` pending records of a store. -/
theorem pend_take {c : Dev D} {s : SDev D} (h : Rel c s) (k id : Nat) :
    ((c.pending.take k).filter (fun r => r.store == id)).length = (s.pend.take k).count id := by
  rw [h.pend, ← List.map_take, List.count, List.countP_map, List.countP_eq_length_filter]
  rfl

theorem step_flushK {c : Dev D} {s : SDev D} (h : Rel c s) (k : Nat) :
    ∃ c', c.flushK k = .ok c' ∧ Rel c' (s.flushK k) ∧ c'.pending = c.pending.drop k := by
  by_cases hP : c.pending.take k = []
  · have hdrop : c.pending.drop k = c.pending := by
      have := List.take_append_drop k c.pending
      rw [hP] at this; simpa using this
    have hs : s.flushK k = s := by
      have h1 : s.pend.take k = [] := by rw [h.pend, ← List.map_take, hP]; rfl
      have h2 : s.pend.drop k = s.pend := by rw [h.pend, ← List.map_drop, hdrop]
      unfold SDev.flushK
      rw [h1, h2]
      cases s
      simp only [List.count_nil, Nat.add_zero, SDev.mk.injEq, and_true]
      funext id
      simp
    refine ⟨c, by unfold Dev.flushK; rw [if_pos hP], by rw [hs]; exact h, hdrop.symm⟩
  · -- the records of one store in the group
    have hsplit : ∀ id t st, s.stores id = some t → c.stores id = some st →
        ((recsFrom c.flushIdx c.flushIdx (c.pending.take k)).filter (fun x => x.2.2.store == id)).map xkey =
          entries (t.base + t.flushed) ((t.log.drop t.flushed).take ((s.pend.take k).count id)) ∧
        ((c.pending.drop k).filter (fun r => r.store == id)).map (fun r => (r.seq, r.data)) =
          entries (t.base + t.flushed + ((s.pend.take k).count id : Nat))
            ((t.log.drop t.flushed).drop ((s.pend.take k).count id)) := by
      intro id t st ht hs
      have hok := h.store id t st ht hs
      have hp := hok.pend
      rw [Dev.pendOf, ← List.take_append_drop k c.pending, List.filter_append, List.map_append] at hp
      have := entries_split hp
      rw [List.length_map, pend_take h] at this
      refine ⟨?_, this.2⟩
      rw [← this.1, ← recsFrom_store c.flushIdx c.flushIdx (c.pending.take k) (fun r => r.store == id), List.map_map]
      rfl
    have hcomp : completeAll c.flushIdx c.stores c.flushIdx (c.pending.take k) = .ok (fun id => (c.stores id).map
        (fun st => st.after ((recsFrom c.flushIdx c.flushIdx (c.pending.take k)).filter (fun x => x.2.2.store == id)))) := by
      apply completeAll_inorder
      · intro r hr
        exact h.pendOpen r (List.mem_of_mem_take hr)
      · intro id st hs
        obtain ⟨t, ht, hok⟩ := h.get' hs
        refine ⟨(t.log.drop t.flushed).take ((s.pend.take k).count id), ?_⟩
        rw [(hsplit id t st ht hs).1]
        congr 1
        rw [hok.tail]; omega
    refine ⟨_, by unfold Dev.flushK; rw [if_neg hP, hcomp], ?_, rfl⟩
    have hlenP : 0 < (c.pending.take k).length := List.length_pos_iff.2 hP
    have hkey : ∀ key : Key, KeyOK c key → ∀ c' : Dev D, c'.groups = c.groups ++ [⟨c.flushIdx, c.pending.take k⟩] →
        c'.flushIdx = c.flushIdx + (c.pending.take k).length → c'.start = c.start → KeyOK c' key := by
      intro key hk c' h1 h2 h3
      refine ⟨hk.idx, by rw [h2]; have := hk.le; omega, ?_⟩
      rw [h3, h1]
      rcases hk.there with ht | ⟨g, hg, hgk⟩
      · exact Or.inl ht
      · exact Or.inr ⟨g, List.mem_append_left _ hg, hgk⟩
    have hdr : devRecs (c.groups ++ [⟨c.flushIdx, c.pending.take k⟩]) =
        devRecs c.groups ++ recsFrom c.flushIdx c.flushIdx (c.pending.take k) := by
      rw [devRecs_append]; simp [devRecs]
    constructor
    · exact h.consec.snoc hP
    · exact h.startIdx
    · intro he; simp at he
    · exact h.lastTrunc
    · refine ⟨rfl, Nat.le_add_right _ _, Or.inr ⟨⟨c.flushIdx, c.pending.take k⟩, by simp, rfl⟩⟩
    · intro r hr
      have := h.rolls r hr
      show r.hi < ((c.flushIdx + (c.pending.take k).length : Nat) : Int)
      omega
    · intro id hid
      apply h.ids
      cases hc : c.stores id with
      | none => simp [hc] at hid
      | some _ => rfl
    · intro id hid
      have hf := h.fresh id hid
      refine ⟨by simp [hf.1], ?_⟩
      show ∀ x ∈ devRecs (c.groups ++ [⟨c.flushIdx, c.pending.take k⟩]), _
      rw [hdr]
      intro x hx
      rcases List.mem_append.1 hx with hx | hx
      · exact hf.2 x hx
      · rintro rfl
        have := (mem_recsFrom hx).2.2.2
        have hmem : x.2.2 ∈ c.pending := List.mem_of_mem_take (List.mem_of_getElem? this)
        have := h.pendOpen _ hmem
        rw [hf.1] at this; cases this
    · intro m id hid
      have hg := h.garb m id hid
      refine ⟨by simp [hg.1], hg.2.1, ?_⟩
      show ∀ x ∈ devRecs (c.groups ++ [⟨c.flushIdx, c.pending.take k⟩]), _
      rw [hdr]
      intro x hx he
      rcases List.mem_append.1 hx with hx | hx
      · exact hg.2.2 x hx he
      · have := (mem_recsFrom hx).2.2.2
        have hmem : x.2.2 ∈ c.pending := List.mem_of_mem_take (List.mem_of_getElem? this)
        have := h.pendOpen _ hmem
        rw [he, hg.1] at this; cases this
    · exact h.garbNodup
    · intro r hr
      have := h.pendOpen r (List.mem_of_mem_drop hr)
      simpa using this
    · show s.pend.drop k = (c.pending.drop k).map _
      rw [h.pend, List.map_drop]
    · intro id
      simp only [SDev.flushK, Option.map_eq_none_iff]
      exact h.noneIff id
    · intro id t' st' ht' hs'
      simp only [SDev.flushK, Option.map_eq_some_iff] at ht' hs'
      obtain ⟨t, ht, rfl⟩ := ht'
      obtain ⟨st, hs, rfl⟩ := hs'
      have hok := h.store id t st ht hs
      obtain ⟨hX, hrest⟩ := hsplit id t st ht hs
      generalize hn : (s.pend.take k).count id = n at *
      have hnle : n ≤ t.log.length - t.flushed := by
        have h1 := congrArg List.length hok.pend
        rw [Dev.pendOf, List.length_map, entries_length, List.length_drop] at h1
        have h2 := pend_take h k id
        rw [hn] at h2
        have h3 : ((c.pending.take k).filter (fun r => r.store == id)).length ≤
            (c.pending.filter (fun r => r.store == id)).length :=
          ((List.take_sublist k c.pending).filter _).length_le
        omega
      have hfl := hok.flushed_le
      have hXlen : ((t.log.drop t.flushed).take n).length = n := by
        rw [List.length_take, List.length_drop]; omega
      have hX' : ((recsFrom c.flushIdx c.flushIdx (c.pending.take k)).filter (fun x => x.2.2.store == id)).map xkey =
          entries (st.tail + 1) ((t.log.drop t.flushed).take n) := by
        rw [hX]; congr 1; rw [hok.tail]; omega
      have hXrange : ∀ x ∈ (recsFrom c.flushIdx c.flushIdx (c.pending.take k)).filter (fun x => x.2.2.store == id),
          t.base + t.flushed ≤ x.2.2.seq ∧ x.2.2.seq < t.base + t.flushed + n := by
        intro x hx
        have : xkey x ∈ entries (t.base + t.flushed) ((t.log.drop t.flushed).take n) := by
          rw [← hX]; exact List.mem_map_of_mem hx
        have := mem_entries_range this
        rw [hXlen] at this
        exact this
      have hlive : (devRecs (c.groups ++ [⟨c.flushIdx, c.pending.take k⟩])).filter (foundBy c.rolls id t.base) =
          c.live id t.base ++
            (recsFrom c.flushIdx c.flushIdx (c.pending.take k)).filter (fun x => x.2.2.store == id) := by
        rw [hdr, List.filter_append, Dev.live]
        congr 1
        apply List.filter_congr
        intro x hx
        by_cases he : x.2.2.store = id
        · have h1 := hXrange x (List.mem_filter.2 ⟨hx, by simpa using he⟩)
          have h2 := rolledBack_new h.rolls id (mem_recsFrom hx).2.1
          simp [foundBy, he, h2]
          omega
        · have : (x.2.2.store == id) = false := by simpa using he
          rw [foundBy, this]; rfl
      have hlog : t.log.take t.flushed ++ (t.log.drop t.flushed).take n = t.log.take (t.flushed + n) := by
        rw [List.take_add]
      refine {
        base_le := hok.base_le
        start_le := ?_
        flushed_le := ?_
        start := by rw [Store.after_start]; exact hok.start
        next := ?_
        tail := ?_
        first := hok.first
        live := ?_
        pend := ?_
        recs := ?_
        recs_lo := ?_
        recs_hi := ?_
        recs_pend := ?_
        trunc := ?_
        trunc_le := ?_ }
      · show t.start ≤ t.base + ((t.flushed + n : Nat) : Int)
        have := hok.start_le; omega
      · show t.flushed + n ≤ t.log.length
        omega
      · rw [Store.after_next st hX' (by rw [hok.tail, hok.next]; omega), hXlen, hok.next, hok.tail]
        show _ = t.base + (t.log.length : Int)
        omega
      · rw [Store.after_tail st hX', hXlen, hok.tail]
        show _ = t.base + ((t.flushed + n : Nat) : Int) - 1
        omega
      · show ((devRecs (c.groups ++ [⟨c.flushIdx, c.pending.take k⟩])).filter (foundBy c.rolls id t.base)).map xkey =
          entries t.base (t.log.take (t.flushed + n))
        rw [hlive, List.map_append, hok.live, hX, ← hlog, entries_append, List.length_take, Nat.min_eq_left hfl]
      · show ((c.pending.drop k).filter _).map _ =
          entries (t.base + ((t.flushed + n : Nat) : Int)) (t.log.drop (t.flushed + n))
        rw [hrest, List.drop_drop]
        congr 1
        omega
      · show ∀ x ∈ (devRecs (c.groups ++ [⟨c.flushIdx, c.pending.take k⟩])).filter (foundBy c.rolls id t.base), _
        rw [hlive]
        intro x hx hxs
        rcases List.mem_append.1 hx with hx | hx
        · rw [Store.after_recs_not]
          · exact hok.recs x hx hxs
          · intro y hy e
            have h1 := hXrange y hy
            have h2 := hok.live_range hx
            omega
        · exact Store.after_recs st hX' hx
      · intro l hl
        rw [Store.after_recs_not]
        · exact hok.recs_lo l hl
        · intro y hy e
          have h1 := hXrange y hy
          have h2 := hok.start_le
          have hl' : l < t.start := hl
          omega
      · intro l hl
        have hl' : t.base + (t.log.length : Int) ≤ l := hl
        rw [Store.after_recs_not]
        · exact hok.recs_hi l hl'
        · intro y hy e
          have h1 := hXrange y hy
          omega
      · intro l hl1 hl2
        have hl1' : t.base + ((t.flushed + n : Nat) : Int) ≤ l := hl1
        rw [Store.after_recs_not]
        · exact hok.recs_pend l (by omega) hl2
        · intro y hy e
          have h1 := hXrange y hy
          omega
      · rw [Store.after_trunc]
        exact hkey _ hok.trunc _ rfl rfl rfl
      · rw [Store.after_trunc]
        show ∀ x ∈ (devRecs (c.groups ++ [⟨c.flushIdx, c.pending.take k⟩])).filter (foundBy c.rolls id t.base), _
        rw [hlive]
        intro x hx hxs
        rcases List.mem_append.1 hx with hx | hx
        · exact hok.trunc_le x hx hxs
        · have h1 := (mem_recsFrom (List.mem_filter.1 hx).1).1
          have := hok.trunc.le
          omega

theorem flushK_flushK (s : SDev D) (k m : Nat) : (s.flushK k).flushK m = s.flushK (k + m) := by
  unfold SDev.flushK
  simp only [SDev.mk.injEq, List.drop_drop, and_true]
  funext id
  simp only [Option.map_map]
  congr 1
  funext t
  simp only [Function.comp, SStore.mk.injEq, true_and]
  rw [List.take_add, List.count_append]
  omega

theorem flushK_ge (s : SDev D) (k : Nat) (h : s.pend.length ≤ k) : s.flushK k = s.flush := by
  unfold SDev.flush SDev.flushK
  simp only [SDev.mk.injEq, List.take_of_length_le h, List.take_length, true_and, List.drop_eq_nil_of_le h,
    List.drop_length]

theorem step_flushN {c : Dev D} (n : Nat) : ∀ {c : Dev D} {s : SDev D}, Rel c s → c.pending.length ≤ n →
    ∃ c', Dev.flushN n c = .ok c' ∧ Rel c' s.flush ∧ c'.pending = [] := by
  induction n with
  | zero =>
    intro c s h hn
    have hp : c.pending = [] := List.length_eq_zero_iff.1 (by omega)
    have : s.flush = s := by
      have h0 : s.pend = [] := by rw [h.pend, hp]; rfl
      unfold SDev.flush SDev.flushK
      cases s
      simp only at h0
      subst h0
      simp
    exact ⟨c, rfl, by rw [this]; exact h, hp⟩
  | succ n ih =>
    intro c s h hn
    simp only [Dev.flushN]
    by_cases hp : c.pending = []
    · rw [if_pos hp]
      have : s.flush = s := by
        have h0 : s.pend = [] := by rw [h.pend, hp]; rfl
        unfold SDev.flush SDev.flushK
        cases s
        simp only at h0
        subst h0
        simp
      exact ⟨c, rfl, by rw [this]; exact h, hp⟩
    · rw [if_neg hp]
      obtain ⟨c1, h1, h2, h3⟩ := step_flushK h maxBatch
      rw [h1]
      simp only []
      have hlen : 0 < c.pending.length := List.length_pos_iff.2 hp
      have hb : 0 < maxBatch := by decide
      obtain ⟨c2, h4, h5, h6⟩ := ih h2 (by rw [h3, List.length_drop]; omega)
      refine ⟨c2, h4, ?_, h6⟩
      have : (s.flushK maxBatch).flush = s.flush := by
        rw [SDev.flush, flushK_flushK]
        apply flushK_ge
        simp only [SDev.flushK, List.length_drop]
        omega
      rw [← this]; exact h5

theorem step_flush {c : Dev D} {s : SDev D} (h : Rel c s) :
    ∃ c', c.flush = .ok c' ∧ Rel c' s.flush ∧ c'.pending = [] :=
  step_flushN (c := c) c.pending.length h (Nat.le_refl _)

/-- After a flush everything is on the device. -/
theorem flush_get {c : Dev D} {s : SDev D} (h : Rel c s) {id : Nat} {t : SStore D} (ht : s.stores id = some t) :
    s.flush.stores id = some { t with flushed := t.log.length } := by
  obtain ⟨st, hs, hok⟩ := h.get ht
  have h1 := congrArg List.length hok.pend
  rw [Dev.pendOf, List.length_map, entries_length, List.length_drop] at h1
  have h2 := pend_take h c.pending.length id
  rw [List.take_length] at h2
  have h3 : s.pend.length = c.pending.length := by rw [h.pend]; simp
  have h4 := hok.flushed_le
  simp only [SDev.flush, SDev.flushK, ht, Option.map_some, h3, ← h2, h1]
  congr 2
  omega

theorem step_read {c : Dev D} {s : SDev D} (h : Rel c s) {id : Nat} (hid : (s.stores id).isSome) (lsn : Int) :
    ∃ c', c.step (.read id lsn) = .ok (c', (s.step (.read id lsn)).2) ∧ Rel c' (s.step (.read id lsn)).1 := by
  obtain ⟨t, ht⟩ := Option.isSome_iff_exists.1 hid
  obtain ⟨st, hs, hok⟩ := h.get ht
  have hfl := hok.flushed_le
  have hb := hok.base_le
  have hsl := hok.start_le
  by_cases hlo : lsn < t.start
  · refine ⟨c, ?_, ?_⟩
    · simp only [Dev.step, Dev.read, hs, hok.recs_lo lsn hlo, SDev.step, ht, SStore.get]
      rw [if_neg (by omega)]; rfl
    · simp only [SDev.step, ht, SStore.get]
      rw [if_neg (by omega)]; exact h
  · by_cases hhi : t.base + t.log.length ≤ lsn
    · have hnone : t.log[(lsn - t.base).toNat]? = none := List.getElem?_eq_none (by omega)
      refine ⟨c, ?_, ?_⟩
      · simp only [Dev.step, Dev.read, hs, hok.recs_hi lsn hhi, SDev.step, ht, SStore.get, hnone]
        rw [if_pos (by omega)]; rfl
      · simp only [SDev.step, ht, SStore.get, hnone]
        rw [if_pos (by omega)]; exact h
    · by_cases hf : lsn < t.base + t.flushed
      · obtain ⟨x, hx, hxl, hxd⟩ := hok.live_get (l := lsn) (by omega) hf
        have hrec := hok.recs x hx (by omega)
        rw [hxl] at hrec
        have hread := readKey_devRecs h.consec (mem_live.1 hx).1
        have hget : t.get lsn = some x.2.2.data := by unfold SStore.get; rw [if_pos (by omega)]; exact hxd
        have hle : lsn ≤ t.lastFlushed := by unfold SStore.lastFlushed; omega
        refine ⟨c, ?_, ?_⟩
        · simp only [Dev.step, Dev.read, hs, hrec, SDev.step, ht, hget, if_pos]
          rw [if_neg (by omega), hread]
          rfl
        · simp only [SDev.step, ht, hget]
          rw [if_pos hle]; exact h
      · have hrec := hok.recs_pend lsn (by omega) (by omega)
        obtain ⟨c1, h1, h2, _⟩ := step_flush h
        have ht1 := flush_get h ht
        obtain ⟨st1, hs1, hok1⟩ := h2.get ht1
        obtain ⟨x, hx, hxl, hxd⟩ := hok1.live_get (l := lsn) (by simp; omega) (by simp; omega)
        have hrec1 := hok1.recs x hx (by show t.start ≤ _; omega)
        rw [hxl] at hrec1
        have hread := readKey_devRecs h2.consec (mem_live.1 hx).1
        simp only at hxd
        have hget : t.get lsn = some x.2.2.data := by unfold SStore.get; rw [if_pos (by omega)]; exact hxd
        have hle : ¬ lsn ≤ t.lastFlushed := by unfold SStore.lastFlushed; omega
        refine ⟨c1, ?_, ?_⟩
        · simp only [Dev.step, Dev.read, hs, hrec, SDev.step, ht, hget, Bool.false_eq_true, if_false, h1, hs1, hrec1]
          rw [if_neg (by omega), hread]
          rfl
        · simp only [SDev.step, ht, hget]
          rw [if_neg hle]; exact h2

end HS.Log
