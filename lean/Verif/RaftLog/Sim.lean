import Verif.RaftLog.Lemmas

/-! # The Raft log store simulates a numbered list -/

namespace HS.RaftLog

open HS.Log

/-- What the cache may hold: real entries, those below the end of the log; in the log they are right. -/
def CacheOK (cache : Nat → Nat × Option Entry) (a : RLog) : Prop :=
  ∀ p, cache p = (0, none) ∨ ∃ i e, cache p = (i, some e) ∧ i % 100 = p ∧ i < a.next ∧ (a.first ≤ i → a.get i = some e)

/-- The device `c`, abstractly `s`, holds the log `a` in store `id` as `t`. -/
structure Sim (c : Dev Entry) (id : Nat) (durable : Int) (a : RLog) (s : SDev Entry) (t : SStore Entry) : Prop where
  rel : Rel c s
  ht : s.stores id = some t
  single : Single c id
  base : t.base = t.start
  pos : 1 ≤ a.first
  first : t.base = (a.first : Int) - 1
  log : t.log = a.ents
  dur : a.dur ≤ t.flushed
  hint : durable < t.base + t.flushed

/-- The store `r` stands for the log `a`. -/
def RRel (r : RS) (a : RLog) : Prop :=
  (∃ s t, Sim r.dev r.id r.durable a s t) ∧ Settled r.dev ∧ CacheOK r.cache a

theorem Sim.flushed_le {c : Dev Entry} {id : Nat} {d : Int} {a : RLog} {s : SDev Entry} {t : SStore Entry}
    (h : Sim c id d a s t) : t.flushed ≤ a.ents.length := by
  obtain ⟨st, hs, hok⟩ := h.rel.get h.ht
  rw [← h.log]; exact hok.flushed_le

theorem Sim.last {c : Dev Entry} {id : Nat} {d : Int} {a : RLog} {s : SDev Entry} {t : SStore Entry}
    (h : Sim c id d a s t) : t.last + 1 + 1 = a.next := by
  have := h.first; have := h.pos
  unfold SStore.last RLog.next; rw [h.log]; omega

theorem noCache_ok (a : RLog) : CacheOK noCache a := fun _ => Or.inl rfl

theorem CacheOK.get {cache : Nat → Nat × Option Entry} {a : RLog} (h : CacheOK cache a) {i : Nat}
    (hi : (cache (i % 100)).1 = i) (h1 : a.first ≤ i) (hpos : 1 ≤ a.first) :
    ∃ e, (cache (i % 100)).2 = some e ∧ a.get i = some e := by
  rcases h (i % 100) with h2 | ⟨j, e, h2, h3, h4, h5⟩
  · rw [h2] at hi; simp only at hi; omega
  · rw [h2] at hi; simp only at hi; subst hi
    exact ⟨e, by rw [h2], h5 h1⟩

theorem CacheOK.append {cache : Nat → Nat × Option Entry} {a : RLog} (h : CacheOK cache a) (e : Entry) :
    CacheOK (putCache cache a.next e) { a with ents := a.ents ++ [e] } := by
  intro p
  unfold putCache
  by_cases hp : p = a.next % 100
  · rw [if_pos hp]
    refine Or.inr ⟨a.next, e, rfl, hp.symm, ?_, ?_⟩
    · simp [RLog.next]
    · intro _; simp [RLog.get, RLog.next]
  · rw [if_neg hp]
    rcases h p with h2 | ⟨j, e', h2, h3, h4, h5⟩
    · exact Or.inl h2
    · refine Or.inr ⟨j, e', h2, h3, ?_, ?_⟩
      · simp only [RLog.next, List.length_append, List.length_singleton] at h4 ⊢; omega
      · intro hj
        have := h5 hj
        have hj' : a.first ≤ j := hj
        simp only [RLog.get, if_pos hj'] at this ⊢
        rw [List.getElem?_append_left (by unfold RLog.next at h4; omega)]
        exact this

/-- Dropping a prefix keeps the cache right. -/
theorem CacheOK.weaken {cache : Nat → Nat × Option Entry} {a a' : RLog} (h : CacheOK cache a) (hn : a.next ≤ a'.next)
    (hf : a.first ≤ a'.first) (hg : ∀ i, a'.first ≤ i → i < a.next → a'.get i = a.get i) : CacheOK cache a' := by
  intro p
  rcases h p with h2 | ⟨j, e', h2, h3, h4, h5⟩
  · exact Or.inl h2
  · exact Or.inr ⟨j, e', h2, h3, by omega, fun hj => by rw [hg j hj h4]; exact h5 (by omega)⟩

theorem sim_append {c : Dev Entry} {id : Nat} {d : Int} {a : RLog} {s : SDev Entry} {t : SStore Entry}
    (h : Sim c id d a s t) (e : Entry) :
    ∃ c', c.append id e = .ok (c', (a.next : Int) - 1) ∧
      ∃ s', Sim c' id d { a with ents := a.ents ++ [e] } s' { t with log := t.log ++ [e] } ∧ c'.pending ≠ [] ∧
        (Settled c → Settled c') := by
  obtain ⟨c', h1, h2⟩ := step_append h.rel h.ht e
  have hl := h.last
  have hsg := single_append h.single h1
  refine ⟨c', by rw [h1]; congr 2; omega, _, ⟨h2, by simp [SDev.set], hsg.1, h.base, h.pos, h.first, ?_, h.dur, h.hint⟩, ?_, hsg.2⟩
  · show t.log ++ [e] = a.ents ++ [e]; rw [h.log]
  · intro hp
    have := h2.pend
    rw [hp] at this
    simp at this

theorem sim_flush {c : Dev Entry} {id : Nat} {d : Int} {a : RLog} {s : SDev Entry} {t : SStore Entry}
    (h : Sim c id d a s t) :
    ∃ c', c.flush = .ok c' ∧ (c.pending ≠ [] ∨ Settled c → Settled c') ∧
      ∃ s', ∀ d' : Int, d' + 1 < a.next → Sim c' id d' a.allDurable s' { t with flushed := t.log.length } := by
  obtain ⟨c', h1, h2, _⟩ := step_flush h.rel
  obtain ⟨hs1, hs2, hs3⟩ := single_flush h.rel h.single h1
  refine ⟨c', h1, fun hh => hh.elim hs3 hs2, _, fun d' hd' => ⟨h2, flush_get h.rel h.ht, hs1, h.base, h.pos, h.first, h.log, ?_, ?_⟩⟩
  · show a.ents.length ≤ t.log.length; rw [h.log]; exact Nat.le_refl _
  · show d' < t.base + (t.log.length : Int)
    have := h.first; rw [h.log]; unfold RLog.next at hd'; omega

theorem sim_hint {c : Dev Entry} {id : Nat} {d d' : Int} {a : RLog} {s : SDev Entry} {t : SStore Entry}
    (h : Sim c id d a s t) (hd : d' < t.base + t.flushed) : Sim c id d' a s t :=
  ⟨h.rel, h.ht, h.single, h.base, h.pos, h.first, h.log, h.dur, hd⟩

theorem sim_dur {c : Dev Entry} {id : Nat} {d : Int} {a : RLog} {s : SDev Entry} {t : SStore Entry}
    (h : Sim c id d a s t) {n : Nat} (hn : n ≤ t.flushed) : Sim c id d { a with dur := n } s t :=
  ⟨h.rel, h.ht, h.single, h.base, h.pos, h.first, h.log, hn, h.hint⟩

theorem Sim.store {c : Dev Entry} {id : Nat} {d : Int} {a : RLog} {s : SDev Entry} {t : SStore Entry}
    (h : Sim c id d a s t) : ∃ st, c.stores id = some st ∧ StoreOK c id t st := h.rel.get h.ht

theorem Sim.nextSlot {r : RS} {a : RLog} {s : SDev Entry} {t : SStore Entry} (h : Sim r.dev r.id r.durable a s t) :
    r.nextSlot = .ok (a.next : Int) := by
  obtain ⟨st, hs, hok⟩ := h.store
  unfold RS.nextSlot RS.store
  rw [hs]
  simp only [Except.map]
  rw [issued_eq h.rel h.ht hs h.hint, h.last]

/-! ## Reading -/

theorem sim_read {c : Dev Entry} {id : Nat} {d : Int} {a : RLog} {s : SDev Entry} {t : SStore Entry}
    (h : Sim c id d a s t) (hset : Settled c) {i : Nat} (h1 : a.first ≤ i) (h2 : i < a.next) :
    ∃ c' e, c.read id ((i : Int) - 1) = .ok (c', some e) ∧ a.get i = some e ∧ Settled c' ∧
      ∃ s' t', Sim c' id d a s' t' := by
  have hf := h.first
  have hp := h.pos
  obtain ⟨c', hc, hrel⟩ := step_read h.rel (id := id) (by rw [h.ht]; rfl) ((i : Int) - 1)
  obtain ⟨e, he⟩ : ∃ e, a.get i = some e := by
    unfold RLog.get; rw [if_pos h1]
    have : i - a.first < a.ents.length := by unfold RLog.next at h2; omega
    exact ⟨_, List.getElem?_eq_getElem this⟩
  have hget : t.get ((i : Int) - 1) = some e := by
    unfold SStore.get
    rw [if_pos (by rw [← h.base]; omega), h.log]
    unfold RLog.get at he; rw [if_pos h1] at he
    rw [← he]; congr 1; omega
  simp only [SDev.step, h.ht, hget] at hc hrel
  have hread : c.read id ((i : Int) - 1) = .ok (c', some e) := by
    simp only [Dev.step] at hc
    cases hr : c.read id ((i : Int) - 1) with
    | error x => rw [hr] at hc; simp [Except.map] at hc
    | ok p =>
      obtain ⟨c2, o⟩ := p
      rw [hr] at hc
      cases o with
      | none => simp [Except.map] at hc
      | some e2 =>
        simp only [Except.map, Except.ok.injEq, Prod.mk.injEq, Out.data.injEq] at hc
        rw [hc.1, hc.2]
  obtain ⟨hsg, hst⟩ := single_read h.rel h.single hset hread
  refine ⟨c', e, hread, he, hst, ?_⟩
  by_cases e1 : (i : Int) - 1 ≤ t.lastFlushed
  · rw [if_pos e1] at hrel
    exact ⟨s, t, hrel, h.ht, hsg, h.base, h.pos, h.first, h.log, h.dur, h.hint⟩
  · rw [if_neg e1] at hrel
    have hfl := h.flushed_le
    refine ⟨_, _, hrel, flush_get h.rel h.ht, hsg, h.base, h.pos, h.first, h.log, ?_, ?_⟩
    · have := h.dur; show a.dur ≤ t.log.length; rw [h.log]; omega
    · have := h.hint; show d < t.base + (t.log.length : Int); rw [h.log]; omega

theorem rrel_read {r : RS} {a : RLog} (h : RRel r a) {i : Nat} (h1 : a.first ≤ i) (h2 : i < a.next) :
    ∃ r' e, r.readSync ((i : Int) - 1) = .ok (r', e) ∧ a.get i = some e ∧ RRel r' a := by
  obtain ⟨⟨s, t, hsim⟩, hset, hca⟩ := h
  obtain ⟨c', e, h3, h4, h5, h6⟩ := sim_read hsim hset h1 h2
  exact ⟨{ r with dev := c' }, e, by unfold RS.readSync; rw [h3], h4, h6, h5, hca⟩

theorem rrel_foreach {σ : Type} {r : RS} {a : RLog} {s : SDev Entry} {t : SStore Entry}
    (h : Sim r.dev r.id r.durable a s t) {i : Nat} (h1 : a.first ≤ i) (cb : σ → Int → Entry → σ × Bool) (x : σ) :
    ∃ st n, r.dev.stores r.id = some st ∧ t.base + t.flushed ≤ ((i : Int) - 1) + (n : Nat) ∧ t.start ≤ (i : Int) - 1 ∧
      r.foreach ((i : Int) - 1) cb x = visit r.dev st.recs cb n ((i : Int) - 1) x := by
  obtain ⟨st, hs, hok⟩ := h.store
  have hf := h.first
  have hb := h.base
  have hst := hok.start
  have hn := hok.next
  have hfl := hok.flushed_le
  have hm : max ((i : Int) - 1) st.start = (i : Int) - 1 := by omega
  refine ⟨st, (st.next - ((i : Int) - 1)).toNat, hs, by omega, by omega, ?_⟩
  unfold RS.foreach RS.store
  rw [hs]
  simp only [hm]

theorem take_drop_take {α : Type} (l : List α) (m i n : Nat) (h : i + n ≤ m) :
    ((l.take m).drop i).take n = (l.drop i).take n := by
  rw [List.drop_take, List.take_take, Nat.min_eq_left (by omega)]

theorem rrel_logEntries {r : RS} {a : RLog} (h : RRel r a) {i e : Nat} (h1 : a.first ≤ i) (h2 : e ≤ a.first + a.dur) :
    r.logEntries i e = .ok (a.slice i e) := by
  obtain ⟨⟨s, t, hsim⟩, _, _⟩ := h
  obtain ⟨st, n, hs, hn, hst, hfe⟩ := rrel_foreach hsim h1 (logCb e) []
  unfold RS.logEntries
  rw [hfe, visit_log hsim.rel hsim.ht hs e n _ _ hst hn]
  have hf := hsim.first
  have hd := hsim.dur
  have e1 : ((i : Int) - 1 - t.base).toNat = i - a.first := by omega
  have e2 : ((e : Int) - 1 - ((i : Int) - 1)).toNat = e - i := by omega
  rw [e1, e2, hsim.log]
  unfold RLog.slice
  by_cases hle : e ≤ i
  · have : e - i = 0 := by omega
    rw [this]; simp
  · rw [take_drop_take _ _ _ _ (by omega)]; simp

theorem rrel_pack {r : RS} {a : RLog} (h : RRel r a) {i n : Nat} (h1 : a.first ≤ i) (h2 : i + n ≤ a.first + a.dur) :
    r.pack i n = .ok ⟨n, a.slice i (i + n)⟩ := by
  obtain ⟨⟨s, t, hsim⟩, _, _⟩ := h
  obtain ⟨st, k, hs, hn, hst, hfe⟩ := rrel_foreach hsim h1 packCb ([], (n : Int))
  unfold RS.pack
  obtain ⟨m, hm⟩ := visit_pack hsim.rel hsim.ht hs k ((i : Int) - 1) [] (n : Int) hst hn
  rw [hfe, hm]
  have hf := hsim.first
  have hd := hsim.dur
  have e1 : ((i : Int) - 1 - t.base).toNat = i - a.first := by omega
  simp only [Except.map, e1, hsim.log, Int.toNat_natCast, List.nil_append]
  unfold RLog.slice
  have : i + n - i = n := by omega
  rw [this, take_drop_take _ _ _ _ (by omega)]

/-! ## Writing -/

theorem rrel_append {r : RS} {a : RLog} (h : RRel r a) (e : Entry) :
    ∃ r', r.append e = .ok (r', (a.next : Int)) ∧ RRel r' { a with ents := a.ents ++ [e] } := by
  obtain ⟨⟨s, t, hsim⟩, hset, hca⟩ := h
  obtain ⟨c', h1, s', h2, h3, h4⟩ := sim_append hsim e
  refine ⟨{ r with dev := c', cache := putCache r.cache a.next e }, ?_, ⟨s', _, h2⟩, h4 hset, hca.append e⟩
  unfold RS.append
  rw [h1]
  simp only [Int.sub_add_cancel, Int.toNat_natCast]

theorem rrel_endBatch {r : RS} {a : RLog} (h : RRel r a) {i n : Nat} (hle : i + n ≤ a.next) :
    ∃ r', r.endBatch i n = .ok r' ∧ RRel r' a.allDurable := by
  obtain ⟨⟨s, t, hsim⟩, hset, hca⟩ := h
  obtain ⟨c', h1, h2, s', h3⟩ := sim_flush hsim
  refine ⟨{ r with dev := c', durable := (i : Int) + n - 1 - 1 }, by unfold RS.endBatch; rw [h1], ⟨s', _, h3 _ ?_⟩,
    h2 (Or.inr hset), hca⟩
  show ((i : Int) + n - 1 - 1) + 1 < a.next
  omega

theorem rrel_flush {r : RS} {a : RLog} (h : RRel r a) : ∃ r', r.flush = .ok r' ∧ RRel r' a.allDurable := by
  obtain ⟨⟨s, t, hsim⟩, hset, hca⟩ := h
  obtain ⟨c', h1, h2, s', h3⟩ := sim_flush hsim
  refine ⟨{ r with dev := c' }, by unfold RS.flush; rw [h1], ⟨s', _, h3 _ ?_⟩, h2 (Or.inr hset), hca⟩
  have := hsim.hint
  have := hsim.flushed_le
  have := hsim.first
  show r.durable + 1 < a.next
  unfold RLog.next; omega

theorem rrel_applyRecs {p : List Entry} : ∀ {r : RS} {a : RLog}, RRel r a →
    ∃ r', RS.applyRecs p.length p r = .ok r' ∧ RRel r' { a with ents := a.ents ++ p } := by
  induction p with
  | nil => intro r a h; exact ⟨r, rfl, by simpa using h⟩
  | cons e p ih =>
    intro r a h
    obtain ⟨r1, h1, h2⟩ := rrel_append h e
    obtain ⟨r2, h3, h4⟩ := ih h2
    refine ⟨r2, ?_, ?_⟩
    · simp only [List.length_cons, RS.applyRecs, h1]; exact h3
    · simpa using h4

/-- Keeping the entries before `i`. -/
theorem sim_rollback {c : Dev Entry} {id : Nat} {d : Int} {a : RLog} {s : SDev Entry} {t : SStore Entry}
    (h : Sim c id d a s t) {i : Nat} (h1 : a.first ≤ i)
    (h2 : i < a.first + a.dur ∨ (i = a.next ∧ a.dur = a.ents.length)) :
    ∃ c' b, c.rollback id ((i : Int) - 1 - 1) = .ok (c', b) ∧
      ∃ s' t', Sim c' id (-1) (RLog.solid a.first (a.before i)) s' t' ∧ t'.flushed = (a.before i).length := by
  obtain ⟨st, hs, hok⟩ := h.store
  have hf := h.first
  have hp := h.pos
  have hb := h.base
  have hdur := h.dur
  have hfl := h.flushed_le
  have hlf : t.lastFlushed = t.base + t.flushed - 1 := rfl
  have hlegal : id ∈ s.pend → (i : Int) - 1 - 1 < t.lastFlushed := by
    intro hmem
    rcases h2 with h2 | ⟨h2, h3⟩
    · omega
    · exfalso
      exact (not_pend h.rel h.ht).2 (by rw [h.log]; omega) hmem
  obtain ⟨c', hc, hrel⟩ := step_rollback h.rel h.ht hlegal
  simp only [SDev.step, h.ht] at hc hrel
  have hlen : (a.before i).length = i - a.first := by
    unfold RLog.before
    rw [List.length_take]
    rcases h2 with h2 | ⟨h2, h3⟩
    · omega
    · unfold RLog.next at h2; omega
  have hget : ∀ {o : Out Entry}, c.step (.rollback id ((i : Int) - 1 - 1)) = .ok (c', o) →
      ∃ b, c.rollback id ((i : Int) - 1 - 1) = .ok (c', b) := by
    intro o ho
    simp only [Dev.step] at ho
    cases hr : c.rollback id ((i : Int) - 1 - 1) with
    | error x => rw [hr] at ho; simp [Except.map] at ho
    | ok p =>
      rw [hr] at ho
      simp only [Except.map, Except.ok.injEq, Prod.mk.injEq] at ho
      exact ⟨p.2, by rw [← ho.1]⟩
  obtain ⟨b, hcode⟩ := hget hc
  have hsg := single_rollback h.rel h.single h.ht hcode
  refine ⟨c', b, hcode, ?_⟩
  by_cases e0 : (i : Int) - 1 - 1 = t.lastFlushed
  · rw [if_pos e0] at hrel
    have hdd : a.dur = a.ents.length ∧ i = a.next := by
      rcases h2 with h2 | ⟨h2, h3⟩
      · omega
      · exact ⟨h3, h2⟩
    have hbe : a.before i = a.ents := by
      unfold RLog.before; rw [hdd.2]; unfold RLog.next
      rw [List.take_of_length_le (by omega)]
    refine ⟨s, t, ⟨hrel, h.ht, hsg, h.base, h.pos, h.first, ?_, ?_, by have := h.pos; omega⟩, ?_⟩
    · rw [hbe]; exact h.log
    · show (a.before i).length ≤ t.flushed; rw [hbe]; omega
    · rw [hbe]; omega
  · rw [if_neg e0] at hrel
    have hlt : i < a.first + a.dur := by
      rcases h2 with h2 | ⟨h2, h3⟩
      · exact h2
      · exfalso; unfold RLog.next at h2; omega
    rw [if_neg (by omega)] at hrel
    refine ⟨_, t.keep ((i : Int) - 1 - 1), ⟨hrel, by simp [SDev.set], hsg, h.base, h.pos, h.first, ?_, ?_, ?_⟩, ?_⟩
    · show t.log.take ((i : Int) - 1 - 1 + 1 - t.base).toNat = a.before i
      rw [h.log]; unfold RLog.before; congr 1; omega
    · show (a.before i).length ≤ ((i : Int) - 1 - 1 + 1 - t.base).toNat
      rw [hlen]; omega
    · show (-1 : Int) < t.base + (((i : Int) - 1 - 1 + 1 - t.base).toNat : Nat)
      omega
    · show ((i : Int) - 1 - 1 + 1 - t.base).toNat = _
      rw [hlen]; omega

theorem CacheOK.writeAt {cache : Nat → Nat × Option Entry} {a : RLog} (h : CacheOK cache a) {i : Nat} (h1 : a.first ≤ i)
    (h2 : i ≤ a.next) (e : Entry) :
    CacheOK (fun p => if i < (putCache cache i e p).1 then (0, none) else putCache cache i e p)
      (RLog.solid a.first (a.before i ++ [e])) := by
  have hlen : (a.before i).length = i - a.first := by
    unfold RLog.before; rw [List.length_take]; unfold RLog.next at h2; omega
  intro p
  unfold putCache
  by_cases hp : p = i % 100
  · simp only [if_pos hp, Nat.lt_irrefl, if_false]
    refine Or.inr ⟨i, e, rfl, hp.symm, ?_, ?_⟩
    · simp [RLog.solid, RLog.next, hlen]; omega
    · intro _
      simp only [RLog.solid, RLog.get, if_pos h1]
      rw [List.getElem?_append_right (by omega), hlen]; simp [h1]
  · simp only [if_neg hp]
    rcases h p with h3 | ⟨j, e', h3, h4, h5, h6⟩
    · left; rw [h3]; simp
    · rw [h3]
      simp only
      by_cases hij : i < j
      · rw [if_pos hij]; exact Or.inl rfl
      · rw [if_neg hij]
        have hne : j ≠ i := by rintro rfl; exact hp h4.symm
        refine Or.inr ⟨j, e', rfl, h4, ?_, ?_⟩
        · simp [RLog.solid, RLog.next, hlen]; omega
        · intro hj
          have hj' : a.first ≤ j := hj
          have h7 := h6 hj'
          have hg : (RLog.solid a.first (a.before i ++ [e])).get j = (a.before i ++ [e])[j - a.first]? := if_pos hj'
          have hg2 : a.get j = a.ents[j - a.first]? := if_pos hj'
          rw [hg]; rw [hg2] at h7
          have : j - a.first < i - a.first := by omega
          rw [List.getElem?_append_left (by omega)]
          unfold RLog.before
          rw [List.getElem?_take_of_lt this]
          exact h7

theorem rrel_writeAtBuffer {r : RS} {a : RLog} (h : RRel r a) {i : Nat} (e : Entry) (h1 : a.first ≤ i)
    (h2 : i < a.first + a.dur ∨ (i = a.next ∧ a.dur = a.ents.length)) :
    ∃ r', r.writeAtBuffer i e = .ok r' ∧ r'.durable = -1 ∧ r'.id = r.id ∧ r'.dev.pending ≠ [] ∧
      CacheOK r'.cache (RLog.solid a.first (a.before i ++ [e])) ∧
      ∃ s t, Sim r'.dev r'.id r'.durable { RLog.solid a.first (a.before i) with ents := a.before i ++ [e] } s t ∧
        t.flushed = (a.before i).length := by
  obtain ⟨⟨s, t, hsim⟩, hset, hca⟩ := h
  have hfl := hsim.flushed_le
  have hdur := hsim.dur
  have hin : i ≤ a.next := by
    rcases h2 with h2 | ⟨h2, _⟩
    · unfold RLog.next; omega
    · omega
  obtain ⟨c1, b, h3, s1, t1, h4, h5⟩ := sim_rollback hsim h1 h2
  obtain ⟨c2, h6, s2, h7, h8, _⟩ := sim_append h4 e
  have hn : ((RLog.solid a.first (a.before i)).next : Int) - 1 + 1 = (i : Int) := by
    unfold RLog.solid RLog.next RLog.before
    simp only [List.length_take]
    unfold RLog.next at hin; omega
  refine ⟨{ r with dev := c2, durable := -1, cache := (fun p => if i < (putCache r.cache i e p).1 then (0, none)
      else putCache r.cache i e p) }, ?_, rfl, rfl, h8, hca.writeAt h1 hin e, s2, _, h7, h5⟩
  unfold RS.writeAtBuffer
  rw [h3]
  simp only [h6]
  rw [if_neg (by simpa using hn)]

theorem rrel_writeAt {r : RS} {a : RLog} (h : RRel r a) {i : Nat} (e : Entry) (h1 : a.first ≤ i)
    (h2 : i < a.first + a.dur ∨ (i = a.next ∧ a.dur = a.ents.length)) :
    ∃ r', r.writeAt i e = .ok r' ∧ RRel r' (RLog.solid a.first (a.before i ++ [e])) := by
  have hin : i ≤ a.next := by
    obtain ⟨⟨s, t, hsim⟩, _, _⟩ := h
    have hfl := hsim.flushed_le
    have hdur := hsim.dur
    rcases h2 with h2 | ⟨h2, _⟩
    · unfold RLog.next; omega
    · omega
  obtain ⟨r1, h3, h4, h5, h6, h7, s, t, h8, _⟩ := rrel_writeAtBuffer h e h1 h2
  obtain ⟨c', h9, h10, s', h11⟩ := sim_flush h8
  refine ⟨{ r1 with dev := c', durable := (i : Int) + (1 : Nat) - 1 - 1 },
    by unfold RS.writeAt; rw [h3]; simp only [RS.endBatch, h9], ⟨s', _, h11 _ ?_⟩, h10 (Or.inl h6), h7⟩
  show ((i : Int) + (1 : Nat) - 1 - 1) + 1 < _
  unfold RLog.solid RLog.next RLog.before
  simp only [List.length_append, List.length_take, List.length_singleton]
  unfold RLog.next at hin
  omega

/-! ## Compaction -/

theorem set_self {D : Type} (s : SDev D) (id : Nat) (t : SStore D) : (s.set id t).stores id = some t := by simp [SDev.set]

theorem truncateDev_trim {D : Type} (s : SDev D) (id : Nat) (t : SStore D) (h : s.stores id = some t) :
    s.truncateDev.stores id = some t.trim := by simp [SDev.truncateDev, h, SStore.trim]

theorem sim_truncate {c : Dev Entry} {id : Nat} {d : Int} {a : RLog} {s : SDev Entry} {t : SStore Entry}
    (h : Sim c id d a s t) (hset : Settled c) (i : Nat) :
    ∃ c' b, c.truncate id ((i : Int) - 1) false = .ok (c', b) ∧ Settled c' ∧ ∃ s' t', Sim c' id d (a.dropTo i) s' t' := by
  obtain ⟨st, hs, hok⟩ := h.store
  have hf := h.first
  have hp := h.pos
  have hb := h.base
  have hdur := h.dur
  have hfl := h.flushed_le
  have hh := h.hint
  obtain ⟨hsafe, hsingle⟩ := single_truncate (upto := (i : Int) - 1) h.rel h.single hset h.ht
  obtain ⟨c', hc, hrel⟩ := step_truncate h.rel h.ht (upto := (i : Int) - 1) (inMem := false) (by simp) (fun _ => hsafe)
  have hget : ∃ b, c.truncate id ((i : Int) - 1) false = .ok (c', b) := by
    simp only [Dev.step] at hc
    cases hr : c.truncate id ((i : Int) - 1) false with
    | error x => rw [hr] at hc; simp [Except.map] at hc
    | ok p =>
      rw [hr] at hc
      simp only [Except.map, Except.ok.injEq, Prod.mk.injEq] at hc
      exact ⟨p.2, by rw [← hc.1]⟩
  obtain ⟨b, hcode⟩ := hget
  obtain ⟨hsg, hst⟩ := hsingle c' b hcode
  refine ⟨c', b, hcode, hst, ?_⟩
  simp only [SDev.step, h.ht] at hrel
  by_cases e0 : i < a.first
  · rw [if_pos (by omega)] at hrel
    unfold RLog.dropTo
    rw [if_pos e0]
    exact ⟨s, t, hrel, h.ht, hsg, h.base, h.pos, h.first, h.log, h.dur, h.hint⟩
  · rw [if_neg (by omega)] at hrel
    rw [flush_get h.rel h.ht] at hrel
    simp only [Bool.false_eq_true, if_false] at hrel
    unfold RLog.dropTo
    rw [if_neg e0]
    unfold SStore.cut at hrel
    by_cases e1 : ({ t with flushed := t.log.length } : SStore Entry).last < (i : Int) - 1
    · rw [if_pos e1] at hrel
      have e1' : t.base + (t.log.length : Int) - 1 < (i : Int) - 1 := e1
      rw [h.log] at e1'
      have hnil : a.ents.drop (i + 1 - a.first) = [] := List.drop_eq_nil_of_le (by omega)
      refine ⟨_, _, hrel, truncateDev_trim _ _ _ (set_self _ _ _), hsg, ?_, ?_, ?_, ?_, ?_, ?_⟩
      · rfl
      · show 1 ≤ i + 1; omega
      · show (i : Int) - 1 + 1 = ((i + 1 : Nat) : Int) - 1; omega
      · rw [hnil]; simp [SStore.trim]
      · rw [hnil]; simp
      · show d < (i : Int) - 1 + 1 + _
        simp only [SStore.trim]; omega
    · rw [if_neg e1] at hrel
      have e1' : ¬ t.base + (t.log.length : Int) - 1 < (i : Int) - 1 := e1
      rw [h.log] at e1'
      have hk : ((i : Int) - 1 + 1 - t.base).toNat = i + 1 - a.first := by omega
      refine ⟨_, _, hrel, truncateDev_trim _ _ _ (set_self _ _ _), hsg, ?_, ?_, ?_, ?_, ?_, ?_⟩
      · rfl
      · show 1 ≤ i + 1; omega
      · show (i : Int) - 1 + 1 = ((i + 1 : Nat) : Int) - 1; omega
      · show t.log.drop ((i : Int) - 1 + 1 - t.base).toNat = _
        rw [hk, h.log]
      · show (a.ents.drop (i + 1 - a.first)).length ≤ t.log.length - ((i : Int) - 1 + 1 - t.base).toNat
        rw [hk, h.log, List.length_drop]; exact Nat.le_refl _
      · show d < (i : Int) - 1 + 1 + ((t.log.length - ((i : Int) - 1 + 1 - t.base).toNat : Nat) : Int)
        rw [hk, h.log]; omega

theorem CacheOK.dropTo {cache : Nat → Nat × Option Entry} {a : RLog} (h : CacheOK cache a) (i : Nat) :
    CacheOK cache (a.dropTo i) := by
  unfold RLog.dropTo
  by_cases e : i < a.first
  · rw [if_pos e]; exact h
  · rw [if_neg e]
    refine h.weaken ?_ ?_ ?_
    · simp only [RLog.next, List.length_drop]; omega
    · show a.first ≤ i + 1; omega
    · intro j hj _
      have hj' : i + 1 ≤ j := hj
      simp only [RLog.get]
      rw [if_pos hj', if_pos (by omega), List.getElem?_drop]
      congr 1; omega

theorem rrel_compact {r : RS} {a : RLog} (h : RRel r a) (i : Nat) :
    ∃ r', r.compact i = .ok r' ∧ RRel r' (a.dropTo i) := by
  obtain ⟨⟨s, t, hsim⟩, hset, hca⟩ := h
  obtain ⟨c', b, h1, h2, s', t', h3⟩ := sim_truncate hsim hset i
  exact ⟨{ r with dev := c' }, by unfold RS.compact; rw [h1], ⟨s', t', h3⟩, h2, hca.dropTo i⟩

theorem rrel_purge {r : RS} {a : RLog} (h : RRel r a) : ∃ r', r.purge = .ok r' ∧ RRel r' (a.dropTo (a.next - 1)) := by
  obtain ⟨⟨s, t, hsim⟩, hset, hca⟩ := h
  obtain ⟨st, hs, hok⟩ := hsim.store
  have hl := hsim.last
  have hp := hsim.pos
  have hi := issued_eq hsim.rel hsim.ht hs hsim.hint
  have he : issued st r.durable = ((a.next - 1 : Nat) : Int) - 1 := by
    rw [hi]; unfold RLog.next at hl ⊢; omega
  obtain ⟨c', b, h1, h2, s', t', h3⟩ := sim_truncate hsim hset (a.next - 1)
  refine ⟨{ r with dev := c' }, ?_, ⟨s', t', h3⟩, h2, hca.dropTo _⟩
  unfold RS.purge RS.store
  rw [hs]
  simp only [he, h1]

/-! ## Restart -/

theorem sim_restart {c : Dev Entry} {id : Nat} {d : Int} {a : RLog} {s : SDev Entry} {t : SStore Entry}
    (h : Sim c id d a s t) (k : Nat) :
    ∃ c' o, c.restart [id] [] k = .ok (c', o) ∧ Settled c' ∧ ∃ n, t.flushed ≤ n ∧ n ≤ a.ents.length ∧
      ∃ s' t', Sim c' id (-1) (RLog.solid a.first (a.ents.take n)) s' t' := by
  obtain ⟨c', hc, hrel⟩ := step_restart h.rel (opened := [id]) (unopened := []) (k := k)
    (fun i hi => by rw [List.mem_singleton] at hi; subst hi; rw [h.ht]; rfl) List.nodup_nil
  have hget : ∃ o, c.restart [id] [] k = .ok (c', o) := by
    simp only [Dev.step] at hc
    cases hr : c.restart [id] [] k with
    | error x => rw [hr] at hc; simp [Except.map] at hc
    | ok p =>
      rw [hr] at hc
      simp only [Except.map, Except.ok.injEq, Prod.mk.injEq] at hc
      exact ⟨p.2, by rw [← hc.1]⟩
  obtain ⟨o, hcode⟩ := hget
  obtain ⟨hsg, hst⟩ := single_restart h.rel h.single (by rw [h.ht]; rfl) hcode
  have hp := h.pos
  have hf := h.first
  obtain ⟨c1, _, hrel1, _⟩ := step_flushK h.rel k
  obtain ⟨st1, _, hok1⟩ := hrel1.get (id := id) (t := { t with flushed := t.flushed + (s.pend.take k).count id })
    (by simp [SDev.flushK, h.ht])
  have hle : t.flushed + (s.pend.take k).count id ≤ t.log.length := hok1.flushed_le
  rw [h.log] at hle
  refine ⟨c', o, hcode, hst, t.flushed + (s.pend.take k).count id, by omega, hle, ?_⟩
  refine ⟨_, ({ t with flushed := t.flushed + (s.pend.take k).count id } : SStore Entry).crash, hrel, ?_, hsg, rfl, h.pos,
    h.first, ?_, ?_, ?_⟩
  · show (if id ∈ [id] then ((s.flushK k).stores id).map SStore.crash else none) = _
    simp [SDev.flushK, h.ht]
  · show t.log.take _ = _; rw [h.log]; rfl
  · show (a.ents.take _).length ≤ t.flushed + (s.pend.take k).count id
    rw [List.length_take]; omega
  · show (-1 : Int) < t.base + ((t.flushed + (s.pend.take k).count id : Nat) : Int)
    omega

theorem rrel_new {id : Nat} {r : RS} (h : RS.create id = .ok r) : RRel r RLog.new := by
  unfold RS.create at h
  cases hc : (Dev.format : Dev Entry).create id with
  | error x => rw [hc] at h; cases h
  | ok c =>
    rw [hc] at h
    simp only [Except.ok.injEq] at h
    subst h
    obtain ⟨hsg, hst⟩ := single_create hc
    obtain ⟨c', h1, h2⟩ := step_create (rel_format (D := Entry)) id rfl
    rw [hc] at h1
    simp only [Except.ok.injEq] at h1
    subst h1
    refine ⟨⟨_, { base := 0, start := 0, log := [], flushed := 0 }, h2, by simp [SDev.set], hsg, rfl, ?_, ?_, rfl, ?_, ?_⟩, hst,
      noCache_ok _⟩
    · exact Nat.le_refl 1
    · rfl
    · exact Nat.le_refl 0
    · show (-1 : Int) < 0 + 0; decide

end HS.RaftLog
