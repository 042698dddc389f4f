import Verif.RaftLog.Sim

namespace HS.RaftLog

open HS.Log

/-! ## Each operation -/

theorem get_last {a : RLog} (h : a.ents ≠ []) : a.get (a.next - 1) = a.ents.getLast? := by
  have hl : 0 < a.ents.length := List.length_pos_iff.2 h
  unfold RLog.get RLog.next
  rw [if_pos (by omega), List.getLast?_eq_getElem?]
  congr 1; omega

theorem slice_nil {a : RLog} {s e : Nat} (h : e ≤ s) : a.slice s e = [] := by
  unfold RLog.slice; rw [Nat.sub_eq_zero_of_le h]; simp

theorem hintEnd_eq {s e : Nat} {h : Int} (hse : s ≤ e) (he : e < 2 ^ 64) (hh : h < 2 ^ 64) :
    hintEnd s e h = s + hinted (e - s) h := by
  unfold hintEnd hinted
  by_cases h1 : h < 0
  · rw [if_pos h1, if_pos h1]; omega
  · rw [if_neg h1, if_neg h1]
    by_cases h2 : h = 0
    · rw [if_neg (by omega), if_pos h2]; omega
    · rw [if_pos (by omega), if_neg h2]
      by_cases h3 : s + h.toNat < 2 ^ 64
      · rw [Nat.mod_eq_of_lt h3, if_neg (by omega)]; omega
      · have : (s + h.toNat) % 2 ^ 64 = s + h.toNat - 2 ^ 64 := by
          rw [Nat.mod_eq_sub_mod (by omega), Nat.mod_eq_of_lt (by omega)]
        rw [this, if_pos (by omega)]; omega

theorem accept_idx {a : RLog} {n : Int} {f : Nat} (h1 : a.dur ≤ f) (h2 : f ≤ a.ents.length)
    (hn : n = (a.first : Int) + f - 1) :
    (if (a.first : Int) + a.dur ≤ n + 1 ∧ n < a.next then some { a with dur := (n + 1 - a.first).toNat } else none) =
      some { a with dur := f } := by
  rw [if_pos (by unfold RLog.next; omega)]
  congr 2; omega

theorem rrel_entryAt {r : RS} {a : RLog} (h : RRel r a) {i : Nat} (h1 : a.first ≤ i) (h2 : i < a.next) :
    ∃ r' e, r.entryAt i = .ok (r', some e) ∧ r.termAt i = .ok (r', e.term) ∧ a.get i = some e ∧ RRel r' a := by
  obtain ⟨⟨s, t, hsim⟩, hset, hca⟩ := id h
  unfold RS.entryAt RS.termAt
  by_cases hc : (r.cache (i % 100)).1 = i
  · obtain ⟨e, h3, h4⟩ := hca.get hc h1 hsim.pos
    rw [if_pos hc, if_pos hc, h3]
    exact ⟨r, e, rfl, rfl, h4, h⟩
  · rw [if_neg hc, if_neg hc]
    obtain ⟨r', e, h3, h4, h5⟩ := rrel_read h h1 h2
    rw [h3]
    exact ⟨r', e, rfl, rfl, h4, h5⟩

theorem rrel_lastEntry {r : RS} {a : RLog} (h : RRel r a) (hl : a.ents ≠ [] ∨ a.first = 1) :
    ∃ r', r.lastEntry = .ok (r', some (a.ents.getLast?.getD dummy)) ∧ RRel r' a := by
  obtain ⟨⟨s, t, hsim⟩, hset, hca⟩ := id h
  obtain ⟨st, hs, hok⟩ := hsim.store
  have hi := issued_eq hsim.rel hsim.ht hs hsim.hint
  have hlast := hsim.last
  have hp := hsim.pos
  unfold RS.lastEntry RS.store
  rw [hs]
  simp only [hi]
  by_cases hne : a.ents = []
  · have h1 : a.first = 1 := hl.resolve_left (fun hh => hh hne)
    have : t.last < 0 := by unfold RLog.next at hlast; rw [hne] at hlast; simp only [List.length_nil] at hlast; omega
    rw [if_pos this, hne]
    exact ⟨r, rfl, h⟩
  · have hlen : 0 < a.ents.length := List.length_pos_iff.2 hne
    have hnn : ¬ t.last < 0 := by unfold RLog.next at hlast; omega
    rw [if_neg hnn]
    have he : (t.last + 1).toNat = a.next - 1 := by omega
    have he2 : t.last = ((a.next - 1 : Nat) : Int) - 1 := by unfold RLog.next at hlast ⊢; omega
    have hlo : a.first ≤ a.next - 1 := by unfold RLog.next; omega
    rw [he]
    by_cases hc : (r.cache ((a.next - 1) % 100)).1 = a.next - 1
    · obtain ⟨e, h3, h4⟩ := hca.get hc hlo hp
      rw [if_pos hc, h3]
      rw [get_last hne] at h4
      rw [h4]
      exact ⟨r, rfl, h⟩
    · rw [if_neg hc]
      obtain ⟨r', e, h3, h4, h5⟩ := rrel_read h hlo (i := a.next - 1) (by unfold RLog.next; omega)
      rw [he2, h3]
      rw [get_last hne] at h4
      rw [h4]
      exact ⟨r', rfl, h5⟩

theorem solid_before {a : RLog} {n : Nat} (h : n ≤ a.ents.length) :
    RLog.solid a.first (a.before (a.first + n)) = RLog.solid a.first (a.ents.take n) := by
  unfold RLog.before; congr 2; omega

/-- One supported operation on a store that stands for `a`. -/
theorem rrel_step {r : RS} {a : RLog} (h : RRel r a) {op : ROp} (hl : Legal a op) :
    ∃ r' out a', r.step op = .ok (r', out) ∧ a.accept op out = some a' ∧ RRel r' a' := by
  obtain ⟨⟨s, t, hsim⟩, hset, hca⟩ := id h
  obtain ⟨st, hs, hok⟩ := hsim.store
  have hf := hsim.first
  have hp := hsim.pos
  have hfl := hsim.flushed_le
  have hdur := hsim.dur
  cases op with
  | append e =>
    obtain ⟨r', h1, h2⟩ := rrel_append h e
    exact ⟨r', .idx a.next, _, by simp only [RS.step, h1, Except.map], by simp [RLog.accept], h2⟩
  | writeAt i e =>
    obtain ⟨r', h1, h2⟩ := rrel_writeAt h e hl.1 hl.2
    exact ⟨r', .unit, _, by simp only [RS.step, h1, Except.map], rfl, h2⟩
  | endBatch i n =>
    obtain ⟨r', h1, h2⟩ := rrel_endBatch h hl
    exact ⟨r', .unit, _, by simp only [RS.step, h1, Except.map], rfl, h2⟩
  | flush =>
    obtain ⟨r', h1, h2⟩ := rrel_flush h
    exact ⟨r', .unit, _, by simp only [RS.step, h1, Except.map], rfl, h2⟩
  | compact i =>
    obtain ⟨r', h1, h2⟩ := rrel_compact h i
    exact ⟨r', .unit, _, by simp only [RS.step, h1, Except.map], rfl, h2⟩
  | purge =>
    obtain ⟨r', h1, h2⟩ := rrel_purge h
    exact ⟨r', .unit, _, by simp only [RS.step, h1, Except.map], rfl, h2⟩
  | setDurable i =>
    refine ⟨r.setDurable i, .unit, a, rfl, rfl, ⟨s, t, sim_hint hsim ?_⟩, hset, hca⟩
    have hl' : i < a.first + a.dur := hl
    show (i : Int) - 1 < _
    omega
  | applyPack i p =>
    obtain ⟨hi, hn⟩ := hl
    obtain ⟨r1, h1, h2⟩ := rrel_applyRecs (p := p.recs) h
    obtain ⟨r2, h3, h4⟩ := rrel_endBatch h2 (i := a.next) (n := p.cnt) (by simp [RLog.next, hn]; omega)
    refine ⟨r2, .unit, _, ?_, rfl, h4⟩
    simp only [RS.step, RS.applyPack, hsim.nextSlot]
    rw [if_neg (by omega), if_neg (by omega)]
    simp only [hn, h1]
    rw [hn] at h3
    simp only [Int.toNat_natCast, h3, Except.map]
  | nextSlot =>
    exact ⟨r, .idx a.next, a, by simp only [RS.step, hsim.nextSlot, Except.map], by simp [RLog.accept], h⟩
  | startIndex =>
    refine ⟨r, .idx a.first, a, ?_, by simp [RLog.accept], h⟩
    simp only [RS.step, RS.startIndex, RS.store, hs, Except.map]
    have := hok.start
    have := hsim.base
    congr 3
    omega
  | lastIndex =>
    refine ⟨r, .idx (t.base + t.flushed), _, ?_, accept_idx hdur hfl (by omega), ⟨s, t, sim_dur hsim (Nat.le_refl _)⟩, hset, hca⟩
    simp only [RS.step, RS.lastIndex, RS.store, hs, Except.map, completed_eq hsim.rel hsim.ht hs hsim.hint]
    congr 3
    omega
  | lastDurable =>
    refine ⟨{ r with durable := t.base + t.flushed - 1 }, .idx (t.base + t.flushed), _, ?_, accept_idx hdur hfl (by omega),
      ⟨s, t, sim_hint (d := r.durable) (sim_dur hsim (Nat.le_refl _)) (by simp only; omega)⟩, hset, hca⟩
    simp only [RS.step, RS.lastDurable, RS.store, hs, Except.map, completed_eq hsim.rel hsim.ht hs hsim.hint]
    congr 3
    omega
  | lastEntry =>
    obtain ⟨r', h1, h2⟩ := rrel_lastEntry h hl
    exact ⟨r', .entry (some (a.ents.getLast?.getD dummy)), a, by simp only [RS.step, h1, Except.map], by simp [RLog.accept], h2⟩
  | entryAt i =>
    obtain ⟨r', e, h1, _, h3, h4⟩ := rrel_entryAt h hl.1 hl.2
    exact ⟨r', .entry (some e), a, by simp only [RS.step, h1, Except.map], by simp [RLog.accept, h3], h4⟩
  | termAt i =>
    obtain ⟨r', e, _, h1, h3, h4⟩ := rrel_entryAt h hl.1 hl.2
    exact ⟨r', .idx e.term, a, by simp only [RS.step, h1, Except.map], by simp [RLog.accept, h3], h4⟩
  | logEntries i e =>
    exact ⟨r, .entries (a.slice i e), a, by simp only [RS.step, rrel_logEntries h hl.1 hl.2, Except.map], by simp [RLog.accept], h⟩
  | logEntriesExt i e hint =>
    obtain ⟨h1, h2, h3, h4, h5⟩ := hl
    have he := hintEnd_eq h2 h4 h5
    have hle : hintEnd i e hint ≤ a.first + a.dur := by
      have hm : hinted (e - i) hint ≤ e - i := by
        unfold hinted; split
        · omega
        · split <;> omega
      omega
    refine ⟨r, .entries (a.slice i (hintEnd i e hint)), a, ?_, by simp [RLog.accept, he], h⟩
    simp only [RS.step, RS.logEntriesExt, rrel_logEntries h h1 hle, Except.map]
  | pack i n =>
    exact ⟨r, .packed ⟨n, a.slice i (i + n)⟩, a, by simp only [RS.step, rrel_pack h hl.1 hl.2, Except.map], by simp [RLog.accept], h⟩
  | crash k =>
    obtain ⟨c', o, h1, h2, n, h3, h4, s', t', h5⟩ := sim_restart hsim k
    have hns : RS.nextSlot ⟨c', r.id, -1, noCache⟩ = .ok ((RLog.solid a.first (a.ents.take n)).next : Int) :=
      Sim.nextSlot (r := ⟨c', r.id, -1, noCache⟩) h5
    have hnx : (RLog.solid a.first (a.ents.take n)).next = a.first + n := by
      unfold RLog.solid RLog.next; simp only [List.length_take]; omega
    refine ⟨⟨c', r.id, -1, noCache⟩, .idx ((a.first + n : Nat) : Int), RLog.solid a.first (a.ents.take n), ?_, ?_, ⟨s', t', h5⟩, h2,
      noCache_ok _⟩
    · simp only [RS.step, RS.restart, h1, hns, Except.map, hnx]
    · simp only [RLog.accept]
      rw [if_pos (by unfold RLog.next; omega), Int.toNat_natCast, solid_before h4]
  | crashInWriteAt i e k =>
    obtain ⟨r1, h1, h2, h3, h4, h5, s1, t1, h6, h7⟩ := rrel_writeAtBuffer h e hl.1 hl.2
    obtain ⟨c', o, h8, h9, n, h10, h11, s', t', h12⟩ := sim_restart h6 k
    have hbl : (a.before i).length = i - a.first := by
      unfold RLog.before
      rw [List.length_take]
      rcases hl.2 with h' | ⟨h', _⟩
      · omega
      · unfold RLog.next at h'; omega
    have hns : RS.nextSlot ⟨c', r1.id, -1, noCache⟩ =
        .ok ((RLog.solid a.first ((a.before i ++ [e]).take n)).next : Int) :=
      Sim.nextSlot (r := ⟨c', r1.id, -1, noCache⟩) h12
    have hlo : a.first ≤ i := hl.1
    simp only [List.length_append, List.length_singleton] at h11
    have hnx : (RLog.solid a.first ((a.before i ++ [e]).take n)).next = a.first + n := by
      unfold RLog.solid RLog.next; simp only [List.length_take, List.length_append, List.length_singleton]; omega
    refine ⟨⟨c', r1.id, -1, noCache⟩, .idx ((a.first + n : Nat) : Int), RLog.solid a.first ((a.before i ++ [e]).take n), ?_, ?_,
      ⟨s', t', h12⟩, h9, noCache_ok _⟩
    · simp only [RS.step, h1, RS.restart, h8, hns, Except.map, hnx]
    · simp only [RLog.accept]
      by_cases hn : n = i - a.first
      · rw [if_pos (by omega), List.take_append_of_le_length (by omega), List.take_of_length_le (by omega)]
      · rw [if_neg (by omega), if_pos (by omega), List.take_of_length_le (by simp; omega)]

theorem reach_rrel {r : RS} {a : RLog} (h : Reach r a) : RRel r a := by
  induction h with
  | new h => exact rrel_new h
  | step _ hl hs ha ih =>
    obtain ⟨r2, out2, a2, h1, h2, h3⟩ := rrel_step ih hl
    rw [hs] at h1
    simp only [Except.ok.injEq, Prod.mk.injEq] at h1
    rw [h1.1] at *
    rw [← h1.2, ha] at h2
    simp only [Option.some.injEq] at h2
    rw [h2]
    exact h3

/-! ## The theorems -/

/-- A new log store can always be opened. -/
theorem create_ok (id : Nat) : ∃ r, RS.create id = .ok r := by
  obtain ⟨c, h, _⟩ := step_create (rel_format (D := Entry)) id rfl
  exact ⟨_, by unfold RS.create; rw [h]⟩

/-- **C59.**  The Raft log store behaves like a numbered list of entries: in every state a history of supported calls and
crashes leads to, every supported call succeeds, and answers what the list would answer.

Missing: the unsupported uses (`Legal`), for which the claim is false; see the `_violated` theorems below.  Calls are
atomic here; NuRaft makes them one at a time, except for the flush thread. -/
theorem C59_raft_log_partial {r : RS} {a : RLog} (h : Reach r a) {op : ROp} (hl : Legal a op) :
    ∃ r' out a', r.step op = .ok (r', out) ∧ a.accept op out = some a' ∧ Reach r' a' := by
  obtain ⟨r', out, a', h1, h2, _⟩ := rrel_step (reach_rrel h) hl
  exact ⟨r', out, a', h1, h2, .step h hl h1 h2⟩

/-- Some supported calls in a row, in the code and on the list. -/
inductive Run : RS → RLog → List ROp → RS → RLog → Prop
  | nil {r : RS} {a : RLog} : Run r a [] r a
  | cons {r r1 r2 : RS} {a a1 a2 : RLog} {op : ROp} {ops : List ROp} {out : ROut} : Legal a op →
      r.step op = .ok (r1, out) → a.accept op out = some a1 → Run r1 a1 ops r2 a2 → Run r a (op :: ops) r2 a2

/-- The calls that ask for entry `i` to go: compaction up to it or beyond, overwriting it or one before it. -/
def ROp.drops (i : Nat) : ROp → Prop
  | .compact j => i ≤ j
  | .purge => True
  | .writeAt j _ => j ≤ i
  | .crashInWriteAt j _ _ => j ≤ i
  | _ => False

theorem Run.reach {r r' : RS} {a a' : RLog} {ops : List ROp} (h : Run r a ops r' a') (hr : Reach r a) : Reach r' a' := by
  induction h with
  | nil => exact hr
  | cons hl hs ha _ ih => exact ih (.step hr hl hs ha)

/-- Entry `i` is `e`, and durable. -/
def RLog.kept (a : RLog) (i : Nat) (e : Entry) : Prop := a.get i = some e ∧ i < a.first + a.dur

theorem get_first {a : RLog} {i : Nat} {e : Entry} (h : a.get i = some e) : a.first ≤ i ∧ i < a.next ∧ a.ents[i - a.first]? = some e := by
  unfold RLog.get at h
  by_cases hi : a.first ≤ i
  · rw [if_pos hi] at h
    have := (List.getElem?_eq_some_iff.1 h).1
    exact ⟨hi, by unfold RLog.next; omega, h⟩
  · rw [if_neg hi] at h; cases h

theorem get_mk {f d i : Nat} {l : List Entry} {e : Entry} (h1 : f ≤ i) (h2 : l[i - f]? = some e) : (RLog.mk f l d).get i = some e := by
  unfold RLog.get; simp only; rw [if_pos h1]; exact h2

theorem accept_kept {a a' : RLog} {op : ROp} {out : ROut} (hl : Legal a op) (ha : a.accept op out = some a') {i : Nat} {e : Entry}
    (hk : a.kept i e) (hd : ¬ op.drops i) (hle : a.dur ≤ a.ents.length) : a'.kept i e := by
  obtain ⟨hg, hi⟩ := hk
  obtain ⟨h1, h2, h3⟩ := get_first hg
  have hlen : i - a.first < a.ents.length := (List.getElem?_eq_some_iff.1 h3).1
  cases op <;> cases out <;> simp only [RLog.accept, reduceCtorEq] at ha
  case append.idx e' n =>
    split at ha
    · cases ha
      exact ⟨get_mk h1 (by rw [List.getElem?_append_left hlen]; exact h3), hi⟩
    · cases ha
  case writeAt.unit j e' =>
    cases ha
    have hj : ¬ j ≤ i := hd
    have hll : (a.before j).length = min (j - a.first) a.ents.length := by unfold RLog.before; rw [List.length_take]
    refine ⟨get_mk h1 ?_, ?_⟩
    · rw [List.getElem?_append_left (by omega)]
      unfold RLog.before; rw [List.getElem?_take_of_lt (by omega)]; exact h3
    · show i < a.first + (a.before j ++ [e']).length
      rw [List.length_append]; omega
  case endBatch.unit => cases ha; exact ⟨get_mk h1 h3, by show i < a.first + a.ents.length; omega⟩
  case flush.unit => cases ha; exact ⟨get_mk h1 h3, by show i < a.first + a.ents.length; omega⟩
  case compact.unit j =>
    cases ha
    have hj : ¬ i ≤ j := hd
    unfold RLog.dropTo
    by_cases hjf : j < a.first
    · rw [if_pos hjf]; exact ⟨hg, hi⟩
    · rw [if_neg hjf]
      refine ⟨get_mk (by omega) (by rw [List.getElem?_drop, ← h3]; congr 1; omega), ?_⟩
      show i < j + 1 + (a.ents.drop (j + 1 - a.first)).length
      rw [List.length_drop]; omega
  case purge.unit => exact absurd trivial hd
  case setDurable.unit => cases ha; exact ⟨hg, hi⟩
  case applyPack.unit j p =>
    cases ha
    refine ⟨get_mk h1 (by rw [List.getElem?_append_left hlen]; exact h3), ?_⟩
    show i < a.first + (a.ents ++ p.recs).length
    rw [List.length_append]; omega
  case crash.idx k n =>
    split at ha
    · rename_i hn
      cases ha
      have hll : (a.before n.toNat).length = min (n.toNat - a.first) a.ents.length := by unfold RLog.before; rw [List.length_take]
      refine ⟨get_mk h1 ?_, ?_⟩
      · unfold RLog.before; rw [List.getElem?_take_of_lt (by omega)]; exact h3
      · show i < a.first + (a.before n.toNat).length
        omega
    · cases ha
  case crashInWriteAt.idx j e' k n =>
    have hj : ¬ j ≤ i := hd
    have hll : (a.before j).length = min (j - a.first) a.ents.length := by unfold RLog.before; rw [List.length_take]
    split at ha
    · cases ha
      refine ⟨get_mk h1 ?_, ?_⟩
      · unfold RLog.before; rw [List.getElem?_take_of_lt (by omega)]; exact h3
      · show i < a.first + (a.before j).length
        omega
    · split at ha
      · cases ha
        refine ⟨get_mk h1 ?_, ?_⟩
        · rw [List.getElem?_append_left (by omega)]
          unfold RLog.before; rw [List.getElem?_take_of_lt (by omega)]; exact h3
        · show i < a.first + (a.before j ++ [e']).length
          rw [List.length_append]; omega
      · cases ha
  all_goals
    split at ha
    · cases ha
      first
        | exact ⟨hg, hi⟩
        | exact ⟨get_mk h1 h3, by simp only; omega⟩
    · cases ha

theorem run_kept {r r' : RS} {a a' : RLog} {ops : List ROp} (h : Run r a ops r' a') (hr : Reach r a) {i : Nat} {e : Entry}
    (hk : a.kept i e) (hd : ∀ op ∈ ops, ¬ op.drops i) : a'.kept i e := by
  induction h with
  | nil => exact hk
  | cons hl hs ha _ ih =>
    obtain ⟨⟨s, t, hsim⟩, _, _⟩ := reach_rrel hr
    have hle := Nat.le_trans hsim.dur hsim.flushed_le
    exact ih (.step hr hl hs ha) (accept_kept hl ha hk (hd _ List.mem_cons_self) hle)
      (fun op ho => hd op (List.mem_cons_of_mem _ ho))

theorem kept_entry {r : RS} {a : RLog} (h : Reach r a) {i : Nat} {e : Entry} (hk : a.kept i e) :
    ∃ r', r.entryAt i = .ok (r', some e) := by
  obtain ⟨h1, h2, _⟩ := get_first hk.1
  obtain ⟨r', e', h3, _, h5, _⟩ := rrel_entryAt (reach_rrel h) h1 h2
  rw [hk.1] at h5
  cases h5
  exact ⟨r', h3⟩

/-- **C60.**  An entry at or below the index `last_durable_index` reported is still there, unchanged, after any further
supported calls and crashes, as long as none of them asks for it to go.

Missing: the unsupported uses of `Legal`. -/
theorem C60_durable_index_partial {r r1 r2 : RS} {a a1 a2 : RLog} (h : Reach r a) {n : Int} {ops : List ROp}
    (hd : r.step .lastDurable = .ok (r1, .idx n)) (ha : a.accept .lastDurable (.idx n) = some a1) (hrun : Run r1 a1 ops r2 a2)
    {i : Nat} {e : Entry} (hi : (i : Int) ≤ n) (he : a.get i = some e) (hno : ∀ op ∈ ops, ¬ op.drops i) :
    ∃ r3, r2.entryAt i = .ok (r3, some e) := by
  have hr1 : Reach r1 a1 := .step (op := .lastDurable) h trivial hd ha
  obtain ⟨h1, h2, h3⟩ := get_first he
  refine kept_entry (hrun.reach hr1) (run_kept hrun hr1 ?_ hno)
  simp only [RLog.accept] at ha
  split at ha
  · cases ha
    exact ⟨get_mk h1 h3, by simp only; omega⟩
  · cases ha

/-- **C60.**  The same for every entry that was there when `end_of_append_batch`, `flush` or `write_at` returned. -/
theorem C60_flushed_partial {r r1 r2 : RS} {a a1 a2 : RLog} (h : Reach r a) {op : ROp} {ops : List ROp}
    (hop : op = .flush ∨ (∃ s n, op = .endBatch s n) ∨ ∃ j e, op = .writeAt j e) (hl : Legal a op)
    (hd : r.step op = .ok (r1, .unit)) (ha : a.accept op .unit = some a1) (hrun : Run r1 a1 ops r2 a2)
    {i : Nat} {e : Entry} (he : a1.get i = some e) (hno : ∀ op ∈ ops, ¬ op.drops i) :
    ∃ r3, r2.entryAt i = .ok (r3, some e) := by
  have hr1 : Reach r1 a1 := .step h hl hd ha
  refine kept_entry (hrun.reach hr1) (run_kept hrun hr1 ⟨he, ?_⟩ hno)
  have h2 := (get_first he).2.1
  have : a1.dur = a1.ents.length := by
    rcases hop with rfl | ⟨s, n, rfl⟩ | ⟨j, e', rfl⟩ <;> (simp only [RLog.accept] at ha; cases ha; rfl)
  rw [this]; exact h2

/-- **C60.**  A crash inside `write_at` leaves the entries before the index, and the new entry or none at it. -/
theorem C60_torn_write_at_partial {r : RS} {a : RLog} (h : Reach r a) {i : Nat} {e : Entry} (k : Nat)
    (h1 : a.first ≤ i) (h2 : i < a.first + a.dur ∨ (i = a.next ∧ a.dur = a.ents.length)) :
    ∃ r1 r' n, r.writeAtBuffer i e = .ok r1 ∧ r1.restart k = .ok r' ∧ r'.nextSlot = .ok n ∧
      (n = i ∨ n = i + 1 ∧ ∃ r2, r'.entryAt i = .ok (r2, some e)) ∧
      ∀ j e', j < i → a.get j = some e' → ∃ r2, r'.entryAt j = .ok (r2, some e') := by
  obtain ⟨r', out, a', h3, h4, h5⟩ := C59_raft_log_partial h (op := .crashInWriteAt i e k) ⟨h1, h2⟩
  have hbl : (a.before i).length = i - a.first := by
    unfold RLog.before
    rw [List.length_take]
    obtain ⟨⟨s, t, hsim⟩, _, _⟩ := reach_rrel h
    have := hsim.dur
    have := hsim.flushed_le
    rcases h2 with h' | ⟨h', _⟩
    · omega
    · unfold RLog.next at h'; omega
  simp only [RS.step] at h3
  cases hw : r.writeAtBuffer i e with
  | error x => rw [hw] at h3; cases h3
  | ok r1 =>
    rw [hw] at h3
    simp only at h3
    cases hr : r1.restart k with
    | error x => rw [hr] at h3; cases h3
    | ok r'' =>
      rw [hr] at h3
      simp only at h3
      cases hn : r''.nextSlot with
      | error x => rw [hn] at h3; cases h3
      | ok n =>
        rw [hn] at h3
        simp only [Except.map, Except.ok.injEq, Prod.mk.injEq] at h3
        obtain ⟨e1, e2⟩ := h3
        subst e1; subst e2
        simp only [RLog.accept] at h4
        refine ⟨r1, r'', n, rfl, hr, hn, ?_, ?_⟩
        · split at h4
          · rename_i hni; exact Or.inl hni
          · split at h4
            · rename_i hni
              cases h4
              refine Or.inr ⟨hni, ?_⟩
              refine kept_entry h5 ⟨get_mk h1 (by rw [List.getElem?_append_right (by omega), hbl]; simp), ?_⟩
              show i < a.first + (a.before i ++ [e]).length
              rw [List.length_append, hbl, List.length_singleton]; omega
            · cases h4
        · intro j e' hj he'
          obtain ⟨g1, g2, g3⟩ := get_first he'
          split at h4
          · cases h4
            refine kept_entry h5 ⟨get_mk g1 (by unfold RLog.before; rw [List.getElem?_take_of_lt (by omega)]; exact g3), ?_⟩
            show j < a.first + (a.before i).length
            omega
          · split at h4
            · cases h4
              refine kept_entry h5 ⟨get_mk g1 ?_, ?_⟩
              · rw [List.getElem?_append_left (by omega)]
                unfold RLog.before; rw [List.getElem?_take_of_lt (by omega)]; exact g3
              · show j < a.first + (a.before i ++ [e]).length
                rw [List.length_append, hbl]; omega
            · cases h4

/-- **C60.**  Compaction through the replication log store keeps every entry above the truncation limit, whatever index
Raft asks for, and every entry above that index. -/
theorem C60_compact_limit {r : RS} {a : RLog} (h : Reach r a) (i lim : Nat) :
    ∃ r', r.compactLimited i lim = .ok r' ∧ ∀ j e, (lim < j ∨ i < j) → a.get j = some e → ∃ r2, r'.entryAt j = .ok (r2, some e) := by
  obtain ⟨r', h1, h2⟩ := rrel_compact (reach_rrel h) (min i lim)
  refine ⟨r', h1, fun j e hj he => ?_⟩
  obtain ⟨g1, g2, g3⟩ := get_first he
  have hg : (a.dropTo (min i lim)).get j = some e := by
    unfold RLog.dropTo
    by_cases hm : min i lim < a.first
    · rw [if_pos hm]; exact he
    · rw [if_neg hm]
      exact get_mk (by omega) (by rw [List.getElem?_drop, ← g3]; congr 1; omega)
  obtain ⟨k1, k2, _⟩ := get_first hg
  obtain ⟨r2, e2, k3, _, k4, _⟩ := rrel_entryAt h2 k1 k2
  rw [hg] at k4
  cases k4
  exact ⟨r2, k3⟩

theorem slice_length {a : RLog} {i n : Nat} (h1 : a.first ≤ i) (h2 : i + n ≤ a.next) : (a.slice i (i + n)).length = n := by
  unfold RLog.slice; rw [List.length_take, List.length_drop]; unfold RLog.next at h2; omega

theorem slice_get {a : RLog} {i n j : Nat} (h1 : a.first ≤ i) (h2 : j < n) : (a.slice i (i + n))[j]? = a.get (i + j) := by
  unfold RLog.slice RLog.get
  rw [if_pos (by omega), List.getElem?_take_of_lt (by omega), List.getElem?_drop]
  congr 1; omega

/-- **C61.**  Packing `n` durable entries from `i` on, and applying the pack at the end of another log that goes up to
`i`: the other log then has these entries under the same indices, keeps its own, and goes on after them.

Missing: packs that ask for more entries than are there, and packs applied elsewhere (see below). -/
theorem C61_pack_apply_partial {r q : RS} {a b : RLog} (hr : Reach r a) (hq : Reach q b) {i n : Nat} (h1 : a.first ≤ i)
    (h2 : i + n ≤ a.first + a.dur) (h3 : b.next = i) :
    ∃ p q', r.pack i n = .ok p ∧ q.applyPack i p = .ok q' ∧ q'.nextSlot = .ok ((i + n : Nat) : Int) ∧
      (∀ j, i ≤ j → j < i + n → ∃ e r1 q1, r.entryAt j = .ok (r1, some e) ∧ q'.entryAt j = .ok (q1, some e)) ∧
      ∀ j, b.first ≤ j → j < i → ∃ e q1 q2, q.entryAt j = .ok (q1, some e) ∧ q'.entryAt j = .ok (q2, some e) := by
  have hrr := reach_rrel hr
  have hqr := reach_rrel hq
  obtain ⟨⟨s, t, hsim⟩, _, _⟩ := id hrr
  have hd := hsim.dur
  have hf := hsim.flushed_le
  have hin : i + n ≤ a.next := by unfold RLog.next; omega
  have hp := rrel_pack hrr h1 h2
  have hlen := slice_length h1 hin
  obtain ⟨q', out, b', h4, h5, h6⟩ := C59_raft_log_partial hq (op := .applyPack i ⟨n, a.slice i (i + n)⟩) ⟨h3.symm, hlen.symm⟩
  simp only [RS.step] at h4
  cases hap : q.applyPack i ⟨n, a.slice i (i + n)⟩ with
  | error x => rw [hap] at h4; cases h4
  | ok q'' =>
    rw [hap] at h4
    simp only [Except.map, Except.ok.injEq, Prod.mk.injEq] at h4
    obtain ⟨e1, e2⟩ := h4
    subst e1; subst e2
    simp only [RLog.accept] at h5
    cases h5
    obtain ⟨⟨s', t', hsim'⟩, _, _⟩ := reach_rrel h6
    have hbn : b.first + b.ents.length = i := h3
    refine ⟨_, q'', hp, hap, ?_, ?_, ?_⟩
    · rw [hsim'.nextSlot]
      congr 2
      show b.first + (b.ents ++ a.slice i (i + n)).length = i + n
      rw [List.length_append, hlen]; omega
    · intro j g1 g2
      obtain ⟨r1, e, k1, _, k3, _⟩ := rrel_entryAt hrr (i := j) (by omega) (by omega)
      have : ∃ q1, q''.entryAt j = .ok (q1, some e) := by
        refine kept_entry h6 ⟨get_mk (by omega) ?_, ?_⟩
        · rw [List.getElem?_append_right (by omega)]
          have := slice_get (a := a) (i := i) (n := n) (j := j - i) h1 (by omega)
          rw [show j - b.first - b.ents.length = j - i by omega, this, show i + (j - i) = j by omega]
          exact k3
        · show j < b.first + (b.ents ++ a.slice i (i + n)).length
          rw [List.length_append, hlen]; omega
      obtain ⟨q1, k4⟩ := this
      exact ⟨e, r1, q1, k1, k4⟩
    · intro j g1 g2
      obtain ⟨q1, e, k1, _, k3, _⟩ := rrel_entryAt hqr (i := j) g1 (by omega)
      obtain ⟨_, _, k5⟩ := get_first k3
      have : ∃ q2, q''.entryAt j = .ok (q2, some e) := by
        refine kept_entry h6 ⟨get_mk g1 ?_, ?_⟩
        · rw [List.getElem?_append_left (by omega)]; exact k5
        · show j < b.first + (b.ents ++ a.slice i (i + n)).length
          rw [List.length_append, hlen]; omega
      obtain ⟨q2, k4⟩ := this
      exact ⟨e, q1, q2, k1, k4⟩

/-! ## Cases -/

/-- Some calls on the store, and what they answer. -/
def answers : List ROp → RS → Except LFault (List ROut)
  | [], _ => .ok []
  | op :: ops, r =>
    match r.step op with
    | .error x => .error x
    | .ok (r', o) => (answers ops r').map (o :: ·)

/-- Some calls on a new store. -/
def fresh (ops : List ROp) : Except LFault (List ROut) :=
  match RS.create 0 with
  | .error x => .error x
  | .ok r => answers ops r

/-- `Legal`, computed. -/
def legalB (a : RLog) : ROp → Bool
  | .writeAt i _ => a.first ≤ i ∧ (i < a.first + a.dur ∨ (i = a.next ∧ a.dur = a.ents.length))
  | .crashInWriteAt i _ _ => a.first ≤ i ∧ (i < a.first + a.dur ∨ (i = a.next ∧ a.dur = a.ents.length))
  | .endBatch s n => s + n ≤ a.next
  | .setDurable i => i < a.first + a.dur
  | .applyPack i p => i = a.next ∧ p.cnt = p.recs.length
  | .lastEntry => a.ents ≠ [] ∨ a.first = 1
  | .entryAt i => a.first ≤ i ∧ i < a.next
  | .termAt i => a.first ≤ i ∧ i < a.next
  | .logEntries s e => a.first ≤ s ∧ e ≤ a.first + a.dur
  | .logEntriesExt s e h => a.first ≤ s ∧ s ≤ e ∧ e ≤ a.first + a.dur ∧ e < 2 ^ 64 ∧ h < 2 ^ 64
  | .pack i cnt => a.first ≤ i ∧ i + cnt ≤ a.first + a.dur
  | _ => true

theorem legalB_ok {a : RLog} {op : ROp} (h : legalB a op = true) : Legal a op := by
  cases op <;> simp only [legalB, decide_eq_true_eq] at h <;> exact h

/-- Some calls in a row from `r` and `a`, if all are supported. -/
def chain : List ROp → RS → RLog → Option (RS × RLog)
  | [], r, a => some (r, a)
  | op :: ops, r, a =>
    if legalB a op then
      match r.step op with
      | .error _ => none
      | .ok (r', o) =>
        match a.accept op o with
        | none => none
        | some a' => chain ops r' a'
    else none

theorem chain_run : ∀ {ops : List ROp} {r r' : RS} {a a' : RLog}, chain ops r a = some (r', a') → Run r a ops r' a' := by
  intro ops
  induction ops with
  | nil => intro r r' a a' h; simp only [chain, Option.some.injEq, Prod.mk.injEq] at h; rw [h.1, h.2]; exact .nil
  | cons op ops ih =>
    intro r r' a a' h
    simp only [chain] at h
    split at h
    · rename_i hl
      split at h
      · cases h
      · rename_i r1 o hs
        split at h
        · cases h
        · rename_i a1 ha
          exact .cons (legalB_ok hl) hs ha (ih h)
    · cases h

/-- The list after supported calls on a new store. -/
def list (ops : List ROp) : Option RLog :=
  match RS.create 0 with
  | .error _ => none
  | .ok r => (chain ops r RLog.new).map (·.2)

theorem list_reach {ops : List ROp} {a : RLog} (h : list ops = some a) : ∃ r, Reach r a := by
  unfold list at h
  cases hc : RS.create 0 with
  | error x => rw [hc] at h; cases h
  | ok r =>
    rw [hc] at h
    simp only at h
    cases hch : chain ops r RLog.new with
    | none => rw [hch] at h; cases h
    | some p =>
      obtain ⟨r', a'⟩ := p
      rw [hch] at h
      simp only [Option.map_some, Option.some.injEq] at h
      subst h
      exact ⟨r', (chain_run hch).reach (.new hc)⟩

/-- An entry with term `n`. -/
def en (n : Nat) : Entry := ⟨n, 1, []⟩

/-- A history with overwriting, compaction and crashes: entries 3 to 6 are there, all but the last durable. -/
def hist : List ROp := [.append (en 1), .append (en 2), .append (en 3), .endBatch 1 3, .writeAt 3 (en 4), .compact 1, .append (en 5),
  .crash 0, .append (en 6), .append (en 6), .crash 1, .crashInWriteAt 4 (en 7) 1, .flush, .compact 2, .append (en 8), .lastDurable,
  .append (en 9), .endBatch 5 2, .append (en 9), .lastEntry, .nextSlot]

example : list hist = some ⟨3, [en 4, en 7, en 8, en 9, en 9], 4⟩ := by decide +kernel

/-- The hypotheses of C59–C61 are met: a reachable store with durable entries, one that is not, and a supported
overwriting. -/
example : ∃ r a, Reach r a ∧ a = ⟨3, [en 4, en 7, en 8, en 9, en 9], 4⟩ ∧ Legal a (.writeAt 5 (en 10)) ∧
    Legal a (.pack 4 3) ∧ Legal a (.logEntriesExt 3 7 2) ∧ a.kept 4 (en 7) ∧ ¬ ROp.drops 4 (.crash 1) ∧
    ¬ ROp.drops 4 (.compact 3) ∧ ¬ ROp.drops 4 (.writeAt 5 (en 10)) := by
  obtain ⟨r, hr⟩ := list_reach (ops := hist) (a := ⟨3, [en 4, en 7, en 8, en 9, en 9], 4⟩) (by decide +kernel)
  exact ⟨r, _, hr, rfl, legalB_ok (by decide +kernel), legalB_ok (by decide +kernel), legalB_ok (by decide +kernel),
    ⟨by decide +kernel, by decide +kernel⟩, id, by simp [ROp.drops], by simp [ROp.drops]⟩

/-- Another log, at whose end (4) the pack of entries 4 to 6 of the log above can be applied. -/
example : ∃ q b, Reach q b ∧ b.next = 4 := by
  obtain ⟨q, hq⟩ := list_reach (ops := [.append (en 1), .append (en 2), .append (en 4), .endBatch 1 3])
    (a := ⟨1, [en 1, en 2, en 4], 3⟩) (by decide +kernel)
  exact ⟨q, _, hq, rfl⟩

/-! ## Unsupported uses -/

/-- **C61.**  A pack of one entry applied over entries 2 and 3: the log should end after entry 2, but `next_slot` says 5,
`last_durable_index` 4, and the entry of index 3, which was replaced, is still found.  The last entry is a dummy. -/
theorem C61_apply_over_violated :
    fresh [.append (en 1), .append (en 2), .append (en 3), .endBatch 1 3, .applyPack 2 ⟨1, [en 7]⟩, .nextSlot, .lastDurable,
      .entryAt 3, .lastEntry] =
    .ok [.idx 1, .idx 2, .idx 3, .unit, .unit, .idx 5, .idx 4, .entry (some (en 3)), .entry (some dummy)] := by rfl

/-- **C61.**  A pack of one entry applied at index 5 of a log that ends after index 1: the entry should be at 5 but is at
2. -/
theorem C61_apply_gap_violated :
    fresh [.append (en 1), .endBatch 1 1, .applyPack 5 ⟨1, [en 7]⟩, .nextSlot, .entryAt 2] =
    .ok [.idx 1, .unit, .unit, .idx 3, .entry (some (en 7))] ∧
    fresh [.append (en 1), .endBatch 1 1, .applyPack 5 ⟨1, [en 7]⟩, .entryAt 5] = .error .throw := ⟨by rfl, by rfl⟩

/-- **C61.**  A pack of three entries where one is there: the pack says three, and applying it reads past its end. -/
theorem C61_short_pack_violated :
    fresh [.append (en 1), .append (en 2), .endBatch 1 2, .pack 2 3] = .ok [.idx 1, .idx 2, .unit, .packed ⟨3, [en 2]⟩] ∧
    fresh [.append (en 1), .endBatch 1 1, .applyPack 2 ⟨3, [en 2]⟩] = .error .ub := ⟨by rfl, by rfl⟩

/-- **C59.**  Entries 1 to 3 of a log compacted up to 2: instead of refusing, `log_entries` gives one entry, the third, as
if it was the first. -/
theorem C59_log_entries_compacted_violated :
    fresh [.append (en 1), .append (en 2), .append (en 3), .endBatch 1 3, .compact 2, .startIndex, .logEntries 1 4] =
    .ok [.idx 1, .idx 2, .idx 3, .unit, .unit, .idx 3, .entries [en 3]] := by rfl

/-- **C59.**  Entries 1 to 3 when the third is not flushed: `next_slot` is 4, and `log_entries` gives two. -/
theorem C59_log_entries_unflushed_violated :
    fresh [.append (en 1), .append (en 2), .endBatch 1 2, .append (en 3), .nextSlot, .logEntries 1 4, .entryAt 3] =
    .ok [.idx 1, .idx 2, .unit, .idx 3, .idx 4, .entries [en 1, en 2], .entry (some (en 3))] := by rfl

/-- **C59.**  A compacted entry is still found, as long as it is cached; after a restart it is not.  The last entry of a
log compacted to its end is the compacted one before a restart and a dummy after. -/
theorem C59_compacted_entry_violated :
    fresh [.append (en 1), .append (en 2), .endBatch 1 2, .compact 2, .entryAt 2, .termAt 1, .lastEntry, .crash 0, .lastEntry] =
    .ok [.idx 1, .idx 2, .unit, .unit, .entry (some (en 2)), .idx 1, .entry (some (en 2)), .idx 3, .entry (some dummy)] ∧
    fresh [.append (en 1), .append (en 2), .endBatch 1 2, .compact 2, .crash 0, .entryAt 2] = .error .throw := ⟨by rfl, by rfl⟩

/-- **C59.**  Overwriting an entry that is not flushed aborts. -/
theorem C59_write_at_unflushed_violated :
    fresh [.append (en 1), .endBatch 1 1, .append (en 2), .writeAt 2 (en 3)] = .error .abort := by rfl

/-- **C59.**  A durable index beyond the end, told by `set_last_durable_lsn` or `end_of_append_batch`: `next_slot` no
longer agrees with what `append` returns. -/
theorem C59_durable_hint_violated :
    fresh [.append (en 1), .endBatch 1 1, .setDurable 5, .nextSlot, .lastDurable, .append (en 2), .nextSlot] =
    .ok [.idx 1, .unit, .unit, .idx 6, .idx 5, .idx 2, .idx 6] := by rfl

end HS.RaftLog
