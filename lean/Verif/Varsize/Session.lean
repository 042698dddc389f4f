import Verif.Varsize.Lemmas
import Mathlib.Tactic.ByContra
/-!
# Refill sessions of the slab cache (C41)

Models `create_cache_fill_session`, `open_session` and `try_fill_cache` of
`src/lib/blkalloc/blk_cache_queue.cpp` with the vector of requirements of the session.  In
`Verif.Varsize.Model` the requirements are an arbitrary function; here they are what the code computes.
-/
namespace HS.Varsize

/-! ### Model -/

/-- `SlabCacheQueue::entry_count`, blk_cache_queue.cpp:344-350. -/
def Slab.count (sl : Slab) : Nat := (sl.levels.map fun lv => lv.q.length).sum

/-- `m_total_capacity`, blk_cache_queue.cpp:305. -/
def Slab.capacity (sl : Slab) : Nat := (sl.levels.map Level.cap).sum

/-- `SlabCacheQueue::open_session`, blk_cache_queue.cpp:356-369, when no session is open on the slab.  `thr` is
`m_refill_threshold_limits`. -/
def openSession (all : Bool) (thr : Nat) (sl : Slab) : Nat :=
  if all = true ∨ sl.count < thr then (if sl.count > sl.capacity then 0 else sl.capacity - sl.count) else 0

/-- `FreeBlkCacheQueue::create_cache_fill_session`, blk_cache_queue.cpp:264-271: a slot (required, refilled) is
appended only for a slab that needs blocks. -/
def createSession (all : Bool) (thr : Nat → Nat) (c : Cache) : List (Nat × Nat) :=
  ((c.zipIdx.map fun x => openSession all (thr x.2) x.1).filter fun n => decide (n > 0)).map fun n => (n, 0)

/-- `is_refill_done`, blk_cache.h:157-159. -/
def refillDone (p : Nat × Nat) : Bool := p.1 == 0 || p.2 == p.1

/-- Inner loop of `try_fill_cache`, blk_cache_queue.cpp:150-164.  `none`: the vector is accessed past its end. -/
def fillSlabS (idx size temp : Nat) : Nat → Cache → List (Nat × Nat) → Nat → Nat →
    Option (Cache × List (Nat × Nat) × Nat × Nat)
  | 0, c, rq, blk, rem => some (c, rq, blk, rem)
  | fuel + 1, c, rq, blk, rem =>
    if rem ≥ size then
      match rq[idx]? with
      | none => none
      | some p =>
        if needRefill p = true then
          match pushSlab c idx ⟨blk, size, temp⟩ with
          | none => none
          | some (c', false) => some (c', rq.set idx (p.1, p.1), blk, rem)
          | some (c', true) => fillSlabS idx size temp fuel c' (rq.set idx (p.1, p.2 + 1)) (blk + size) (rem - size)
        else some (c, rq, blk, rem)
    else some (c, rq, blk, rem)

/-- Outer loop of `try_fill_cache`, blk_cache_queue.cpp:148-167; `pend` is `slabs_pending_refill`. -/
def fillDownS (temp : Nat) : Nat → Cache → List (Nat × Nat) → Nat → Nat → Nat →
    Option (Cache × List (Nat × Nat) × Nat × Nat)
  | idx, c, rq, blk, rem, pend =>
    match c[idx]? with
    | none => none
    | some sl => match fillSlabS idx sl.size temp (rem + 1) c rq blk rem with
      | none => none
      | some (c', rq', blk', rem') =>
        match rq'[idx]? with
        | none => none
        | some p =>
          let pend' := if refillDone p = true then pend - 1 else pend
          match idx with
          | 0 => some (c', rq', rem', pend')
          | idx + 1 => if rem' = 0 then some (c', rq', rem', pend') else fillDownS temp idx c' rq' blk' rem' pend'

/-- `FreeBlkCacheQueue::try_fill_cache`, blk_cache_queue.cpp:136-172.  Returns the number of blocks added and
`overall_refill_done`. -/
def tryFillS (c : Cache) (rq : List (Nat × Nat)) (blk n temp : Nat) : Option (Cache × List (Nat × Nat) × Nat × Bool) :=
  let idx := min (Slab.findSlab n) (c.length - 1)
  match fillDownS temp idx c rq blk n c.length with
  | none => none
  | some (c', rq', rem, pend) => some (c', rq', n - rem, decide (pend = 0))

/-- The free runs a sweep finds (`fill_cache_in_portion`, varsize_blk_allocator.cpp:349-377; `fill_cache`, 309-319), in
order, until `overall_refill_done`.  Returns also the number of blocks added for each run. -/
def refill : Cache → List (Nat × Nat) → List (Nat × Nat × Nat) → Option (Cache × List (Nat × Nat) × List Nat × Bool)
  | c, rq, [] => some (c, rq, [], false)
  | c, rq, (blk, n, temp) :: runs =>
    match tryFillS c rq blk n temp with
    | none => none
    | some (c', rq', added, true) => some (c', rq', [added], true)
    | some (c', rq', added, false) =>
      match refill c' rq' runs with
      | none => none
      | some (c'', rq'', l, d) => some (c'', rq'', added :: l, d)

/-! ### Pushing -/

theorem sum_set (f : Level → Nat) (lv' : Level) : ∀ (l : List Level) (i : Nat) (lv : Level), l[i]? = some lv →
    ((l.set i lv').map f).sum + f lv = (l.map f).sum + f lv' := by
  intro l
  induction l with
  | nil => intro i lv h; simp at h
  | cons a l ih =>
    intro i lv h
    cases i with
    | zero => simp at h; subst h; simp; omega
    | succ i =>
      have := ih i lv (by simpa using h)
      rw [List.set_cons_succ, List.map_cons, List.sum_cons, List.map_cons, List.sum_cons]
      omega

theorem mem_order {n l start : Nat} (hl : l < n) (hs : start < n) : l ∈ order n start := by
  unfold order
  rw [List.mem_map]
  refine ⟨(l + n - start) % n, List.mem_range.2 (Nat.mod_lt _ (by omega)), ?_⟩
  by_cases h : start ≤ l
  · have e : (l + n - start) % n = l - start := by
      rw [show l + n - start = (l - start) + n by omega, Nat.add_mod_right, Nat.mod_eq_of_lt (by omega)]
    rw [e, show start + (l - start) = l by omega, Nat.mod_eq_of_lt hl]
  · rw [Nat.mod_eq_of_lt (a := l + n - start) (by omega), show start + (l + n - start) = l + n by omega, Nat.add_mod_right,
      Nat.mod_eq_of_lt hl]

theorem push_count {sl sl' : Slab} {e : Entry} (h : sl.push e = some sl') :
    sl'.count = sl.count + 1 ∧ sl'.capacity = sl.capacity ∧ sl'.size = sl.size := by
  unfold Slab.push at h
  simp only at h
  split at h
  · rename_i l _
    split at h
    · rename_i lv hl
      simp at h
      subst h
      have h1 := sum_set (fun lv => lv.q.length) { lv with q := lv.q ++ [e] } sl.levels l lv hl
      have h2 := sum_set Level.cap { lv with q := lv.q ++ [e] } sl.levels l lv hl
      refine ⟨?_, ?_, rfl⟩
      · unfold Slab.count
        rw [List.length_append, List.length_singleton] at h1
        simp only at h1 ⊢
        omega
      · unfold Slab.capacity
        simp only at h2 ⊢
        omega
    · simp at h
  · simp at h

theorem push_room {sl : Slab} (e : Entry) (h : sl.count < sl.capacity) : ∃ sl', sl.push e = some sl' := by
  -- some level has room
  have hex : ∃ lv ∈ sl.levels, lv.q.length < lv.cap := by
    by_contra hn
    have : sl.capacity ≤ sl.count := by
      unfold Slab.capacity Slab.count
      revert hn
      generalize sl.levels = ls
      intro hn
      induction ls with
      | nil => simp
      | cons a ls ih =>
        have h1 : a.cap ≤ a.q.length := by
          by_contra h2
          exact hn ⟨a, List.mem_cons_self, by omega⟩
        have h2 := ih (fun ⟨lv, hm, hlt⟩ => hn ⟨lv, List.mem_cons_of_mem _ hm, hlt⟩)
        simp only [List.map_cons, List.sum_cons]
        omega
    omega
  obtain ⟨lv, hm, hlt⟩ := hex
  obtain ⟨l, hl⟩ := List.mem_iff_getElem?.1 hm
  have hln : l < sl.levels.length := (List.getElem?_eq_some_iff.1 hl).1
  have hmo := mem_order (start := min e.temp (sl.levels.length - 1)) hln (by omega)
  unfold Slab.push
  simp only
  split
  · rename_i l' hf
    have hl' : l' < sl.levels.length := by
      have := List.mem_of_find?_eq_some hf
      unfold order at this
      obtain ⟨i, _, rfl⟩ := List.mem_map.1 this
      exact Nat.mod_lt _ (by omega)
    rw [List.getElem?_eq_getElem hl']
    exact ⟨_, rfl⟩
  · rename_i hf
    have := List.find?_eq_none.1 hf l hmo
    rw [hl] at this
    simp only [decide_eq_true_eq] at this
    exact absurd hlt this

/-! ### Sessions in which every slab has its slot -/

/-- What a slot says about its slab. -/
def SlotOk (sl : Slab) (p : Nat × Nat) : Prop := p.2 ≤ p.1 ∧ sl.count + (p.1 - p.2) = sl.capacity

def Aligned (c : Cache) (rq : List (Nat × Nat)) : Prop :=
  rq.length = c.length ∧ ∀ (i : Nat) (sl : Slab) (p : Nat × Nat), c[i]? = some sl → rq[i]? = some p → SlotOk sl p

def SFull (c : Cache) (i : Nat) : Prop := ∀ sl, c[i]? = some sl → sl.count = sl.capacity

theorem SlotOk.done {sl : Slab} {p : Nat × Nat} (h : SlotOk sl p) : refillDone p = true ↔ sl.count = sl.capacity := by
  obtain ⟨h1, h2⟩ := h
  unfold refillDone
  rw [Bool.or_eq_true, beq_iff_eq, beq_iff_eq]
  constructor
  · intro h; omega
  · intro h; right; omega

theorem SlotOk.need {sl : Slab} {p : Nat × Nat} (h : SlotOk sl p) : needRefill p = true ↔ sl.count < sl.capacity := by
  obtain ⟨h1, h2⟩ := h
  unfold needRefill
  rw [Bool.and_eq_true, bne_iff_ne, bne_iff_ne]
  constructor
  · intro ⟨ha, hb⟩; omega
  · intro h; constructor <;> omega

/-- How a fill changes the cache: slab `i` gets `k i` entries, charged to slot `i`. -/
structure Grew (c : Cache) (rq : List (Nat × Nat)) (c' : Cache) (rq' : List (Nat × Nat)) : Prop where
  len : c'.length = c.length
  len2 : rq'.length = rq.length
  slab : ∀ (i : Nat) (sl sl' : Slab), c[i]? = some sl → c'[i]? = some sl' → sl.count ≤ sl'.count ∧ sl'.capacity = sl.capacity ∧ sl'.size = sl.size
  slot : ∀ (i : Nat) (p p' : Nat × Nat) (sl sl' : Slab), rq[i]? = some p → rq'[i]? = some p' → c[i]? = some sl → c'[i]? = some sl' →
    p'.1 = p.1 ∧ p'.2 = p.2 + (sl'.count - sl.count)

theorem Grew.refl (c : Cache) (rq : List (Nat × Nat)) : Grew c rq c rq := by
  refine ⟨rfl, rfl, fun i sl sl' h h' => ?_, fun i p p' sl sl' h h' h1 h1' => ?_⟩
  · rw [h] at h'; cases h'; exact ⟨Nat.le_refl _, rfl, rfl⟩
  · rw [h] at h'; cases h'; rw [h1] at h1'; cases h1'; exact ⟨rfl, by omega⟩

theorem Grew.trans {c c1 c2 : Cache} {rq rq1 rq2 : List (Nat × Nat)} (h1 : Grew c rq c1 rq1) (h2 : Grew c1 rq1 c2 rq2) : Grew c rq c2 rq2 := by
  have hmid : ∀ (i : Nat) (sl2 : Slab), c2[i]? = some sl2 → ∃ sl1, c1[i]? = some sl1 := by
    intro i sl2 h
    have := (List.getElem?_eq_some_iff.1 h).1
    rw [h2.len] at this
    exact ⟨_, List.getElem?_eq_getElem this⟩
  have hmid2 : ∀ (i : Nat) (p2 : Nat × Nat), rq2[i]? = some p2 → ∃ p1, rq1[i]? = some p1 := by
    intro i p2 h
    have := (List.getElem?_eq_some_iff.1 h).1
    rw [h2.len2] at this
    exact ⟨_, List.getElem?_eq_getElem this⟩
  refine ⟨h2.len.trans h1.len, h2.len2.trans h1.len2, fun i sl sl2 h h' => ?_, fun i p p2 sl sl2 hp hp' h h' => ?_⟩
  · obtain ⟨sl1, hm⟩ := hmid i sl2 h'
    obtain ⟨a1, a2, a3⟩ := h1.slab i sl sl1 h hm
    obtain ⟨b1, b2, b3⟩ := h2.slab i sl1 sl2 hm h'
    exact ⟨by omega, by omega, by omega⟩
  · obtain ⟨sl1, hm⟩ := hmid i sl2 h'
    obtain ⟨p1, hm2⟩ := hmid2 i p2 hp'
    obtain ⟨a1, a2⟩ := h1.slot i p p1 sl sl1 hp hm2 h hm
    obtain ⟨b1, b2⟩ := h2.slot i p1 p2 sl1 sl2 hm2 hp' hm h'
    have := (h1.slab i sl sl1 h hm).1
    have := (h2.slab i sl1 sl2 hm h').1
    exact ⟨by omega, by omega⟩

theorem Grew.full {c : Cache} {rq : List (Nat × Nat)} {c' : Cache} {rq' : List (Nat × Nat)} (h : Grew c rq c' rq') (ha : Aligned c' rq') {i : Nat} (hf : SFull c i) : SFull c' i := by
  intro sl' h'
  have hi := (List.getElem?_eq_some_iff.1 h').1
  obtain ⟨sl, hsl⟩ : ∃ sl, c[i]? = some sl := ⟨_, List.getElem?_eq_getElem (by rw [← h.len]; exact hi)⟩
  obtain ⟨p, hp⟩ : ∃ p, rq'[i]? = some p := ⟨_, List.getElem?_eq_getElem (by rw [ha.1]; exact hi)⟩
  obtain ⟨a1, a2, _⟩ := h.slab i sl sl' hsl h'
  have := hf sl hsl
  have := (ha.2 i sl' p h' hp).2
  omega

/-- One push. -/
theorem push_aligned {c : Cache} {rq : List (Nat × Nat)} {idx : Nat} (wf : WF c) (ha : Aligned c rq) {sl : Slab} {p : Nat × Nat}
    (hsl : c[idx]? = some sl) (hp : rq[idx]? = some p) (hn : needRefill p = true) (blk temp : Nat) :
    ∃ sl', pushSlab c idx ⟨blk, sl.size, temp⟩ = some (c.set idx sl', true) ∧ WF (c.set idx sl') ∧
      Aligned (c.set idx sl') (rq.set idx (p.1, p.2 + 1)) ∧ Grew c rq (c.set idx sl') (rq.set idx (p.1, p.2 + 1)) ∧
      sl'.size = sl.size := by
  have hok := ha.2 idx sl p hsl hp
  have hroom := hok.need.1 hn
  obtain ⟨sl', hpush⟩ := push_room (sl := sl) ⟨blk, sl.size, temp⟩ hroom
  obtain ⟨k1, k2, k3⟩ := push_count hpush
  have hi := (List.getElem?_eq_some_iff.1 hsl).1
  have hi2 := (List.getElem?_eq_some_iff.1 hp).1
  have hget : ∀ i : Nat, (c.set idx sl')[i]? = if idx = i then some sl' else c[i]? := by
    intro i; rw [List.getElem?_set, if_pos hi]
  have hget2 : ∀ i : Nat, (rq.set idx (p.1, p.2 + 1))[i]? = if idx = i then some (p.1, p.2 + 1) else rq[i]? := by
    intro i; rw [List.getElem?_set, if_pos hi2]
  refine ⟨sl', ?_, WF_set wf (push_spec hpush (wf.2.2 _ _ hsl) rfl).1, ⟨?_, ?_⟩, ⟨by simp, by simp, ?_, ?_⟩, k3⟩
  · unfold pushSlab
    simp only [hsl, hpush]
  · rw [List.length_set, List.length_set]; exact ha.1
  · intro i s q h1 h2
    rw [hget] at h1
    rw [hget2] at h2
    split at h1
    · cases h1
      rename_i e
      rw [if_pos e] at h2
      cases h2
      obtain ⟨o1, o2⟩ := hok
      exact ⟨by show p.2 + 1 ≤ p.1; omega, by show sl'.count + (p.1 - (p.2 + 1)) = sl'.capacity; omega⟩
    · rename_i e
      rw [if_neg e] at h2
      exact ha.2 i s q h1 h2
  · intro i s s' h1 h2
    rw [hget] at h2
    split at h2
    · rename_i e
      subst e
      rw [hsl] at h1; cases h1; cases h2
      exact ⟨by omega, k2, k3⟩
    · rw [h1] at h2; cases h2; exact ⟨Nat.le_refl _, rfl, rfl⟩
  · intro i q q' s s' g1 g2 h1 h2
    rw [hget] at h2
    rw [hget2] at g2
    split at h2
    · rename_i e
      subst e
      rw [if_pos rfl] at g2
      rw [hsl] at h1; cases h1; cases h2
      rw [hp] at g1; cases g1; cases g2
      exact ⟨rfl, by show p.2 + 1 = p.2 + (sl'.count - sl.count); omega⟩
    · rename_i e
      rw [if_neg e] at g2
      rw [h1] at h2; cases h2
      rw [g1] at g2; cases g2
      exact ⟨rfl, by omega⟩

theorem fillSlabS_spec {idx : Nat} (temp : Nat) : ∀ (fuel : Nat) (c : Cache) (rq : List (Nat × Nat)) (blk rem : Nat), WF c →
    Aligned c rq → idx < c.length → rem < fuel →
    ∃ c' rq' blk' rem', fillSlabS idx (2 ^ idx) temp fuel c rq blk rem = some (c', rq', blk', rem') ∧ WF c' ∧ Aligned c' rq' ∧
      Grew c rq c' rq' ∧ rem' ≤ rem ∧ (rem' < 2 ^ idx ∨ SFull c' idx) := by
  intro fuel
  induction fuel with
  | zero => intro c rq blk rem _ _ _ h; omega
  | succ fuel ih =>
    intro c rq blk rem wf ha hi hf
    unfold fillSlabS
    split
    · rename_i hge
      obtain ⟨sl, hsl⟩ : ∃ sl, c[idx]? = some sl := ⟨_, List.getElem?_eq_getElem hi⟩
      obtain ⟨p, hp⟩ : ∃ p, rq[idx]? = some p := ⟨_, List.getElem?_eq_getElem (by rw [ha.1]; exact hi)⟩
      rw [hp]
      simp only
      have hsz := (wf.2.2 _ _ hsl).1
      split
      · rename_i hn
        obtain ⟨sl', h1, h2, h3, h4, _⟩ := push_aligned wf ha hsl hp hn blk temp
        rw [hsz] at h1
        rw [h1]
        simp only
        have hpos : 0 < 2 ^ idx := Nat.pos_of_ne_zero (by simp)
        obtain ⟨c2, rq2, b2, r2, e2, w2, a2, g2, l2, f2⟩ := ih (c.set idx sl') (rq.set idx (p.1, p.2 + 1)) (blk + 2 ^ idx)
          (rem - 2 ^ idx) h2 h3 (by rw [List.length_set]; exact hi) (by omega)
        exact ⟨c2, rq2, b2, r2, e2, w2, a2, h4.trans g2, by omega, f2⟩
      · rename_i hn
        refine ⟨c, rq, blk, rem, rfl, wf, ha, Grew.refl c rq, Nat.le_refl _, Or.inr ?_⟩
        intro s hs
        rw [hsl] at hs; cases hs
        have hok := ha.2 idx sl p hsl hp
        have : ¬ sl.count < sl.capacity := fun h => hn (hok.need.2 h)
        have := hok.2
        omega
    · exact ⟨c, rq, blk, rem, rfl, wf, ha, Grew.refl c rq, Nat.le_refl _, Or.inl (by omega)⟩

theorem fillDownS_spec (temp : Nat) : ∀ (idx : Nat) (c : Cache) (rq : List (Nat × Nat)) (blk rem pend : Nat), WF c →
    Aligned c rq → idx < c.length → idx + 1 ≤ pend →
    ∃ c' rq' rem' pend', fillDownS temp idx c rq blk rem pend = some (c', rq', rem', pend') ∧ WF c' ∧ Aligned c' rq' ∧
      Grew c rq c' rq' ∧ rem' ≤ rem ∧ (∀ i ≤ idx, rem' < 2 ^ i ∨ SFull c' i) ∧
      pend ≤ pend' + (idx + 1) ∧ (pend = pend' + (idx + 1) → ∀ i ≤ idx, SFull c' i) := by
  intro idx
  induction idx with
  | zero =>
    intro c rq blk rem pend wf ha hi hpe
    unfold fillDownS
    obtain ⟨sl, hsl⟩ : ∃ sl, c[0]? = some sl := ⟨_, List.getElem?_eq_getElem hi⟩
    have hsz := (wf.2.2 _ _ hsl).1
    obtain ⟨c1, rq1, b1, r1, e1, w1, a1, g1, l1, f1⟩ := fillSlabS_spec (idx := 0) temp (rem + 1) c rq blk rem wf ha hi (by omega)
    rw [hsl]
    simp only [hsz, e1]
    have hi1 : 0 < c1.length := by rw [g1.len]; exact hi
    obtain ⟨sl1, hsl1⟩ : ∃ sl, c1[0]? = some sl := ⟨_, List.getElem?_eq_getElem hi1⟩
    obtain ⟨p, hp⟩ : ∃ p, rq1[0]? = some p := ⟨_, List.getElem?_eq_getElem (by rw [a1.1]; exact hi1)⟩
    rw [hp]
    simp only
    refine ⟨c1, rq1, r1, _, rfl, w1, a1, g1, l1, ?_, ?_, ?_⟩
    · intro i hi'; rw [show i = 0 by omega]; exact f1
    · split <;> omega
    · intro he i hi' s hs
      rw [show i = 0 by omega, hsl1] at hs; cases hs
      refine (a1.2 0 sl1 p hsl1 hp).done.1 ?_
      by_contra hn
      rw [if_neg hn] at he
      omega
  | succ idx ih =>
    intro c rq blk rem pend wf ha hi hpe
    unfold fillDownS
    obtain ⟨sl, hsl⟩ : ∃ sl, c[idx + 1]? = some sl := ⟨_, List.getElem?_eq_getElem hi⟩
    have hsz := (wf.2.2 _ _ hsl).1
    obtain ⟨c1, rq1, b1, r1, e1, w1, a1, g1, l1, f1⟩ := fillSlabS_spec (idx := idx + 1) temp (rem + 1) c rq blk rem wf ha hi (by omega)
    rw [hsl]
    simp only [hsz, e1]
    have hi1 : idx + 1 < c1.length := by rw [g1.len]; exact hi
    obtain ⟨sl1, hsl1⟩ : ∃ sl, c1[idx + 1]? = some sl := ⟨_, List.getElem?_eq_getElem hi1⟩
    obtain ⟨p, hp⟩ : ∃ p, rq1[idx + 1]? = some p := ⟨_, List.getElem?_eq_getElem (by rw [a1.1]; exact hi1)⟩
    rw [hp]
    simp only
    have hdone : refillDone p = true ↔ SFull c1 (idx + 1) := by
      rw [(a1.2 _ sl1 p hsl1 hp).done]
      constructor
      · intro h s hs; rw [hsl1] at hs; cases hs; exact h
      · intro h; exact h sl1 hsl1
    by_cases hr : r1 = 0
    · rw [if_pos hr]
      refine ⟨c1, rq1, r1, _, rfl, w1, a1, g1, l1, ?_, ?_, ?_⟩
      · intro i _
        left; rw [hr]; exact Nat.pos_of_ne_zero (by simp)
      · split <;> omega
      · intro he
        exfalso
        split at he <;> omega
    · rw [if_neg hr]
      obtain ⟨c2, rq2, r2, q2, e2, w2, a2, g2, l2, f2, p2, p3⟩ := ih c1 rq1 b1 r1 (if refillDone p = true then pend - 1 else pend) w1 a1
        (by omega) (by split <;> omega)
      refine ⟨c2, rq2, r2, q2, e2, w2, a2, g1.trans g2, by omega, ?_, ?_, ?_⟩
      · intro i hi'
        by_cases h : i ≤ idx
        · exact f2 i h
        · rw [show i = idx + 1 by omega]
          rcases f1 with h | h
          · left; omega
          · right; exact g2.full a2 h
      · split at p2 <;> omega
      · intro he i hi'
        by_cases hd : refillDone p = true
        · rw [if_pos hd] at p2 p3
          by_cases h : i ≤ idx
          · exact p3 (by omega) i h
          · rw [show i = idx + 1 by omega]
            exact g2.full a2 (hdone.1 hd)
        · rw [if_neg hd] at p2
          omega

theorem tryFillS_spec {c : Cache} {rq : List (Nat × Nat)} (wf : WF c) (ha : Aligned c rq) (blk temp : Nat) {n : Nat} (hn : 1 ≤ n)
    (hn2 : n ≤ 65535) :
    ∃ c' rq' added d, tryFillS c rq blk n temp = some (c', rq', added, d) ∧ WF c' ∧ Aligned c' rq' ∧ Grew c rq c' rq' ∧
      added ≤ n ∧ (∀ i < c.length, n - added < 2 ^ i ∨ SFull c' i) ∧ (d = true → ∀ i < c.length, SFull c' i) := by
  have hlen := wf.1
  obtain ⟨c1, rq1, r1, q1, e1, w1, a1, g1, l1, f1, p1, p2⟩ := fillDownS_spec temp (min (Slab.findSlab n) (c.length - 1)) c rq blk n
    c.length wf ha (by omega) (by omega)
  unfold tryFillS
  simp only [e1]
  refine ⟨c1, rq1, _, _, rfl, w1, a1, g1, by omega, ?_, ?_⟩
  · intro i hi
    rw [show n - (n - r1) = r1 by omega]
    by_cases h : i ≤ min (Slab.findSlab n) (c.length - 1)
    · exact f1 i h
    · left
      have h1 := (Slab.C13_find_slab n hn hn2).1
      have h2 : 2 ^ (Slab.findSlab n + 1) ≤ 2 ^ i := Nat.pow_le_pow_right (by omega) (by omega)
      rw [Nat.pow_succ] at h2
      have : 0 < 2 ^ (Slab.findSlab n) := Nat.pos_of_ne_zero (by simp)
      omega
  · intro hd i hi
    have hd : q1 = 0 := of_decide_eq_true hd
    exact p2 (by omega) i (by omega)

theorem refill_spec : ∀ (runs : List (Nat × Nat × Nat)) (c : Cache) (rq : List (Nat × Nat)), WF c → Aligned c rq →
    (∀ r ∈ runs, 1 ≤ r.2.1 ∧ r.2.1 ≤ 65535) →
    ∃ c' rq' added d, refill c rq runs = some (c', rq', added, d) ∧ WF c' ∧ Aligned c' rq' ∧ Grew c rq c' rq' ∧
      (d = true → ∀ i < c.length, SFull c' i) ∧ (d = false → added.length = runs.length) ∧
      (∀ x ∈ runs.zip added, x.2 ≤ x.1.2.1 ∧ ∀ i < c.length, x.1.2.1 - x.2 < 2 ^ i ∨ SFull c' i) := by
  intro runs
  induction runs with
  | nil => intro c rq wf ha _; exact ⟨c, rq, [], false, rfl, wf, ha, Grew.refl c rq, by simp, by simp, by simp⟩
  | cons r runs ih =>
    intro c rq wf ha hr
    obtain ⟨blk, n, temp⟩ := r
    obtain ⟨h1, h2⟩ := hr _ List.mem_cons_self
    obtain ⟨c1, rq1, k, d, e1, w1, a1, g1, l1, f1, d1⟩ := tryFillS_spec wf ha blk temp h1 h2
    unfold refill
    simp only [e1]
    cases d with
    | true =>
      refine ⟨c1, rq1, [k], true, rfl, w1, a1, g1, d1, by simp, ?_⟩
      intro x hx
      simp only [List.zip_cons_cons, List.mem_cons] at hx
      rcases hx with hx | hx
      · subst hx; exact ⟨l1, f1⟩
      · cases runs <;> cases hx
    | false =>
      obtain ⟨c2, rq2, l, d2, e2, w2, a2, g2, f2, n2, z2⟩ := ih c1 rq1 w1 a1 (fun r h => hr r (List.mem_cons_of_mem _ h))
      simp only [e2]
      refine ⟨c2, rq2, k :: l, d2, rfl, w2, a2, g1.trans g2, ?_, ?_, ?_⟩
      · intro h i hi; exact f2 h i (by rw [g1.len]; exact hi)
      · intro h; simp [n2 h]
      · intro x hx
        rw [List.zip_cons_cons, List.mem_cons] at hx
        rcases hx with hx | hx
        · subst hx
          refine ⟨l1, fun i hi => ?_⟩
          rcases f1 i hi with h | h
          · exact Or.inl h
          · exact Or.inr (g2.full a2 h)
        · obtain ⟨z3, z4⟩ := z2 x hx
          exact ⟨z3, fun i hi => z4 i (by rw [g1.len]; exact hi)⟩

theorem createSession_all {all : Bool} {thr : Nat → Nat} {c : Cache}
    (h : ∀ (i : Nat) (sl : Slab), c[i]? = some sl → 0 < openSession all (thr i) sl) :
    createSession all thr c = c.zipIdx.map fun x => (openSession all (thr x.2) x.1, 0) := by
  unfold createSession
  rw [List.filter_eq_self.2, List.map_map]
  · rfl
  · intro n hn
    obtain ⟨x, hx, rfl⟩ := List.mem_map.1 hn
    have := List.mem_zipIdx_iff_getElem?.1 hx
    simpa using h x.2 x.1 this

theorem openSession_le {all : Bool} {thr : Nat} {sl : Slab} (h : 0 < openSession all thr sl) :
    sl.count + openSession all thr sl = sl.capacity := by
  unfold openSession at *
  split at h
  · rename_i h1
    rw [if_pos h1]
    split at h
    · omega
    · rename_i h2
      rw [if_neg h2]
      omega
  · omega

/-- **C41.** When every slab needs blocks, a refill session over any free runs does what it should:
* the slot of slab `i` records exactly the entries slab `i` received, and no slab gets more than it needs;
* of a run, blocks are left in the bitmap only if every slab they could go to is full;
* the session declares itself complete only when every slab is full, and otherwise looks at all runs. -/
theorem C41_refill_partial {c : Cache} (wf : WF c) {all : Bool} {thr : Nat → Nat}
    (hall : ∀ (i : Nat) (sl : Slab), c[i]? = some sl → 0 < openSession all (thr i) sl) {runs : List (Nat × Nat × Nat)}
    (hruns : ∀ r ∈ runs, 1 ≤ r.2.1 ∧ r.2.1 ≤ 65535) :
    ∃ c' rq' added done, refill c (createSession all thr c) runs = some (c', rq', added, done) ∧ c'.length = c.length ∧
      (∀ (i : Nat) (sl sl' : Slab), c[i]? = some sl → c'[i]? = some sl' → sl.count ≤ sl'.count ∧ sl'.count ≤ sl.capacity ∧
        rq'[i]? = some (openSession all (thr i) sl, sl'.count - sl.count)) ∧
      (∀ x ∈ runs.zip added, x.2 ≤ x.1.2.1 ∧ ∀ (i : Nat) (sl' : Slab), c'[i]? = some sl' → x.1.2.1 - x.2 < 2 ^ i ∨ sl'.count = sl'.capacity) ∧
      (done = true → ∀ (i : Nat) (sl' : Slab), c'[i]? = some sl' → sl'.count = sl'.capacity) ∧
      (done = false → added.length = runs.length) := by
  have hcs := createSession_all hall
  have hget : ∀ (i : Nat) (sl : Slab), c[i]? = some sl → (createSession all thr c)[i]? = some (openSession all (thr i) sl, 0) := by
    intro i sl h
    rw [hcs, List.getElem?_map, List.getElem?_zipIdx, h]
    simp
  have ha : Aligned c (createSession all thr c) := by
    refine ⟨by rw [hcs]; simp, fun i sl p h1 h2 => ?_⟩
    rw [hget i sl h1] at h2
    cases h2
    exact ⟨Nat.zero_le _, openSession_le (hall i sl h1)⟩
  obtain ⟨c', rq', added, d, e, w, a, g, f1, f2, f3⟩ := refill_spec runs c _ wf ha hruns
  refine ⟨c', rq', added, d, e, g.len, ?_, ?_, ?_, f2⟩
  · intro i sl sl' h h'
    have hi : i < rq'.length := by rw [a.1]; exact (List.getElem?_eq_some_iff.1 h').1
    have hp : rq'[i]? = some rq'[i] := List.getElem?_eq_getElem hi
    obtain ⟨b1, b2, _⟩ := g.slab i sl sl' h h'
    obtain ⟨s1, s2⟩ := g.slot i _ _ sl sl' (hget i sl h) hp h h'
    have := (a.2 i sl' _ h' hp).2
    refine ⟨b1, by omega, ?_⟩
    rw [hp]
    congr 1
    exact Prod.ext s1 (by rw [s2]; simp)
  · intro x hx
    obtain ⟨x1, x2⟩ := f3 x hx
    refine ⟨x1, fun i sl' h' => ?_⟩
    rcases x2 i (by rw [← g.len]; exact (List.getElem?_eq_some_iff.1 h').1) with h | h
    · exact Or.inl h
    · exact Or.inr (h sl' h')
  · intro hd i sl' h'
    exact f1 hd i (by rw [← g.len]; exact (List.getElem?_eq_some_iff.1 h').1) sl' h'

/-! ### Cases -/

/-- Three slabs, all in need. -/
def cNeed : Cache := [⟨1, [⟨2, []⟩, ⟨1, []⟩]⟩, ⟨2, [⟨1, []⟩, ⟨1, []⟩]⟩, ⟨4, [⟨1, []⟩, ⟨1, []⟩]⟩]

/-- The hypotheses, met; the session fills a run of 9 blocks and one of 20. -/
example : WF cNeed ∧ (∀ (i : Nat) (sl : Slab), cNeed[i]? = some sl → 0 < openSession false 1 sl) ∧
    (refill cNeed (createSession false (fun _ => 1) cNeed) [(0, 9, 1), (16, 20, 1), (50, 3, 0)]).map
      (fun r => (r.2.1, r.2.2)) = some ([(3, 3), (2, 2), (2, 2)], [9, 6], true) := by
  refine ⟨⟨by decide, by decide, fun i sl h => ?_⟩, fun i sl h => ?_, by decide +kernel⟩
  · match i with
    | 0 => simp [cNeed] at h; subst h; simp [SlabOk]
    | 1 => simp [cNeed] at h; subst h; simp [SlabOk]
    | 2 => simp [cNeed] at h; subst h; simp [SlabOk]
    | n + 3 => simp [cNeed] at h
  · match i with
    | 0 => simp [cNeed] at h; subst h; decide
    | 1 => simp [cNeed] at h; subst h; decide
    | 2 => simp [cNeed] at h; subst h; decide
    | n + 3 => simp [cNeed] at h

/-- **C41 fails** whenever some slab needs no blocks: the vector of requirements is then shorter than the number of slabs, and
every run that is large enough for the top slab makes an access past its end. -/
theorem C41_short_session_violated {c : Cache} (wf : WF c) {all : Bool} {thr : Nat → Nat} {i : Nat} {sl : Slab}
    (hsl : c[i]? = some sl) (hno : openSession all (thr i) sl = 0) (blk temp : Nat) {n : Nat} (hn : 2 ^ (c.length - 1) ≤ n)
    (hn2 : n ≤ 65535) : tryFillS c (createSession all thr c) blk n temp = none := by
  have hlen := wf.1
  have hshort : (createSession all thr c).length < c.length := by
    unfold createSession
    rw [List.length_map]
    have h1 : ((c.zipIdx.map fun x => openSession all (thr x.2) x.1).filter fun n => decide (n > 0)).length <
        (c.zipIdx.map fun x => openSession all (thr x.2) x.1).length := by
      have hmem : openSession all (thr i) sl ∈ c.zipIdx.map fun x => openSession all (thr x.2) x.1 :=
        List.mem_map.2 ⟨(sl, i), List.mem_zipIdx_iff_getElem?.2 hsl, rfl⟩
      rw [hno] at hmem
      exact List.length_filter_lt_length_iff_exists.2 ⟨0, hmem, by simp⟩
    simpa using h1
  have hfs : c.length - 1 ≤ Slab.findSlab n := by
    have hpos : 0 < 2 ^ (c.length - 1) := Nat.pos_of_ne_zero (by simp)
    have h1 := (Slab.C13_find_slab n (by omega) hn2).1
    by_contra hlt
    have h2 : 2 ^ (Slab.findSlab n + 1) ≤ 2 ^ (c.length - 1) := Nat.pow_le_pow_right (by omega) (by omega)
    rw [Nat.pow_succ] at h2
    have : 0 < 2 ^ (Slab.findSlab n) := Nat.pos_of_ne_zero (by simp)
    omega
  unfold tryFillS
  simp only [Nat.min_eq_right hfs]
  have hi : c.length - 1 < c.length := by omega
  have hnone : (createSession all thr c)[c.length - 1]? = none := List.getElem?_eq_none (by omega)
  have htop : c[c.length - 1]? = some c[c.length - 1] := List.getElem?_eq_getElem hi
  have hsz := (wf.2.2 _ _ htop).1
  unfold fillDownS
  rw [htop]
  simp only [hsz]
  unfold fillSlabS
  rw [if_pos hn, hnone]

/-- ... and with smaller runs the progress is charged to another slab: slab 0 is full and slab 1 empty; a free block is
offered to slab 0, which is full, and the need of slab 1 is crossed off. -/
theorem C41_wrong_slab_violated :
    let c : Cache := [⟨1, [⟨1, [⟨7, 1, 0⟩]⟩]⟩, ⟨2, [⟨1, []⟩]⟩]
    createSession false (fun _ => 1) c = [(1, 0)] ∧
    tryFillS c (createSession false (fun _ => 1) c) 20 1 0 = some (c, [(1, 1)], 0, false) ∧
    (c[1]?.map Slab.count) = some 0 := by decide +kernel

end HS.Varsize
