import Verif.Prefix.Model

/-! Lemmas about prefix nodes: the bitset, the reference counts, compaction. -/

namespace HS.Prefix

/-! ## Bitsets -/

/-- Number of bits set below `n`. -/
def countSet (b : Nat → Bool) : Nat → Nat
  | 0 => 0
  | n + 1 => countSet b n + (if b n then 1 else 0)

theorem countSet_ext {b c : Nat → Bool} : ∀ n, (∀ j, j < n → b j = c j) → countSet b n = countSet c n
  | 0, _ => rfl
  | n + 1, h => by
    simp only [countSet]
    rw [countSet_ext n (fun j hj => h j (by omega)), h n (by omega)]

theorem countSet_le (b : Nat → Bool) : ∀ n, countSet b n ≤ n
  | 0 => by simp [countSet]
  | n + 1 => by
    simp only [countSet]
    have := countSet_le b n
    split <;> omega

theorem countSet_setTrue {b : Nat → Bool} {i : Nat} : ∀ n, i < n → b i = false →
    countSet (setBit b i true) n = countSet b n + 1
  | 0, h, _ => by omega
  | n + 1, h, hb => by
    simp only [countSet]
    by_cases hin : i = n
    · subst hin
      rw [countSet_ext (c := b) i (fun j hj => by simp [setBit]; omega)]
      simp [setBit, hb]
    · rw [countSet_setTrue n (by omega) hb]
      have : setBit b i true n = b n := by simp [setBit]; omega
      rw [this]
      omega

theorem countSet_setFalse {b : Nat → Bool} {i : Nat} : ∀ n, i < n → b i = true →
    countSet (setBit b i false) n + 1 = countSet b n
  | 0, h, _ => by omega
  | n + 1, h, hb => by
    simp only [countSet]
    by_cases hin : i = n
    · subst hin
      rw [countSet_ext (c := b) i (fun j hj => by simp [setBit]; omega)]
      simp [setBit, hb]
    · have ih := countSet_setFalse n (by omega) hb
      have : setBit b i false n = b n := by simp [setBit]; omega
      rw [this]
      omega

theorem countSet_above {b : Nat → Bool} {m : Nat} : ∀ n, m ≤ n → (∀ j, m ≤ j → j < n → b j = false) →
    countSet b n = countSet b m
  | 0, h, _ => by
    have : m = 0 := by omega
    rw [this]
  | n + 1, h, hb => by
    by_cases hmn : m = n + 1
    · rw [hmn]
    · simp only [countSet]
      rw [countSet_above n (by omega) (fun j h1 h2 => hb j h1 (by omega)), hb n (by omega) (by omega)]
      simp

theorem countSet_full {b : Nat → Bool} : ∀ n, (∀ j, j < n → b j = true) → countSet b n = n
  | 0, _ => rfl
  | n + 1, h => by
    simp only [countSet]
    rw [countSet_full n (fun j hj => h j (by omega)), h n (by omega)]
    simp

theorem countSet_eq_full {b : Nat → Bool} : ∀ n, countSet b n = n → ∀ j, j < n → b j = true
  | 0, _, j, hj => by omega
  | n + 1, h, j, hj => by
    simp only [countSet] at h
    have := countSet_le b n
    by_cases hn : b n = true
    · simp only [hn, if_true] at h
      by_cases hjn : j = n
      · subst hjn; exact hn
      · exact countSet_eq_full n (by omega) j (by omega)
    · simp only [hn] at h
      simp at h
      omega

theorem countSet_mono (b : Nat → Bool) {m : Nat} : ∀ n, m ≤ n → countSet b m ≤ countSet b n
  | 0, h => by
    have : m = 0 := by omega
    rw [this]; exact Nat.le_refl _
  | n + 1, h => by
    by_cases hmn : m = n + 1
    · rw [hmn]; exact Nat.le_refl _
    · simp only [countSet]
      have := countSet_mono b (m := m) n (by omega)
      omega

theorem prevSetEnd_spec (b : Nat → Bool) : ∀ n, prevSetEnd b n ≤ n ∧ ∀ j, prevSetEnd b n ≤ j → j < n → b j = false
  | 0 => ⟨by simp [prevSetEnd], fun j _ h => by omega⟩
  | n + 1 => by
    have ih := prevSetEnd_spec b n
    by_cases hb : b n = true
    · simp only [prevSetEnd, hb, if_true]
      exact ⟨Nat.le_refl _, fun j h1 h2 => by omega⟩
    · have hb' : b n = false := by simpa using hb
      simp only [prevSetEnd, hb']
      simp only [Bool.false_eq_true, if_false]
      refine ⟨by omega, fun j h1 h2 => ?_⟩
      by_cases hjn : j = n
      · subst hjn; exact hb'
      · exact ih.2 j h1 (by omega)

theorem find_range {n : Nat} {p : Nat → Bool} {i : Nat} (h : (List.range n).find? p = some i) :
    i < n ∧ p i = true ∧ ∀ j, j < i → p j = false := by
  have hp := List.find?_some h
  have hm := List.mem_of_find?_eq_some h
  refine ⟨by simpa using hm, hp, ?_⟩
  rw [List.find?_range_eq_some] at h
  intro j hj
  have := h.2.2 j hj
  simpa using this

theorem find_range_none {n : Nat} {p : Nat → Bool} (h : (List.range n).find? p = none) :
    ∀ j, j < n → p j = false := by
  intro j hj
  rw [List.find?_eq_none] at h
  have := h j (by simpa using hj)
  simpa using this

theorem firstReset_some {bits : Nat} {b : Nat → Bool} {i : Nat} (h : firstReset bits b = some i) :
    i < bits ∧ b i = false ∧ ∀ j, j < i → b j = true := by
  obtain ⟨h1, h2, h3⟩ := find_range h
  refine ⟨h1, by simpa using h2, fun j hj => by simpa using h3 j hj⟩

theorem firstReset_none {bits : Nat} {b : Nat → Bool} (h : firstReset bits b = none) :
    ∀ j, j < bits → b j = true := by
  intro j hj
  simpa using find_range_none h j hj

theorem nextSet_some {bits : Nat} {b : Nat → Bool} {f i : Nat} (h : nextSet bits b f = some i) :
    i < bits ∧ f ≤ i ∧ b i = true ∧ ∀ j, f ≤ j → j < i → b j = false := by
  obtain ⟨h1, h2, h3⟩ := find_range h
  simp only [Bool.and_eq_true, decide_eq_true_eq] at h2
  refine ⟨h1, h2.1, h2.2, fun j h4 h5 => ?_⟩
  have := h3 j h5
  simp only [Bool.and_eq_false_iff, decide_eq_false_iff_not] at this
  rcases this with h | h
  · omega
  · exact h

theorem nextSet_none {bits : Nat} {b : Nat → Bool} {f : Nat} (h : nextSet bits b f = none) :
    ∀ j, f ≤ j → j < bits → b j = false := by
  intro j h1 h2
  have := find_range_none h j h2
  simp only [Bool.and_eq_false_iff, decide_eq_false_iff_not] at this
  rcases this with h | h
  · omega
  · exact h

/-! ## The invariant -/

/-- Number of entries that name the prefix slot `i`. -/
def cnt (L : List SE) (i : Nat) : Nat := L.countP (fun e => decide (e.slot = i))

theorem cnt_cons (e : SE) (L : List SE) (i : Nat) : cnt (e :: L) i = cnt L i + (if e.slot = i then 1 else 0) := by
  simp [cnt, List.countP_cons]

theorem cnt_zero {L : List SE} {i : Nat} (h : ∀ e ∈ L, e.slot ≠ i) : cnt L i = 0 := by
  simp only [cnt, List.countP_eq_zero, decide_eq_true_eq]
  exact h

theorem cnt_pos {L : List SE} {i : Nat} {e : SE} (he : e ∈ L) (hi : e.slot = i) : 0 < cnt L i := by
  simp only [cnt, List.countP_pos_iff, decide_eq_true_eq]
  exact ⟨e, he, hi⟩

/-- The bookkeeping of a node agrees with the entries `L`: bits are set below `tail_slot` only,
`used_slots` counts them, every entry names a slot that is in use, and no reference count is smaller
than the number of entries that name the slot. -/
structure Inv (P : Params) (s : PN) (L : List SE) : Prop where
  lt : ∀ i, s.bit i = true → i < s.tail
  tailb : s.tail ≤ P.bits
  used : s.used = countSet s.bit s.tail
  slots : ∀ e ∈ L, s.bit e.slot = true
  refs : ∀ i, cnt L i ≤ (s.pre i).ref

theorem Inv.perm {P : Params} {s : PN} {L L' : List SE} (h : Inv P s L) (hp : L.Perm L') : Inv P s L' :=
  ⟨h.lt, h.tailb, h.used, fun e he => h.slots e (hp.mem_iff.mpr he), fun i => by
    have := h.refs i
    rw [cnt, ← hp.countP_eq]
    exact this⟩

theorem Inv.used_le {P : Params} {s : PN} {L : List SE} (h : Inv P s L) : s.used ≤ s.tail := by
  rw [h.used]; exact countSet_le _ _

/-- What is stored in the slots of the entries `L` is the same in both nodes. -/
def Same (s t : PN) (L : List SE) : Prop :=
  ∀ e ∈ L, (t.pre e.slot).kp = (s.pre e.slot).kp ∧ (t.pre e.slot).vp = (s.pre e.slot).vp

theorem Same.map {P : Params} {s t : PN} {L : List SE} (h : Same s t L) :
    L.map (fun e => (t.key P e, t.val P e)) = L.map (fun e => (s.key P e, s.val P e)) := by
  apply List.map_congr_left
  intro e he
  simp [PN.key, PN.val, (h e he).1, (h e he).2]

theorem Same.trans {s t u : PN} {L : List SE} (h : Same s t L) (h' : Same t u L) : Same s u L :=
  fun e he => ⟨(h' e he).1.trans (h e he).1, (h' e he).2.trans (h e he).2⟩

theorem Same.sub {s t : PN} {L L' : List SE} (h : Same s t L) (hs : ∀ e ∈ L', e ∈ L) : Same s t L' :=
  fun e he => h e (hs e he)

theorem Same.refl (s : PN) (L : List SE) : Same s s L := fun _ _ => ⟨rfl, rfl⟩

/-! ## Slots -/

theorem alloc_spec {P : Params} {s t : PN} {L : List SE} {i : Nat} (h : Inv P s L) (ha : s.alloc P = some (i, t)) :
    Inv P t L ∧ t.pre = s.pre ∧ t.suf = s.suf ∧ t.bit i = true ∧ s.bit i = false ∧ t.tail ≤ s.tail + 1 ∧
      s.tail ≤ t.tail ∧ t.used = s.used + 1 ∧ (s.used < s.tail → t.tail = s.tail) ∧ (∀ j, s.bit j = true → t.bit j = true) ∧
      (∀ j, t.bit j = true → j = i ∨ s.bit j = true) := by
  simp only [PN.alloc] at ha
  split at ha
  · exact absurd ha (by simp)
  · rename_i k hk
    obtain ⟨hk1, hk2, hk3⟩ := firstReset_some hk
    simp only [Option.some.injEq, Prod.mk.injEq] at ha
    obtain ⟨rfl, rfl⟩ := ha
    have hkt : k ≤ s.tail := by
      by_cases hc : k ≤ s.tail
      · exact hc
      · have := h.lt s.tail (hk3 s.tail (by omega))
        omega
    have htl : max s.tail (k + 1) ≤ s.tail + 1 := by omega
    refine ⟨⟨?_, ?_, ?_, ?_, h.refs⟩, rfl, rfl, by simp [setBit], hk2, htl, by show s.tail ≤ max _ _; omega, rfl, ?_, ?_, ?_⟩
    · intro j hj
      show j < max s.tail (k + 1)
      simp only [setBit] at hj
      by_cases hjk : j = k
      · omega
      · simp only [hjk, if_false] at hj
        have := h.lt j hj
        omega
    · show max s.tail (k + 1) ≤ P.bits
      have := h.tailb
      omega
    · show s.used + 1 = countSet (setBit s.bit k true) (max s.tail (k + 1))
      rw [countSet_setTrue _ (by omega) hk2, h.used]
      congr 1
      exact (countSet_above (max s.tail (k + 1)) (by omega) (fun j h1 _ => by
        cases hb : s.bit j with
        | false => rfl
        | true => exact absurd (h.lt j hb) (by omega))).symm
    · intro e he
      simp only [setBit]
      split
      · rfl
      · exact h.slots e he
    · intro hlt
      show max s.tail (k + 1) = s.tail
      by_cases hc : k + 1 ≤ s.tail
      · omega
      · have hkeq : k = s.tail := by omega
        have := countSet_full s.tail (fun j hj => hk3 j (by omega))
        rw [← h.used] at this
        omega
    · intro j hj
      simp only [setBit]
      split
      · rfl
      · exact hj
    · intro j hj
      simp only [setBit] at hj
      by_cases hjk : j = k
      · exact Or.inl hjk
      · simp only [hjk, if_false] at hj
        exact Or.inr hj

theorem alloc_isSome {P : Params} {s : PN} {L : List SE} (h : Inv P s L) (ht : s.tail < P.bits ∨ s.used < s.tail) :
    ∃ i t, s.alloc P = some (i, t) := by
  simp only [PN.alloc]
  split
  · rename_i hn
    have hall := firstReset_none hn
    rcases ht with ht | ht
    · have := h.lt s.tail (hall s.tail ht)
      omega
    · have := countSet_full s.tail (fun j hj => hall j (by have := h.tailb; omega))
      rw [← h.used] at this
      omega
  · exact ⟨_, _, rfl⟩

theorem not_slot {P : Params} {s : PN} {L : List SE} {i : Nat} (h : Inv P s L) (hi : s.bit i = false) :
    ∀ e ∈ L, e.slot ≠ i := by
  intro e he hc
  have := h.slots e he
  rw [hc, hi] at this
  exact absurd this (by simp)

/-- Writing a slot no entry names. -/
theorem setPre_inv {P : Params} {s : PN} {L : List SE} {i : Nat} (x : PE) (h : Inv P s L) (hi : ∀ e ∈ L, e.slot ≠ i) :
    Inv P { s with pre := setPre s.pre i x } L ∧ Same s { s with pre := setPre s.pre i x } L := by
  refine ⟨⟨h.lt, h.tailb, h.used, h.slots, ?_⟩, ?_⟩
  · intro j
    show _ ≤ (setPre s.pre i x j).ref
    simp only [setPre]
    by_cases hj : j = i
    · rw [hj, cnt_zero hi]; exact Nat.zero_le _
    · simp only [hj, if_false]; exact h.refs j
  · intro e he
    have := hi e he
    simp [setPre, this]

theorem addPrefix_spec {P : Params} {s t : PN} {L : List SE} {n k v i : Nat} (h : Inv P s L)
    (ha : s.addPrefix P n k v = some (i, t)) :
    Inv P t L ∧ Same s t L ∧ t.suf = s.suf ∧ t.bit i = true ∧ s.bit i = false ∧ t.pre i = ⟨0, P.kp k, P.vp v⟩ ∧
      t.tail ≤ s.tail + 1 ∧ P.fits t.tail n = true ∧ s.tail ≤ t.tail ∧ t.used = s.used + 1 ∧
      (∀ j, s.bit j = true → t.bit j = true ∧ t.pre j = s.pre j) ∧ (∀ j, t.bit j = true → j = i ∨ s.bit j = true) := by
  simp only [PN.addPrefix] at ha
  split at ha
  · exact absurd ha (by simp)
  · rename_i i' t' hal
    obtain ⟨hi, hpre, hsuf, hb, hnb, htl, hmono, hus, _, hkeep, hnew⟩ := alloc_spec h hal
    split at ha
    · rename_i hfit
      simp only [Option.some.injEq, Prod.mk.injEq] at ha
      obtain ⟨rfl, rfl⟩ := ha
      obtain ⟨h1, h2⟩ := setPre_inv (i := i') ⟨0, P.kp k, P.vp v⟩ hi (not_slot h hnb)
      refine ⟨h1, ?_, hsuf, hb, hnb, by simp [setPre], htl, hfit, hmono, hus, ?_, hnew⟩
      · intro e he
        have := h2 e he
        rw [hpre] at this
        simpa [hpre] using this
      · intro j hj
        refine ⟨hkeep j hj, ?_⟩
        have hne : j ≠ i' := by
          intro hc
          rw [hc, hnb] at hj
          exact absurd hj (by simp)
        simp [setPre, hne, hpre]
    · exact absurd ha (by simp)

theorem addPrefix_isSome {P : Params} {s : PN} {L : List SE} {n k v : Nat} (h : Inv P s L)
    (ht : s.tail < P.bits) (hf : P.fits (s.tail + 1) n = true) : ∃ i t, s.addPrefix P n k v = some (i, t) := by
  obtain ⟨i, t, hal⟩ := alloc_isSome h (Or.inl ht)
  have htl := (alloc_spec h hal).2.2.2.2.2.1
  refine ⟨i, { t with pre := setPre t.pre i ⟨0, P.kp k, P.vp v⟩ }, ?_⟩
  simp only [PN.addPrefix, hal]
  rw [if_pos]
  simp only [Params.fits, decide_eq_true_eq] at hf ⊢
  have : t.tail * P.ps ≤ (s.tail + 1) * P.ps := Nat.mul_le_mul_right _ htl
  omega

/-- An entry more that names the slot `i`. -/
theorem ref_inv {P : Params} {s : PN} {L : List SE} (x : SE) (h : Inv P s L) (hb : s.bit x.slot = true) :
    Inv P (s.ref x.slot) (x :: L) ∧ ∀ L', Same s (s.ref x.slot) L' := by
  refine ⟨⟨h.lt, h.tailb, h.used, ?_, ?_⟩, ?_⟩
  · intro e he
    rcases List.mem_cons.mp he with rfl | he
    · exact hb
    · exact h.slots e he
  · intro j
    rw [cnt_cons]
    have := h.refs j
    show _ ≤ (setPre s.pre x.slot _ j).ref
    by_cases hj : x.slot = j
    · subst hj
      simp [setPre]
      omega
    · have hj' : ¬ j = x.slot := fun hc => hj hc.symm
      simp only [setPre, hj', if_false, hj]
      omega
  · intro L' e he
    simp only [PN.ref, setPre]
    split
    · rename_i hc; simp [hc]
    · exact ⟨rfl, rfl⟩

/-- An entry less. -/
theorem deref_spec {P : Params} {s : PN} {L : List SE} (e : SE) (h : Inv P s (e :: L)) :
    ∃ t, s.deref e.slot = some t ∧ Inv P t L ∧ (∀ L', Same s t L') ∧ t.suf = s.suf ∧ t.tail ≤ s.tail ∧
      (∀ j, j ≠ e.slot → t.bit j = s.bit j ∧ t.pre j = s.pre j) ∧
      (t.pre e.slot).ref + 1 = (s.pre e.slot).ref ∧ (t.bit e.slot = true ↔ 0 < (t.pre e.slot).ref) ∧
      t.used * P.ps ≤ s.used * P.ps := by
  have hr : 0 < (s.pre e.slot).ref := by
    have := h.refs e.slot
    have := cnt_pos (L := e :: L) (List.mem_cons_self) rfl
    omega
  have hb : s.bit e.slot = true := h.slots e List.mem_cons_self
  have hlt := h.lt _ hb
  have hsm : ∀ L', Same s { s with pre := setPre s.pre e.slot { s.pre e.slot with ref := (s.pre e.slot).ref - 1 } } L' := by
    intro L' x hx
    simp only [setPre]
    split
    · rename_i hc; simp [hc]
    · exact ⟨rfl, rfl⟩
  have hcnt : ∀ i, cnt L i ≤ (setPre s.pre e.slot { s.pre e.slot with ref := (s.pre e.slot).ref - 1 } i).ref := by
    intro i
    have := h.refs i
    rw [cnt_cons] at this
    by_cases hi : e.slot = i
    · subst hi
      simp only [if_true] at this
      simp [setPre]
      omega
    · have hi' : ¬ i = e.slot := fun hc => hi hc.symm
      simp only [hi, if_false] at this
      simp only [setPre, hi', if_false]
      omega
  by_cases h1 : (s.pre e.slot).ref = 1
  · have hne : ∀ x ∈ L, x.slot ≠ e.slot := by
      intro x hx hc
      have := hcnt e.slot
      simp only [setPre, if_true, h1] at this
      have := cnt_pos hx hc
      omega
    refine ⟨{ s with pre := setPre s.pre e.slot { s.pre e.slot with ref := (s.pre e.slot).ref - 1 }, bit := setBit s.bit e.slot false, used := s.used - 1, tail := if e.slot + 1 = s.tail then prevSetEnd (setBit s.bit e.slot false) e.slot else s.tail }, ?_, ⟨?_, ?_, ?_, ?_, hcnt⟩, hsm, rfl, ?_, ?_, ?_, ?_, ?_⟩
    · simp only [PN.deref]
      rw [if_neg (by omega), if_pos h1]
    · intro i hi
      show i < if e.slot + 1 = s.tail then prevSetEnd (setBit s.bit e.slot false) e.slot else s.tail
      simp only [setBit] at hi
      by_cases hie : i = e.slot
      · simp [hie] at hi
      · simp only [hie, if_false] at hi
        have hil := h.lt i hi
        split
        · rename_i hc
          obtain ⟨hp1, hp2⟩ := prevSetEnd_spec (setBit s.bit e.slot false) e.slot
          by_cases hlt' : i < prevSetEnd (setBit s.bit e.slot false) e.slot
          · exact hlt'
          · have := hp2 i (by omega) (by omega)
            simp [setBit, hie, hi] at this
        · exact hil
    · show (if e.slot + 1 = s.tail then prevSetEnd (setBit s.bit e.slot false) e.slot else s.tail) ≤ P.bits
      have := h.tailb
      have := (prevSetEnd_spec (setBit s.bit e.slot false) e.slot).1
      split <;> omega
    · show s.used - 1 = countSet (setBit s.bit e.slot false) (if e.slot + 1 = s.tail then prevSetEnd (setBit s.bit e.slot false) e.slot else s.tail)
      have hc := countSet_setFalse s.tail hlt hb
      rw [← h.used] at hc
      split
      · rename_i hc'
        obtain ⟨hp1, hp2⟩ := prevSetEnd_spec (setBit s.bit e.slot false) e.slot
        have := countSet_above (b := setBit s.bit e.slot false) (m := prevSetEnd (setBit s.bit e.slot false) e.slot) s.tail (by omega)
          (fun j hj1 hj2 => by
            by_cases hje : j = e.slot
            · simp [setBit, hje]
            · exact hp2 j hj1 (by omega))
        omega
      · omega
    · intro x hx
      simp only [setBit, hne x hx, if_false]
      exact h.slots x (List.mem_cons_of_mem _ hx)
    · show (if e.slot + 1 = s.tail then prevSetEnd (setBit s.bit e.slot false) e.slot else s.tail) ≤ s.tail
      have := (prevSetEnd_spec (setBit s.bit e.slot false) e.slot).1
      split <;> omega
    · intro j hj
      simp [setBit, setPre, hj]
    · simp [setPre]; omega
    · simp [setPre, setBit, h1]
    · exact Nat.mul_le_mul_right _ (by show s.used - 1 ≤ s.used; omega)
  · refine ⟨{ s with pre := setPre s.pre e.slot { s.pre e.slot with ref := (s.pre e.slot).ref - 1 } }, ?_, ⟨h.lt, h.tailb, h.used, fun x hx => h.slots x (List.mem_cons_of_mem _ hx), hcnt⟩, hsm, rfl, Nat.le_refl _, ?_, ?_, ?_, Nat.le_refl _⟩
    · simp only [PN.deref]
      rw [if_neg (by omega), if_neg h1]
    · intro j hj
      simp [setPre, hj]
    · simp [setPre]; omega
    · simp only [setPre, if_true]
      simp only [hb, true_iff]
      omega

/-! ## Compaction -/

theorem cnt_map_to (L : List SE) (f t : Nat) (hft : f ≠ t) (ht : cnt L t = 0) (i : Nat) :
    cnt (L.map (fun e => if e.slot = f then { e with slot := t } else e)) i =
      if i = t then cnt L f else if i = f then 0 else cnt L i := by
  induction L with
  | nil => simp [cnt]
  | cons e L ih =>
    rw [List.map_cons, cnt_cons, cnt_cons]
    rw [cnt_cons] at ht
    have ht1 : cnt L t = 0 := by omega
    have ht2 : ¬ e.slot = t := by
      intro hc
      simp [hc] at ht
    rw [ih ht1, cnt_cons]
    by_cases hef : e.slot = f
    · rw [if_pos hef]
      simp only [hef, if_true]
      by_cases hit : i = t
      · subst hit; simp
      · have hti : ¬ t = i := fun hc => hit hc.symm
        have hfi : i = f ∨ ¬ f = i := by
          by_cases h : i = f
          · exact Or.inl h
          · exact Or.inr (fun hc => h hc.symm)
        simp only [hit, if_false, hti]
        rcases hfi with h | h
        · simp [h]
        · have : ¬ i = f := fun hc => h hc.symm
          simp [h, this]
    · rw [if_neg hef]
      simp only [hef, if_false]
      by_cases hit : i = t
      · subst hit; simp [ht2]
      · by_cases hif : i = f
        · subst hif; simp [hit, hef]
        · simp [hit, hif]

theorem moveSlot_spec {P : Params} {s : PN} {f t : Nat} (h : Inv P s s.suf) (hf : s.bit f = true) (ht : s.bit t = false)
    (htl : t < s.tail) :
    Inv P (s.moveSlot f t) (s.moveSlot f t).suf ∧ (s.moveSlot f t).ents P = s.ents P := by
  have hft : f ≠ t := by
    intro hc
    rw [hc, ht] at hf
    exact absurd hf (by simp)
  have hnt := not_slot h ht
  have hnf := h.lt f hf
  have hbt : setBit s.bit f false t = false := by
    simp [setBit, ht]
  refine ⟨⟨?_, h.tailb, ?_, ?_, ?_⟩, ?_⟩
  · intro i hi
    show i < s.tail
    simp only [PN.moveSlot, setBit] at hi
    by_cases hit : i = t
    · omega
    · simp only [hit, if_false] at hi
      by_cases hif : i = f
      · omega
      · simp only [hif, if_false] at hi
        exact h.lt i hi
  · show s.used = countSet (setBit (setBit s.bit f false) t true) s.tail
    rw [countSet_setTrue s.tail htl hbt, countSet_setFalse s.tail hnf hf]
    exact h.used
  · intro e he
    simp only [PN.moveSlot, List.mem_map] at he
    obtain ⟨x, hx, rfl⟩ := he
    simp only [PN.moveSlot, setBit]
    by_cases hxf : x.slot = f
    · simp [hxf]
    · simp only [hxf, if_false]
      rw [if_neg (hnt x hx)]
      exact h.slots x hx
  · intro i
    simp only [PN.moveSlot]
    rw [cnt_map_to s.suf f t hft (cnt_zero hnt)]
    simp only [setPre]
    by_cases hit : i = t
    · simp only [hit, if_true]; exact h.refs f
    · simp only [hit, if_false]
      by_cases hif : i = f
      · simp [hif]
      · simp only [hif, if_false]; exact h.refs i
  · simp only [PN.ents, PN.moveSlot, List.map_map]
    apply List.map_congr_left
    intro e he
    simp only [Function.comp, PN.key, PN.val]
    by_cases hef : e.slot = f
    · simp [hef, setPre]
    · simp only [hef, if_false, setPre]
      rw [if_neg (hnt e he)]

theorem compactLoop_spec {P : Params} : ∀ (fuel from' g : Nat) (s : PN), Inv P s s.suf → s.used ≤ from' →
    P.bits + 1 ≤ fuel + g → 0 < fuel → (∀ j, from' ≤ j → j < g → s.bit j = false) → from' ≤ g → 
    (∀ j, s.used ≤ j → j < from' → s.bit j = false) →
    ∃ t, PN.compactLoop P fuel from' s = some t ∧ Inv P t t.suf ∧ t.ents P = s.ents P ∧ t.used = s.used ∧
      t.suf.length = s.suf.length ∧ (∀ j, s.used ≤ j → t.bit j = false)
  | 0, _, _, _, _, _, _, h0, _, _, _ => by omega
  | fuel + 1, from', g, s, hi, hu, hfu, _, hg, hfg, hlow => by
    unfold PN.compactLoop
    cases hn : nextSet P.bits s.bit from' with
    | none =>
      refine ⟨s, rfl, hi, rfl, rfl, rfl, ?_⟩
      intro j hj
      by_cases hjf : j < from'
      · exact hlow j hj hjf
      · by_cases hjb : j < P.bits
        · exact nextSet_none hn j (by omega) hjb
        · cases hb : s.bit j with
          | false => rfl
          | true =>
            have := hi.lt j hb
            have := hi.tailb
            omega
    | some f =>
      obtain ⟨hf1, hf2, hf3, hf4⟩ := nextSet_some hn
      have hft := hi.lt f hf3
      -- a slot below `used` is free
      have hfree : ∃ t, firstReset P.bits s.bit = some t ∧ t < s.used := by
        cases hr : firstReset P.bits s.bit with
        | none =>
          have hall := firstReset_none hr
          have := countSet_full s.tail (fun j hj => hall j (by have := hi.tailb; omega))
          rw [← hi.used] at this
          omega
        | some t =>
          refine ⟨t, rfl, ?_⟩
          obtain ⟨ht1, ht2, ht3⟩ := firstReset_some hr
          by_cases hc : t < s.used
          · exact hc
          · exfalso
            have h1 : countSet s.bit s.used = s.used := countSet_full _ (fun j hj => ht3 j (by omega))
            have h2 : countSet s.bit f = countSet s.bit s.used := countSet_above f (by omega) (fun j hj1 hj2 => by
              by_cases hjf : j < from'
              · exact hlow j hj1 hjf
              · exact hf4 j (by omega) hj2)
            have h3 : countSet s.bit (f + 1) = countSet s.bit f + 1 := by simp [countSet, hf3]
            have h4 := countSet_mono s.bit (m := f + 1) s.tail (by omega)
            rw [← hi.used] at h4
            omega
      obtain ⟨t, ht, htu⟩ := hfree
      rw [ht]
      obtain ⟨_, ht2, _⟩ := firstReset_some ht
      have htl : t < s.tail := by have := hi.used_le; omega
      obtain ⟨hi', he'⟩ := moveSlot_spec hi hf3 ht2 htl
      have hgf : g ≤ f := by
        by_cases hc : g ≤ f
        · exact hc
        · have := hg f hf2 (by omega)
          rw [this] at hf3
          exact absurd hf3 (by simp)
      have hbit : ∀ j, s.used ≤ j → (s.moveSlot f t).bit j = if j = f then false else s.bit j := by
        intro j hj
        simp only [PN.moveSlot, setBit]
        rw [if_neg (by omega)]
      obtain ⟨u, h1, h2, h3, h4, h5, h6⟩ := compactLoop_spec fuel f (f + 1) (s.moveSlot f t) hi'
        (by show s.used ≤ f; omega) (by omega)
        (by omega)
        (by
          intro j hj1 hj2
          rw [hbit j (by omega)]
          simp
          intro hc; omega)
        (by omega)
        (by
          intro j hj1 hj2
          have hj1' : s.used ≤ j := hj1
          rw [hbit j hj1', if_neg (by omega)]
          by_cases hjf : j < from'
          · exact hlow j hj1' hjf
          · exact hf4 j (by omega) hj2)
      refine ⟨u, h1, h2, h3.trans he', h4, h5.trans (by simp [PN.moveSlot]), fun j hj => h6 j hj⟩

/-- `compact` keeps the entries and leaves no hole. -/
theorem compact_spec {P : Params} {s : PN} (h : Inv P s s.suf) :
    ∃ t, s.compact P = some t ∧ Inv P t t.suf ∧ t.ents P = s.ents P ∧ t.used = s.used ∧ t.tail = s.used ∧
      t.suf.length = s.suf.length := by
  obtain ⟨t, h1, h2, h3, h4, h5, h6⟩ := compactLoop_spec (P := P) (P.bits + 1) s.used s.used s h (Nat.le_refl _) (by omega)
    (by omega) (fun j h1 h2 => by omega) (Nat.le_refl _) (fun j h1 h2 => by omega)
  refine ⟨{ t with tail := t.used }, ?_, ⟨?_, ?_, ?_, h2.slots, h2.refs⟩, h3, h4, h4, h5⟩
  · simp only [PN.compact, h1]
  · intro i hi
    show i < t.used
    by_cases hc : i < t.used
    · exact hc
    · have := h6 i (by omega)
      have hi' : t.bit i = true := hi
      rw [this] at hi'
      exact absurd hi' (by simp)
  · show t.used ≤ P.bits
    have := h2.used_le
    have := h2.tailb
    omega
  · show t.used = countSet t.bit t.used
    have h7 := h2.used
    rw [countSet_above t.tail h2.used_le (fun j hj _ => h6 j (by omega))] at h7
    exact h7

end HS.Prefix
