import Verif.Tracker.Model
import Mathlib.Data.List.Nodup
/-! Helper lemmas for the read tracker. -/
namespace HS.Tracker

theorem mem_groupsFrom (epr cur last x : Nat) (he : 0 < epr) :
    x ∈ groupsFrom epr cur last ↔ ∃ i, x = cur + i * epr ∧ x ≤ last := by
  induction hn : last + 1 - cur using Nat.strongRecOn generalizing cur with
  | ind n ih =>
    rw [groupsFrom]
    by_cases h : cur ≤ last ∧ 0 < epr
    · rw [dif_pos h, List.mem_cons, ih (last + 1 - (cur + epr)) (by omega) (cur + epr) rfl]
      constructor
      · rintro (rfl | ⟨i, h1, h2⟩)
        · exact ⟨0, by simp, h.1⟩
        · exact ⟨i + 1, by rw [Nat.add_mul]; omega, h2⟩
      · rintro ⟨i, h1, h2⟩
        cases i with
        | zero => left; simpa using h1
        | succ i => right; exact ⟨i, by rw [Nat.add_mul] at h1; omega, h2⟩
    · rw [dif_neg h]
      constructor
      · simp
      · rintro ⟨i, h1, h2⟩
        exact absurd ⟨by omega, he⟩ h

theorem groupsFrom_nodup (epr cur last : Nat) : (groupsFrom epr cur last).Nodup := by
  induction hn : last + 1 - cur using Nat.strongRecOn generalizing cur with
  | ind n ih =>
    rw [groupsFrom]
    by_cases h : cur ≤ last ∧ 0 < epr
    · rw [dif_pos h, List.nodup_cons]
      refine ⟨?_, ih _ (by omega) _ rfl⟩
      rw [mem_groupsFrom _ _ _ _ h.2]
      rintro ⟨i, h1, _⟩
      omega
    · rw [dif_neg h]; exact List.nodup_nil

theorem keysOf_nodup (epr : Nat) (p : Piece) : (keysOf epr p).Nodup := by
  unfold keysOf
  exact (groupsFrom_nodup _ _ _).map (fun a b h => by simpa using h)

/-- The key of a block. -/
def keyOf (epr c b : Nat) : Key := (c, b / epr * epr)

theorem roundDown_eq (epr x : Nat) : roundDown epr x = x / epr * epr := by
  unfold roundDown
  have := Nat.div_add_mod x epr
  rw [Nat.mul_comm] at this; omega

theorem mem_keysOf (epr : Nat) (he : 0 < epr) (p : Piece) (k : Key) (hn : 0 < p.n) :
    k ∈ keysOf epr p ↔ ∃ b, p.blk ≤ b ∧ b < p.blk + p.n ∧ k = keyOf epr p.chunk b := by
  unfold keysOf keyOf
  rw [List.mem_map]
  constructor
  · rintro ⟨g, hg, rfl⟩
    rw [mem_groupsFrom _ _ _ _ he] at hg
    obtain ⟨i, h1, h2⟩ := hg
    rw [roundDown_eq] at h1 h2
    rw [← Nat.add_mul] at h1
    -- g = q*epr with blk/epr ≤ q ≤ (blk+n-1)/epr
    have hq : p.blk / epr + i ≤ (p.blk + p.n - 1) / epr := by
      rw [h1] at h2; exact Nat.le_of_mul_le_mul_right h2 he
    refine ⟨max p.blk ((p.blk / epr + i) * epr), by omega, ?_, ?_⟩
    · have h3 : (p.blk / epr + i) * epr ≤ p.blk + p.n - 1 :=
        (Nat.le_div_iff_mul_le he).mp hq
      omega
    · congr 1
      rw [h1]
      congr 1
      by_cases hc : p.blk ≤ (p.blk / epr + i) * epr
      · rw [Nat.max_eq_right hc, Nat.mul_div_cancel _ he]
      · have hi : i = 0 := by
          rcases Nat.eq_zero_or_pos i with h | h
          · exact h
          · exfalso; apply hc
            have h4 : p.blk < (p.blk / epr + 1) * epr := by
              have := Nat.lt_mul_div_succ p.blk he
              rw [Nat.mul_comm]; exact this
            have h5 : (p.blk / epr + 1) * epr ≤ (p.blk / epr + i) * epr :=
              Nat.mul_le_mul_right _ (by omega)
            omega
        rw [Nat.max_eq_left (by omega), hi]; rfl
  · rintro ⟨b, h1, h2, rfl⟩
    refine ⟨b / epr * epr, ?_, rfl⟩
    rw [mem_groupsFrom _ _ _ _ he, roundDown_eq, roundDown_eq]
    have h3 : p.blk / epr ≤ b / epr := Nat.div_le_div_right h1
    refine ⟨b / epr - p.blk / epr, ?_, ?_⟩
    · rw [← Nat.add_mul]; congr 1; omega
    · exact Nat.mul_le_mul_right _ (Nat.div_le_div_right (by omega))

/-! ### the map -/

theorem find_erase (recs : List Rec) (k k' : Key) :
    find (erase recs k) k' = if k' = k then none else find recs k' := by
  unfold find erase
  induction recs with
  | nil => simp
  | cons r rs ih =>
    by_cases h : r.key = k
    · simp only [List.filter_cons, ne_eq, h, not_true_eq_false, decide_false, Bool.false_eq_true,
        if_false, ih, List.find?_cons]
      by_cases h2 : k' = k
      · simp [h2]
      · have : ¬ k = k' := fun e => h2 e.symm
        simp [h2, this]
    · simp only [List.filter_cons, ne_eq, h, not_false_eq_true, decide_true, if_true,
        List.find?_cons]
      by_cases h3 : r.key = k'
      · have : ¬ k' = k := fun e => h (h3.trans e)
        simp [h3, this]
      · simp only [h3, decide_false]; exact ih

theorem find_cons (r : Rec) (recs : List Rec) (k : Key) :
    find (r :: recs) k = if r.key = k then some r else find recs k := by
  unfold find; rw [List.find?_cons]; by_cases h : r.key = k <;> simp [h]

theorem find_key {recs : List Rec} {k : Key} {r : Rec} (h : find recs k = some r) : r.key = k := by
  have := List.find?_some h; simpa using this

theorem find_incr (recs : List Rec) (k k' : Key) :
    find (incr recs k) k' = if k' = k then
      some (match find recs k with
        | some r => { r with ref := r.ref + 1 }
        | none => { key := k, ref := 1, waiters := [] }) else find recs k' := by
  unfold incr
  cases h : find recs k with
  | none => simp only [find_cons, find_erase]; grind
  | some r => have := find_key h; simp only [find_cons, find_erase]; grind

theorem find_decr (recs : List Rec) (k k' : Key) :
    find (decr recs k).1 k' = if k' = k then
      (match find recs k with
        | some r => if r.ref - 1 = 0 then none else some { r with ref := r.ref - 1 }
        | none => some { key := k, ref := -1, waiters := [] }) else find recs k' := by
  unfold decr
  cases h : find recs k with
  | none => simp only [find_cons, find_erase]; grind
  | some r =>
    have := find_key h
    by_cases h0 : r.ref - 1 = 0
    · simp only [h0, if_true, find_erase]
    · simp only [h0, if_false, find_cons, find_erase]; grind

theorem find_push (recs : List Rec) (k k' : Key) (w : Nat) :
    find (push recs k w) k' = if k' = k then
      (find recs k).map (fun r => { r with waiters := r.waiters ++ [w] }) else find recs k' := by
  unfold push
  cases h : find recs k with
  | none => by_cases hk : k' = k <;> simp [hk, h]
  | some r => have := find_key h; simp only [find_cons, find_erase, Option.map_some]; grind

def Uniq (recs : List Rec) : Prop := (recs.map (·.key)).Nodup

theorem uniq_erase {recs : List Rec} (h : Uniq recs) (k : Key) : Uniq (erase recs k) :=
  List.Nodup.sublist (List.Sublist.map _ List.filter_sublist) h

theorem uniq_cons {recs : List Rec} (h : Uniq recs) (r : Rec) : Uniq (r :: erase recs r.key) := by
  unfold Uniq
  rw [List.map_cons, List.nodup_cons]
  refine ⟨?_, uniq_erase h _⟩
  simp [erase]

theorem uniq_incr {recs : List Rec} (h : Uniq recs) (k : Key) : Uniq (incr recs k) := by
  unfold incr
  cases hf : find recs k with
  | none => exact uniq_cons h ⟨k, 1, []⟩
  | some r =>
    have := find_key hf
    have h2 := uniq_cons h { r with ref := r.ref + 1 }
    subst this; exact h2

theorem uniq_decr {recs : List Rec} (h : Uniq recs) (k : Key) : Uniq (decr recs k).1 := by
  unfold decr
  cases hf : find recs k with
  | none => exact uniq_cons h ⟨k, -1, []⟩
  | some r =>
    have := find_key hf
    by_cases h0 : r.ref - 1 = 0
    · simp only [h0, if_true]; exact uniq_erase h k
    · simp only [h0, if_false]
      have h2 := uniq_cons h { r with ref := r.ref - 1 }
      subst this; exact h2

theorem uniq_push {recs : List Rec} (h : Uniq recs) (k : Key) (w : Nat) :
    Uniq (push recs k w) := by
  unfold push
  cases hf : find recs k with
  | none => exact h
  | some r =>
    have := find_key hf
    have h2 := uniq_cons h { r with waiters := r.waiters ++ [w] }
    subst this; exact h2

theorem find_of_mem {recs : List Rec} (h : Uniq recs) {r : Rec} (hm : r ∈ recs) :
    find recs r.key = some r := by
  induction recs with
  | nil => simp at hm
  | cons a as ih =>
    rw [find_cons]
    simp only [Uniq, List.map_cons, List.nodup_cons] at h
    rcases List.mem_cons.mp hm with rfl | hm
    · simp
    · have : a.key ≠ r.key := fun e => h.1 (e ▸ List.mem_map_of_mem hm)
      simp [this, ih h.2 hm]

theorem held_iff {recs : List Rec} (h : Uniq recs) (w : Nat) :
    held recs w = true ↔ ∃ k r, find recs k = some r ∧ w ∈ r.waiters := by
  unfold held
  rw [List.any_eq_true]
  constructor
  · rintro ⟨r, hr, hw⟩
    exact ⟨r.key, r, find_of_mem h hr, by simpa using hw⟩
  · rintro ⟨k, r, hr, hw⟩
    exact ⟨r, List.mem_of_find?_eq_some hr, by simpa using hw⟩

/-! ### dropping references -/

theorem drop_recs (s : St) (w : Nat) : (drop s w).recs = s.recs ∧ (drop s w).reads = s.reads := by
  unfold drop; split <;> (try split) <;> simp

def bump (recs : List Rec) (w : Nat) (x : Wait) : Wait :=
  if x.scanning = none ∧ held recs w = false then { x with fired := x.fired + 1 } else x

theorem drop_waits (s : St) (w v : Nat) :
    (drop s w).waits[v]? = if v = w then s.waits[v]?.map (bump s.recs w) else s.waits[v]? := by
  unfold drop
  cases h : s.waits[w]? with
  | none => by_cases hv : v = w <;> simp [hv, h]
  | some x =>
    have hlt : w < s.waits.length := (List.getElem?_eq_some_iff.mp h).1
    by_cases hc : x.scanning = none ∧ held s.recs w = false
    · simp only [hc, and_self, if_true]
      by_cases hv : v = w
      · subst hv
        rw [List.getElem?_set_self hlt, if_pos rfl, h, Option.map_some, bump, if_pos hc, hc.1]
      · have : ¬ w = v := fun e => hv e.symm
        simp [hv, this]
    · simp only [hc, if_false]
      by_cases hv : v = w
      · subst hv; simp [h, bump, hc]
      · simp [hv]

theorem foldl_drop (ws : List Nat) (hn : ws.Nodup) : ∀ s : St,
    (ws.foldl drop s).recs = s.recs ∧ (ws.foldl drop s).reads = s.reads ∧
    ∀ v, (ws.foldl drop s).waits[v]? =
      if v ∈ ws then s.waits[v]?.map (bump s.recs v) else s.waits[v]? := by
  induction ws with
  | nil => intro s; simp
  | cons w ws ih =>
    intro s
    rw [List.nodup_cons] at hn
    obtain ⟨h1, h2, h3⟩ := ih hn.2 (drop s w)
    obtain ⟨d1, d2⟩ := drop_recs s w
    refine ⟨h1.trans d1, h2.trans d2, fun v => ?_⟩
    rw [List.foldl_cons, h3 v, drop_waits, d1]
    by_cases hv : v = w
    · subst hv; simp [hn.1]
    · simp [hv]

theorem foldl_drop_length (ws : List Nat) : ∀ s : St,
    (ws.foldl drop s).waits.length = s.waits.length := by
  induction ws with
  | nil => intro s; rfl
  | cons w ws ih =>
    intro s
    rw [List.foldl_cons, ih]
    unfold drop; split <;> (try split) <;> simp

end HS.Tracker
