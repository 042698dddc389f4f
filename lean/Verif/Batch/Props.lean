import Verif.Batch.Model

/-!
# C125: a follower that cannot take an entry takes those before it
-/
namespace HS.Batch
open HS.RaftLog (hintEnd)

theorem firstDenied_some {deny : Nat → Option Why} {n l : Nat} {x : Nat} {w : Why}
    (h : firstDenied deny l n = some (x, w)) :
    l ≤ x ∧ x < l + n ∧ deny x = some w ∧ w ≠ .late := by
  induction n generalizing l with
  | zero => simp [firstDenied] at h
  | succ n ih =>
    unfold firstDenied at h
    split at h
    · next hd => simp only [Option.some.injEq, Prod.mk.injEq] at h; obtain ⟨rfl, rfl⟩ := h; exact ⟨by omega, by omega, hd, by simp⟩
    · next hd => simp only [Option.some.injEq, Prod.mk.injEq] at h; obtain ⟨rfl, rfl⟩ := h; exact ⟨by omega, by omega, hd, by simp⟩
    · have := ih h; exact ⟨by omega, by omega, this.2.2⟩

theorem firstDenied_none {deny : Nat → Option Why} {n l : Nat} (h : firstDenied deny l n = none) :
    ∀ x, l ≤ x → x < l + n → deny x = none ∨ deny x = some .late := by
  induction n generalizing l with
  | zero => intro x h1 h2; omega
  | succ n ih =>
    unfold firstDenied at h
    intro x h1 h2
    split at h
    · simp at h
    · simp at h
    · next hs hr =>
      by_cases hx : x = l
      · subst hx
        cases hd : deny x with
        | none => exact Or.inl rfl
        | some w => cases w <;> simp_all
      · exact ih h x (by omega) (by omega)

theorem firstDenied_at {deny : Nat → Option Why} {n l B : Nat} {w : Why} (hl : l ≤ B) (hn : B < l + n)
    (hb : ∀ x, l ≤ x → x < B → deny x = none) (hB : deny B = some w) (hw : w ≠ .late) :
    firstDenied deny l n = some (B, w) := by
  induction n generalizing l with
  | zero => omega
  | succ n ih =>
    unfold firstDenied
    by_cases hx : l = B
    · subst hx; cases w <;> simp_all
    · rw [hb l (by omega) (by omega)]
      exact ih (by omega) (by omega) (fun x h1 h2 => hb x (by omega) h2)

theorem firstDenied_free {deny : Nat → Option Why} {n l : Nat}
    (hb : ∀ x, l ≤ x → x < l + n → deny x = none ∨ deny x = some .late) : firstDenied deny l n = none := by
  cases h : firstDenied deny l n with
  | none => rfl
  | some p =>
    obtain ⟨x, w⟩ := p
    have := firstDenied_some h
    have h2 := hb x this.1 this.2.1
    rw [this.2.2.1] at h2
    rcases h2 with h2 | h2
    · simp at h2
    · simp only [Option.some.injEq] at h2; exact absurd h2 this.2.2.2

theorem anyLate_false {deny : Nat → Option Why} {n l : Nat} :
    anyLate deny l n = false ↔ ∀ x, l ≤ x → x < l + n → deny x ≠ some .late := by
  induction n generalizing l with
  | zero => simp [anyLate]; intro x h1 h2; omega
  | succ n ih =>
    unfold anyLate
    rw [Bool.or_eq_false_iff, ih]
    constructor
    · rintro ⟨h1, h2⟩ x hx1 hx2
      by_cases hx : x = l
      · subst hx; simpa using h1
      · exact h2 x (by omega) (by omega)
    · intro h
      exact ⟨by simpa using h l (by omega) (by omega), fun x h1 h2 => h x (by omega) (by omega)⟩

/-- Where a batch ends, when no index is near the 64-bit bound. -/
theorem batchEnd_eq {m e : Nat} {s : St} (h0 : 0 ≤ s.seen) (hs : s.next + s.seen.toNat < 2 ^ 64) (_he : s.next < e) :
    batchEnd m e s = if s.seen = 0 then min e (s.next + m) else min (s.next + s.seen.toNat) (min e (s.next + m)) := by
  unfold batchEnd hintEnd
  rw [if_neg (by omega)]
  by_cases h : s.seen = 0
  · rw [if_neg (by omega), if_pos h]
  · rw [if_pos (by omega), if_neg h, Nat.mod_eq_of_lt hs, if_neg (by omega)]

theorem inc_range {h : Int} (h0 : 0 ≤ h) : 0 ≤ inc h ∧ inc h ≤ 16 := by
  unfold inc
  rw [if_neg (by omega)]
  split <;> omega

/-! ### What a follower takes -/

/-- In every round, whatever it can take and whatever the hints: the follower's log grows by the batch as a whole or not at
all, and no entry that it cannot take, and none from the latch on, is taken. -/
theorem C125_never_past (m e : Nat) (deny : Nat → Option Why) (s : St) :
    s.next ≤ (round m e deny s).next ∧
    ∀ l, s.next ≤ l → l < (round m e deny s).next → deny l = none ∧ ∀ L, s.latch = some L → l < L := by
  unfold round
  simp only
  split
  · exact ⟨Nat.le_refl _, fun l h1 h2 => absurd h2 (by simp only; omega)⟩
  · next hb =>
    split
    · exact ⟨Nat.le_refl _, fun l h1 h2 => absurd h2 (by simp only; omega)⟩
    · next hl =>
      split
      · exact ⟨Nat.le_refl _, fun l h1 h2 => absurd h2 (by simp only; omega)⟩
      · next hf =>
        split
        · exact ⟨Nat.le_refl _, fun l h1 h2 => absurd h2 (by simp only; omega)⟩
        · next ha =>
          simp only [Bool.not_eq_true] at ha
          refine ⟨by simp only; omega, fun l h1 h2 => ?_⟩
          simp only at h2
          refine ⟨?_, ?_⟩
          · rcases firstDenied_none hf l h1 (by omega) with h | h
            · exact h
            · exact absurd h (anyLate_false.mp ha l h1 (by omega))
          · intro L hL
            rw [hL] at hl
            simp only [Option.any_some, decide_eq_true_eq] at hl
            omega

example : (round 64 26 (fun l => if l = 20 then some .noSpace else none) { init with next := 10, seen := 4 }).next = 14 := by
  decide +kernel

/-- What one round does to a follower without a latch that cannot take entry `B`: the batch is taken and ends at or before
`B`, or nothing is taken and the hint is exactly the number of entries before `B`. -/
theorem round_step {m e B : Nat} {deny : Nat → Option Why} {s : St} {w : Why} (hm : 0 < m) (he : B < e) (hn : s.next < B)
    (hb : ∀ x, s.next ≤ x → x < B → deny x = none) (hB : deny B = some w) (hw : w ≠ .late)
    (h0 : 0 ≤ s.seen) (hs : s.next + s.seen.toNat < 2 ^ 64) (hl : s.latch = none) :
    (∃ b, s.next < b ∧ b ≤ B ∧ round m e deny s = { s with next := b, hint := inc s.hint, seen := inc s.hint }) ∨
    (B - s.next < m ∧ round m e deny s = { s with hint := ((B - s.next : Nat) : Int), seen := -1,
                                                  latch := if w = .noSpace then some B else none }) := by
  have hE := batchEnd_eq (m := m) h0 hs (show s.next < e by omega)
  have hpos : s.next < batchEnd m e s := by rw [hE]; split <;> omega
  have hm' : batchEnd m e s ≤ s.next + m := by rw [hE]; split <;> omega
  by_cases hc : batchEnd m e s ≤ B
  · left
    refine ⟨batchEnd m e s, hpos, hc, ?_⟩
    unfold round
    simp only
    rw [if_neg (by omega), hl, firstDenied_free (fun x h1 h2 => Or.inl (hb x h1 (by omega)))]
    have : anyLate deny s.next (batchEnd m e s - s.next) = false :=
      anyLate_false.mpr (fun x h1 h2 => by rw [hb x h1 (by omega)]; simp)
    simp [this]
  · right
    refine ⟨by omega, ?_⟩
    unfold round
    simp only
    rw [if_neg (by omega), hl, firstDenied_at (B := B) (w := w) (by omega) (by omega) hb hB hw]
    simp only [Option.any_none, Bool.false_eq_true, if_false]
    congr 1
    omega

/-- The two rounds after a refusal: an empty message, and the batch that ends at `B`. -/
theorem armed_two {m e1 e2 B : Nat} {deny : Nat → Option Why} {s : St} (he2 : B < e2) (hn : s.next < B)
    (hb : ∀ x, s.next ≤ x → x < B → deny x = none) (hm : B - s.next < m) (h64 : B < 2 ^ 64)
    (hh : s.hint = ((B - s.next : Nat) : Int)) (hseen : s.seen = -1) (hl : s.latch = none ∨ s.latch = some B) :
    (round m e2 deny (round m e1 deny s)).next = B := by
  have h1 : round m e1 deny s = { s with seen := s.hint } := by
    unfold round batchEnd hintEnd
    simp only
    rw [if_pos (show s.seen < 0 by omega), if_pos (Nat.le_refl _)]
  rw [h1]
  have hE : batchEnd m e2 { s with seen := s.hint } = B := by
    rw [batchEnd_eq (s := { s with seen := s.hint }) (by simp only; omega) (by simp only; omega) (by simp only; omega)]
    simp only
    rw [if_neg (by omega)]
    omega
  unfold round
  simp only [hE]
  rw [if_neg (by omega)]
  have hla : s.latch.any (fun L => decide (B - 1 ≥ L)) = false := by
    rcases hl with h | h <;> rw [h] <;> simp
    omega
  rw [hla, firstDenied_free (fun x g1 g2 => Or.inl (hb x g1 (by omega)))]
  have : anyLate deny s.next (B - s.next) = false :=
    anyLate_false.mpr (fun x h1 h2 => by rw [hb x h1 (by omega)]; simp)
  simp [this]

theorem prefix_aux {m B : Nat} {deny : Nat → Option Why} {w : Why} (hm : 0 < m)
    (hB : deny B = some w) (hw : w ≠ .late) (h64 : B + 2 ^ 32 < 2 ^ 64) :
    ∀ d (s : St) (e : Nat → Nat), B - s.next ≤ d → s.next < B → (∀ k, B < e k) →
      (∀ x, s.next ≤ x → x < B → deny x = none) → 0 ≤ s.seen → s.seen < 2 ^ 32 → 0 ≤ s.hint → s.latch = none →
      ∃ n ≤ d + 2, (run m e deny n s).next = B := by
  intro d
  induction d with
  | zero => intro s e hd hn; omega
  | succ d ih =>
    intro s e hd hn he hb h0 hs hh hl
    rcases round_step hm (he 0) hn hb hB hw h0 (by omega) hl with ⟨b, hb1, hb2, hr⟩ | ⟨hm2, hr⟩
    · by_cases hbB : b = B
      · exact ⟨1, by omega, by simp only [run]; rw [hr]; exact hbB⟩
      · have hir := inc_range hh
        obtain ⟨n, hn1, hn2⟩ := ih (round m (e 0) deny s) (fun k => e (k + 1)) (by rw [hr]; simp only; omega)
          (by rw [hr]; simp only; omega) (fun k => he _) (by rw [hr]; intro x g1 g2; exact hb x (by simp only at g1; omega) g2)
          (by rw [hr]; exact hir.1) (by rw [hr]; simp only; omega) (by rw [hr]; exact hir.1) (by rw [hr]; exact hl)
        exact ⟨n + 1, by omega, hn2⟩
    · refine ⟨3, by omega, ?_⟩
      simp only [run]
      apply armed_two (he 2) (by rw [hr]; exact hn) (by rw [hr]; exact hb) (by rw [hr]; exact hm2) (by omega)
        (by rw [hr]) (by rw [hr])
      rw [hr]
      simp only
      split
      · exact Or.inr rfl
      · exact Or.inl rfl

/-- **C125.**  A follower without a latch that can take every entry before `B` but not entry `B` (no space, or refused): as
long as the leader's log goes beyond `B`, however it grows, and with whatever hint the two begin, the follower has exactly the
entries before `B` after at most `B - next + 3` messages.

Partial: the latch must not be set when this begins (`C125_latched_violated`), and the entry must not be one whose data is
late (`C125_late_violated`). -/
theorem C125_prefix_partial {m B : Nat} {deny : Nat → Option Why} {w : Why} {s : St} {e : Nat → Nat} (hm : 0 < m)
    (hB : deny B = some w) (hw : w ≠ .late) (h64 : B + 2 ^ 32 < 2 ^ 64) (hn : s.next < B) (he : ∀ k, B < e k)
    (hb : ∀ x, s.next ≤ x → x < B → deny x = none) (hs : s.seen < 2 ^ 32) (hh : 0 ≤ s.hint) (hh1 : s.hint < 2 ^ 32)
    (hl : s.latch = none) :
    ∃ n ≤ B - s.next + 3, (run m e deny n s).next = B := by
  by_cases h0 : 0 ≤ s.seen
  · obtain ⟨n, h1, h2⟩ := prefix_aux hm hB hw h64 (B - s.next) s e (Nat.le_refl _) hn he hb h0 hs hh hl
    exact ⟨n, by omega, h2⟩
  · have hr : round m (e 0) deny s = { s with seen := s.hint } := by
      unfold round batchEnd hintEnd
      simp only
      rw [if_pos (show s.seen < 0 by omega), if_pos (Nat.le_refl _)]
    obtain ⟨n, h1, h2⟩ := prefix_aux hm hB hw h64 (B - s.next) { s with seen := s.hint } (fun k => e (k + 1))
      (Nat.le_refl _) hn (fun k => he _) hb hh hh1 hh hl
    exact ⟨n + 1, by omega, by simp only [run]; rw [hr]; exact h2⟩

/-- And it stays there: as long as entry `B` cannot be taken, for whatever reason, no number of messages brings the follower
beyond it. -/
theorem C125_stays {m B : Nat} {deny : Nat → Option Why} {s : St} {e : Nat → Nat} (hB : deny B ≠ none) (hn : s.next ≤ B) :
    ∀ n, (run m e deny n s).next ≤ B := by
  intro n
  induction n generalizing s e with
  | zero => exact hn
  | succ n ih =>
    simp only [run]
    apply ih
    by_cases h : (round m (e 0) deny s).next ≤ B
    · exact h
    · exact absurd ((C125_never_past m (e 0) deny s).2 B hn (by omega)).1 hB

/-- The case of the theorem: 25 entries, no space for the 20th; three messages. -/
example : (run 64 (fun _ => 26) (fun l => if l = 20 then some .noSpace else none) 3 init).next = 20 ∧
    (run 64 (fun _ => 26) (fun l => if l = 20 then some .noSpace else none) 1 init) =
      { next := 1, seen := -1, hint := 19, latch := some 20 } := by decide +kernel

/-! ### When nothing is refused any more -/

theorem inc_five (h : Int) (h0 : 0 ≤ h) : inc (inc (inc (inc (inc h)))) = 0 := by
  unfold inc
  repeat' split
  all_goals omega

/-- A round in which something is taken doubles the hint and tells the leader. -/
theorem taken {m e : Nat} {deny : Nat → Option Why} {s : St} (h : s.next < (round m e deny s).next) :
    (round m e deny s).hint = inc s.hint ∧ (round m e deny s).seen = inc s.hint := by
  unfold round at h ⊢
  simp only at h ⊢
  split at h
  · simp only at h; omega
  · next h1 =>
    rw [if_neg h1]
    split at h
    · simp only at h; omega
    · next h2 =>
      rw [if_neg h2]
      split at h
      · simp only at h; omega
      · next h3 =>
        split at h
        · simp only at h; omega
        · next h4 => rw [if_neg h4]; exact ⟨rfl, rfl⟩

/-- Whatever the hint and whatever entries can be taken: after five messages in a row of which something was taken, the next
one carries as many entries as the leader has, up to its own limit. -/
theorem C125_recovers {m e' : Nat} {deny : Nat → Option Why} {s : St} {e : Nat → Nat} (h0 : 0 ≤ s.hint)
    (ht : ∀ k < 5, (run m e deny k s).next < (run m e deny (k + 1) s).next) :
    batchEnd m e' (run m e deny 5 s) = min e' ((run m e deny 5 s).next + m) := by
  have t0 := taken (ht 0 (by omega))
  have t1 := taken (ht 1 (by omega))
  have t2 := taken (ht 2 (by omega))
  have t3 := taken (ht 3 (by omega))
  have t4 := taken (ht 4 (by omega))
  have hz : (run m e deny 5 s).seen = 0 := by
    simp only [run] at t0 t1 t2 t3 t4 ⊢
    rw [t4.2, t3.1, t2.1, t1.1, t0.1]
    exact inc_five _ h0
  unfold batchEnd hintEnd
  rw [hz, if_neg (by omega), if_neg (by omega)]

/-- The hypotheses are met, and five are needed. -/
example : (∀ k < 5, (run 64 (fun _ => 200) (fun _ => none) k { next := 1, seen := 1, hint := 1, latch := none }).next <
      (run 64 (fun _ => 200) (fun _ => none) (k + 1) { next := 1, seen := 1, hint := 1, latch := none }).next) ∧
    batchEnd 64 200 (run 64 (fun _ => 200) (fun _ => none) 5 { next := 1, seen := 1, hint := 1, latch := none }) = 96 ∧
    batchEnd 64 200 (run 64 (fun _ => 200) (fun _ => none) 4 { next := 1, seen := 1, hint := 1, latch := none }) = 32 := by
  decide +kernel

/-- The bound is reached: after a refusal of the first entry of a batch four batches are limited. -/
example : inc (inc (inc (inc 1))) = 16 ∧ inc 16 = 0 ∧ inc (-1) = 1 := by decide

theorem at_end {m E : Nat} : ∀ k (t : St), t.next = E → 0 ≤ t.seen → 0 ≤ t.hint →
    (run m (fun _ => E) (fun _ => none) k t).next = E := by
  intro k
  induction k with
  | zero => intro t ht _ _; exact ht
  | succ k ih =>
    intro t ht hts hth
    have hb : batchEnd m E t ≤ t.next := by
      unfold batchEnd hintEnd
      rw [if_neg (by omega)]
      split
      · split <;> omega
      · omega
    have hr : round m E (fun _ => none) t = { t with seen := t.hint } := by
      unfold round; simp only; rw [if_pos hb]
    simp only [run]
    rw [hr]
    exact ih _ ht hth hth

theorem all_aux {m E : Nat} (hm : 0 < m) (h64 : E + 2 ^ 32 < 2 ^ 64) :
    ∀ d (s : St), E - s.next ≤ d → s.next ≤ E → 0 ≤ s.seen → s.seen < 2 ^ 32 → 0 ≤ s.hint → s.latch = none →
      (run m (fun _ => E) (fun _ => none) d s).next = E := by
  intro d
  induction d with
  | zero => intro s hd hn _ _ _ _; simp only [run]; omega
  | succ d ih =>
    intro s hd hn h0 hs hh hl
    by_cases hne : s.next = E
    · exact at_end (d + 1) s hne h0 hh
    · have hE := batchEnd_eq (m := m) (e := E) h0 (by omega) (show s.next < E by omega)
      have hpos : s.next < batchEnd m E s := by rw [hE]; split <;> omega
      have hle : batchEnd m E s ≤ E := by rw [hE]; split <;> omega
      have hr : round m E (fun _ => none) s =
          { s with next := batchEnd m E s, hint := inc s.hint, seen := inc s.hint } := by
        unfold round
        simp only
        rw [if_neg (by omega), hl, firstDenied_free (fun _ _ _ => Or.inl rfl)]
        have : anyLate (fun _ => none) s.next (batchEnd m E s - s.next) = false :=
          anyLate_false.mpr (fun x _ _ => by simp)
        simp [this]
      have hir := inc_range hh
      simp only [run]
      rw [hr]
      exact ih _ (by simp only; omega) hle hir.1 (by simp only; omega) hir.1 hl

/-- **C125.**  When no entry is refused any more and the latch is lifted, the follower has the whole log of the leader after at
most one message for each entry, plus one if the last message was refused. -/
theorem C125_all {m E : Nat} {s : St} (hm : 0 < m) (h64 : E + 2 ^ 32 < 2 ^ 64) (hn : s.next ≤ E) (hs1 : s.seen < 2 ^ 32)
    (hh : 0 ≤ s.hint) (hh1 : s.hint < 2 ^ 32) (hl : s.latch = none) :
    (run m (fun _ => E) (fun _ => none) (E - s.next + 1) s).next = E := by
  by_cases h0 : 0 ≤ s.seen
  · exact all_aux hm h64 _ s (by omega) hn h0 hs1 hh hl
  · have hr : round m E (fun _ => none) s = { s with seen := s.hint } := by
      unfold round batchEnd hintEnd
      simp only
      rw [if_pos (show s.seen < 0 by omega), if_pos (Nat.le_refl _)]
    simp only [run]
    rw [hr]
    exact all_aux hm h64 _ _ (Nat.le_refl _) hn hh hh1 hh hl

example : (run 64 (fun _ => 26) (fun _ => none) 4 { next := 20, seen := -1, hint := 1, latch := none }).next = 26 := by
  decide +kernel

/-! ### Where it fails -/

/-- A batch that reaches the latch is refused as a whole and the hint stays as it is.  So when the follower's hint lets a batch
go from below the latch to or beyond it, nothing is ever taken, although every entry before the latch could be. -/
theorem C125_latched_violated {m L : Nat} {s : St} {e : Nat → Nat} (hl : s.latch = some L) (hn : s.next < L)
    (hm : L - s.next < m) (he : ∀ k, L < e k) (h64 : L + 2 ^ 32 < 2 ^ 64)
    (hh : s.hint = 0 ∨ (L : Int) < s.next + s.hint ∧ s.hint < 2 ^ 32)
    (hseen : s.seen = s.hint ∨ s.seen = -1 ∨ s.seen = 0) :
    ∀ n, (run m e (fun _ => none) n s).next = s.next ∧ (run m e (fun _ => none) n s).latch = some L := by
  intro n
  induction n generalizing s e with
  | zero => exact ⟨rfl, hl⟩
  | succ n ih =>
    have key : round m (e 0) (fun _ => none) s = { s with seen := -1 } ∨
        round m (e 0) (fun _ => none) s = { s with seen := s.hint } := by
      by_cases h1 : s.seen = -1
      · right
        unfold round batchEnd hintEnd
        simp only
        rw [if_pos (show s.seen < 0 by omega), if_pos (Nat.le_refl _)]
      · left
        have hE := batchEnd_eq (m := m) (e := e 0) (s := s) (by omega) (by omega) (by have := he 0; omega)
        have hbe : L < batchEnd m (e 0) s := by
          rw [hE]; have := he 0; split <;> omega
        unfold round
        simp only
        rw [if_neg (by omega), hl]
        have : (some L).any (fun L => decide (batchEnd m (e 0) s - 1 ≥ L)) = true := by
          simp only [Option.any_some, decide_eq_true_eq]; omega
        rw [if_pos this]
    simp only [run]
    rcases key with hr | hr <;> rw [hr]
    · exact ih (s := { s with seen := -1 }) hl hn hm (fun k => he _) hh (Or.inr (Or.inl rfl))
    · exact ih (s := { s with seen := s.hint }) hl hn hm (fun k => he _) hh (Or.inl rfl)

/-- Such a state is reached: the follower has 9 entries, its leader sends 10..25, there is no space for 20.  The leader fails
before its next batch; the new one has a log up to 15 and sends 10..15, which the follower takes and which doubles its hint
beyond the limit: there is no limit now.  The new leader's log grows to 40; each of its batches from 16 goes beyond 20. -/
theorem C125_latched_reached :
    let deny := fun l => if l = 20 then some Why.noSpace else none
    let s1 := round 64 26 deny { init with next := 10 }
    let s2 := round 64 16 deny (newLeader s1)
    s1.latch = some 20 ∧ s2 = { next := 16, seen := 0, hint := 0, latch := some 20 } ∧
    ∀ n, (run 64 (fun _ => 41) (fun _ => none) n s2).next = 16 := by
  intro deny s1 s2
  have h2 : s2 = { next := 16, seen := 0, hint := 0, latch := some 20 } := by decide +kernel
  refine ⟨by decide +kernel, h2, fun n => ?_⟩
  rw [h2]
  exact (C125_latched_violated (L := 20) rfl (by decide) (by decide) (fun _ => by decide) (by decide)
    (Or.inl rfl) (Or.inl rfl) n).1

/-- A batch with an entry whose data is late is refused as a whole and the hint stays as it is: as long as the data of entry `B`
does not come, the entries before it are not taken either, although nothing is wrong with them. -/
theorem C125_late_violated {m B : Nat} {s : St} {e : Nat → Nat} (hl : s.latch = none) (hn : s.next < B)
    (hm : B - s.next < m) (he : ∀ k, B < e k) (hh : s.hint = 0) (hseen : s.seen = 0 ∨ s.seen = -1) (h64 : B < 2 ^ 64) :
    ∀ n, (run m e (fun l => if l = B then some .late else none) n s).next = s.next := by
  intro n
  induction n generalizing s e with
  | zero => rfl
  | succ n ih =>
    simp only [run]
    by_cases h1 : s.seen = -1
    · have hr : round m (e 0) (fun l => if l = B then some .late else none) s = { s with seen := s.hint } := by
        unfold round batchEnd hintEnd
        simp only
        rw [if_pos (show s.seen < 0 by omega), if_pos (Nat.le_refl _)]
      rw [hr]
      exact ih (s := { s with seen := s.hint }) hl hn hm (fun k => he _) hh (Or.inl hh)
    · have hE := batchEnd_eq (m := m) (e := e 0) (s := s) (by omega) (by omega) (by have := he 0; omega)
      have hbe : B < batchEnd m (e 0) s := by
        rw [hE, if_pos (by omega)]; have := he 0; omega
      have hr : round m (e 0) (fun l => if l = B then some .late else none) s = { s with seen := -1 } := by
        unfold round
        simp only
        rw [if_neg (by omega), hl, firstDenied_free (fun x _ _ => by by_cases hx : x = B <;> simp [hx])]
        have : anyLate (fun l => if l = B then some .late else none) s.next (batchEnd m (e 0) s - s.next) = true := by
          cases h : anyLate (fun l => if l = B then some .late else none) s.next (batchEnd m (e 0) s - s.next) with
          | true => rfl
          | false => exact absurd (anyLate_false.mp h B (by omega) (by omega)) (by simp)
        simp [this]
      rw [hr]
      exact ih (s := { s with seen := -1 }) hl hn hm (fun k => he _) hh (Or.inr rfl)

example : ∀ n, (run 64 (fun _ => 26) (fun l => if l = 20 then some .late else none) n init).next = 1 :=
  C125_late_violated rfl (by decide) (by decide) (fun _ => by decide) rfl (Or.inl rfl) (by decide)

end HS.Batch
