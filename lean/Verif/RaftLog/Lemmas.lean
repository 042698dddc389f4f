import Verif.Log.Single
import Verif.RaftLog.Spec

/-! # The Raft log store: simulation -/

namespace HS.RaftLog

open HS.Log

/-! ## Records of a store -/

theorem flushed_rec {D : Type} {c : Dev D} {s : SDev D} (h : Rel c s) {id : Nat} {t : SStore D} {st : Store}
    (ht : s.stores id = some t) (hs : c.stores id = some st) {l : Int} (h1 : t.start ≤ l) (h2 : l < t.base + t.flushed) :
    ∃ r d, st.recs l = some r ∧ r.done = true ∧ c.readKey r.dev = .ok d ∧ t.log[(l - t.base).toNat]? = some d := by
  have hok := h.store id t st ht hs
  have hb := hok.base_le
  obtain ⟨x, hx, hxl, hxd⟩ := hok.live_get (l := l) (by omega) h2
  have hrec := hok.recs x hx (by omega)
  rw [hxl] at hrec
  exact ⟨_, _, hrec, rfl, readKey_devRecs h.consec (mem_live.1 hx).1, hxd⟩

theorem runEnd_spec (p : SRec → Bool) (recs : Int → Option SRec) (m : Int) : ∀ (n : Nat) (l : Int), l ≤ m → m ≤ l + n →
    (∀ x, l ≤ x → x < m → ∃ r, recs x = some r ∧ p r = true) →
    (m = l + n ∨ recs m = none ∨ ∃ r, recs m = some r ∧ p r = false) → runEnd p recs n l = m - 1 := by
  intro n
  induction n with
  | zero => intro l h1 h2 _ _; simp only [runEnd]; omega
  | succ n ih =>
    intro l h1 h2 h3 h4
    unfold runEnd
    by_cases e : l = m
    · subst e
      rcases h4 with h4 | h4 | ⟨r, h4, h5⟩
      · omega
      · rw [h4]
      · rw [h4]; simp only [h5]; rw [if_neg (by decide)]
    · obtain ⟨r, hr, hp⟩ := h3 l (Int.le_refl _) (by omega)
      rw [hr]
      simp only [hp, if_true]
      exact ih (l + 1) (by omega) (by omega) (fun x hx1 hx2 => h3 x (by omega) hx2) (by
        rcases h4 with h4 | h4
        · left; omega
        · exact Or.inr h4)

theorem issued_eq {D : Type} {c : Dev D} {s : SDev D} (h : Rel c s) {id : Nat} {t : SStore D} {st : Store}
    (ht : s.stores id = some t) (hs : c.stores id = some st) {d : Int} (hd : d < t.base + t.flushed) :
    issued st d = t.last := by
  have hok := h.store id t st ht hs
  have h1 := hok.start
  have h2 := hok.next
  have h3 := hok.flushed_le
  have h4 := hok.start_le
  have hl : t.last = t.base + t.log.length - 1 := rfl
  unfold issued upto
  rw [runEnd_spec _ _ (t.base + t.log.length)]
  · rfl
  · omega
  · omega
  · intro x hx1 hx2
    by_cases e : x < t.base + t.flushed
    · obtain ⟨r, _, hr, _⟩ := flushed_rec h ht hs (l := x) (by omega) e
      exact ⟨r, hr, rfl⟩
    · exact ⟨_, hok.recs_pend x (by omega) hx2, rfl⟩
  · left; omega

theorem completed_eq {D : Type} {c : Dev D} {s : SDev D} (h : Rel c s) {id : Nat} {t : SStore D} {st : Store}
    (ht : s.stores id = some t) (hs : c.stores id = some st) {d : Int} (hd : d < t.base + t.flushed) :
    completed st d = t.base + t.flushed - 1 := by
  have hok := h.store id t st ht hs
  have h1 := hok.start
  have h2 := hok.next
  have h3 := hok.flushed_le
  have h4 := hok.start_le
  unfold completed upto
  rw [runEnd_spec _ _ (t.base + t.flushed)]
  · omega
  · omega
  · intro x hx1 hx2
    obtain ⟨r, _, hr, hd, _⟩ := flushed_rec h ht hs (l := x) (by omega) hx2
    exact ⟨r, hr, hd⟩
  · by_cases e : t.flushed = t.log.length
    · left; omega
    · right; right
      exact ⟨_, hok.recs_pend _ (Int.le_refl _) (by omega), rfl⟩

/-! ## The loops over records -/

theorem drop_cons {α : Type} {L : List α} {k : Nat} {d : α} (h : L[k]? = some d) : L.drop k = d :: L.drop (k + 1) := by
  obtain ⟨hk, rfl⟩ := List.getElem?_eq_some_iff.1 h
  exact List.drop_eq_getElem_cons hk

theorem visit_skip {σ : Type} {c : Dev Entry} {s : SDev Entry} (h : Rel c s) {id : Nat} {t : SStore Entry} {st : Store}
    (ht : s.stores id = some t) (hs : c.stores id = some st) (cb : σ → Int → Entry → σ × Bool) :
    ∀ (n : Nat) (l : Int) (a : σ), t.base + t.flushed ≤ l → visit c st.recs cb n l a = .ok a := by
  have hok := h.store id t st ht hs
  intro n
  induction n with
  | zero => intro l a _; rfl
  | succ n ih =>
    intro l a hl
    unfold visit
    by_cases e : l < t.base + t.log.length
    · rw [hok.recs_pend l hl e]
      simp only [Bool.false_eq_true, if_false]
      exact ih _ _ (by omega)
    · rw [hok.recs_hi l (by omega)]
      exact ih _ _ (by omega)

theorem visit_log {c : Dev Entry} {s : SDev Entry} (h : Rel c s) {id : Nat} {t : SStore Entry} {st : Store}
    (ht : s.stores id = some t) (hs : c.stores id = some st) (e : Nat) :
    ∀ (n : Nat) (l : Int) (out : List Entry), t.start ≤ l → t.base + t.flushed ≤ l + n →
      visit c st.recs (logCb e) n l out =
        .ok (out ++ ((t.log.take t.flushed).drop (l - t.base).toNat).take ((e : Int) - 1 - l).toNat) := by
  have hok := h.store id t st ht hs
  have hb := hok.base_le
  have hf := hok.flushed_le
  intro n
  induction n with
  | zero =>
    intro l out h1 h2
    have hd : (t.log.take t.flushed).drop (l - t.base).toNat = [] := by
      apply List.drop_eq_nil_of_le
      simp; omega
    rw [hd]; simp [visit]
  | succ n ih =>
    intro l out h1 h2
    by_cases hl : l < t.base + t.flushed
    · obtain ⟨r, d, hr, hdone, hread, hget⟩ := flushed_rec h ht hs h1 hl
      unfold visit
      rw [hr]
      simp only [hdone, if_true, hread]
      have hget' : (t.log.take t.flushed)[(l - t.base).toNat]? = some d := by
        rw [List.getElem?_take_of_lt (by omega)]; exact hget
      have hdr := drop_cons hget'
      have hk : (l - t.base).toNat + 1 = (l + 1 - t.base).toNat := by omega
      rw [hk] at hdr
      rw [hdr]
      by_cases c1 : l < (e : Int) - 1 - 1
      · have hcb : logCb e out l d = (out ++ [d], true) := by
          unfold logCb; rw [if_pos (by omega)]; simp [c1]
        rw [hcb]
        simp only [if_true]
        rw [ih (l + 1) (out ++ [d]) (by omega) (by omega)]
        have : ((e : Int) - 1 - l).toNat = ((e : Int) - 1 - (l + 1)).toNat + 1 := by omega
        rw [this, List.take_succ_cons]
        simp
      · by_cases c2 : l < (e : Int) - 1
        · have hcb : logCb e out l d = (out ++ [d], false) := by
            unfold logCb; rw [if_pos c2]; simp [c1]
          rw [hcb]
          simp only [Bool.false_eq_true, if_false]
          have : ((e : Int) - 1 - l).toNat = 1 := by omega
          rw [this]; simp
        · have hcb : logCb e out l d = (out, false) := by
            unfold logCb; rw [if_neg c2]; simp [c1]
          rw [hcb]
          simp only [Bool.false_eq_true, if_false]
          have : ((e : Int) - 1 - l).toNat = 0 := by omega
          rw [this]; simp
    · rw [visit_skip h ht hs _ _ _ _ (by omega)]
      have hd : (t.log.take t.flushed).drop (l - t.base).toNat = [] := by
        apply List.drop_eq_nil_of_le
        simp; omega
      rw [hd]; simp

theorem visit_pack {c : Dev Entry} {s : SDev Entry} (h : Rel c s) {id : Nat} {t : SStore Entry} {st : Store}
    (ht : s.stores id = some t) (hs : c.stores id = some st) :
    ∀ (n : Nat) (l : Int) (out : List Entry) (k : Int), t.start ≤ l → t.base + t.flushed ≤ l + n →
      ∃ m, visit c st.recs packCb n l (out, k) =
        .ok (out ++ ((t.log.take t.flushed).drop (l - t.base).toNat).take k.toNat, m) := by
  have hok := h.store id t st ht hs
  have hb := hok.base_le
  have hf := hok.flushed_le
  intro n
  induction n with
  | zero =>
    intro l out k h1 h2
    have hd : (t.log.take t.flushed).drop (l - t.base).toNat = [] := by
      apply List.drop_eq_nil_of_le
      simp; omega
    rw [hd]; exact ⟨k, by simp [visit]⟩
  | succ n ih =>
    intro l out k h1 h2
    by_cases hl : l < t.base + t.flushed
    · obtain ⟨r, d, hr, hdone, hread, hget⟩ := flushed_rec h ht hs h1 hl
      unfold visit
      rw [hr]
      simp only [hdone, if_true, hread]
      have hget' : (t.log.take t.flushed)[(l - t.base).toNat]? = some d := by
        rw [List.getElem?_take_of_lt (by omega)]; exact hget
      have hdr := drop_cons hget'
      have hk : (l - t.base).toNat + 1 = (l + 1 - t.base).toNat := by omega
      rw [hk] at hdr
      rw [hdr]
      by_cases c1 : 0 < k - 1
      · have hcb : packCb (out, k) l d = ((out ++ [d], k - 1), true) := by
          unfold packCb; simp only []; rw [if_pos (by omega), decide_eq_true c1]
        rw [hcb]
        simp only [if_true]
        obtain ⟨m, hm⟩ := ih (l + 1) (out ++ [d]) (k - 1) (by omega) (by omega)
        refine ⟨m, ?_⟩
        rw [hm]
        have : k.toNat = (k - 1).toNat + 1 := by omega
        rw [this, List.take_succ_cons]
        simp
      · by_cases c2 : 0 < k
        · have hcb : packCb (out, k) l d = ((out ++ [d], k - 1), false) := by
            unfold packCb; simp only []; rw [if_pos c2, decide_eq_false c1]
          rw [hcb]
          simp only [Bool.false_eq_true, if_false]
          have : k.toNat = 1 := by omega
          rw [this]; exact ⟨k - 1, by simp⟩
        · have hcb : packCb (out, k) l d = ((out, k - 1), false) := by
            unfold packCb; simp only []; rw [if_neg c2, decide_eq_false c1]
          rw [hcb]
          simp only [Bool.false_eq_true, if_false]
          have : k.toNat = 0 := by omega
          rw [this]; exact ⟨k - 1, by simp⟩
    · rw [visit_skip h ht hs _ _ _ _ (by omega)]
      have hd : (t.log.take t.flushed).drop (l - t.base).toNat = [] := by
        apply List.drop_eq_nil_of_le
        simp; omega
      rw [hd]; exact ⟨k, by simp⟩

end HS.RaftLog
