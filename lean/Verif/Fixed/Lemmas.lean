import Verif.Fixed.Spec
import Batteries.Data.List.Perm
/-! Helper lemmas for the fixed-size allocator. -/
namespace HS.Fixed

structure Inv (s : St) (l : Ledger) : Prop where
  nodup : s.q.Nodup
  lt : ∀ b ∈ s.q, b < s.total
  cover : ∀ b, b < s.total → b ∈ s.q ∨ l.owned b = true
  res : ∀ b ∈ s.q, l.owned b = true → b ∈ s.reserved ∧ l.replayed b = true
  resOwned : ∀ b ∈ s.reserved, l.owned b = true
  resNodup : s.reserved.Nodup
  phase : s.phase = .recovering ↔ l.recovering = true
  act : s.phase = .active → s.reserved = []

theorem inv_load (total : Nat) (bm : Nat → Bool) : Inv (load total bm) (Ledger.boot bm) := by
  constructor
  · exact (List.nodup_range).filter _
  · intro b hb; simp [load] at hb ⊢; exact hb.1
  · intro b hb
    simp only [load, Ledger.boot] at *
    by_cases h : bm b <;> simp [h, hb]
  · intro b hb; simp [load, Ledger.boot] at *; simp [hb.2]
  · simp [load]
  · simp [load]
  · simp [load, Ledger.boot]
  · simp [load]

theorem length_le_of_nodup_lt {q : List Nat} {n : Nat} (h : q.Nodup) (hl : ∀ b ∈ q, b < n) :
    q.length ≤ n := by
  have : q.Subperm (List.range n) :=
    List.subperm_of_subset h (fun b hb => by simpa using hl b hb)
  simpa using this.length_le

theorem length_lt_of_notMem {q : List Nat} {n b : Nat} (h : q.Nodup) (hl : ∀ b ∈ q, b < n)
    (hb : b < n) (hn : b ∉ q) : q.length < n := by
  have h' : (b :: q).Nodup := List.nodup_cons.2 ⟨hn, h⟩
  have := length_le_of_nodup_lt (q := b :: q) (n := n) h' (by
    intro x hx; simp only [List.mem_cons] at hx; rcases hx with rfl | hx
    · exact hb
    · exact hl x hx)
  simp at this; omega

theorem rcLoop_filter (reserved : List Nat) (q tail : List Nat) :
    rcLoop reserved q.length (q ++ tail) = tail ++ q.filter (fun b => b ∉ reserved) := by
  induction q generalizing tail with
  | nil => simp [rcLoop]
  | cons b q ih =>
    simp only [List.length_cons, List.cons_append, rcLoop, List.filter_cons]
    split
    · rename_i h; rw [ih]; simp [h]
    · rename_i h
      rw [List.append_assoc, ih]; simp [h]

theorem rcLoop_eq (reserved q : List Nat) :
    rcLoop reserved q.length q = q.filter (fun b => b ∉ reserved) := by
  have := rcLoop_filter reserved q []
  simpa using this

/-- Effect of the alloc loop. -/
theorem allocLoop_spec (phase : Phase) (q reserved : List Nat) (hr : reserved.Nodup) :
    let r := allocLoop phase q reserved
    (∃ pre, (∀ b ∈ pre, b ∈ reserved ∧ phase = .recovering) ∧
      (match r.1 with
       | some b => q = pre ++ b :: r.2.1 ∧ ¬ (phase = .recovering ∧ b ∈ r.2.2)
       | none => q = pre ∧ r.2.1 = []) ∧
      (∀ x, x ∈ r.2.2 → x ∈ reserved) ∧ (∀ x ∈ reserved, x ∈ r.2.2 ∨ x ∈ pre)) ∧ r.2.2.Nodup := by
  induction q generalizing reserved with
  | nil =>
    refine ⟨⟨[], ?_⟩, ?_⟩
    · simp [allocLoop]
    · simpa [allocLoop] using hr
  | cons b q ih =>
    simp only [allocLoop]
    by_cases hc : phase = .recovering ∧ b ∈ reserved
    · rw [if_pos hc]
      have hr' := hr.erase b
      obtain ⟨⟨pre, h1, h2, h3, h4⟩, h5⟩ := ih (reserved.erase b) hr'
      refine ⟨⟨b :: pre, ?_, ?_, ?_, ?_⟩, h5⟩
      · intro x hx
        simp only [List.mem_cons] at hx
        rcases hx with rfl | hx
        · exact ⟨hc.2, hc.1⟩
        · exact ⟨List.mem_of_mem_erase (h1 x hx).1, hc.1⟩
      · revert h2
        cases (allocLoop phase q (reserved.erase b)).1 with
        | none => simp
        | some y => simp
      · intro x hx; exact List.mem_of_mem_erase (h3 x hx)
      · intro x hx
        by_cases hxb : x = b
        · subst hxb; simp
        · rcases h4 x ((List.mem_erase_of_ne hxb).2 hx) with h | h
          · exact Or.inl h
          · exact Or.inr (by simp [h])
    · rw [if_neg hc]
      refine ⟨⟨[], ?_, ?_, ?_, ?_⟩, hr⟩
      · simp
      · simp only [List.nil_append, true_and]; exact hc
      · simp
      · simp

theorem inv_step (s : St) (l : Ledger) (op : Op) (h : Inv s l) (hl : l.legal s.total op)
    (he : l.noEarlyFree op) :
    Inv (step s op).1 (l.next op (step s op).2) ∧ (step s op).1.total = s.total ∧
    (∀ b, op = .alloc → (step s op).2 = .ok b → l.owned b = false ∧ b < s.total) ∧
    (op = .alloc → (step s op).2 = .spaceFull → ∀ b, b < s.total → l.owned b = true) := by
  obtain ⟨h1, h2, h3, h4, h5, h6, h7, h8⟩ := h
  cases op with
  | alloc =>
    obtain ⟨⟨pre, p1, p2, p3, p4⟩, p5⟩ := allocLoop_spec s.phase s.q s.reserved h6
    simp only [step, St.alloc]
    generalize hr : allocLoop s.phase s.q s.reserved = r at *
    obtain ⟨o, q', res'⟩ := r
    simp only at p2 p3 p4 p5 ⊢
    cases o with
    | none =>
      simp only at p2
      obtain ⟨hq, rfl⟩ := p2
      subst hq
      have hall : ∀ b, b < s.total → l.owned b = true := by
        intro b hb
        rcases h3 b hb with h | h
        · exact h5 b (p1 b h).1
        · exact h
      refine ⟨?_, trivial, by simp, fun _ _ => hall⟩
      refine ⟨by simp, by simp, fun b hb => Or.inr (hall b hb), by simp, ?_, p5, h7, ?_⟩
      · intro b hb; exact h5 b (p3 b hb)
      · intro ha
        have := h8 ha
        rw [this] at p3
        exact List.eq_nil_iff_forall_not_mem.2 (fun x hx => by simpa using p3 x hx)
    | some b =>
      simp only at p2
      obtain ⟨hq, hnb⟩ := p2
      have hbq : b ∈ s.q := by rw [hq]; simp
      have hnodup := h1
      rw [hq] at hnodup
      have hb_q' : b ∉ q' := (List.nodup_cons.1 (List.nodup_append.1 hnodup).2.1).1
      have hbpre : b ∉ pre := by
        intro hb
        exact (List.nodup_append.1 hnodup).2.2 b hb b (by simp) rfl
      have hbun : l.owned b = false := by
        cases hob : l.owned b with
        | false => rfl
        | true =>
          exfalso
          have h4b := (h4 b hbq hob).1
          rcases p4 b h4b with h | h
          · apply hnb
            refine ⟨?_, h⟩
            cases hp : s.phase with
            | recovering => rfl
            | active => have := h8 hp; rw [this] at h4b; simp at h4b
          · exact hbpre h
      refine ⟨?_, trivial, ?_, by simp⟩
      · refine ⟨(List.nodup_cons.1 (List.nodup_append.1 hnodup).2.1).2, ?_, ?_, ?_, ?_, p5, h7, ?_⟩
        · intro x hx; exact h2 x (by rw [hq]; simp [hx])
        · intro x hx
          simp only [Ledger.next, set]
          rcases h3 x hx with h | h
          · rw [hq] at h
            simp only [List.mem_append, List.mem_cons] at h
            rcases h with h | h | h
            · right; split
              · rfl
              · exact h5 x (p1 x h).1
            · right; simp [h]
            · exact Or.inl h
          · right; simp [h]
        · intro x hx hox
          have hne : x ≠ b := fun e => hb_q' (e ▸ hx)
          simp only [Ledger.next, set, hne, if_false] at hox
          have := h4 x (by rw [hq]; simp [hx]) hox
          refine ⟨?_, this.2⟩
          rcases p4 x this.1 with h | h
          · exact h
          · exact absurd rfl ((List.nodup_append.1 hnodup).2.2 x h x (by simp [hx]))
        · intro x hx
          simp only [Ledger.next, set]
          split
          · rfl
          · exact h5 x (p3 x hx)
        · intro ha
          have := h8 ha
          rw [this] at p3
          exact List.eq_nil_iff_forall_not_mem.2 (fun x hx => by simpa using p3 x hx)
      · intro b' _ hb'
        simp only [Out.ok.injEq] at hb'
        subst hb'
        exact ⟨hbun, h2 b hbq⟩
  | free b =>
    simp only [Ledger.legal] at hl
    simp only [Ledger.noEarlyFree] at he
    have hbq : b ∉ s.q := by
      intro hb
      have := h4 b hb hl.2
      by_cases hr : l.recovering = true
      · rw [he hr] at this; simp at this
      · have hp : s.phase = .active := by
          cases hp : s.phase with
          | active => rfl
          | recovering => exact absurd (h7.1 hp) hr
        rw [h8 hp] at this; simp at this
    have hlen := length_lt_of_notMem h1 h2 hl.1 hbq
    simp only [step, St.free, St.push, hlen, if_true]
    refine ⟨?_, by split <;> rfl, by simp, by simp⟩
    have key : ∀ res', (∀ x, x ∈ res' → x ∈ s.reserved ∧ x ≠ b) → (∀ x, x ∈ s.reserved → x ≠ b → x ∈ res') →
        res'.Nodup → (s.phase = .active → res' = []) →
        Inv { s with q := s.q ++ [b], reserved := res' } (l.next (.free b) .done) := by
      intro res' k1 k2 k3 k4
      refine ⟨?_, ?_, ?_, ?_, ?_, k3, h7, k4⟩
      · exact List.nodup_append.2 ⟨h1, by simp, fun a ha c hc => by
          simp only [List.mem_singleton] at hc; subst hc; intro e; exact hbq (e ▸ ha)⟩
      · intro x hx
        simp only [List.mem_append, List.mem_singleton] at hx
        rcases hx with hx | rfl
        · exact h2 x hx
        · exact hl.1
      · intro x hx
        simp only [Ledger.next, set, List.mem_append, List.mem_singleton]
        by_cases hxb : x = b
        · left; right; exact hxb
        · rcases h3 x hx with h | h
          · left; left; exact h
          · right; simp [hxb, h]
      · intro x hx hox
        simp only [Ledger.next, set] at hox ⊢
        by_cases hxb : x = b
        · simp [hxb] at hox
        · simp only [hxb, if_false] at hox
          simp only [List.mem_append, List.mem_singleton, hxb, or_false] at hx
          have := h4 x hx hox
          exact ⟨k2 x this.1 hxb, this.2⟩
      · intro x hx
        have := k1 x hx
        simp only [Ledger.next, set, this.2, if_false]
        exact h5 x this.1
    split
    · rename_i hp
      have := key (s.reserved.erase b) (fun x hx => ⟨List.mem_of_mem_erase hx, fun e => by
          subst e; exact (h6.not_mem_erase) hx⟩)
        (fun x hx hne => (List.mem_erase_of_ne hne).2 hx) (h6.erase b)
        (fun ha => by rw [ha] at hp; simp at hp)
      exact this
    · rename_i hp
      have ha : s.phase = .active := by
        cases h : s.phase with
        | active => rfl
        | recovering => exact absurd h hp
      have hrn := h8 ha
      have := key s.reserved (by rw [hrn]; simp) (by rw [hrn]; simp) h6 h8
      exact this
  | reserve b =>
    simp only [Ledger.legal] at hl
    simp only [step, St.reserve, Ledger.next]
    refine ⟨?_, by split <;> rfl, by simp, by simp⟩
    by_cases hp : s.phase = .recovering
    · have hr : l.recovering = true := h7.1 hp
      rw [if_pos hp, if_pos hr]
      refine ⟨h1, h2, ?_, ?_, ?_, ?_, ?_, ?_⟩
      · intro x hx
        simp only [set]
        rcases h3 x hx with h | h
        · exact Or.inl h
        · right; simp [h]
      · intro x hx hox
        simp only [set] at hox
        by_cases hxb : x = b
        · subst hxb
          constructor
          · simp only; split <;> simp_all
          · simp only [set]
            by_cases ho : l.owned x = true
            · simp [ho, (h4 x hx ho).2]
            · simp [ho, set]
        · simp only [hxb, if_false] at hox
          have := h4 x hx hox
          constructor
          · simp only; split
            · exact this.1
            · simp [this.1]
          · simp only
            split
            · exact this.2
            · simp [set, hxb, this.2]
      · intro x hx
        simp only [set]
        by_cases hxb : x = b
        · simp [hxb]
        · simp only [hxb, if_false]
          simp only at hx
          split at hx
          · exact h5 x hx
          · simp only [List.mem_cons, hxb, false_or] at hx; exact h5 x hx
      · simp only
        split
        · exact h6
        · rename_i hn; exact List.nodup_cons.2 ⟨hn, h6⟩
      · simp only; simp [hp, hr]
      · simp only; intro ha; rw [hp] at ha; simp at ha
    · rw [if_neg hp]
      have hr : l.recovering = false := by
        cases h : l.recovering with
        | false => rfl
        | true => exact absurd (h7.2 h) hp
      simp only [hr, Bool.false_eq_true, if_false]
      exact ⟨h1, h2, h3, h4, h5, h6, by simp [hp, hr], h8⟩
  | recoveryCompleted =>
    refine ⟨?_, by simp only [step, St.recoveryCompleted]; split <;> rfl, by simp, by simp⟩
    simp only [step, St.recoveryCompleted, Ledger.next]
    split
    · rename_i hrn
      refine ⟨h1, h2, h3, ?_, h5, h6, by simp, fun _ => hrn⟩
      intro b hb ho
      exact h4 b hb ho
    · rw [rcLoop_eq]
      refine ⟨h1.filter _, ?_, ?_, ?_, by simp, by simp, by simp, by simp⟩
      · intro b hb; exact h2 b ((List.mem_filter.1 hb).1)
      · intro b hb
        simp only [List.mem_filter, decide_not, Bool.not_eq_eq_eq_not, Bool.not_true, decide_eq_false_iff_not]
        rcases h3 b hb with h | h
        · by_cases hr : b ∈ s.reserved
          · exact Or.inr (h5 b hr)
          · exact Or.inl ⟨h, hr⟩
        · exact Or.inr h
      · intro b hb ho
        simp only [List.mem_filter, decide_not, Bool.not_eq_eq_eq_not, Bool.not_true, decide_eq_false_iff_not] at hb
        exact absurd (h4 b hb.1 ho).1 hb.2

/-- Both rules together. -/
def fine (total : Nat) (l : Ledger) (op : Op) : Prop := l.legal total op ∧ l.noEarlyFree op

theorem inv_run (s : St) (l : Ledger) (ops : List Op) (h : Inv s l)
    (hh : History (fine s.total) s l ops) :
    Inv (stAfter s ops) (ledgerAfter s l ops) ∧ (stAfter s ops).total = s.total := by
  induction ops generalizing s l with
  | nil => exact ⟨h, rfl⟩
  | cons op ops ih =>
    have hs := inv_step s l op h hh.1.1 hh.1.2
    have := ih _ _ hs.1 (by rw [hs.2.1]; exact hh.2)
    exact ⟨this.1, this.2.trans hs.2.1⟩

end HS.Fixed
