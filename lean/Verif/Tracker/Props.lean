import Verif.Tracker.Lemmas
/-! # C28, C29: reads hold back frees; every free runs exactly once -/
namespace HS.Tracker

/-! ## Invariant -/

/-- `rd` has a reference on the record of `k`. -/
def holds (epr : Nat) (k : Key) (rd : Read) : Bool :=
  match rd.ph with
  | .inserting todo => (keysOf epr rd.piece).contains k && ! todo.contains k
  | .io => (keysOf epr rd.piece).contains k
  | .removing todo => todo.contains k
  | .finished => false

def RdOk (epr : Nat) (rd : Read) : Prop :=
  match rd.ph with
  | .inserting todo => ∃ pre, pre ++ todo = keysOf epr rd.piece
  | .removing todo => ∃ pre, pre ++ todo = keysOf epr rd.piece
  | _ => True

structure Inv (epr : Nat) (s : St) : Prop where
  uniq : Uniq s.recs
  rd : ∀ r ∈ s.reads, RdOk epr r
  ref : ∀ k, match find s.recs k with
    | some r => r.ref = (s.reads.countP (holds epr k) : Int) ∧ 0 < s.reads.countP (holds epr k)
    | none => s.reads.countP (holds epr k) = 0
  bound : ∀ k r, find s.recs k = some r → ∀ w ∈ r.waiters, w < s.waits.length
  fired : ∀ w x, s.waits[w]? = some x →
    x.fired = if x.scanning = none ∧ held s.recs w = false then 1 else 0

theorem countP_set_holds {epr : Nat} {k : Key} {l : List Read} {i : Nat} {a b : Read}
    (h : l[i]? = some a) :
    (l.set i b).countP (holds epr k) + (if holds epr k a then 1 else 0) =
      l.countP (holds epr k) + (if holds epr k b then 1 else 0) := by
  obtain ⟨hlt, ha⟩ := List.getElem?_eq_some_iff.mp h
  rw [List.countP_set hlt, ha]
  have : holds epr k a = true → 0 < l.countP (holds epr k) := fun hh =>
    List.countP_pos_iff.mpr ⟨a, ha ▸ List.getElem_mem hlt, hh⟩
  split <;> split <;> simp_all <;> omega

theorem inv_init (epr : Nat) : Inv epr init := by
  constructor <;> simp [init, Uniq, find]

theorem mem_set_of {l : List Read} {i : Nat} {b r : Read} (h : r ∈ l.set i b) : r ∈ l ∨ r = b :=
  (List.mem_or_eq_of_mem_set h)

/-- Steps that change only a read's phase, without changing what it holds. -/
theorem inv_phase {epr : Nat} {s : St} (h : Inv epr s) {i : Nat} {a b : Read}
    (hi : s.reads[i]? = some a) (hh : ∀ k, holds epr k b = holds epr k a) (hb : RdOk epr b) :
    Inv epr { s with reads := s.reads.set i b } := by
  have hc : ∀ k, (s.reads.set i b).countP (holds epr k) = s.reads.countP (holds epr k) := by
    intro k
    have := countP_set_holds (epr := epr) (k := k) (b := b) hi
    rw [hh k] at this; omega
  constructor
  · exact h.uniq
  · intro r hr
    rcases mem_set_of hr with hr | rfl
    · exact h.rd r hr
    · exact hb
  · intro k
    have := h.ref k
    simp only [hc]; exact this
  · exact h.bound
  · exact h.fired

theorem held_of_find {s' s : List Rec} (u' : Uniq s') (u : Uniq s) (w : Nat)
    (hf : (∃ k r, find s' k = some r ∧ w ∈ r.waiters) ↔ ∃ k r, find s k = some r ∧ w ∈ r.waiters) :
    held s' w = held s w := by
  rw [Bool.eq_iff_iff, held_iff u', held_iff u]; exact hf

theorem inv_step {epr : Nat} {s s' : St} {a : Act} (h : Inv epr s) (hs : step epr s a = some s') :
    Inv epr s' := by
  cases a with
  | readStart p =>
    simp only [step, Option.some.injEq] at hs; subst hs
    have h0 : ∀ k, holds epr k ⟨p, .inserting (keysOf epr p)⟩ = false := by
      intro k; simp [holds]
    constructor
    · exact h.uniq
    · intro r hr
      rcases List.mem_append.mp hr with hr | hr
      · exact h.rd r hr
      · simp only [List.mem_singleton] at hr; subst hr; exact ⟨[], rfl⟩
    · intro k
      have := h.ref k
      simp only [List.countP_append, List.countP_singleton, h0 k]; exact this
    · exact h.bound
    · exact h.fired
  | readInsert i =>
    simp only [step] at hs
    split at hs
    · rename_i p k ks hi
      simp only [Option.some.injEq] at hs; subst hs
      have hok := h.rd _ (List.mem_of_getElem? hi)
      obtain ⟨pre, hpre⟩ := hok
      have hpre : pre ++ k :: ks = keysOf epr p := hpre
      have hnd := keysOf_nodup epr p
      rw [← hpre] at hnd
      have hk : k ∉ ks := by
        have := (List.nodup_append.mp hnd).2.1
        exact (List.nodup_cons.mp this).1
      have hkm : k ∈ keysOf epr p := by rw [← hpre]; simp
      have hc := fun k' => countP_set_holds (epr := epr) (k := k') (b := ⟨p, .inserting ks⟩) hi
      have hc' : ∀ k', (s.reads.set i ⟨p, .inserting ks⟩).countP (holds epr k') =
          s.reads.countP (holds epr k') + (if k' = k then 1 else 0) := by
        intro k'
        have := hc k'
        by_cases e : k' = k
        · subst e
          simp only [holds, List.contains_eq_mem, hkm, hk, List.mem_cons, true_or] at this
          simpa using this
        · simp only [holds, List.contains_eq_mem, List.mem_cons, e, false_or] at this ⊢
          simp only [if_false]; omega
      have hheld : ∀ w, held (incr s.recs k) w = held s.recs w := by
        intro w
        apply held_of_find (uniq_incr h.uniq k) h.uniq
        constructor
        · rintro ⟨k', r, hr, hw⟩
          rw [find_incr] at hr
          by_cases e : k' = k
          · subst e
            simp only [if_true, Option.some.injEq] at hr
            cases hf : find s.recs k' with
            | none => rw [hf] at hr; subst hr; simp at hw
            | some r0 => rw [hf] at hr; subst hr; exact ⟨k', r0, hf, hw⟩
          · rw [if_neg e] at hr; exact ⟨k', r, hr, hw⟩
        · rintro ⟨k', r, hr, hw⟩
          by_cases e : k' = k
          · subst e
            exact ⟨k', { r with ref := r.ref + 1 }, by rw [find_incr, if_pos rfl, hr], hw⟩
          · exact ⟨k', r, by rw [find_incr, if_neg e, hr], hw⟩
      constructor
      · exact uniq_incr h.uniq k
      · intro r hr
        rcases mem_set_of hr with hr | rfl
        · exact h.rd r hr
        · exact ⟨pre ++ [k], by simpa using hpre⟩
      · intro k'
        have h1 := h.ref k'
        simp only [hc', find_incr]
        by_cases e : k' = k
        · subst e
          simp only [if_true]
          cases hf : find s.recs k' with
          | none => rw [hf] at h1; simp only at h1; simp [h1]
          | some r0 => rw [hf] at h1; simp only at h1; simp only; omega
        · simp only [e, if_false]
          exact h1
      · intro k' r hr w hw
        rw [find_incr] at hr
        by_cases e : k' = k
        · subst e
          simp only [if_true, Option.some.injEq] at hr
          cases hf : find s.recs k' with
          | none => rw [hf] at hr; subst hr; simp at hw
          | some r0 => rw [hf] at hr; subst hr; exact h.bound k' r0 hf w hw
        · rw [if_neg e] at hr; exact h.bound k' r hr w hw
      · intro w x hx
        simp only [hheld]; exact h.fired w x hx
    · simp at hs
  | readIo i =>
    simp only [step] at hs
    split at hs
    · rename_i p hi
      simp only [Option.some.injEq] at hs; subst hs
      exact inv_phase h hi (by intro k; simp [holds]) trivial
    · simp at hs
  | readComplete i =>
    simp only [step] at hs
    split at hs
    · rename_i p hi
      simp only [Option.some.injEq] at hs; subst hs
      exact inv_phase h hi (by intro k; simp [holds]) ⟨[], rfl⟩
    · simp at hs
  | readEnd i =>
    simp only [step] at hs
    split at hs
    · rename_i p hi
      simp only [Option.some.injEq] at hs; subst hs
      exact inv_phase h hi (by intro k; simp [holds]) trivial
    · simp at hs
  | readRemove i =>
    simp only [step] at hs
    split at hs
    · rename_i p k ks hi
      simp only [Option.some.injEq] at hs
      have hok := h.rd _ (List.mem_of_getElem? hi)
      obtain ⟨pre, hpre⟩ := hok
      have hpre : pre ++ k :: ks = keysOf epr p := hpre
      have hnd := keysOf_nodup epr p
      rw [← hpre] at hnd
      have hk : k ∉ ks := by
        have := (List.nodup_append.mp hnd).2.1
        exact (List.nodup_cons.mp this).1
      have hc := fun k' => countP_set_holds (epr := epr) (k := k') (b := ⟨p, .removing ks⟩) hi
      have hc' : ∀ k', (s.reads.set i ⟨p, .removing ks⟩).countP (holds epr k') +
          (if k' = k then 1 else 0) = s.reads.countP (holds epr k') := by
        intro k'
        have := hc k'
        by_cases e : k' = k
        · subst e
          simp only [holds, List.contains_eq_mem, hk, List.mem_cons, true_or] at this
          simpa using this
        · simp only [holds, List.contains_eq_mem, List.mem_cons, e, false_or] at this ⊢
          simp only [if_false]; omega
      obtain ⟨f1, f2, f3⟩ := foldl_drop (decr s.recs k).2.dedup (List.nodup_dedup _)
        { s with recs := (decr s.recs k).1, reads := s.reads.set i ⟨p, .removing ks⟩ }
      have f4 := foldl_drop_length (decr s.recs k).2.dedup
        { s with recs := (decr s.recs k).1, reads := s.reads.set i ⟨p, .removing ks⟩ }
      rw [hs] at f1 f2 f3 f4
      simp only at f1 f2 f3 f4
      -- the record exists
      have hrk := h.ref k
      cases hf : find s.recs k with
      | none =>
        rw [hf] at hrk; simp only at hrk
        have := hc' k; simp at this; omega
      | some r0 =>
      rw [hf] at hrk; simp only at hrk
      have hu' := uniq_decr h.uniq k
      have hheldw : ∀ w, w ∉ (decr s.recs k).2 → held (decr s.recs k).1 w = held s.recs w := by
        intro w hw
        apply held_of_find hu' h.uniq
        constructor
        · rintro ⟨k', r, hr, hw'⟩
          rw [find_decr] at hr
          by_cases e : k' = k
          · subst e
            rw [if_pos rfl, hf] at hr
            simp only at hr
            split at hr
            · simp at hr
            · simp only [Option.some.injEq] at hr; subst hr; exact ⟨k', r0, hf, hw'⟩
          · rw [if_neg e] at hr; exact ⟨k', r, hr, hw'⟩
        · rintro ⟨k', r, hr, hw'⟩
          by_cases e : k' = k
          · subst e
            rw [hf] at hr; simp only [Option.some.injEq] at hr; subst hr
            by_cases h0 : r0.ref - 1 = 0
            · exfalso; apply hw; unfold decr; rw [hf]; simp only [h0, if_true]; exact hw'
            · exact ⟨k', { r0 with ref := r0.ref - 1 }, by
                rw [find_decr, if_pos rfl, hf]; simp only [h0, if_false], hw'⟩
          · exact ⟨k', r, by rw [find_decr, if_neg e, hr], hw'⟩
      constructor
      · rw [f1]; exact hu'
      · intro r hr
        rw [f2] at hr
        rcases mem_set_of hr with hr | rfl
        · exact h.rd r hr
        · exact ⟨pre ++ [k], by simpa using hpre⟩
      · intro k'
        have h1 := h.ref k'
        have h2 := hc' k'
        rw [f1, f2, find_decr]
        by_cases e : k' = k
        · subst e
          rw [if_pos rfl, hf]
          simp only [if_true] at h2
          by_cases h0 : r0.ref - 1 = 0
          · simp only [h0, if_true]; omega
          · simp only [h0, if_false]; omega
        · rw [if_neg e]; rw [if_neg e] at h2
          rw [Nat.add_zero] at h2; rw [h2]; exact h1
      · intro k' r hr w hw
        rw [f1, find_decr] at hr
        rw [f4]
        by_cases e : k' = k
        · subst e
          rw [if_pos rfl, hf] at hr
          simp only at hr
          split at hr
          · simp at hr
          · simp only [Option.some.injEq] at hr; subst hr; exact h.bound k' r0 hf w hw
        · rw [if_neg e] at hr; exact h.bound k' r hr w hw
      · intro w x hx
        rw [f3 w] at hx
        rw [f1]
        by_cases hw : w ∈ (decr s.recs k).2
        · rw [if_pos (List.mem_dedup.mpr hw)] at hx
          cases h1 : s.waits[w]? with
          | none => rw [h1] at hx; simp at hx
          | some y =>
            rw [h1] at hx
            simp only [Option.map_some, Option.some.injEq] at hx
            have hy := h.fired w y h1
            have hd : held s.recs w = true := by
              rw [held_iff h.uniq]
              refine ⟨k, r0, hf, ?_⟩
              unfold decr at hw; rw [hf] at hw; simp only at hw
              split at hw
              · exact hw
              · simp at hw
            rw [hd] at hy
            simp only [Bool.true_eq_false, and_false, if_false] at hy
            subst hx
            unfold bump
            by_cases hb : y.scanning = none ∧ held (decr s.recs k).1 w = false
            · simp [hb, hy]
            · simp [hb, hy]
        · rw [if_neg (fun hm => hw (List.mem_dedup.mp hm))] at hx
          rw [hheldw w hw]; exact h.fired w x hx
    · simp at hs
  | waitStart ps =>
    simp only [step, Option.some.injEq] at hs; subst hs
    constructor
    · exact h.uniq
    · exact h.rd
    · exact h.ref
    · intro k r hr w hw
      have := h.bound k r hr w hw
      simp only [List.length_append]; omega
    · intro w x hx
      rw [List.getElem?_append] at hx
      split at hx
      · exact h.fired w x hx
      · rw [List.getElem?_singleton] at hx
        split at hx
        · simp only [Option.some.injEq] at hx; subst hx; simp
        · simp at hx
  | waitPush w =>
    simp only [step] at hs
    split at hs
    · rename_i ps k ks f hw0
      simp only [Option.some.injEq] at hs; subst hs
      have hlt : w < s.waits.length := (List.getElem?_eq_some_iff.mp hw0).1
      have hu' := uniq_push h.uniq k w
      have hheld : ∀ v, v ≠ w → held (push s.recs k w) v = held s.recs v := by
        intro v hv
        apply held_of_find hu' h.uniq
        constructor
        · rintro ⟨k', r, hr, hw'⟩
          rw [find_push] at hr
          by_cases e : k' = k
          · subst e
            rw [if_pos rfl] at hr
            obtain ⟨r0, hr0, rfl⟩ := Option.map_eq_some_iff.mp hr
            refine ⟨k', r0, hr0, ?_⟩
            simpa [hv] using hw'
          · rw [if_neg e] at hr; exact ⟨k', r, hr, hw'⟩
        · rintro ⟨k', r, hr, hw'⟩
          by_cases e : k' = k
          · subst e
            exact ⟨k', _, by rw [find_push, if_pos rfl, hr]; rfl, by simp [hw']⟩
          · exact ⟨k', r, by rw [find_push, if_neg e, hr], hw'⟩
      constructor
      · exact hu'
      · exact h.rd
      · intro k'
        have h1 := h.ref k'
        simp only [find_push]
        by_cases e : k' = k
        · subst e
          rw [if_pos rfl]
          cases hf : find s.recs k' with
          | none => rw [hf] at h1; exact h1
          | some r0 => rw [hf] at h1; exact h1
        · rw [if_neg e]; exact h1
      · intro k' r hr v hv
        simp only [List.length_set]
        simp only [find_push] at hr
        by_cases e : k' = k
        · subst e
          rw [if_pos rfl] at hr
          obtain ⟨r0, hr0, rfl⟩ := Option.map_eq_some_iff.mp hr
          simp only [List.mem_append, List.mem_singleton] at hv
          rcases hv with hv | rfl
          · exact h.bound k' r0 hr0 v hv
          · exact hlt
        · rw [if_neg e] at hr; exact h.bound k' r hr v hv
      · intro v x hx
        rw [List.getElem?_set] at hx
        by_cases hv : w = v
        · subst hv
          rw [if_pos rfl, if_pos hlt] at hx
          simp only [Option.some.injEq] at hx; subst hx
          have := h.fired w _ hw0
          simpa using this
        · rw [if_neg hv] at hx
          simp only [hheld v (fun e => hv e.symm)]; exact h.fired v x hx
    · simp at hs
  | waitReturn w =>
    simp only [step] at hs
    split at hs
    · rename_i ps f hw0
      simp only [Option.some.injEq] at hs
      have hlt : w < s.waits.length := (List.getElem?_eq_some_iff.mp hw0).1
      obtain ⟨f1, f2, f3⟩ := foldl_drop [w] (by simp) { s with waits := s.waits.set w ⟨ps, none, f⟩ }
      have f4 := foldl_drop_length [w] { s with waits := s.waits.set w ⟨ps, none, f⟩ }
      simp only [List.foldl_cons, List.foldl_nil] at f1 f2 f3 f4
      rw [hs] at f1 f2 f3 f4
      constructor
      · rw [f1]; exact h.uniq
      · rw [f2]; exact h.rd
      · rw [f1, f2]; exact h.ref
      · intro k r hr v hv
        rw [f4]; rw [f1] at hr
        simp only [List.length_set]; exact h.bound k r hr v hv
      · intro v x hx
        rw [f3 v] at hx
        rw [f1]
        by_cases hv : v = w
        · subst hv
          simp only [List.mem_singleton, if_true, List.getElem?_set_self hlt, Option.map_some,
            Option.some.injEq] at hx
          have h1 := h.fired v _ hw0
          simp only [reduceCtorEq, false_and, if_false] at h1
          subst hx
          unfold bump
          by_cases hb : held s.recs v = false
          · simp [hb, h1]
          · simp [hb, h1]
        · simp only [List.mem_singleton, hv, if_false] at hx
          rw [List.getElem?_set_ne (fun e => hv e.symm)] at hx
          exact h.fired v x hx
    · simp at hs

theorem inv_reach {epr : Nat} {s s' : St} (h : Inv epr s) (hr : Reach epr s s') : Inv epr s' := by
  obtain ⟨as, ha⟩ := hr
  exact runOpt_inv (Inv := Inv epr) (fun s a s' h hs => inv_step h hs) h ha

/-- The read's device I/O has completed. -/
def Past : RPhase → Prop
  | .removing _ => True
  | .finished => True
  | _ => False

theorem set_get {l : List Read} {i r : Nat} {a b c : Read} (hi : l[i]? = some a)
    (hr : (l.set i b)[r]? = some c) : (r = i ∧ c = b) ∨ (r ≠ i ∧ l[r]? = some c) := by
  have hlt : i < l.length := (List.getElem?_eq_some_iff.mp hi).1
  rw [List.getElem?_set] at hr
  by_cases e : i = r
  · subst e; rw [if_pos rfl, if_pos hlt] at hr
    left; exact ⟨rfl, by simpa using hr.symm⟩
  · rw [if_neg e] at hr; right; exact ⟨fun h => e h.symm, hr⟩

theorem step_reads {epr : Nat} {s s' : St} {a : Act} (hs : step epr s a = some s') :
    (∃ p, s'.reads = s.reads ++ [⟨p, .inserting (keysOf epr p)⟩]) ∨
    (∃ i p ph ph', s.reads[i]? = some ⟨p, ph⟩ ∧ s'.reads = s.reads.set i ⟨p, ph'⟩ ∧
      (ph' = .io → ph = .inserting []) ∧ (Past ph → Past ph') ∧ (ph = .io → Past ph')) ∨
    s'.reads = s.reads := by
  cases a <;> simp only [step] at hs
  case readStart p => simp only [Option.some.injEq] at hs; subst hs; left; exact ⟨p, rfl⟩
  case waitStart => simp only [Option.some.injEq] at hs; subst hs; right; right; rfl
  case waitPush =>
    split at hs
    · simp only [Option.some.injEq] at hs; subst hs; right; right; rfl
    · simp at hs
  case waitReturn =>
    split at hs
    · simp only [Option.some.injEq] at hs; subst hs; right; right
      exact (drop_recs _ _).2
    · simp at hs
  case readRemove i =>
    split at hs
    · rename_i p k ks hi
      simp only [Option.some.injEq] at hs
      obtain ⟨_, f2, _⟩ := foldl_drop (decr s.recs k).2.dedup (List.nodup_dedup _)
        { s with recs := (decr s.recs k).1, reads := s.reads.set i ⟨p, .removing ks⟩ }
      rw [hs] at f2
      right; left; exact ⟨i, p, _, _, hi, f2, by simp, fun _ => trivial, by simp⟩
    · simp at hs
  all_goals
    split at hs
    · rename_i hi
      simp only [Option.some.injEq] at hs; subst hs
      right; left; exact ⟨_, _, _, _, hi, rfl, by simp [Past], by simp [Past], by simp [Past]⟩
    · simp at hs

/-- Once a read's I/O is outstanding it stays so until it completes, for good. -/
theorem io_step {epr : Nat} {s s' : St} {a : Act} {r : Nat} {p : Piece} {ph : RPhase}
    (hs : step epr s a = some s') (h : s.reads[r]? = some ⟨p, ph⟩) (hp : ph = .io ∨ Past ph) :
    ∃ ph', s'.reads[r]? = some ⟨p, ph'⟩ ∧ (ph' = .io ∨ Past ph') ∧ (ph' = .io → ph = .io) := by
  have hlt : r < s.reads.length := (List.getElem?_eq_some_iff.mp h).1
  rcases step_reads hs with ⟨q, e⟩ | ⟨i, q, ph1, ph2, hi, e, h1, h2, h3⟩ | e
  · exact ⟨ph, by rw [e, List.getElem?_append_left hlt]; exact h, hp, id⟩
  · by_cases hir : i = r
    · subst hir
      rw [h] at hi; simp only [Option.some.injEq, Read.mk.injEq] at hi
      obtain ⟨rfl, rfl⟩ := hi
      refine ⟨ph2, by rw [e, List.getElem?_set_self hlt], ?_, ?_⟩
      · right; rcases hp with rfl | hp
        · exact h3 rfl
        · exact h2 hp
      · intro h4; subst h4; have := h1 rfl; subst this; simp [Past] at hp
    · exact ⟨ph, by rw [e, List.getElem?_set_ne hir]; exact h, hp, id⟩
  · exact ⟨ph, by rw [e]; exact h, hp, id⟩

/-- While read `r` (of piece `p`) is outstanding, every wait requested from the `n0`-th on
that shares a group with it is either still to visit that group or is registered there. -/
def Blocks (epr : Nat) (p : Piece) (n0 : Nat) (s : St) : Prop :=
  ∀ w x k, n0 ≤ w → s.waits[w]? = some x →
    k ∈ keysOf epr p → k ∈ x.pieces.flatMap (keysOf epr) →
    (∃ ks, x.scanning = some ks ∧ k ∈ ks) ∨ ∃ rc, find s.recs k = some rc ∧ w ∈ rc.waiters

theorem blocks_step {epr : Nat} {s s' : St} {a : Act} {r n0 : Nat} {p : Piece}
    (hI : Inv epr s) (hs : step epr s a = some s') (h : s.reads[r]? = some ⟨p, .io⟩)
    (h' : s'.reads[r]? = some ⟨p, .io⟩) (hb : Blocks epr p n0 s) : Blocks epr p n0 s' := by
  -- the record of a key of `p` exists
  have hfind : ∀ k, k ∈ keysOf epr p → ∃ rc, find s.recs k = some rc := by
    intro k hk
    have h1 := hI.ref k
    cases hf : find s.recs k with
    | some rc => exact ⟨rc, rfl⟩
    | none =>
      rw [hf] at h1; simp only at h1
      rw [List.countP_eq_zero] at h1
      have := h1 _ (List.mem_of_getElem? h)
      simp [holds, hk] at this
  intro w x k hw hx hkp hkx
  cases a with
  | readStart q =>
    simp only [step, Option.some.injEq] at hs; subst hs
    exact hb w x k hw hx hkp hkx
  | readInsert i =>
    simp only [step] at hs
    split at hs
    · rename_i q k1 ks hi
      simp only [Option.some.injEq] at hs; subst hs
      rcases hb w x k hw hx hkp hkx with h1 | ⟨rc, h1, h2⟩
      · left; exact h1
      · right
        by_cases e : k = k1
        · subst e
          exact ⟨{ rc with ref := rc.ref + 1 }, by simp only [find_incr, if_true, h1], h2⟩
        · exact ⟨rc, by simp only [find_incr, e, if_false, h1], h2⟩
    · simp at hs
  | readIo i =>
    simp only [step] at hs
    split at hs
    · simp only [Option.some.injEq] at hs; subst hs; exact hb w x k hw hx hkp hkx
    · simp at hs
  | readComplete i =>
    simp only [step] at hs
    split at hs
    · simp only [Option.some.injEq] at hs; subst hs; exact hb w x k hw hx hkp hkx
    · simp at hs
  | readEnd i =>
    simp only [step] at hs
    split at hs
    · simp only [Option.some.injEq] at hs; subst hs; exact hb w x k hw hx hkp hkx
    · simp at hs
  | readRemove i =>
    simp only [step] at hs
    split at hs
    · rename_i q k1 ks hi
      simp only [Option.some.injEq] at hs
      obtain ⟨f1, f2, f3⟩ := foldl_drop (decr s.recs k1).2.dedup (List.nodup_dedup _)
        { s with recs := (decr s.recs k1).1, reads := s.reads.set i ⟨q, .removing ks⟩ }
      rw [hs] at f1 f2 f3
      -- pieces and scanning of `w` are unchanged
      obtain ⟨y, hy, hyp, hys⟩ : ∃ y, s.waits[w]? = some y ∧ x.pieces = y.pieces ∧
          x.scanning = y.scanning := by
        have := f3 w; rw [hx] at this; simp only at this
        split at this
        · obtain ⟨y, h1, h2⟩ := Option.map_eq_some_iff.mp this.symm
          refine ⟨y, h1, ?_⟩
          rw [← h2]; unfold bump; split <;> simp
        · exact ⟨x, this.symm, rfl, rfl⟩
      rcases hb w y k hw hy hkp (hyp ▸ hkx) with ⟨ks', h1, h2⟩ | ⟨rc, h1, h2⟩
      · left; exact ⟨ks', hys.trans h1, h2⟩
      · right
        rw [f1]
        by_cases e : k = k1
        · subst e
          have hnd : k ∉ ks := by
            obtain ⟨pre, hpre⟩ := hI.rd _ (List.mem_of_getElem? hi)
            have hpre : pre ++ k :: ks = keysOf epr q := hpre
            have hnd := keysOf_nodup epr q
            rw [← hpre] at hnd
            exact (List.nodup_cons.mp (List.nodup_append.mp hnd).2.1).1
          have hcnt := countP_set_holds (epr := epr) (k := k) (b := ⟨q, .removing ks⟩) hi
          have hpos : 0 < (s.reads.set i ⟨q, .removing ks⟩).countP (holds epr k) := by
            rw [List.countP_pos_iff]
            refine ⟨⟨p, .io⟩, ?_, by simp [holds, hkp]⟩
            simp only at f2; rw [← f2]; exact List.mem_of_getElem? h'
          have hre := hI.ref k
          rw [h1] at hre; simp only at hre
          simp only [holds, List.contains_eq_mem, List.mem_cons, true_or, decide_true, if_true, hnd,
            decide_false, Bool.false_eq_true, if_false] at hcnt
          have hne : ¬ rc.ref - 1 = 0 := by omega
          exact ⟨{ rc with ref := rc.ref - 1 }, by
            simp only [find_decr, if_true, h1, hne, if_false], h2⟩
        · exact ⟨rc, by simp only [find_decr, e, if_false, h1], h2⟩
    · simp at hs
  | waitStart ps =>
    simp only [step, Option.some.injEq] at hs; subst hs
    rw [List.getElem?_append] at hx
    split at hx
    · exact hb w x k hw hx hkp hkx
    · rw [List.getElem?_singleton] at hx
      split at hx
      · simp only [Option.some.injEq] at hx; subst hx
        left; exact ⟨_, rfl, hkx⟩
      · simp at hx
  | waitPush v =>
    simp only [step] at hs
    split at hs
    · rename_i ps k1 ks f hv
      simp only [Option.some.injEq] at hs; subst hs
      have hlt : v < s.waits.length := (List.getElem?_eq_some_iff.mp hv).1
      have hmono : ∀ rc, find s.recs k = some rc → w ∈ rc.waiters →
          ∃ rc, find (push s.recs k1 v) k = some rc ∧ w ∈ rc.waiters := by
        intro rc h1 h2
        by_cases e : k = k1
        · subst e
          exact ⟨_, by rw [find_push, if_pos rfl, h1]; rfl, by simp [h2]⟩
        · exact ⟨rc, by rw [find_push, if_neg e, h1], h2⟩
      by_cases e : v = w
      · subst e
        simp only [List.getElem?_set_self hlt, Option.some.injEq] at hx; subst hx
        rcases hb v _ k hw hv hkp hkx with ⟨ks', h1, h2⟩ | ⟨rc, h1, h2⟩
        · simp only [Option.some.injEq] at h1; subst h1
          rcases List.mem_cons.mp h2 with rfl | h2
          · right
            obtain ⟨rc, h1⟩ := hfind k hkp
            exact ⟨_, by rw [find_push, if_pos rfl, h1]; rfl, by simp⟩
          · left; exact ⟨ks, rfl, h2⟩
        · right; exact hmono rc h1 h2
      · simp only [List.getElem?_set_ne e] at hx
        rcases hb w x k hw hx hkp hkx with h1 | ⟨rc, h1, h2⟩
        · left; exact h1
        · right; exact hmono rc h1 h2
    · simp at hs
  | waitReturn v =>
    simp only [step] at hs
    split at hs
    · rename_i ps f hv
      simp only [Option.some.injEq] at hs
      have hlt : v < s.waits.length := (List.getElem?_eq_some_iff.mp hv).1
      obtain ⟨f1, f2, f3⟩ := foldl_drop [v] (by simp) { s with waits := s.waits.set v ⟨ps, none, f⟩ }
      simp only [List.foldl_cons, List.foldl_nil] at f1 f2 f3
      rw [hs] at f1 f2 f3
      rw [f3 w] at hx
      rw [f1]
      by_cases e : w = v
      · subst e
        simp only [List.mem_singleton, if_true, List.getElem?_set_self hlt, Option.map_some,
          Option.some.injEq] at hx
        have hxp : x.pieces = ps := by rw [← hx]; unfold bump; split <;> rfl
        rcases hb w _ k hw hv hkp (hxp ▸ hkx) with ⟨ks', h1, h2⟩ | h1
        · simp only [Option.some.injEq] at h1; subst h1; simp at h2
        · right; exact h1
      · simp only [List.mem_singleton, e, if_false] at hx
        rw [List.getElem?_set_ne (fun h => e h.symm)] at hx
        exact hb w x k hw hx hkp hkx
    · simp at hs

/-- Registered waiters are registered at keys of their own blocks only. -/
structure Own (epr : Nat) (s : St) : Prop where
  reg : ∀ k r, find s.recs k = some r → ∀ w ∈ r.waiters,
    ∃ x : Wait, s.waits[w]? = some x ∧ k ∈ x.pieces.flatMap (keysOf epr)
  todo : ∀ (w : Nat) (x : Wait) ks, s.waits[w]? = some x → x.scanning = some ks →
    ∀ k ∈ ks, k ∈ x.pieces.flatMap (keysOf epr)

theorem own_init (epr : Nat) : Own epr init := by constructor <;> simp [init, find]

/-- A step whose new records have waiters only where the old ones did, and whose waits keep
pieces and do not grow their worklists. -/
theorem own_mono {epr : Nat} {s s' : St} (h : Own epr s)
    (hr : ∀ k r, find s'.recs k = some r → ∀ w ∈ r.waiters,
      ∃ r0, find s.recs k = some r0 ∧ w ∈ r0.waiters)
    (hw : ∀ (w : Nat) (x : Wait), s.waits[w]? = some x → ∃ y : Wait, s'.waits[w]? = some y ∧ y.pieces = x.pieces)
    (hw' : ∀ (w : Nat) (y : Wait), s'.waits[w]? = some y → ∃ x : Wait, s.waits[w]? = some x ∧ y.pieces = x.pieces ∧
      (y.scanning = x.scanning ∨ y.scanning = none)) : Own epr s' := by
  constructor
  · intro k r hf w hm
    obtain ⟨r0, h1, h2⟩ := hr k r hf w hm
    obtain ⟨x, h3, h4⟩ := h.reg k r0 h1 w h2
    obtain ⟨y, h5, h6⟩ := hw w x h3
    exact ⟨y, h5, h6 ▸ h4⟩
  · intro w y ks hy hsc k hk
    obtain ⟨x, h1, h2, h3⟩ := hw' w y hy
    rcases h3 with h3 | h3
    · rw [h2]; exact h.todo w x ks h1 (h3 ▸ hsc) k hk
    · rw [h3] at hsc; simp at hsc

theorem own_step {epr : Nat} {s s' : St} {a : Act} (h : Own epr s)
    (hs : step epr s a = some s') : Own epr s' := by
  cases a <;> simp only [step] at hs
  case readStart p =>
    simp only [Option.some.injEq] at hs; subst hs; exact ⟨h.reg, h.todo⟩
  case waitStart ps =>
    simp only [Option.some.injEq] at hs; subst hs
    constructor
    · intro k r hf w hm
      obtain ⟨x, h1, h2⟩ := h.reg k r hf w hm
      exact ⟨x, by
        rw [List.getElem?_append_left (List.getElem?_eq_some_iff.mp h1).1]; exact h1, h2⟩
    · intro w x ks hx hsc k hk
      rw [List.getElem?_append] at hx
      split at hx
      · exact h.todo w x ks hx hsc k hk
      · rw [List.getElem?_singleton] at hx
        split at hx
        · simp only [Option.some.injEq] at hx; subst hx
          simp only [Option.some.injEq] at hsc; subst hsc; exact hk
        · simp at hx
  case readInsert i =>
    split at hs
    · rename_i p k ks hi
      simp only [Option.some.injEq] at hs; subst hs
      refine own_mono h ?_ (fun w x hx => ⟨x, hx, rfl⟩) (fun w x hx => ⟨x, hx, rfl, Or.inl rfl⟩)
      intro k' r hr w hw
      simp only [find_incr] at hr
      by_cases e : k' = k
      · subst e
        simp only [if_true, Option.some.injEq] at hr
        cases hf : find s.recs k' with
        | none => rw [hf] at hr; subst hr; simp at hw
        | some r0 => rw [hf] at hr; subst hr; exact ⟨r0, rfl, hw⟩
      · rw [if_neg e] at hr; exact ⟨r, hr, hw⟩
    · simp at hs
  case readRemove i =>
    split at hs
    · rename_i p k ks hi
      simp only [Option.some.injEq] at hs
      obtain ⟨f1, f2, f3⟩ := foldl_drop (decr s.recs k).2.dedup (List.nodup_dedup _)
        { s with recs := (decr s.recs k).1, reads := s.reads.set i ⟨p, .removing ks⟩ }
      rw [hs] at f1 f2 f3
      have hb : ∀ w x, (bump (decr s.recs k).1 w x).pieces = x.pieces ∧
          (bump (decr s.recs k).1 w x).scanning = x.scanning := by
        intro w x; unfold bump; split <;> simp
      refine own_mono h ?_ ?_ ?_
      · intro k' r hr w hw
        rw [f1] at hr; simp only [find_decr] at hr
        by_cases e : k' = k
        · subst e
          rw [if_pos rfl] at hr
          cases hf : find s.recs k' with
          | none => rw [hf] at hr; simp only [Option.some.injEq] at hr; subst hr; simp at hw
          | some r0 =>
            rw [hf] at hr; simp only at hr
            split at hr
            · simp at hr
            · simp only [Option.some.injEq] at hr; subst hr; exact ⟨r0, rfl, hw⟩
        · rw [if_neg e] at hr; exact ⟨r, hr, hw⟩
      · intro w x hx
        have := f3 w
        simp only [hx, Option.map_some] at this
        split at this
        · exact ⟨_, this, (hb w x).1⟩
        · exact ⟨_, this, rfl⟩
      · intro w y hy
        have := f3 w
        rw [hy] at this; simp only at this
        split at this
        · obtain ⟨x, h1, h2⟩ := Option.map_eq_some_iff.mp this.symm
          exact ⟨x, h1, h2 ▸ (hb w x).1, Or.inl (h2 ▸ (hb w x).2)⟩
        · exact ⟨y, this.symm, rfl, Or.inl rfl⟩
    · simp at hs
  case waitPush v =>
    split at hs
    · rename_i ps k ks f hv
      simp only [Option.some.injEq] at hs; subst hs
      have hlt : v < s.waits.length := (List.getElem?_eq_some_iff.mp hv).1
      have hw1 : ∀ (w : Nat) (x : Wait), s.waits[w]? = some x →
          ∃ y : Wait, (s.waits.set v ⟨ps, some ks, f⟩)[w]? = some y ∧ y.pieces = x.pieces := by
        intro w x hx
        by_cases e : v = w
        · subst e; rw [hv] at hx; simp only [Option.some.injEq] at hx; subst hx
          exact ⟨_, List.getElem?_set_self hlt, rfl⟩
        · exact ⟨x, by rw [List.getElem?_set_ne e]; exact hx, rfl⟩
      constructor
      · intro k' r hr w hw
        simp only [find_push] at hr
        by_cases e : k' = k
        · subst e
          rw [if_pos rfl] at hr
          obtain ⟨r0, hr0, rfl⟩ := Option.map_eq_some_iff.mp hr
          simp only [List.mem_append, List.mem_singleton] at hw
          rcases hw with hw | rfl
          · obtain ⟨x, h1, h2⟩ := h.reg k' r0 hr0 w hw
            obtain ⟨y, h3, h4⟩ := hw1 w x h1
            exact ⟨y, h3, h4 ▸ h2⟩
          · exact ⟨_, List.getElem?_set_self hlt, h.todo w _ _ hv rfl k' (by simp)⟩
        · rw [if_neg e] at hr
          obtain ⟨x, h1, h2⟩ := h.reg k' r hr w hw
          obtain ⟨y, h3, h4⟩ := hw1 w x h1
          exact ⟨y, h3, h4 ▸ h2⟩
      · intro w x ks' hx hsc k' hk'
        by_cases e : v = w
        · subst e
          simp only [List.getElem?_set_self hlt, Option.some.injEq] at hx; subst hx
          simp only [Option.some.injEq] at hsc; subst hsc
          exact h.todo v _ _ hv rfl k' (List.mem_cons_of_mem _ hk')
        · simp only [List.getElem?_set_ne e] at hx
          exact h.todo w x ks' hx hsc k' hk'
    · simp at hs
  case waitReturn v =>
    split at hs
    · rename_i ps f hv
      simp only [Option.some.injEq] at hs
      have hlt : v < s.waits.length := (List.getElem?_eq_some_iff.mp hv).1
      obtain ⟨f1, f2, f3⟩ := foldl_drop [v] (by simp) { s with waits := s.waits.set v ⟨ps, none, f⟩ }
      simp only [List.foldl_cons, List.foldl_nil] at f1 f2 f3
      rw [hs] at f1 f2 f3
      have hb : ∀ w x, (bump s.recs w x).pieces = x.pieces ∧
          (bump s.recs w x).scanning = x.scanning := by
        intro w x; unfold bump; split <;> simp
      refine own_mono h ?_ ?_ ?_
      · intro k r hr w hw; rw [f1] at hr; exact ⟨r, hr, hw⟩
      · intro w x hx
        have := f3 w
        by_cases e : w = v
        · subst e
          rw [hv] at hx; simp only [Option.some.injEq] at hx; subst hx
          simp only [List.mem_singleton, if_true, List.getElem?_set_self hlt, Option.map_some] at this
          exact ⟨_, this, (hb w _).1⟩
        · simp only [List.mem_singleton, e, if_false] at this
          rw [List.getElem?_set_ne (fun h => e h.symm)] at this
          exact ⟨x, this.trans hx, rfl⟩
      · intro w y hy
        have := f3 w
        by_cases e : w = v
        · subst e
          simp only [List.mem_singleton, if_true, List.getElem?_set_self hlt, Option.map_some] at this
          rw [hy] at this; simp only [Option.some.injEq] at this
          refine ⟨_, hv, ?_, Or.inr ?_⟩
          · rw [this]; exact (hb w _).1
          · rw [this]; exact (hb w _).2
        · simp only [List.mem_singleton, e, if_false] at this
          rw [List.getElem?_set_ne (fun h => e h.symm), hy] at this
          exact ⟨y, this.symm, rfl, Or.inl rfl⟩
    · simp at hs
  all_goals
    split at hs
    · simp only [Option.some.injEq] at hs; subst hs; exact ⟨h.reg, h.todo⟩
    · simp at hs

theorem own_reach {epr : Nat} {s : St} (hr : Reach epr init s) : Own epr s := by
  obtain ⟨as, ha⟩ := hr
  exact runOpt_inv (Inv := Own epr) (fun s a s' h hs => own_step h hs) (own_init epr) ha

/-! ## The properties -/

/-- Two pieces have a block in common. -/
def Overlap (p q : Piece) : Prop :=
  p.chunk = q.chunk ∧ ∃ b, (p.blk ≤ b ∧ b < p.blk + p.n) ∧ (q.blk ≤ b ∧ b < q.blk + q.n)

/-- Two pieces have blocks in the same tracking group (of `epr` consecutive blocks). -/
def Near (epr : Nat) (p q : Piece) : Prop :=
  p.chunk = q.chunk ∧ ∃ b c, (p.blk ≤ b ∧ b < p.blk + p.n) ∧ (q.blk ≤ c ∧ c < q.blk + q.n) ∧
    b / epr = c / epr

/-- C28.  Take any reachable state `s` in which read `r` (of piece `p`) has its device I/O
outstanding, and let any steps of any threads lead to `s'`.  If the read is still outstanding
in `s'`, then no free requested after `s` (number `w`) that has a block in common with the
read has run in `s'`. -/
theorem C28_free_waits_for_reads {epr : Nat} (he : 0 < epr) {s s' : St}
    (h0 : Reach epr init s) (h1 : Reach epr s s') {r w : Nat} {p : Piece} {x : Wait}
    (hr : s.reads[r]? = some ⟨p, .io⟩) (hr' : s'.reads[r]? = some ⟨p, .io⟩)
    (hw : s.waits.length ≤ w) (hx : s'.waits[w]? = some x)
    (ho : ∃ q ∈ x.pieces, Overlap p q) : x.fired = 0 := by
  have hI := inv_reach (inv_init epr) h0
  have hI' := inv_reach hI h1
  have hb0 : Blocks epr p s.waits.length s := by
    intro w x k hw hx
    have := (List.getElem?_eq_some_iff.mp hx).1
    omega
  have key : Blocks epr p s.waits.length s' := by
    obtain ⟨as, ha⟩ := h1
    generalize s.waits.length = n0 at hb0
    clear hw h0
    induction as generalizing s with
    | nil => simp only [runOpt, Option.some.injEq] at ha; exact ha ▸ hb0
    | cons a as ih =>
      simp only [runOpt] at ha
      cases hs : step epr s a with
      | none => simp [hs] at ha
      | some s1 =>
        rw [hs] at ha
        -- the read is still outstanding in `s1`
        have back : ∀ (as : List Act) (t : St) (ph : RPhase), t.reads[r]? = some ⟨p, ph⟩ →
            (ph = .io ∨ Past ph) → runOpt (step epr) t as = some s' → ph = .io := by
          intro as
          induction as with
          | nil =>
            intro t ph ht _ hrun
            simp only [runOpt, Option.some.injEq] at hrun; subst hrun
            rw [ht] at hr'; simpa using hr'
          | cons a as ih2 =>
            intro t ph ht hp hrun
            simp only [runOpt] at hrun
            cases hs2 : step epr t a with
            | none => simp [hs2] at hrun
            | some t2 =>
              rw [hs2] at hrun
              obtain ⟨ph2, g1, g2, g3⟩ := io_step hs2 ht hp
              exact g3 (ih2 t2 ph2 g1 g2 hrun)
        obtain ⟨ph1, g1, g2, _⟩ := io_step hs hr (Or.inl rfl)
        have hio := back as s1 ph1 g1 g2 ha
        subst hio
        exact ih g1 (inv_step hI hs) ha (blocks_step hI hs hr g1 hb0)
  obtain ⟨q, hq, hc, b, hb1, hb2⟩ := ho
  have hk1 : keyOf epr p.chunk b ∈ keysOf epr p :=
    (mem_keysOf epr he p _ (by omega)).mpr ⟨b, hb1.1, hb1.2, rfl⟩
  have hk2 : keyOf epr p.chunk b ∈ x.pieces.flatMap (keysOf epr) :=
    List.mem_flatMap.mpr ⟨q, hq, (mem_keysOf epr he q _ (by omega)).mpr
      ⟨b, hb2.1, hb2.2, by rw [hc]⟩⟩
  rw [hI'.fired w x hx]
  rcases key w x _ hw hx hk1 hk2 with ⟨ks, h2, _⟩ | ⟨rc, h2, h3⟩
  · simp [h2]
  · have : held s'.recs w = true := (held_iff hI'.uniq w).mpr ⟨_, rc, h2, h3⟩
    simp [this]

/-- C29.  In every reachable state, the callback of a free request has run at most once,
has not run while the request is still being registered, and has run if the request has
returned and no unfinished read has blocks in a tracking group of the freed blocks (in
particular immediately if there was no such read, and always once all reads have
finished). -/
theorem C29_free_runs_once {epr : Nat} (he : 0 < epr) {s : St} (h : Reach epr init s)
    {w : Nat} {x : Wait} (hx : s.waits[w]? = some x) :
    x.fired ≤ 1 ∧ (x.scanning ≠ none → x.fired = 0) ∧
    (x.scanning = none → (∀ q ∈ x.pieces, 0 < q.n) → (∀ rd ∈ s.reads, 0 < rd.piece.n) →
      (∀ rd ∈ s.reads, rd.ph ≠ .finished → ∀ q ∈ x.pieces, ¬ Near epr rd.piece q) →
      x.fired = 1) := by
  have hI := inv_reach (inv_init epr) h
  have hO := own_reach h
  have hf := hI.fired w x hx
  refine ⟨by rw [hf]; split <;> omega, ?_, ?_⟩
  · intro hsc; rw [hf, if_neg (fun hh => hsc hh.1)]
  · intro hsc hq hrd hno
    have : held s.recs w = false := by
      rw [Bool.eq_false_iff]
      intro hh
      obtain ⟨k, r, h1, h2⟩ := (held_iff hI.uniq w).mp hh
      obtain ⟨y, h3, h4⟩ := hO.reg k r h1 w h2
      rw [hx] at h3; simp only [Option.some.injEq] at h3; subst h3
      have href := hI.ref k
      rw [h1] at href; simp only at href
      obtain ⟨rd, hm, hh⟩ := List.countP_pos_iff.mp href.2
      obtain ⟨q, hqm, hqk⟩ := List.mem_flatMap.mp h4
      have hk : k ∈ keysOf epr rd.piece := by
        have hok := hI.rd rd hm
        obtain ⟨p, ph⟩ := rd
        cases ph with
        | inserting t => simp [holds] at hh; exact hh.1
        | io => simpa [holds] using hh
        | removing t =>
          obtain ⟨pre, hpre⟩ := hok
          simp only [holds, List.contains_eq_mem, decide_eq_true_eq] at hh
          rw [← hpre]; exact List.mem_append_right _ hh
        | finished => simp [holds] at hh
      have hnf : rd.ph ≠ .finished := by
        intro e; simp [holds, e] at hh
      apply hno rd hm hnf q hqm
      obtain ⟨b, b1, b2, b3⟩ := (mem_keysOf epr he rd.piece k (hrd rd hm)).mp hk
      obtain ⟨c, c1, c2, c3⟩ := (mem_keysOf epr he q k (hq q hqm)).mp hqk
      rw [b3] at c3
      simp only [keyOf, Prod.mk.injEq] at c3
      exact ⟨c3.1, b, c, ⟨b1, b2⟩, ⟨c1, c2⟩, Nat.eq_of_mul_eq_mul_right he c3.2⟩
    rw [hf, if_pos ⟨hsc, this⟩]

/-! ## Concrete runs meeting the hypotheses -/

/-- Read of blocks 6..9 (groups 0 and 8) and its registration up to the device I/O. -/
def demoRead : List Act :=
  [.readStart ⟨0, 6, 4⟩, .readInsert 0, .readInsert 0, .readIo 0]

/-- A free of blocks 8..9 and 40..41 is requested, and `wait_on` returns. -/
def demoFree : List Act :=
  [.waitStart [⟨0, 8, 2⟩, ⟨0, 40, 2⟩], .waitPush 0, .waitPush 0, .waitReturn 0]

/-- C28's hypotheses are met: the read is outstanding before and after the free request,
and they share block 8. -/
example : ∃ s s', Reach 8 init s ∧ Reach 8 s s' ∧ s.reads[0]? = some ⟨⟨0, 6, 4⟩, .io⟩ ∧
    s'.reads[0]? = some ⟨⟨0, 6, 4⟩, .io⟩ ∧ s.waits.length ≤ 0 ∧
    (∃ x, s'.waits[0]? = some x ∧ x.scanning = none ∧ (∃ q ∈ x.pieces, Overlap ⟨0, 6, 4⟩ q)) := by
  refine ⟨(runOpt (step 8) init demoRead).get (by decide +kernel), (runOpt (step 8) init
    (demoRead ++ demoFree)).get (by decide +kernel), ⟨demoRead, by decide +kernel⟩,
    ⟨demoFree, by decide +kernel⟩, by decide +kernel, by decide +kernel, by decide +kernel,
    ⟨[⟨0, 8, 2⟩, ⟨0, 40, 2⟩], none, 0⟩, by decide +kernel, rfl, ⟨0, 8, 2⟩, by simp, rfl, 8, by decide⟩

/-- C29's hypotheses are met and the free has run after the read has finished. -/
example : ∃ s, Reach 8 init s ∧ s.waits[0]? = some ⟨[⟨0, 8, 2⟩, ⟨0, 40, 2⟩], none, 1⟩ ∧
    ∀ rd ∈ s.reads, rd.ph = .finished := by
  refine ⟨(runOpt (step 8) init (demoRead ++ demoFree ++ [.readComplete 0, .readRemove 0,
    .readRemove 0, .readEnd 0])).get (by decide +kernel), ⟨_, Option.some_get _ |>.symm⟩,
    by decide +kernel, by decide +kernel⟩

end HS.Tracker
