import Verif.Fixed.Race
/-!
# C72: concurrent frees, allocations and commits of fixed-size blocks
-/
namespace HS.Fixed.Race

structure Inv (s : St) : Prop where
  bm : ∀ b, s.bm b = true ↔ (s.com b = true ∨ s.fr b = true)
  nodup : s.q.Nodup
  held : ∀ b, s.held b = true → s.com b = false ∧ s.fr b = false ∧ b ∉ s.q
  com : ∀ b, s.com b = true → s.fr b = false ∧ b ∉ s.q

theorem inv_start (total : Nat) (init : Bool) : Inv (St.start total init) := by
  constructor <;> simp [St.start, List.nodup_range]

theorem upd_same (f : Nat → Bool) (b : Nat) (v : Bool) : upd f b v b = v := by simp [upd]
theorem upd_ne (f : Nat → Bool) {b x : Nat} (v : Bool) (h : x ≠ b) : upd f b v x = f x := by simp [upd, h]

theorem inv_step {s s' : St} (h : Inv s) {op : Op} (hp : op = .alloc → ∀ b q, s.q = b :: q → s.fr b = false)
    (hs : s.step op = .ok s') : Inv s' := by
  cases op with
  | alloc =>
    simp only [St.step] at hs
    split at hs
    · cases hs
    · rename_i b q hq
      injection hs with hs
      subst hs
      have hfr := hp rfl b q hq
      have hbq : b ∈ s.q := by rw [hq]; simp
      have hcom : s.com b = false := by
        rcases e : s.com b with _ | _
        · rfl
        · exact absurd hbq (h.com b e).2
      have hnd := h.nodup
      rw [hq] at hnd
      obtain ⟨hn1, hn2⟩ := List.nodup_cons.mp hnd
      refine ⟨h.bm, hn2, ?_, ?_⟩
      · intro x hx
        by_cases e : x = b
        · subst e; exact ⟨hcom, hfr, hn1⟩
        · have := h.held x (by rw [← upd_ne s.held true e]; exact hx)
          exact ⟨this.1, this.2.1, fun hm => this.2.2 (by rw [hq]; simp [hm])⟩
      · intro x hx
        have := h.com x hx
        exact ⟨this.1, fun hm => this.2 (by rw [hq]; simp [hm])⟩
  | commit b =>
    simp only [St.step] at hs
    split at hs
    rotate_left
    · cases hs
    rename_i hh
    split at hs
    · cases hs
    injection hs with hs
    subst hs
    obtain ⟨h1, h2, h3⟩ := h.held b hh
    refine ⟨?_, h.nodup, ?_, ?_⟩
    · intro x
      show upd s.bm b true x = true ↔ (upd s.com b true x = true ∨ s.fr x = true)
      by_cases e : x = b
      · subst e; simp [upd_same]
      · rw [upd_ne _ _ e, upd_ne _ _ e]; exact h.bm x
    · intro x hx
      by_cases e : x = b
      · subst e; rw [show upd s.held x false x = true ↔ False by simp [upd]] at hx; exact hx.elim
      · have := h.held x (by rw [← upd_ne s.held false e]; exact hx)
        exact ⟨by show upd s.com b true x = false; rw [upd_ne _ _ e]; exact this.1, this.2⟩
    · intro x hx
      by_cases e : x = b
      · subst e; exact ⟨h2, h3⟩
      · exact h.com x (by rw [← upd_ne s.com true e]; exact hx)
  | freeBegin b =>
    simp only [St.step] at hs
    split at hs
    rotate_left
    · cases hs
    rename_i hc
    injection hs with hs
    subst hs
    obtain ⟨h1, h2⟩ := h.com b hc
    have hnh : s.held b = false := by
      rcases e : s.held b with _ | _
      · rfl
      · have := (h.held b e).1; rw [hc] at this; cases this
    refine ⟨?_, ?_, ?_, ?_⟩
    · intro x
      show s.bm x = true ↔ (upd s.com b false x = true ∨ upd s.fr b true x = true)
      by_cases e : x = b
      · subst e; simp [upd_same, (h.bm x).mpr (Or.inl hc)]
      · rw [upd_ne _ _ e, upd_ne _ _ e]; exact h.bm x
    · show (s.q ++ [b]).Nodup
      rw [List.nodup_append]
      exact ⟨h.nodup, by simp, fun x hx y hy e => h2 (by rw [List.mem_singleton.mp hy] at e; rw [← e]; exact hx)⟩
    · intro x hx
      have hne : x ≠ b := fun e => by rw [e] at hx; rw [show s.held b = true from hx] at hnh; cases hnh
      obtain ⟨g1, g2, g3⟩ := h.held x hx
      refine ⟨?_, ?_, ?_⟩
      · show upd s.com b false x = false; rw [upd_ne _ _ hne]; exact g1
      · show upd s.fr b true x = false; rw [upd_ne _ _ hne]; exact g2
      · show x ∉ s.q ++ [b]
        simp [g3, hne]
    · intro x hx
      have hne : x ≠ b := fun e => by
        subst e; rw [show upd s.com x false x = true ↔ False by simp [upd]] at hx; exact hx
      have := h.com x (by rw [← upd_ne s.com false hne]; exact hx)
      refine ⟨by show upd s.fr b true x = false; rw [upd_ne _ _ hne]; exact this.1, ?_⟩
      show x ∉ s.q ++ [b]
      simp [this.2, hne]
  | freeEnd b =>
    simp only [St.step] at hs
    split at hs
    rotate_left
    · cases hs
    rename_i hf
    injection hs with hs
    subst hs
    have dn : ∀ x, s.fr x = false → upd s.fr b false x = false := by
      intro x hx; unfold upd; split
      · rfl
      · exact hx
    refine ⟨?_, h.nodup, ?_, ?_⟩
    · intro x
      show upd s.bm b false x = true ↔ (s.com x = true ∨ upd s.fr b false x = true)
      by_cases e : x = b
      · subst e
        have : s.com x = false := by
          rcases e : s.com x with _ | _
          · rfl
          · have := (h.com x e).1; rw [hf] at this; cases this
        simp [upd_same, this]
      · rw [upd_ne _ _ e, upd_ne _ _ e]; exact h.bm x
    · intro x hx
      have := h.held x hx
      exact ⟨this.1, dn x this.2.1, this.2.2⟩
    · intro x hx
      have := h.com x hx
      exact ⟨dn x this.1, this.2⟩

theorem no_abort {s : St} (hi : Inv s) (op : Op) : s.step op ≠ .abort := by
  intro ho
  cases op with
  | commit b =>
    simp only [St.step] at ho
    split at ho
    rotate_left
    · cases ho
    rename_i hh
    split at ho
    rotate_left
    · cases ho
    rename_i hb
    obtain ⟨h1, h2, -⟩ := hi.held b hh
    rcases (hi.bm b).mp hb.1 with e | e
    · rw [h1] at e; cases e
    · rw [h2] at e; cases e
  | alloc => simp only [St.step] at ho; split at ho <;> cases ho
  | freeBegin b => simp only [St.step] at ho; split at ho <;> cases ho
  | freeEnd b => simp only [St.step] at ho; split at ho <;> cases ho

theorem inv_run : ∀ (ops : List Op) {s : St}, Inv s → NoEarlyAlloc s ops →
    s.run ops ≠ .abort ∧ ∀ s', s.run ops = .ok s' → Inv s'
  | [], s, h, _ => ⟨by simp [St.run], by intro s' e; simp only [St.run, Out.ok.injEq] at e; subst e; exact h⟩
  | op :: ops, s, h, hn => by
    cases ho : s.step op with
    | no => simp [St.run, ho]
    | abort => exact absurd ho (no_abort h op)
    | ok s1 =>
      have := inv_run ops (inv_step h hn.1 ho) (hn.2 s1 ho)
      simp only [St.run, ho]
      exact this

/-- **C72**.  In every interleaving of allocations, commits and frees in which no allocation takes a block whose free
is still running: no call aborts, the bitmap marks exactly the committed blocks and those whose free is running, and
an allocated block is neither committed nor free. -/
theorem C72_concurrent_free_partial {total : Nat} {init : Bool} {ops : List Op}
    (h : NoEarlyAlloc (St.start total init) ops) :
    (St.start total init).run ops ≠ .abort ∧
    ∀ s, (St.start total init).run ops = .ok s →
      (∀ b, s.bm b = true ↔ (s.com b = true ∨ s.fr b = true)) ∧
      (∀ b, s.held b = true → s.com b = false ∧ b ∉ s.q) := by
  have hi := inv_run ops (inv_start total init) h
  exact ⟨hi.1, fun s e => ⟨(hi.2 s e).bm, fun b hb => ⟨((hi.2 s e).held b hb).1, ((hi.2 s e).held b hb).2.2⟩⟩⟩

/-- **C72 is violated** when an allocation takes the block in between: its commit finds the bit still set and
the process aborts. -/
theorem C72_commit_aborts_violated :
    (St.start 1 false).run [.alloc, .commit 0, .freeBegin 0, .alloc, .commit 0] = .abort := rfl

/-- **C72 is violated** the same way while HomeStore is initializing (log replay with a checkpoint): the assertion
is not made, and the free resets the bit of the block that has been allocated and committed again. -/
theorem C72_bit_lost_violated :
    ∃ s, (St.start 1 true).run [.alloc, .commit 0, .freeBegin 0, .alloc, .commit 0, .freeEnd 0] = .ok s ∧
      s.com 0 = true ∧ s.bm 0 = false := ⟨_, rfl, rfl, rfl⟩

/-- A decidable version of `NoEarlyAlloc`. -/
def nea (s : St) : List Op → Bool
  | [] => true
  | op :: ops =>
    (op != .alloc || (match s.q with | b :: _ => !s.fr b | [] => true)) &&
    (match s.step op with | .ok s' => nea s' ops | _ => true)

theorem nea_sound : ∀ (ops : List Op) (s : St), nea s ops = true → NoEarlyAlloc s ops
  | [], _, _ => trivial
  | op :: ops, s, h => by
    simp only [nea, Bool.and_eq_true] at h
    refine ⟨fun e b q hq => ?_, fun s' hs' => nea_sound ops s' ?_⟩
    · have := h.1; rw [e, hq] at this; simpa using this
    · have := h.2; rw [hs'] at this; exact this

/-- Non-vacuity: with two blocks, a free and an allocation overlap. -/
example : ∃ s, NoEarlyAlloc (St.start 2 false) [.alloc, .commit 0, .freeBegin 0, .alloc, .commit 1, .freeEnd 0, .alloc] ∧
    (St.start 2 false).run [.alloc, .commit 0, .freeBegin 0, .alloc, .commit 1, .freeEnd 0, .alloc] = .ok s ∧
    s.held 0 = true ∧ s.com 1 = true :=
  ⟨_, nea_sound _ _ rfl, rfl, rfl, rfl⟩

end HS.Fixed.Race
