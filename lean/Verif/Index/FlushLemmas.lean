import Verif.Index.Flush
import Mathlib.Data.List.Nodup
import Mathlib.Data.List.Perm.Subperm
import Mathlib.Tactic.ByContra
import Mathlib.Tactic.Set
/-! Invariants of the flush of one checkpoint with one flush fiber. -/
namespace HS.Index.Flush

/-- The invariant.  `buf0` and `list` are the buffers and the dirty list when the flush began; `ex` is
a buffer that may have been passed although it waits for nothing any more. -/
structure Inv (buf0 : Nat → Buf) (list : List Nat) (ex : Option Nat) (f : Fl) : Prop where
  nd : (f.written ++ (f.out ++ f.hand)).Nodup
  sub : ∀ b, b ∈ f.written ∨ b ∈ f.out ∨ b ∈ f.hand → b ∈ list
  suf : ∀ b ∈ f.rest, b ∈ list
  rnd : f.rest.Nodup
  hr : ∀ b ∈ f.hand, b ∉ f.rest
  cnt : f.count = (list.length : Int) - f.written.length
  up : ∀ b ∈ list, b ∉ f.written → (f.buf b).up = (buf0 b).up
  mine : ∀ b ∈ list, b ∉ f.written → (f.buf b).mine = true
  st : ∀ b ∈ list, b ∉ f.written → b ∉ f.out → (f.buf b).state = .dirty
  so : ∀ b ∈ f.out, (f.buf b).state = .flushing
  wr : ∀ b ∈ f.written,
    ((f.buf b).state = .clean ∧ (f.buf b).up = none ∧ (f.buf b).wait = 0) ∨ (f.buf b).mine = false
  wait : ∀ u ∈ list, u ∉ f.written → (f.buf u).wait =
    ((list.filter (fun b => decide ((buf0 b).up = some u) && decide (b ∉ f.written))).length : Int)
  ready : ∀ b, b ∈ f.out ∨ b ∈ f.hand → ∀ d ∈ list, (buf0 d).up = some b → d ∈ f.written
  passed : ∀ b ∈ list, b ∉ f.rest → b ∉ f.written → b ∉ f.out → b ∉ f.hand →
    0 < (f.buf b).wait ∨ ex = some b
  order : ∀ d ∈ list, ∀ u, (buf0 d).up = some u → ∀ l1 l2, f.written = l1 ++ u :: l2 → d ∈ l1
  dn : f.done = true → f.written.length = list.length

/-- Something is being written or about to be, or the list has been passed. -/
def Live (f : Fl) : Prop := f.rest = [] ∨ f.hand ≠ [] ∨ f.out ≠ []

theorem wait_zero_downs {buf0 : Nat → Buf} {list : List Nat} {ex : Option Nat} {f : Fl}
    (h : Inv buf0 list ex f) {u : Nat} (hu : u ∈ list) (hw : u ∉ f.written)
    (h0 : (f.buf u).wait = 0) : ∀ d ∈ list, (buf0 d).up = some u → d ∈ f.written := by
  intro d hd hup
  by_contra hn
  have hl := h.wait u hu hw
  rw [h0] at hl
  have : d ∈ list.filter (fun b => decide ((buf0 b).up = some u) && decide (b ∉ f.written)) := by
    rw [List.mem_filter]
    simp [hd, hup, hn]
  have := List.length_pos_of_mem this
  omega

theorem inv_init {buf0 : Nat → Buf} {list : List Nat} (h : Linked buf0 list) (hl : list ≠ []) :
    Inv buf0 list none (Fl.init buf0 list) := by
  obtain ⟨nodup, dirty, up, wait, rank⟩ := h
  refine ⟨by simp [Fl.init], by simp [Fl.init], fun b hb => hb, nodup, by simp [Fl.init],
    by simp [Fl.init], fun b _ _ => rfl, fun b hb _ => (dirty b hb).2, fun b hb _ _ => (dirty b hb).1,
    by simp [Fl.init], by simp [Fl.init], ?_, by simp [Fl.init], fun b hb hn => absurd hb hn, ?_,
    by simp [Fl.init]⟩
  · intro u hu _
    show (buf0 u).wait = _
    rw [wait u hu]
    congr 3
    funext b
    simp [Fl.init]
  · intro d hd u hu l1 l2 h
    simp [Fl.init] at h

theorem inv_submit {buf0 : Nat → Buf} {list : List Nat} {ex : Option Nat} {f : Fl} {n : Nat}
    (h : Inv buf0 list ex f) (hn : n ∈ list) (hw : n ∉ f.written) (ho : n ∉ f.out)
    (hh : n ∉ f.hand) (h0 : (f.buf n).wait = 0) (hex : ex = none ∨ ex = some n) :
    Inv buf0 list none (f.submit n) := by
  have hd := wait_zero_downs h hn hw h0
  obtain ⟨nd, sub, suf, rnd, hr, cnt, up, mine, st, so, wr, wait, ready, passed, order, dn⟩ := h
  have hb : ∀ b, b ≠ n → (f.submit n).buf b = f.buf b := by
    intro b hb; simp [Fl.submit, Fl.set, hb]
  have hbn : (f.submit n).buf n = { f.buf n with state := .flushing } := by simp [Fl.submit, Fl.set]
  refine ⟨?_, ?_, suf, rnd, hr, cnt, ?_, ?_, ?_, ?_, ?_, ?_, ?_, ?_, order, dn⟩
  · show (f.written ++ (n :: f.out ++ f.hand)).Nodup
    rw [List.cons_append]
    rw [List.nodup_middle]
    refine List.nodup_cons.2 ⟨?_, nd⟩
    simp [hw, ho, hh]
  · rintro b (hb | hb | hb)
    · exact sub b (Or.inl hb)
    · rcases List.mem_cons.1 hb with rfl | hb
      · exact hn
      · exact sub b (Or.inr (Or.inl hb))
    · exact sub b (Or.inr (Or.inr hb))
  · intro b hbl hbw
    by_cases e : b = n
    · subst e; rw [hbn]; exact up b hbl hbw
    · rw [hb b e]; exact up b hbl hbw
  · intro b hbl hbw
    by_cases e : b = n
    · subst e; rw [hbn]; exact mine b hbl hbw
    · rw [hb b e]; exact mine b hbl hbw
  · intro b hbl hbw hbo
    have hbo' : b ∉ n :: f.out := hbo
    simp only [List.mem_cons, not_or] at hbo'
    rw [hb b hbo'.1]; exact st b hbl hbw hbo'.2
  · intro b hbo
    rcases List.mem_cons.1 (show b ∈ n :: f.out from hbo) with rfl | hbo
    · rw [hbn]
    · by_cases e : b = n
      · subst e; rw [hbn]
      · rw [hb b e]; exact so b hbo
  · intro b hbw
    have e : b ≠ n := by rintro rfl; exact hw hbw
    rw [hb b e]; exact wr b hbw
  · intro u hu huw
    by_cases e : u = n
    · subst e; rw [hbn]; exact wait u hu huw
    · rw [hb u e]; exact wait u hu huw
  · rintro b (hbo | hbh) d hdl hup
    · rcases List.mem_cons.1 (show b ∈ n :: f.out from hbo) with rfl | hbo
      · exact hd d hdl hup
      · exact ready b (Or.inl hbo) d hdl hup
    · exact ready b (Or.inr hbh) d hdl hup
  · intro b hbl hbr hbw hbo hbh
    have hbo' : b ∉ n :: f.out := hbo
    simp only [List.mem_cons, not_or] at hbo'
    rw [hb b hbo'.1]
    rcases passed b hbl hbr hbw hbo'.2 hbh with h | h
    · exact Or.inl h
    · rcases hex with e | e
      · rw [e] at h; cases h
      · rw [e] at h; exact absurd (Option.some.inj h).symm hbo'.1

/-- What the scan of the dirty list does. -/
theorem scan_spec (buf : Nat → Buf) : ∀ (l : List Nat) (max : Nat),
    (∀ b ∈ (scan buf max l).1, b ∈ l ∧ (buf b).ready = true) ∧
    (∀ b ∈ (scan buf max l).2, b ∈ l) ∧
    (∀ b ∈ l, b ∈ (scan buf max l).1 ∨ b ∈ (scan buf max l).2 ∨ (buf b).ready = false) ∧
    (l.Nodup → ((scan buf max l).1 ++ (scan buf max l).2).Nodup) ∧
    ((scan buf max l).1.length = max ∨ (scan buf max l).2 = []) ∧
    (scan buf max l).1.length ≤ max := by
  intro l
  induction l with
  | nil => intro max; cases max <;> simp [scan]
  | cons b l ih =>
    intro max
    cases max with
    | zero =>
      refine ⟨by simp [scan], by simp [scan], fun x hx => Or.inr (Or.inl hx), by simp [scan],
        by simp [scan], by simp [scan]⟩
    | succ m =>
      rw [scan]
      split
      · rename_i hr
        obtain ⟨a1, a2, a3, a4, a5, a6⟩ := ih m
        refine ⟨?_, ?_, ?_, ?_, ?_, ?_⟩
        · intro x hx
          rcases List.mem_cons.1 hx with rfl | hx
          · exact ⟨List.mem_cons_self, hr⟩
          · exact ⟨List.mem_cons_of_mem _ (a1 x hx).1, (a1 x hx).2⟩
        · intro x hx; exact List.mem_cons_of_mem _ (a2 x hx)
        · intro x hx
          rcases List.mem_cons.1 hx with rfl | hx
          · exact Or.inl List.mem_cons_self
          · rcases a3 x hx with h | h | h
            · exact Or.inl (List.mem_cons_of_mem _ h)
            · exact Or.inr (Or.inl h)
            · exact Or.inr (Or.inr h)
        · intro hnd
          obtain ⟨h1, h2⟩ := List.nodup_cons.1 hnd
          show (b :: _ ++ _).Nodup
          rw [List.cons_append]
          refine List.nodup_cons.2 ⟨?_, a4 h2⟩
          intro hx
          rcases List.mem_append.1 hx with hx | hx
          · exact h1 (a1 b hx).1
          · exact h1 (a2 b hx)
        · rcases a5 with h | h
          · left; simp [h]
          · right; exact h
        · simp; exact a6
      · rename_i hr
        obtain ⟨a1, a2, a3, a4, a5, a6⟩ := ih (m + 1)
        refine ⟨?_, ?_, ?_, ?_, a5, a6⟩
        · intro x hx; exact ⟨List.mem_cons_of_mem _ (a1 x hx).1, (a1 x hx).2⟩
        · intro x hx; exact List.mem_cons_of_mem _ (a2 x hx)
        · intro x hx
          rcases List.mem_cons.1 hx with rfl | hx
          · exact Or.inr (Or.inr (by simpa using hr))
          · exact a3 x hx
        · intro hnd; exact a4 (List.nodup_cons.1 hnd).2

theorem scan_congr {buf buf' : Nat → Buf} (h : ∀ b, (buf b).ready = (buf' b).ready) :
    ∀ (l : List Nat) (max : Nat), scan buf max l = scan buf' max l := by
  intro l
  induction l with
  | nil => intro max; cases max <;> rfl
  | cons b l ih =>
    intro max
    cases max with
    | zero => rfl
    | succ m => rw [scan, scan, h b, ih m, ih (m + 1)]

/-- A ready buffer of the list is not handed out yet. -/
theorem ready_fresh {buf0 : Nat → Buf} {list : List Nat} {ex : Option Nat} {f : Fl} {b : Nat}
    (h : Inv buf0 list ex f) (hb : b ∈ f.rest) (hr : (f.buf b).ready = true) :
    b ∈ list ∧ b ∉ f.written ∧ b ∉ f.out ∧ b ∉ f.hand ∧ (f.buf b).wait = 0 := by
  simp only [Buf.ready, Bool.and_eq_true, decide_eq_true_eq] at hr
  refine ⟨h.suf b hb, fun hw => ?_, fun ho => ?_, fun hh => h.hr b hh hb, hr.2⟩
  · rcases h.wr b hw with ⟨e, -⟩ | e
    · rw [e] at hr; exact absurd hr.1.1 (by decide)
    · rw [e] at hr; exact absurd hr.1.2 (by decide)
  · rw [h.so b ho] at hr; exact absurd hr.1.1 (by decide)

theorem unready_waits {buf0 : Nat → Buf} {list : List Nat} {ex : Option Nat} {f : Fl} {b : Nat}
    (h : Inv buf0 list ex f) (hb : b ∈ list) (hr : (f.buf b).ready = false) (hw : b ∉ f.written)
    (ho : b ∉ f.out) : 0 < (f.buf b).wait := by
  have h1 := h.st b hb hw ho
  have h2 := h.mine b hb hw
  have h3 := h.wait b hb hw
  have : (f.buf b).wait ≠ 0 := by
    intro h0
    simp [Buf.ready, h1, h2, h0] at hr
  omega

/-- Picking from the list into the hand. -/
theorem inv_scan {buf0 : Nat → Buf} {list : List Nat} {f : Fl} (h : Inv buf0 list none f)
    (max : Nat) : Inv buf0 list none { f with rest := (scan f.buf max f.rest).2,
                                              hand := f.hand ++ (scan f.buf max f.rest).1 } := by
  obtain ⟨a1, a2, a3, a4, a5, a6⟩ := scan_spec f.buf f.rest max
  have hf : ∀ b ∈ (scan f.buf max f.rest).1, b ∈ list ∧ b ∉ f.written ∧ b ∉ f.out ∧ b ∉ f.hand ∧
      (f.buf b).wait = 0 := fun b hb => ready_fresh h (a1 b hb).1 (a1 b hb).2
  have huw := fun b hb hr hw ho => unready_waits h (b := b) hb hr hw ho
  have hdown := fun b (hb : b ∈ (scan f.buf max f.rest).1) =>
    wait_zero_downs h (hf b hb).1 (hf b hb).2.1 (hf b hb).2.2.2.2
  obtain ⟨nd, sub, suf, rnd, hr, cnt, up, mine, st, so, wr, wait, ready, passed, order, dn⟩ := h
  have a4' := a4 rnd
  refine ⟨?_, ?_, ?_, ?_, ?_, cnt, up, mine, st, so, wr, wait, ?_, ?_, order, dn⟩
  · simp only []
    rw [← List.append_assoc f.out, ← List.append_assoc f.written]
    refine List.nodup_append.2 ⟨nd, (List.nodup_append.1 a4').1, ?_⟩
    rintro x hx y hy rfl
    obtain ⟨-, b1, b2, b3, -⟩ := hf x hy
    simp only [List.mem_append] at hx
    rcases hx with hx | hx | hx
    · exact b1 hx
    · exact b2 hx
    · exact b3 hx
  · rintro b (hb | hb | hb)
    · exact sub b (Or.inl hb)
    · exact sub b (Or.inr (Or.inl hb))
    · rcases List.mem_append.1 hb with hb | hb
      · exact sub b (Or.inr (Or.inr hb))
      · exact (hf b hb).1
  · intro b hb; exact suf b (a2 b hb)
  · exact (List.nodup_append.1 a4').2.1
  · intro b hb hx
    rcases List.mem_append.1 hb with hb | hb
    · exact hr b hb (a2 b hx)
    · exact (List.nodup_append.1 a4').2.2 b hb b hx rfl
  · rintro b (hb | hb)
    · exact ready b (Or.inl hb)
    · rcases List.mem_append.1 hb with hb | hb
      · exact ready b (Or.inr hb)
      · exact hdown b hb
  · intro b hbl hbr hbw hbo hbh
    simp only [List.mem_append, not_or] at hbh
    by_cases hbr' : b ∈ f.rest
    · rcases a3 b hbr' with e | e | e
      · exact absurd e hbh.2
      · exact absurd e hbr
      · exact Or.inl (huw b hbl e hbw hbo)
    · exact passed b hbl hbr' hbw hbo hbh.1

/-- Picking at most one from the list and submitting it. -/
theorem inv_scan_one {buf0 : Nat → Buf} {list : List Nat} {f : Fl} (h : Inv buf0 list none f)
    (f' : Fl) (hf' : f' = (match (scan f.buf 1 f.rest).1 with
      | [] => { f with rest := (scan f.buf 1 f.rest).2 }
      | n :: _ => ({ f with rest := (scan f.buf 1 f.rest).2 } : Fl).submit n)) :
    Inv buf0 list none f' ∧ Live f' := by
  obtain ⟨a1, a2, a3, a4, a5, a6⟩ := scan_spec f.buf f.rest 1
  have huw := fun b hb hr hw ho => unready_waits h (b := b) hb hr hw ho
  rcases hs : (scan f.buf 1 f.rest).1 with _ | ⟨n, t⟩
  · rw [hs] at hf' a1 a3 a5
    simp only [] at hf'
    subst hf'
    have hnil : (scan f.buf 1 f.rest).2 = [] := by
      rcases a5 with e | e
      · simp at e
      · exact e
    refine ⟨?_, Or.inl hnil⟩
    obtain ⟨nd, sub, suf, rnd, hr, cnt, up, mine, st, so, wr, wait, ready, passed, order, dn⟩ := h
    rw [hnil] at a3 ⊢
    refine ⟨nd, sub, by simp, by simp, by simp, cnt, up, mine, st, so, wr, wait, ready, ?_, order, dn⟩
    intro b hbl hbr hbw hbo hbh
    by_cases hbr' : b ∈ f.rest
    · rcases a3 b hbr' with e | e | e
      · cases e
      · cases e
      · exact Or.inl (huw b hbl e hbw hbo)
    · exact passed b hbl hbr' hbw hbo hbh
  · have ht : t = [] := by
      rw [hs] at a6
      simp at a6
      exact a6
    subst ht
    rw [hs] at hf'
    simp only [] at hf'
    subst hf'
    have hn := ready_fresh h (a1 n (by rw [hs]; simp)).1 (a1 n (by rw [hs]; simp)).2
    refine ⟨?_, Or.inr (Or.inr (by simp [Fl.submit]))⟩
    have hg : Inv buf0 list (some n) { f with rest := (scan f.buf 1 f.rest).2 } := by
      obtain ⟨nd, sub, suf, rnd, hr, cnt, up, mine, st, so, wr, wait, ready, passed, order, dn⟩ := h
      refine ⟨nd, sub, fun b hb => suf b (a2 b hb), (List.nodup_append.1 (a4 rnd)).2.1,
        fun b hb hx => hr b hb (a2 b hx), cnt, up, mine, st, so, wr, wait, ready, ?_, order, dn⟩
      intro b hbl hbr hbw hbo hbh
      by_cases hbr' : b ∈ f.rest
      · rcases a3 b hbr' with e | e | e
        · rw [hs] at e
          simp only [List.mem_singleton] at e
          right; rw [e]
        · exact absurd e hbr
        · exact Or.inl (huw b hbl e hbw hbo)
      · rcases passed b hbl hbr' hbw hbo hbh with e | e
        · exact Or.inl e
        · cases e
    exact inv_submit hg hn.1 hn.2.1 hn.2.2.1 hn.2.2.2.1 hn.2.2.2.2 (Or.inr rfl)

/-- A completion has been counted and its up-buffer no longer waits for it. -/
def Fl.retire (f : Fl) (b : Nat) : Fl :=
  ({ f with out := f.out.erase b, written := f.written ++ [b], count := f.count - 1 } : Fl).decUp b

/-- The part of a completion before the next buffer is chosen. -/
def Fl.finish (f : Fl) (b : Nat) : Fl :=
  let f1 : Fl := { f with out := f.out.erase b, written := f.written ++ [b], count := f.count - 1 }
  let f2 := f1.decUp b
  { f2 with buf := f2.set b { f2.buf b with up := none, state := .clean } }

theorem filter_remove (list : List Nat) (p : Nat → Prop) [DecidablePred p] (w : List Nat) (b : Nat)
    (hb : b ∈ list) (hnd : list.Nodup) (hbw : b ∉ w) :
    ((list.filter (fun x => decide (p x) && decide (x ∉ w ++ [b]))).length : Int) =
      (list.filter (fun x => decide (p x) && decide (x ∉ w))).length - (if p b then 1 else 0) := by
  induction list with
  | nil => cases hb
  | cons a l ih =>
    obtain ⟨h1, h2⟩ := List.nodup_cons.1 hnd
    by_cases e : a = b
    · subst e
      have hsame : l.filter (fun x => decide (p x) && decide (x ∉ w ++ [a])) =
          l.filter (fun x => decide (p x) && decide (x ∉ w)) := by
        apply List.filter_congr
        intro x hx
        have : x ≠ a := by rintro rfl; exact h1 hx
        simp [this]
      rw [List.filter_cons, List.filter_cons, hsame]
      by_cases hp : p a
      · simp [hp, hbw]
      · simp [hp]
    · have hb' : b ∈ l := by
        rcases List.mem_cons.1 hb with h | h
        · exact absurd h.symm e
        · exact h
      have := ih hb' h2
      rw [List.filter_cons, List.filter_cons]
      have he : decide (a ∉ w ++ [b]) = decide (a ∉ w) := by simp [e]
      rw [he]
      by_cases hc : (decide (p a) && decide (a ∉ w)) = true
      · rw [if_pos hc, if_pos hc]
        simp only [List.length_cons]
        push_cast
        omega
      · rw [if_neg hc, if_neg hc]
        exact this

/-- After a completion, before the next buffer is chosen. -/
theorem inv_finish {buf0 : Nat → Buf} {list : List Nat} {f : Fl} {b : Nat} (L : Linked buf0 list)
    (h : Inv buf0 list none f) (hb : b ∈ f.out) :
    Inv buf0 list (buf0 b).up (f.finish b) := by
  have hbl : b ∈ list := h.sub b (Or.inr (Or.inl hb))
  have hnd3 := List.nodup_append.1 h.nd
  have hbw : b ∉ f.written := fun hw => hnd3.2.2 b hw b (List.mem_append_left _ hb) rfl
  have hbh : b ∉ f.hand := fun hh => (List.nodup_append.1 hnd3.2.1).2.2 b hb b hh rfl
  have hup : (f.buf b).up = (buf0 b).up := h.up b hbl hbw
  have hond : f.out.Nodup := (List.nodup_append.1 hnd3.2.1).1
  have hne : (buf0 b).up ≠ some b := by
    intro e
    obtain ⟨r, hr⟩ := L.rank
    exact absurd (hr b hbl b e) (Nat.lt_irrefl _)
  have fw : (f.finish b).written = f.written ++ [b] := by
    unfold Fl.finish Fl.decUp; simp only []; split <;> rfl
  have fo : (f.finish b).out = f.out.erase b := by
    unfold Fl.finish Fl.decUp; simp only []; split <;> rfl
  have fh : (f.finish b).hand = f.hand := by
    unfold Fl.finish Fl.decUp; simp only []; split <;> rfl
  have fr : (f.finish b).rest = f.rest := by
    unfold Fl.finish Fl.decUp; simp only []; split <;> rfl
  have fc : (f.finish b).count = f.count - 1 := by
    unfold Fl.finish Fl.decUp; simp only []; split <;> rfl
  have fd : (f.finish b).done = f.done := by
    unfold Fl.finish Fl.decUp; simp only []; split <;> rfl
  have hw0 : (f.buf b).wait = 0 := by
    rw [h.wait b hbl hbw]
    have : list.filter (fun x => decide ((buf0 x).up = some b) && decide (x ∉ f.written)) = [] := by
      rw [List.filter_eq_nil_iff]
      intro x hx
      by_cases e : (buf0 x).up = some b
      · simp [h.ready b (Or.inl hb) x hx e]
      · simp [e]
    rw [this]; rfl
  have fbb : ((f.finish b).buf b).state = .clean ∧ ((f.finish b).buf b).up = none ∧
      ((f.finish b).buf b).wait = 0 := by
    refine ⟨by unfold Fl.finish; simp [Fl.set], by unfold Fl.finish; simp [Fl.set], ?_⟩
    unfold Fl.finish Fl.decUp
    simp only [hup]
    rcases hu : (buf0 b).up with _ | u
    · simp [Fl.set, hw0]
    · have : b ≠ u := by rintro rfl; exact hne hu
      simp [Fl.set, this, hw0]
  have fbo : ∀ x, x ≠ b → (f.finish b).buf x =
      { f.buf x with wait := (f.buf x).wait - (if (buf0 b).up = some x then 1 else 0) } := by
    intro x hx
    unfold Fl.finish Fl.decUp
    simp only [hup]
    rcases hu : (buf0 b).up with _ | u
    · simp [Fl.set, hx]
    · by_cases e : x = u
      · subst e; simp [Fl.set, hx]
      · have e' : u ≠ x := fun h => e h.symm
        simp [Fl.set, hx, e, e']
  obtain ⟨nd, sub, suf, rnd, hr, cnt, up, mine, st, so, wr, wait, ready, passed, order, dn⟩ := h
  have mw : ∀ x, x ∉ (f.finish b).written → x ∉ f.written ∧ x ≠ b := by
    intro x hx
    rw [fw] at hx
    simpa [not_or] using hx
  have mo : ∀ x, x ∈ (f.finish b).out ↔ x ∈ f.out ∧ x ≠ b := by
    intro x
    rw [fo, List.Nodup.mem_erase_iff hond]
    exact and_comm
  refine ⟨?_, ?_, ?_, ?_, ?_, ?_, ?_, ?_, ?_, ?_, ?_, ?_, ?_, ?_, ?_, ?_⟩
  · rw [fw, fo, fh, List.append_assoc, List.singleton_append, List.nodup_middle]
    refine List.nodup_cons.2 ⟨?_, ?_⟩
    · simp only [List.mem_append, not_or]
      refine ⟨hbw, ?_, hbh⟩
      rw [List.Nodup.mem_erase_iff hond]
      simp
    · refine List.nodup_append.2 ⟨hnd3.1, ?_, ?_⟩
      · refine List.nodup_append.2 ⟨hond.erase b, (List.nodup_append.1 hnd3.2.1).2.1, ?_⟩
        intro x hx y hy
        exact (List.nodup_append.1 hnd3.2.1).2.2 x (List.mem_of_mem_erase hx) y hy
      · intro x hx y hy
        refine hnd3.2.2 x hx y ?_
        rcases List.mem_append.1 hy with hy | hy
        · exact List.mem_append_left _ (List.mem_of_mem_erase hy)
        · exact List.mem_append_right _ hy
  · rintro x (hx | hx | hx)
    · rw [fw] at hx
      rcases List.mem_append.1 hx with hx | hx
      · exact sub x (Or.inl hx)
      · rw [List.mem_singleton.1 hx]; exact hbl
    · exact sub x (Or.inr (Or.inl ((mo x).1 hx).1))
    · rw [fh] at hx; exact sub x (Or.inr (Or.inr hx))
  · rw [fr]; exact suf
  · rw [fr]; exact rnd
  · rw [fh, fr]; exact hr
  · rw [fc, fw, cnt, List.length_append, List.length_singleton]; push_cast; omega
  · intro x hx hxw
    obtain ⟨h1, h2⟩ := mw x hxw
    rw [fbo x h2]; exact up x hx h1
  · intro x hx hxw
    obtain ⟨h1, h2⟩ := mw x hxw
    rw [fbo x h2]; exact mine x hx h1
  · intro x hx hxw hxo
    obtain ⟨h1, h2⟩ := mw x hxw
    rw [fbo x h2]
    exact st x hx h1 (fun ho => hxo ((mo x).2 ⟨ho, h2⟩))
  · intro x hx
    obtain ⟨h1, h2⟩ := (mo x).1 hx
    rw [fbo x h2]; exact so x h1
  · intro x hx
    by_cases e : x = b
    · subst e; exact Or.inl fbb
    · rw [fw] at hx
      rcases List.mem_append.1 hx with hx | hx
      · rw [fbo x e]
        rcases wr x hx with ⟨w1, w2, w3⟩ | w
        · left
          refine ⟨w1, w2, ?_⟩
          have : (buf0 b).up ≠ some x := by
            intro eu
            obtain ⟨l1, l2, el⟩ := List.append_of_mem hx
            have := order b hbl x eu l1 l2 el
            exact hbw (by rw [el]; exact List.mem_append_left _ this)
          simp [w3, this]
        · right; exact w
      · exact absurd (List.mem_singleton.1 hx) e
  · intro u hu huw
    obtain ⟨h1, h2⟩ := mw u huw
    rw [fbo u h2, fw]
    simp only []
    rw [filter_remove list (fun x => (buf0 x).up = some u) f.written b hbl L.nodup hbw,
      wait u hu h1]
  · intro x hx d hd hdu
    rw [fw]
    apply List.mem_append_left
    rcases hx with hx | hx
    · exact ready x (Or.inl ((mo x).1 hx).1) d hd hdu
    · rw [fh] at hx; exact ready x (Or.inr hx) d hd hdu
  · intro x hx hxr hxw hxo hxh
    obtain ⟨h1, h2⟩ := mw x hxw
    rw [fr] at hxr
    rw [fh] at hxh
    have := passed x hx hxr h1 (fun ho => hxo ((mo x).2 ⟨ho, h2⟩)) hxh
    rcases this with h | h
    · by_cases e : (buf0 b).up = some x
      · exact Or.inr e
      · left; rw [fbo x h2, if_neg e]; simpa using h
    · cases h
  · intro d hd u hu l1 l2 hsp
    rw [fw] at hsp
    rcases List.eq_nil_or_concat l2 with rfl | ⟨l2', y, rfl⟩
    · have hsp' : f.written ++ [b] = l1 ++ [u] := hsp
      obtain ⟨rfl, e⟩ := List.append_inj' hsp' rfl
      have e : b = u := by simpa using e
      subst e
      exact ready b (Or.inl hb) d hd hu
    · have hsp' : f.written ++ [b] = (l1 ++ u :: l2') ++ [y] := by simpa using hsp
      obtain ⟨e1, -⟩ := List.append_inj' hsp' rfl
      exact order d hd u hu l1 l2' e1
  · intro hd
    rw [fd] at hd
    have := dn hd
    -- a completed flush has nothing in flight
    have hp : (f.written ++ [b]).length ≤ list.length := by
      have hn : (f.written ++ [b]).Nodup := by
        refine List.nodup_append.2 ⟨hnd3.1, by simp, ?_⟩
        rintro x hx y hy rfl
        rw [List.mem_singleton.1 hy] at hx
        exact hbw hx
      refine (hn.subperm ?_).length_le
      intro x hx
      rcases List.mem_append.1 hx with hx | hx
      · exact sub x (Or.inl hx)
      · rw [List.mem_singleton.1 hx]; exact hbl
    simp at hp
    omega

theorem inv_length {buf0 : Nat → Buf} {list : List Nat} {ex : Option Nat} {f : Fl}
    (h : Inv buf0 list ex f) : f.written.length ≤ list.length := by
  refine ((List.nodup_append.1 h.nd).1.subperm ?_).length_le
  intro x hx
  exact h.sub x (Or.inl hx)

/-- If as many were written as there are, all were. -/
theorem inv_all {buf0 : Nat → Buf} {list : List Nat} {ex : Option Nat} {f : Fl}
    (h : Inv buf0 list ex f) (hl : list.length ≤ f.written.length) : f.written.Perm list :=
  ((List.nodup_append.1 h.nd).1.subperm (fun x hx => h.sub x (Or.inl hx))).perm_of_length_le hl

theorem inv_complete {buf0 : Nat → Buf} {list : List Nat} {f : Fl} {b : Nat} (L : Linked buf0 list)
    (h : Inv buf0 list none f) (hb : b ∈ f.out) :
    Inv buf0 list none (f.complete false b) ∧
    (Live (f.complete false b) ∨ (f.complete false b).done = true) := by
  have hi := inv_finish L h hb
  have hbl : b ∈ list := h.sub b (Or.inr (Or.inl hb))
  have hnd3 := List.nodup_append.1 h.nd
  have hbw : b ∉ f.written := fun hw => hnd3.2.2 b hw b (List.mem_append_left _ hb) rfl
  have hup : (f.buf b).up = (buf0 b).up := h.up b hbl hbw
  have hne : (buf0 b).up ≠ some b := by
    intro e
    obtain ⟨r, hr⟩ := L.rank
    exact absurd (hr b hbl b e) (Nat.lt_irrefl _)
  have fw : (f.finish b).written = f.written ++ [b] := by
    unfold Fl.finish Fl.decUp; simp only []; split <;> rfl
  have fr : (f.finish b).rest = f.rest := by
    unfold Fl.finish Fl.decUp; simp only []; split <;> rfl
  have fc : (f.finish b).count = f.count - 1 := by
    unfold Fl.finish Fl.decUp; simp only []; split <;> rfl
  by_cases hc : f.count - 1 = 0
  · have he : f.complete false b =
        { f with out := f.out.erase b, written := f.written ++ [b], count := f.count - 1,
                 buf := f.set b { f.buf b with state := .clean }, done := true } := by
      unfold Fl.complete
      show (if f.count - 1 = 0 then _ else _) = _
      rw [if_pos hc]
      rfl
    have hall := hi.cnt
    rw [fw, fc, hc] at hall
    have hall' : (f.written ++ [b]).length = list.length := by omega
    have hperm : (f.written ++ [b]).Perm list := by
      have := inv_all hi (by rw [fw]; exact Nat.le_of_eq hall'.symm); rwa [fw] at this
    have hallm : ∀ x ∈ list, x ∈ f.written ++ [b] := fun x hx => hperm.mem_iff.2 hx
    obtain ⟨nd, sub, suf, rnd, hr, cnt, up, mine, st, so, wr, wait, ready, passed, order, dn⟩ := hi
    have fo : (f.finish b).out = f.out.erase b := by
      unfold Fl.finish Fl.decUp; simp only []; split <;> rfl
    have fh : (f.finish b).hand = f.hand := by
      unfold Fl.finish Fl.decUp; simp only []; split <;> rfl
    rw [he]
    refine ⟨⟨?_, ?_, ?_, ?_, ?_, ?_, ?_, ?_, ?_, ?_, ?_, ?_, ?_, ?_, ?_, ?_⟩, Or.inr rfl⟩
    · rw [fw, fo, fh] at nd; exact nd
    · rw [fw, fo, fh] at sub; exact sub
    · exact h.suf
    · exact h.rnd
    · exact h.hr
    · show f.count - 1 = (list.length : Int) - (f.written ++ [b]).length
      rw [hall']; omega
    · intro x hx hn; exact absurd (hallm x hx) hn
    · intro x hx hn; exact absurd (hallm x hx) hn
    · intro x hx hn; exact absurd (hallm x hx) hn
    · intro x hx
      exfalso
      rw [fw, fo] at nd
      have hx' : x ∈ list := by
        rw [fo] at sub; exact sub x (Or.inr (Or.inl hx))
      exact (List.nodup_append.1 nd).2.2 x (hallm x hx') x (List.mem_append_left _ hx) rfl
    · intro x hx
      simp only []
      by_cases e : x = b
      · subst e
        left
        have hw0 : (f.buf x).wait = 0 := by
          rw [h.wait x hbl hbw]
          have : list.filter (fun y => decide ((buf0 y).up = some x) && decide (y ∉ f.written)) = [] := by
            rw [List.filter_eq_nil_iff]
            intro y hy
            by_cases e : (buf0 y).up = some x
            · simp [h.ready x (Or.inl hb) y hy e]
            · simp [e]
          rw [this]; rfl
        have hu0 : (f.buf x).up = none := by
          rw [hup]
          rcases hu : (buf0 x).up with _ | u
          · rfl
          · exfalso
            have hul := L.up x hbl u hu
            rcases List.mem_append.1 (hallm u hul) with h1 | h1
            · obtain ⟨l1, l2, el⟩ := List.append_of_mem h1
              have := h.order x hbl u hu l1 l2 el
              exact hbw (by rw [el]; exact List.mem_append_left _ this)
            · rw [List.mem_singleton.1 h1] at hu; exact hne hu
        simp [Fl.set, hw0, hu0]
      · rcases List.mem_append.1 (show x ∈ f.written ++ [b] from hx) with hx | hx
        · simpa [Fl.set, e] using h.wr x hx
        · exact absurd (List.mem_singleton.1 hx) e
    · intro x hx hn; exact absurd (hallm x hx) hn
    · rw [fw, fo, fh] at ready; exact ready
    · intro x hx _ hn; exact absurd (hallm x hx) hn
    · rw [fw] at order; exact order
    · intro _; exact hall'
  · -- the state before the next buffer is submitted, and the choice
    have hst : (f.buf b).state = .flushing := h.so b hb
    obtain ⟨f2, hf2⟩ : ∃ f2 : Fl, f2 = f.retire b := ⟨_, rfl⟩
    have hbb : ∀ y, (f.finish b).buf y =
        (if y = b then { f2.buf b with up := none, state := .clean } else f2.buf y) := by
      intro y; rw [hf2]; rfl
    have h2st : (f2.buf b).state = .flushing := by
      rw [hf2]; unfold Fl.retire Fl.decUp
      simp only [hup]
      rcases hu : (buf0 b).up with _ | u
      · exact hst
      · have : b ≠ u := by rintro rfl; exact hne hu
        simp [Fl.set, this, hst]
    have h2up : (f2.buf b).up = (buf0 b).up := by
      rw [hf2]; unfold Fl.retire Fl.decUp
      simp only [hup]
      rcases hu : (buf0 b).up with _ | u
      · simpa [hu] using hup
      · have : b ≠ u := by rintro rfl; exact hne hu
        simp [Fl.set, this, hup, hu]
    have h2rest : f2.rest = f.rest := by
      rw [hf2]; unfold Fl.retire Fl.decUp; split <;> rfl
    have hfin : f.finish b =
      { f2 with buf := f2.set b { f2.buf b with up := none, state := .clean } } := by rw [hf2]; rfl
    have hscan : ∀ l max, scan f2.buf max l = scan (f.finish b).buf max l := by
      intro l max
      apply scan_congr
      intro x
      rw [hbb x]
      by_cases e : x = b
      · subst e
        rw [if_pos rfl]
        simp [Buf.ready, h2st]
      · rw [if_neg e]
    have he : f.complete false b = (match (f2.next b).1 with
        | [] => { f.finish b with rest := (f2.next b).2 }
        | nb :: _ => ({ f.finish b with rest := (f2.next b).2 } : Fl).submit nb) := by
      unfold Fl.complete
      simp only [hc, if_false]
      rw [hfin]
      have e2 : ({ f with out := f.out.erase b, written := f.written ++ [b], count := f.count - 1 } : Fl).decUp b = f2 := hf2.symm
      simp only [e2]
      rcases (f2.next b).1 with _ | ⟨nb, t⟩ <;> rfl
    have hscanCase : f2.next b = scan f2.buf 1 f2.rest →
        (∀ x, (buf0 b).up = some x → x ∈ list → x ∉ (f.finish b).written →
          ((f.finish b).buf x).wait ≠ 0) →
        Inv buf0 list none (f.complete false b) ∧
        (Live (f.complete false b) ∨ (f.complete false b).done = true) := by
      intro hn hup0
      have hi' : Inv buf0 list none (f.finish b) := by
        obtain ⟨nd, sub, suf, rnd, hr, cnt, up, mine, st, so, wr, wait, ready, passed, order, dn⟩ := hi
        refine ⟨nd, sub, suf, rnd, hr, cnt, up, mine, st, so, wr, wait, ready, ?_, order, dn⟩
        intro x hx hxr hxw hxo hxh
        rcases passed x hx hxr hxw hxo hxh with e | e
        · exact Or.inl e
        · left
          have h1 := hup0 x e hx hxw
          have h2 := wait x hx hxw
          omega
      have := inv_scan_one hi' (f.complete false b) (by
        rw [he, hn, hscan, h2rest, ← fr])
      exact ⟨this.1, Or.inl this.2⟩
    rcases hu : (buf0 b).up with _ | u
    · apply hscanCase
      · unfold Fl.next
        rw [h2up, hu]
      · intro x hx; rw [hu] at hx; cases hx
    · have hub : u ≠ b := by rintro rfl; exact hne hu
      have hul : u ∈ list := L.up b hbl u hu
      by_cases h0 : (f2.buf u).wait = 0
      · have hn : f2.next b = ([u], f2.rest) := by
          unfold Fl.next
          rw [h2up, hu]
          simp [h0]
        rw [he, hn]
        have h0' : ((f.finish b).buf u).wait = 0 := by
          rw [hbb u, if_neg hub]; exact h0
        have huw : u ∉ (f.finish b).written := by
          -- `b` would have to come before `u`
          intro hw
          rw [fw] at hw
          rcases List.mem_append.1 hw with hw | hw
          · obtain ⟨l1, l2, e⟩ := List.append_of_mem hw
            have := h.order b hbl u hu l1 l2 e
            exact hbw (by rw [e]; exact List.mem_append_left _ this)
          · exact hub (List.mem_singleton.1 hw)
        have huo : u ∉ f.out := fun ho => hbw (h.ready u (Or.inl ho) b hbl hu)
        have huh : u ∉ f.hand := fun ho => hbw (h.ready u (Or.inr ho) b hbl hu)
        have fo : (f.finish b).out = f.out.erase b := by
          unfold Fl.finish Fl.decUp; simp only []; split <;> rfl
        have fh : (f.finish b).hand = f.hand := by
          unfold Fl.finish Fl.decUp; simp only []; split <;> rfl
        have heq : ({ f.finish b with rest := f2.rest } : Fl) = f.finish b := by
          rw [h2rest, ← fr]
        simp only [heq]
        rw [hu] at hi
        refine ⟨inv_submit hi hul huw ?_ ?_ h0' (Or.inr rfl), Or.inl (Or.inr (Or.inr ?_))⟩
        · rw [fo]; exact fun ho => huo (List.mem_of_mem_erase ho)
        · rw [fh]; exact huh
        · simp [Fl.submit]
      · apply hscanCase
        · unfold Fl.next
          rw [h2up, hu]
          simp [h0]
        · intro x hx _ _
          rw [hu] at hx
          obtain rfl := Option.some.inj hx
          rw [hbb u, if_neg hub]
          exact h0

theorem inv_begin {buf0 : Nat → Buf} {list : List Nat} {f : Fl} {b : Nat} {t : List Nat}
    (h : Inv buf0 list none f) (hh : f.hand = b :: t) :
    Inv buf0 list none (({ f with hand := t } : Fl).submit b) := by
  have hb : b ∈ f.hand := by rw [hh]; simp
  have hbl : b ∈ list := h.sub b (Or.inr (Or.inr hb))
  have hnd3 := List.nodup_append.1 h.nd
  have hbw : b ∉ f.written := fun hw => hnd3.2.2 b hw b (List.mem_append_right _ hb) rfl
  have hbo : b ∉ f.out := fun ho => (List.nodup_append.1 hnd3.2.1).2.2 b ho b hb rfl
  have hbt : b ∉ t := by
    have := (List.nodup_append.1 hnd3.2.1).2.1
    rw [hh] at this
    exact (List.nodup_cons.1 this).1
  have hd := h.ready b (Or.inr hb)
  have h0 : (f.buf b).wait = 0 := by
    rw [h.wait b hbl hbw]
    have : list.filter (fun x => decide ((buf0 x).up = some b) && decide (x ∉ f.written)) = [] := by
      rw [List.filter_eq_nil_iff]
      intro x hx
      by_cases e : (buf0 x).up = some b
      · simp [hd x hx e]
      · simp [e]
    rw [this]; rfl
  refine inv_submit (ex := some b) ?_ hbl hbw hbo hbt h0 (Or.inr rfl)
  obtain ⟨nd, sub, suf, rnd, hr, cnt, up, mine, st, so, wr, wait, ready, passed, order, dn⟩ := h
  rw [hh] at nd sub hr ready passed
  refine ⟨?_, ?_, suf, rnd, ?_, cnt, up, mine, st, so, wr, wait, ?_, ?_, order, dn⟩
  · refine nd.sublist ?_
    exact List.Sublist.append_left (List.Sublist.append_left (List.sublist_cons_self _ _) _) _
  · rintro x (hx | hx | hx)
    · exact sub x (Or.inl hx)
    · exact sub x (Or.inr (Or.inl hx))
    · exact sub x (Or.inr (Or.inr (List.mem_cons_of_mem _ hx)))
  · intro x hx; exact hr x (List.mem_cons_of_mem _ hx)
  · rintro x (hx | hx)
    · exact ready x (Or.inl hx)
    · exact ready x (Or.inr (List.mem_cons_of_mem _ hx))
  · intro x hx hxr hxw hxo hxh
    by_cases e : x = b
    · right; rw [e]
    · refine (passed x hx hxr hxw hxo ?_).imp id (fun h => by cases h)
      simp only [List.mem_cons, not_or]
      exact ⟨e, hxh⟩

theorem inv_reuse {buf0 : Nat → Buf} {list : List Nat} {f : Fl} {b : Nat} {up : Option Nat}
    {w : Int} (h : Inv buf0 list none f) (hc : (f.buf b).state = .clean) :
    Inv buf0 list none
      { f with buf := f.set b { state := .dirty, mine := false, up := up, wait := w } } := by
  have hnb : ∀ x ∈ list, x ∉ f.written → x ≠ b := by
    rintro x hx hw rfl
    by_cases ho : x ∈ f.out
    · rw [h.so x ho] at hc; cases hc
    · rw [h.st x hx hw ho] at hc; cases hc
  have hob : ∀ x ∈ f.out, x ≠ b := by
    rintro x ho rfl
    rw [h.so x ho] at hc; cases hc
  have hset : ∀ x, x ≠ b →
      f.set b { state := .dirty, mine := false, up := up, wait := w } x = f.buf x := by
    intro x hx; simp [Fl.set, hx]
  have hnd3 := List.nodup_append.1 h.nd
  obtain ⟨nd, sub, suf, rnd, hr, cnt, up', mine, st, so, wr, wait, ready, passed, order, dn⟩ := h
  refine ⟨nd, sub, suf, rnd, hr, cnt, ?_, ?_, ?_, ?_, ?_, ?_, ready, ?_, order, dn⟩
  · intro x hx hw; simp only [hset x (hnb x hx hw)]; exact up' x hx hw
  · intro x hx hw; simp only [hset x (hnb x hx hw)]; exact mine x hx hw
  · intro x hx hw ho; simp only [hset x (hnb x hx hw)]; exact st x hx hw ho
  · intro x ho; simp only [hset x (hob x ho)]; exact so x ho
  · intro x hx
    by_cases e : x = b
    · right; subst e; simp [Fl.set]
    · simp only [hset x e]; exact wr x hx
  · intro x hx hw; simp only [hset x (hnb x hx hw)]; exact wait x hx hw
  · intro x hx hxr hxw hxo hxh
    simp only [hset x (hnb x hx hxw)]
    exact passed x hx hxr hxw hxo hxh

theorem inv_step {buf0 : Nat → Buf} {list : List Nat} {f f' : Fl} {op : Op} (L : Linked buf0 list)
    (h : Inv buf0 list none f) (hs : f.step false op = some f') : Inv buf0 list none f' := by
  cases op with
  | start max =>
    simp only [Fl.step, Option.some.injEq] at hs
    subst hs
    exact inv_scan h max
  | begin =>
    simp only [Fl.step] at hs
    rcases hh : f.hand with _ | ⟨b, t⟩
    · rw [hh] at hs; cases hs
    · rw [hh] at hs
      simp only [Option.some.injEq] at hs
      subst hs
      exact inv_begin h hh
  | complete b =>
    simp only [Fl.step] at hs
    split at hs
    · rename_i hb
      simp only [Option.some.injEq] at hs
      subst hs
      exact (inv_complete L h hb).1
    · cases hs
  | reuse b up w =>
    simp only [Fl.step] at hs
    split at hs
    · rename_i hc
      simp only [Option.some.injEq] at hs
      subst hs
      exact inv_reuse h hc
    · cases hs

theorem inv_run {buf0 : Nat → Buf} {list : List Nat} (L : Linked buf0 list) :
    ∀ (ops : List Op) (f f' : Fl), Inv buf0 list none f → f.run false ops = some f' →
      Inv buf0 list none f' := by
  intro ops
  induction ops with
  | nil => intro f f' h hr; simp only [Fl.run, Option.some.injEq] at hr; subst hr; exact h
  | cons op ops ih =>
    intro f f' h hr
    simp only [Fl.run] at hr
    rcases hs : f.step false op with _ | f1
    · rw [hs] at hr; cases hr
    · rw [hs] at hr
      exact ih f1 f' (inv_step L h hs) hr

/-- Once a scan of at least one has been made, the flush stays alive until it is complete. -/
theorem live_step {buf0 : Nat → Buf} {list : List Nat} {f f' : Fl} {op : Op} (L : Linked buf0 list)
    (h : Inv buf0 list none f) (hs : f.step false op = some f')
    (hl : (Live f ∨ f.done = true) ∨ ∃ max, op = .start (max + 1)) : Live f' ∨ f'.done = true := by
  cases op with
  | start max =>
    simp only [Fl.step, Option.some.injEq] at hs
    subst hs
    obtain ⟨-, -, -, -, a5, -⟩ := scan_spec f.buf f.rest max
    rcases hl with (hl | hl) | ⟨m, hm⟩
    · left
      rcases hl with e | e | e
      · left
        show (scan f.buf max f.rest).2 = []
        rw [e]; cases max <;> rfl
      · right; left
        show f.hand ++ _ ≠ []
        simp [e]
      · right; right; exact e
    · right; exact hl
    · left
      rcases a5 with e | e
      · right; left
        show f.hand ++ _ ≠ []
        intro hn
        rw [(List.append_eq_nil_iff.1 hn).2] at e
        simp only [Op.start.injEq] at hm
        simp at e
        omega
      · left; exact e
  | begin =>
    simp only [Fl.step] at hs
    rcases hh : f.hand with _ | ⟨b, t⟩
    · rw [hh] at hs; cases hs
    · rw [hh] at hs
      simp only [Option.some.injEq] at hs
      subst hs
      left; right; right
      simp [Fl.submit]
  | complete b =>
    simp only [Fl.step] at hs
    split at hs
    · rename_i hb
      simp only [Option.some.injEq] at hs
      subst hs
      exact (inv_complete L h hb).2
    · cases hs
  | reuse b up w =>
    simp only [Fl.step] at hs
    split at hs
    · simp only [Option.some.injEq] at hs
      subst hs
      rcases hl with hl | ⟨m, hm⟩
      · exact hl
      · cases hm
    · cases hs

theorem live_run {buf0 : Nat → Buf} {list : List Nat} (L : Linked buf0 list) :
    ∀ (ops : List Op) (f f' : Fl), Inv buf0 list none f → f.run false ops = some f' →
      ((Live f ∨ f.done = true) ∨ ∃ max, Op.start (max + 1) ∈ ops) → Live f' ∨ f'.done = true := by
  intro ops
  induction ops with
  | nil =>
    intro f f' h hr hl
    simp only [Fl.run, Option.some.injEq] at hr; subst hr
    rcases hl with hl | ⟨m, hm⟩
    · exact hl
    · cases hm
  | cons op ops ih =>
    intro f f' h hr hl
    simp only [Fl.run] at hr
    rcases hs : f.step false op with _ | f1
    · rw [hs] at hr; cases hr
    · rw [hs] at hr
      refine ih f1 f' (inv_step L h hs) hr ?_
      rcases hl with hl | ⟨m, hm⟩
      · exact Or.inl (live_step L h hs (Or.inl hl))
      · rcases List.mem_cons.1 hm with e | e
        · exact Or.inl (live_step L h hs (Or.inr ⟨m, e.symm⟩))
        · exact Or.inr ⟨m, e⟩

/-- With nothing in flight and the list passed, everything has been written. -/
theorem stuck_all {buf0 : Nat → Buf} {list : List Nat} {f : Fl} (L : Linked buf0 list)
    (h : Inv buf0 list none f) (hr : f.rest = []) (hh : f.hand = []) (ho : f.out = []) :
    ∀ b ∈ list, b ∈ f.written := by
  obtain ⟨r, hrank⟩ := L.rank
  have : ∀ n, ∀ b ∈ list, r b = n → b ∈ f.written := by
    intro n
    induction n using Nat.strongRecOn with
    | _ n ih =>
      intro b hb hn
      by_contra hw
      have hp := h.passed b hb (by rw [hr]; simp) hw (by rw [ho]; simp) (by rw [hh]; simp)
      rcases hp with hp | hp
      · rw [h.wait b hb hw] at hp
        have hpos : 0 < (list.filter (fun x => decide ((buf0 x).up = some b) &&
          decide (x ∉ f.written))).length := by omega
        obtain ⟨x, hx⟩ := List.exists_mem_of_length_pos hpos
        rw [List.mem_filter] at hx
        simp only [Bool.and_eq_true, decide_eq_true_eq] at hx
        have hlt := hrank x hx.1 b hx.2.1
        exact hx.2.2 (ih (r x) (by omega) x hx.1 rfl)
      · cases hp
  intro b hb
  exact this (r b) b hb rfl

/-- `done` is set exactly when everything has been written. -/
theorem done_step {buf0 : Nat → Buf} {list : List Nat} {f f' : Fl} {op : Op} (L : Linked buf0 list)
    (h : Inv buf0 list none f) (hs : f.step false op = some f')
    (hd : f.done = true ∨ f.written.length < list.length) :
    f'.done = true ∨ f'.written.length < list.length := by
  cases op with
  | start max =>
    simp only [Fl.step, Option.some.injEq] at hs
    subst hs
    exact hd
  | begin =>
    simp only [Fl.step] at hs
    rcases hh : f.hand with _ | ⟨b, t⟩
    · rw [hh] at hs; cases hs
    · rw [hh] at hs
      simp only [Option.some.injEq] at hs
      subst hs
      exact hd
  | complete b =>
    have h' := inv_step L h hs
    simp only [Fl.step] at hs
    split at hs
    · simp only [Option.some.injEq] at hs
      have hc : f'.count = f.count - 1 ∧ (f.count - 1 = 0 → f'.done = true) := by
        subst hs
        unfold Fl.complete
        simp only []
        by_cases h0 : f.count - 1 = 0
        · simp [h0]
        · simp only [h0, if_false, false_imp_iff, and_true]
          have hdec : ∀ g : Fl, (g.decUp b).count = g.count := by
            intro g; unfold Fl.decUp; split <;> rfl
          split
          · simp [hdec]
          · simp [hdec, Fl.submit]
      have h1 := h'.cnt
      have h2 := inv_length h'
      by_cases h0 : f.count - 1 = 0
      · exact Or.inl (hc.2 h0)
      · right
        omega
    · cases hs
  | reuse b up w =>
    simp only [Fl.step] at hs
    split at hs
    · simp only [Option.some.injEq] at hs
      subst hs
      exact hd
    · cases hs

theorem done_run {buf0 : Nat → Buf} {list : List Nat} (L : Linked buf0 list) :
    ∀ (ops : List Op) (f f' : Fl), Inv buf0 list none f → f.run false ops = some f' →
      (f.done = true ∨ f.written.length < list.length) →
      f'.done = true ∨ f'.written.length < list.length := by
  intro ops
  induction ops with
  | nil => intro f f' h hr hl; simp only [Fl.run, Option.some.injEq] at hr; subst hr; exact hl
  | cons op ops ih =>
    intro f f' h hr hl
    simp only [Fl.run] at hr
    rcases hs : f.step false op with _ | f1
    · rw [hs] at hr; cases hr
    · rw [hs] at hr
      exact ih f1 f' (inv_step L h hs) hr (done_step L h hs hl)

end HS.Index.Flush
