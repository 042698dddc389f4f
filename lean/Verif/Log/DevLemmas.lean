import Verif.Log.DevSpec

/-! # Lemmas about device records, completions and replay -/

namespace HS.Log

variable {D : Type}

/-! ## Numbered records -/

@[simp] theorem entries_nil (b : Int) : entries b ([] : List D) = [] := rfl
@[simp] theorem entries_cons (b : Int) (d : D) (l : List D) : entries b (d :: l) = (b, d) :: entries (b + 1) l := rfl

@[simp] theorem entries_length (b : Int) (l : List D) : (entries b l).length = l.length := by
  induction l generalizing b with
  | nil => rfl
  | cons d l ih => simp [ih]

theorem entries_append (b : Int) (l m : List D) : entries b (l ++ m) = entries b l ++ entries (b + l.length) m := by
  induction l generalizing b with
  | nil => simp
  | cons d l ih => simp [ih, Int.add_assoc, Int.add_comm 1]

theorem entries_get (b : Int) (l : List D) (i : Nat) : (entries b l)[i]? = l[i]?.map (fun d => (b + i, d)) := by
  induction l generalizing b i with
  | nil => rfl
  | cons d l ih =>
    cases i with
    | zero => simp
    | succ i => simp [ih, Int.add_assoc, Int.add_comm 1]

theorem mem_entries {b : Int} {l : List D} {p : Int × D} :
    p ∈ entries b l ↔ ∃ i : Nat, l[i]? = some p.2 ∧ p.1 = b + i := by
  induction l generalizing b with
  | nil => simp
  | cons d l ih =>
    simp only [entries_cons, List.mem_cons, ih]
    constructor
    · rintro (h | ⟨i, h1, h2⟩)
      · exact ⟨0, by simp [h], by simp [h]⟩
      · exact ⟨i + 1, by simpa using h1, by simp [h2]; omega⟩
    · rintro ⟨i, h1, h2⟩
      cases i with
      | zero =>
        left
        simp at h1 h2
        cases p; simp_all
      | succ i => exact Or.inr ⟨i, by simpa using h1, by simp [h2]; omega⟩

theorem mem_entries_range {b : Int} {l : List D} {p : Int × D} (h : p ∈ entries b l) : b ≤ p.1 ∧ p.1 < b + l.length := by
  obtain ⟨i, h1, h2⟩ := mem_entries.1 h
  have : i < l.length := by
    rcases List.getElem?_eq_some_iff.1 h1 with ⟨h, _⟩; exact h
  omega

/-- The number of a record of a device record. -/
abbrev xkey (x : Nat × Nat × LRec D) : Int × D := (x.2.2.seq, x.2.2.data)

/-- Records numbered from `b` on: those from `st` on are what is behind the first `st - b`. -/
theorem filter_ge_entries {L : List (Nat × Nat × LRec D)} {b : Int} {l : List D} (st : Int)
    (h : L.map xkey = entries b l) (hb : b ≤ st) :
    L.filter (fun x => decide (st ≤ x.2.2.seq)) = L.drop (st - b).toNat := by
  induction L generalizing b l with
  | nil => simp
  | cons x L ih =>
    cases l with
    | nil => simp at h
    | cons d l =>
      simp only [List.map_cons, entries_cons, List.cons.injEq] at h
      obtain ⟨h1, h2⟩ := h
      have hseq : x.2.2.seq = b := by have := congrArg Prod.fst h1; simpa using this
      by_cases hs : st ≤ b
      · have : st = b := by omega
        subst this
        have hall : ∀ y ∈ L, st ≤ y.2.2.seq := by
          intro y hy
          have : xkey y ∈ entries (st + 1) l := by rw [← h2]; exact List.mem_map_of_mem hy
          have := (mem_entries_range this).1
          simp only [xkey] at this
          omega
        rw [List.filter_cons_of_pos (by simp [hseq])]
        simp only [Int.sub_self, Int.toNat_zero, List.drop_zero]
        rw [List.filter_eq_self.2]
        intro y hy
        simpa using hall y hy
      · rw [List.filter_cons_of_neg (by simp [hseq]; omega)]
        rw [ih h2 (by omega)]
        have : (st - b).toNat = (st - (b + 1)).toNat + 1 := by omega
        rw [this, List.drop_succ_cons]

/-! ## Groups -/

/-- Groups without gaps: the first starts at `n`, the last ends before `m`. -/
def Consec : Nat → List (Grp D) → Nat → Prop
  | n, [], m => n = m
  | n, g :: gs, m => g.start = n ∧ g.recs ≠ [] ∧ Consec (n + g.recs.length) gs m

theorem Consec.le {n m : Nat} {gs : List (Grp D)} (h : Consec n gs m) : n ≤ m := by
  induction gs generalizing n with
  | nil => exact Nat.le_of_eq h
  | cons g gs ih => have := ih h.2.2; omega

theorem Consec.snoc {n m : Nat} {gs : List (Grp D)} (h : Consec n gs m) {rs : List (LRec D)} (hr : rs ≠ []) :
    Consec n (gs ++ [⟨m, rs⟩]) (m + rs.length) := by
  induction gs generalizing n with
  | nil => cases h; exact ⟨rfl, hr, rfl⟩
  | cons g gs ih => exact ⟨h.1, h.2.1, ih h.2.2⟩

theorem Consec.mem_ge {n m : Nat} {gs : List (Grp D)} (h : Consec n gs m) {g : Grp D} (hg : g ∈ gs) :
    n ≤ g.start ∧ g.start + g.recs.length ≤ m ∧ g.recs ≠ [] := by
  induction gs generalizing n with
  | nil => simp at hg
  | cons g' gs ih =>
    rcases List.mem_cons.1 hg with rfl | hg
    · have := h.2.2.le; exact ⟨by have := h.1; omega, by have := h.1; omega, h.2.1⟩
    · have := ih h.2.2 hg; exact ⟨by omega, this.2⟩

/-- Dropping everything before a group. -/
theorem Consec.filter {n m k : Nat} {gs : List (Grp D)} (h : Consec n gs m) (hk : ∃ g ∈ gs, g.start = k) :
    Consec k (gs.filter (fun g => decide (k ≤ g.start))) m := by
  induction gs generalizing n with
  | nil => simp at hk
  | cons g gs ih =>
    by_cases hg : g.start = k
    · have hall : ∀ g' ∈ gs, k ≤ g'.start := by
        intro g' hg'
        have := (h.2.2.mem_ge hg').1
        have := h.1
        omega
      rw [List.filter_cons_of_pos (by simp [hg]), List.filter_eq_self.2 (by intro g' hg'; simpa using hall g' hg')]
      have := h.1
      subst hg
      exact ⟨rfl, h.2.1, by rw [this]; exact h.2.2⟩
    · obtain ⟨g', hg', hk'⟩ := hk
      have hg'' : g' ∈ gs := by
        rcases List.mem_cons.1 hg' with rfl | h'
        · exact absurd hk' hg
        · exact h'
      have := (h.2.2.mem_ge hg'').1
      have hlen : 0 < g.recs.length := List.length_pos_iff.2 h.2.1
      have := h.1
      rw [List.filter_cons_of_neg (by simp; omega)]
      exact ih h.2.2 ⟨g', hg'', hk'⟩

/-! ## Device records -/

theorem mem_recsFrom {grp idx : Nat} {rs : List (LRec D)} {x : Nat × Nat × LRec D} (h : x ∈ recsFrom grp idx rs) :
    x.2.1 = grp ∧ idx ≤ x.1 ∧ x.1 < idx + rs.length ∧ rs[x.1 - idx]? = some x.2.2 := by
  induction rs generalizing idx with
  | nil => simp [recsFrom] at h
  | cons r rs ih =>
    rcases List.mem_cons.1 h with rfl | h
    · simp
    · obtain ⟨h1, h2, h3, h4⟩ := ih h
      refine ⟨h1, by omega, by simp; omega, ?_⟩
      have : x.1 - idx = (x.1 - (idx + 1)) + 1 := by omega
      rw [this, List.getElem?_cons_succ]
      exact h4

theorem recsFrom_store (grp idx : Nat) (rs : List (LRec D)) (p : LRec D → Bool) :
    ((recsFrom grp idx rs).filter (fun x => p x.2.2)).map (fun x => x.2.2) = rs.filter p := by
  induction rs generalizing idx with
  | nil => rfl
  | cons r rs ih =>
    by_cases h : p r
    · simp only [recsFrom]
      rw [List.filter_cons_of_pos (by simpa using h), List.filter_cons_of_pos h, List.map_cons, ih]
    · simp only [recsFrom]
      rw [List.filter_cons_of_neg (by simpa using h), List.filter_cons_of_neg h, ih]

theorem recsFrom_sorted (grp idx : Nat) (rs : List (LRec D)) :
    (recsFrom grp idx rs).Pairwise (fun x y => x.1 < y.1) := by
  induction rs generalizing idx with
  | nil => exact List.Pairwise.nil
  | cons r rs ih =>
    refine List.Pairwise.cons ?_ (ih _)
    intro y hy
    have := (mem_recsFrom hy).2.1
    show idx < y.1
    omega

theorem devRecs_append (gs hs : List (Grp D)) : devRecs (gs ++ hs) = devRecs gs ++ devRecs hs := by
  simp [devRecs]

theorem devRecs_cons (g : Grp D) (gs : List (Grp D)) : devRecs (g :: gs) = recsFrom g.start g.start g.recs ++ devRecs gs := by
  simp [devRecs]

theorem mem_devRecs {gs : List (Grp D)} {x : Nat × Nat × LRec D} (h : x ∈ devRecs gs) :
    ∃ g ∈ gs, x ∈ recsFrom g.start g.start g.recs := by
  simp only [devRecs, List.mem_flatten, List.mem_map] at h
  obtain ⟨l, ⟨g, hg, rfl⟩, hx⟩ := h
  exact ⟨g, hg, hx⟩

theorem devRecs_range {n m : Nat} {gs : List (Grp D)} (hc : Consec n gs m) {x : Nat × Nat × LRec D}
    (h : x ∈ devRecs gs) : n ≤ x.2.1 ∧ x.2.1 ≤ x.1 ∧ x.1 < m := by
  obtain ⟨g, hg, hx⟩ := mem_devRecs h
  have h1 := mem_recsFrom hx
  have h2 := hc.mem_ge hg
  omega

/-- Device order: indices grow, groups do not go back. -/
theorem devRecs_sorted {n m : Nat} {gs : List (Grp D)} (hc : Consec n gs m) :
    (devRecs gs).Pairwise (fun x y => x.1 < y.1 ∧ x.2.1 ≤ y.2.1) := by
  induction gs generalizing n with
  | nil => exact List.Pairwise.nil
  | cons g gs ih =>
    rw [devRecs_cons, List.pairwise_append]
    refine ⟨?_, ih hc.2.2, ?_⟩
    · refine (recsFrom_sorted g.start g.start g.recs).imp_of_mem ?_
      intro x y hx hy hxy
      have h1 := mem_recsFrom hx
      have h2 := mem_recsFrom hy
      exact ⟨hxy, by omega⟩
    · intro x hx y hy
      have h1 := mem_recsFrom hx
      have h2 := devRecs_range hc.2.2 hy
      have := hc.1
      exact ⟨by omega, by omega⟩

/-- Reading a device record by its key. -/
theorem readKey_devRecs {c : Dev D} {n m : Nat} (hc : Consec n c.groups m) {x : Nat × Nat × LRec D}
    (h : x ∈ devRecs c.groups) : c.readKey ⟨x.1, x.2.1⟩ = .ok x.2.2.data := by
  obtain ⟨g, hg, hx⟩ := mem_devRecs h
  have h1 := mem_recsFrom hx
  have hfind : c.groups.find? (fun g' => g'.start == x.2.1) = some g := by
    rw [h1.1]
    clear h h1
    generalize c.groups = gs at *
    induction gs generalizing n with
    | nil => simp at hg
    | cons g' gs ih =>
      rcases List.mem_cons.1 hg with rfl | hg'
      · simp
      · have h2 := (hc.2.2.mem_ge hg').1
        have := hc.1
        have hlen : 0 < g'.recs.length := List.length_pos_iff.2 hc.2.1
        rw [List.find?_cons_of_neg (by simp; omega)]
        exact ih hc.2.2 hg'
  unfold Dev.readKey
  rw [hfind]
  have hi : ((x.1 : Int) - g.start).toNat = x.1 - g.start := by omega
  simp only [hi, h1.2.2.2]

theorem devRecs_filter {n m k : Nat} {gs : List (Grp D)} (hc : Consec n gs m) :
    devRecs (gs.filter (fun g => decide (k ≤ g.start))) = (devRecs gs).filter (fun x => decide (k ≤ x.2.1)) := by
  induction gs generalizing n with
  | nil => rfl
  | cons g gs ih =>
    rw [devRecs_cons, List.filter_append, ← ih hc.2.2]
    by_cases h : k ≤ g.start
    · have he : (recsFrom g.start g.start g.recs).filter (fun x => decide (k ≤ x.2.1)) =
          recsFrom g.start g.start g.recs := List.filter_eq_self.2 (fun x hx => by
        simpa [(mem_recsFrom hx).1] using h)
      rw [List.filter_cons_of_pos (by simpa using h), devRecs_cons, he]
    · have he : (recsFrom g.start g.start g.recs).filter (fun x => decide (k ≤ x.2.1)) = [] :=
        List.filter_eq_nil_iff.2 (fun x hx => by simpa [(mem_recsFrom hx).1] using h)
      rw [List.filter_cons_of_neg (by simpa using h), he, List.nil_append]

theorem loadIdx_consec {n m : Nat} {gs : List (Grp D)} (b : Bool) (hc : Consec n gs m) : loadIdx b n gs = .ok m := by
  induction gs generalizing n b with
  | nil => cases hc; rfl
  | cons g gs ih =>
    simp only [loadIdx]
    rw [if_neg (by have := hc.1; omega), if_neg (by simp [hc.1]), if_neg hc.2.1]
    exact ih false hc.2.2

/-! ## Completions -/

/-- A completion in order. -/
def Store.compl (s : Store) (x : Nat × Nat × LRec D) : Store :=
  { s with tail := x.2.2.seq, next := max s.next (x.2.2.seq + 1)
           recs := fun l => if l = x.2.2.seq then some ⟨⟨x.1, x.2.1⟩, ⟨x.2.1, x.2.1⟩, true⟩ else s.recs l }

def Store.after (s : Store) (L : List (Nat × Nat × LRec D)) : Store := L.foldl Store.compl s

theorem Store.complete_inorder (s : Store) (x : Nat × Nat × LRec D) (h : s.tail < x.2.2.seq) :
    s.complete x.2.2.seq ⟨x.1, x.2.1⟩ ⟨x.2.1, x.2.1⟩ = .ok (s.compl x) := by
  unfold Store.complete Store.truncKeyFor
  rw [if_pos h]
  rfl

theorem Store.after_start (s : Store) (L : List (Nat × Nat × LRec D)) : (s.after L).start = s.start := by
  induction L generalizing s with
  | nil => rfl
  | cons x L ih => exact ih _

theorem Store.after_trunc (s : Store) (L : List (Nat × Nat × LRec D)) : (s.after L).trunc = s.trunc := by
  induction L generalizing s with
  | nil => rfl
  | cons x L ih => exact ih _

theorem Store.after_tail (s : Store) {L : List (Nat × Nat × LRec D)} {l : List D}
    (h : L.map xkey = entries (s.tail + 1) l) : (s.after L).tail = s.tail + l.length := by
  induction L generalizing s l with
  | nil =>
    have : l = [] := by cases l <;> simp_all
    subst this; simp [Store.after]
  | cons x L ih =>
    cases l with
    | nil => simp at h
    | cons d l =>
      simp only [List.map_cons, entries_cons, List.cons.injEq] at h
      have hs : x.2.2.seq = s.tail + 1 := by simpa using congrArg Prod.fst h.1
      have : ((s.compl x).after L).tail = (s.compl x).tail + l.length := by
        apply ih
        show L.map xkey = entries (x.2.2.seq + 1) l
        rw [hs]; exact h.2
      show ((s.compl x).after L).tail = _
      rw [this]
      show x.2.2.seq + (l.length : Int) = _
      rw [hs]; simp; omega

theorem Store.after_next (s : Store) {L : List (Nat × Nat × LRec D)} {l : List D}
    (h : L.map xkey = entries (s.tail + 1) l) (hn : s.tail + 1 ≤ s.next) :
    (s.after L).next = max s.next (s.tail + 1 + l.length) := by
  induction L generalizing s l with
  | nil =>
    have : l = [] := by cases l <;> simp_all
    subst this; simp [Store.after]; omega
  | cons x L ih =>
    cases l with
    | nil => simp at h
    | cons d l =>
      simp only [List.map_cons, entries_cons, List.cons.injEq] at h
      have hs : x.2.2.seq = s.tail + 1 := by simpa using congrArg Prod.fst h.1
      have : ((s.compl x).after L).next = max (s.compl x).next ((s.compl x).tail + 1 + l.length) := by
        apply ih
        · show L.map xkey = entries (x.2.2.seq + 1) l
          rw [hs]; exact h.2
        · show x.2.2.seq + 1 ≤ max s.next (x.2.2.seq + 1)
          omega
      show ((s.compl x).after L).next = _
      rw [this]
      show max (max s.next (x.2.2.seq + 1)) (x.2.2.seq + 1 + (l.length : Int)) = _
      rw [hs]; simp only [List.length_cons]; omega

theorem Store.after_recs_not (s : Store) {L : List (Nat × Nat × LRec D)} (l : Int)
    (h : ∀ x ∈ L, x.2.2.seq ≠ l) : (s.after L).recs l = s.recs l := by
  induction L generalizing s with
  | nil => rfl
  | cons x L ih =>
    have : ((s.compl x).after L).recs l = (s.compl x).recs l := ih _ (fun y hy => h y (List.mem_cons_of_mem _ hy))
    show ((s.compl x).after L).recs l = _
    rw [this]
    show (if l = x.2.2.seq then _ else s.recs l) = _
    rw [if_neg (fun e => h x (List.mem_cons_self ..) e.symm)]

theorem Store.after_recs (s : Store) {L : List (Nat × Nat × LRec D)} {b : Int} {l : List D}
    (h : L.map xkey = entries b l) {x : Nat × Nat × LRec D} (hx : x ∈ L) :
    (s.after L).recs x.2.2.seq = some ⟨⟨x.1, x.2.1⟩, ⟨x.2.1, x.2.1⟩, true⟩ := by
  induction L generalizing s b l with
  | nil => simp at hx
  | cons y L ih =>
    cases l with
    | nil => simp at h
    | cons d l =>
      simp only [List.map_cons, entries_cons, List.cons.injEq] at h
      rcases List.mem_cons.1 hx with rfl | hx'
      · show ((s.compl x).after L).recs x.2.2.seq = _
        rw [Store.after_recs_not]
        · show (if x.2.2.seq = x.2.2.seq then _ else _) = _
          rw [if_pos rfl]
        · intro z hz e
          have : xkey z ∈ entries (b + 1) l := by rw [← h.2]; exact List.mem_map_of_mem hz
          have h1 := (mem_entries_range this).1
          have h2 : x.2.2.seq = b := by simpa using congrArg Prod.fst h.1
          simp only [xkey] at h1
          omega
      · exact ih (s.compl y) h.2 hx'

/-- The completions of a group whose records are in order for every store. -/
theorem completeAll_inorder (grp : Nat) (P : List (LRec D)) : ∀ (st : Nat → Option Store) (idx : Nat),
    (∀ r ∈ P, (st r.store).isSome) →
    (∀ id s, st id = some s → ∃ l, ((recsFrom grp idx P).filter (fun x => x.2.2.store == id)).map xkey =
      entries (s.tail + 1) l) →
    completeAll grp st idx P =
      .ok (fun id => (st id).map (fun s => s.after ((recsFrom grp idx P).filter (fun x => x.2.2.store == id)))) := by
  induction P with
  | nil =>
    intro st idx _ _
    simp only [completeAll, recsFrom, List.filter_nil]
    congr 1
    funext id
    cases st id <;> rfl
  | cons r P ih =>
    intro st idx hopen hseq
    obtain ⟨s, hs⟩ := Option.isSome_iff_exists.1 (hopen r (List.mem_cons_self ..))
    obtain ⟨l, hl⟩ := hseq r.store s hs
    have hrf : recsFrom grp idx (r :: P) = (idx, grp, r) :: recsFrom grp (idx + 1) P := rfl
    rw [hrf, List.filter_cons_of_pos (by simp)] at hl
    cases l with
    | nil => simp at hl
    | cons d l =>
      simp only [List.map_cons, entries_cons, List.cons.injEq] at hl
      have hsq : r.seq = s.tail + 1 := by simpa using congrArg Prod.fst hl.1
      simp only [completeAll, hs]
      rw [show s.complete r.seq ⟨(idx : Int), grp⟩ ⟨(grp : Int), grp⟩ = .ok (s.compl (idx, grp, r)) from
        Store.complete_inorder s (idx, grp, r) (by show s.tail < r.seq; omega)]
      simp only []
      rw [ih]
      · congr 1
        funext id
        by_cases hid : id = r.store
        · subst hid
          rw [if_pos rfl, hs, hrf, List.filter_cons_of_pos (by simp)]
          rfl
        · rw [if_neg hid, hrf, List.filter_cons_of_neg (by simpa using fun e => hid e.symm)]
      · intro r' hr'
        by_cases hid : r'.store = r.store
        · simp [hid]
        · simpa [hid] using hopen r' (List.mem_cons_of_mem _ hr')
      · intro id s' hs'
        by_cases hid : id = r.store
        · subst hid
          rw [if_pos rfl] at hs'
          cases hs'
          refine ⟨l, ?_⟩
          show _ = entries (r.seq + 1) l
          rw [hsq]
          exact hl.2
        · rw [if_neg hid] at hs'
          obtain ⟨l', hl'⟩ := hseq id s' hs'
          rw [hrf, List.filter_cons_of_neg (by simpa using fun e => hid e.symm)] at hl'
          exact ⟨l', hl'⟩

/-- The records a store finds in a replay. -/
def foundBy (rolls : List Roll) (id : Nat) (start : Int) (x : Nat × Nat × LRec D) : Bool :=
  (x.2.2.store == id) && !rolledBack rolls id x.1 && decide (start ≤ x.2.2.seq)

theorem loadAll_inorder (rolls : List Roll) (P : List (Nat × Nat × LRec D)) :
    ∀ (st : Nat → Option Store) (out : Nat → List (Int × D)),
    (∀ id s, st id = some s → ∃ l, (P.filter (foundBy rolls id s.start)).map xkey = entries (s.tail + 1) l) →
    ∃ out', loadAll rolls st out P =
      .ok (fun id => (st id).map (fun s => s.after (P.filter (foundBy rolls id s.start))), out') ∧
      ∀ id, out' id = match st id with
        | none => out id
        | some s => out id ++ (P.filter (foundBy rolls id s.start)).map xkey := by
  induction P with
  | nil =>
    intro st out _
    refine ⟨out, ?_, ?_⟩
    · simp only [loadAll, List.filter_nil]
      congr 2
      funext id
      cases st id <;> rfl
    · intro id; cases st id <;> simp
  | cons x P ih =>
    intro st out hseq
    -- records that are skipped
    have hskip : ∀ (hno : ∀ s, st x.2.2.store = some s → foundBy rolls x.2.2.store s.start x = false),
        loadRec rolls st out x = .ok (st, out) →
        ∃ out', loadAll rolls st out (x :: P) =
          .ok (fun id => (st id).map (fun s => s.after ((x :: P).filter (foundBy rolls id s.start))), out') ∧
          ∀ id, out' id = match st id with
            | none => out id
            | some s => out id ++ ((x :: P).filter (foundBy rolls id s.start)).map xkey := by
      intro hno heq
      have hf : ∀ id s, st id = some s → (x :: P).filter (foundBy rolls id s.start) = P.filter (foundBy rolls id s.start) := by
        intro id s hs
        apply List.filter_cons_of_neg
        by_cases hid : x.2.2.store = id
        · subst hid; simp [hno s hs]
        · simp [foundBy, hid]
      obtain ⟨out', h1, h2⟩ := ih st out (fun id s hs => by
        obtain ⟨l, hl⟩ := hseq id s hs; rw [hf id s hs] at hl; exact ⟨l, hl⟩)
      refine ⟨out', ?_, ?_⟩
      · simp only [loadAll, heq, h1]
        congr 2
        funext id
        cases hs : st id with
        | none => rfl
        | some s => simp only [Option.map_some, hf id s hs]
      · intro id
        rw [h2]
        cases hs : st id with
        | none => rfl
        | some s => simp only [hf id s hs]
    by_cases hroll : rolledBack rolls x.2.2.store x.1 = true
    · exact hskip (fun s _ => by simp [foundBy, hroll]) (by unfold loadRec; rw [if_pos hroll])
    · cases hs : st x.2.2.store with
      | none => exact hskip (fun s h => by rw [hs] at h; cases h) (by unfold loadRec; rw [if_neg hroll, hs])
      | some s =>
        by_cases hst : x.2.2.seq < s.start
        · exact hskip (fun s' h => by rw [hs] at h; cases h; simp [foundBy]; intro _; omega)
            (by unfold loadRec; rw [if_neg hroll, hs]; simp only []; rw [if_pos hst])
        · have hfound : foundBy rolls x.2.2.store s.start x = true := by
            simp only [foundBy, beq_self_eq_true, Bool.true_and, Bool.and_eq_true, Bool.not_eq_true',
              decide_eq_true_eq]
            exact ⟨by simpa using hroll, by omega⟩
          obtain ⟨l, hl⟩ := hseq _ s hs
          rw [List.filter_cons_of_pos hfound] at hl
          cases l with
          | nil => simp at hl
          | cons d l =>
            simp only [List.map_cons, entries_cons, List.cons.injEq] at hl
            have hsq : x.2.2.seq = s.tail + 1 := by simpa using congrArg Prod.fst hl.1
            have hstep : loadRec rolls st out x = .ok (fun i => if i = x.2.2.store then some (s.compl x) else st i,
                fun i => if i = x.2.2.store then out i ++ [(x.2.2.seq, x.2.2.data)] else out i) := by
              unfold loadRec
              rw [if_neg hroll, hs]
              simp only []
              rw [if_neg hst, Store.complete_inorder s x (by omega)]
            simp only [loadAll, hstep]
            obtain ⟨out', h1, h2⟩ := ih (fun i => if i = x.2.2.store then some (s.compl x) else st i)
              (fun i => if i = x.2.2.store then out i ++ [(x.2.2.seq, x.2.2.data)] else out i) (by
              intro id s' hs'
              by_cases hid : id = x.2.2.store
              · rw [if_pos hid] at hs'
                cases hs'
                refine ⟨l, ?_⟩
                subst hid
                show _ = entries (x.2.2.seq + 1) l
                rw [hsq]
                exact hl.2
              · rw [if_neg hid] at hs'
                obtain ⟨l', hl'⟩ := hseq id s' hs'
                rw [List.filter_cons_of_neg (by simp [foundBy, Ne.symm hid])] at hl'
                exact ⟨l', hl'⟩)
            refine ⟨out', ?_, ?_⟩
            · rw [h1]
              congr 2
              funext id
              by_cases hid : id = x.2.2.store
              · subst hid
                rw [if_pos rfl, hs]
                simp only [Option.map_some]
                rw [List.filter_cons_of_pos hfound]
                rfl
              · rw [if_neg hid]
                cases hs' : st id with
                | none => rfl
                | some s' =>
                  simp only [Option.map_some]
                  rw [List.filter_cons_of_neg (by simp [foundBy, Ne.symm hid])]
            · intro id
              rw [h2]
              by_cases hid : id = x.2.2.store
              · subst hid
                rw [if_pos rfl, hs]
                simp only [if_pos]
                rw [List.filter_cons_of_pos hfound, List.map_cons, List.append_assoc]
                rfl
              · rw [if_neg hid]
                cases hs' : st id with
                | none => simp only [if_neg hid]
                | some s' =>
                  simp only [if_neg hid]
                  rw [List.filter_cons_of_neg (by simp [foundBy, Ne.symm hid])]

end HS.Log
