import Verif.Varlen.Moves
/-!
# C76: nodes with entries of variable size hold what was put into them
-/
namespace HS.Varlen

/-- Operations on the nodes of a tree.  `x` and `y` are nodes. -/
inductive Op where
  | alloc (x : Nat) (leaf : Bool)
  | insert (x ind : Nat) (kb vb : Bytes)
  | update (x ind : Nat) (kb vb : Bytes)
  | updateVal (x ind : Nat) (vb : Bytes)
  | remove (x is ie : Nat)
  | removeAll (x : Nat)
  | moveEntries (x y cnt : Nat)
  | moveSize (x y size : Nat)
  | copyEntries (x y start cnt : Nat)
  | copySize (x y start size : Nat)

def upd {α : Type} (f : Nat → α) (x : Nat) (a : α) : Nat → α := fun y => if y = x then a else f y

/-- The nodes of the program. -/
def step (P : Params) (S : Nat → VN) : Op → Option (Nat → VN)
  | .alloc x leaf => some (upd S x (VN.new P (S x).mem leaf))
  | .insert x ind kb vb => ((S x).insert P ind kb vb).map (fun r => upd S x r.2)
  | .update x ind kb vb => ((S x).update P ind kb vb).map (upd S x)
  | .updateVal x ind vb => ((S x).updateVal P ind vb).map (upd S x)
  | .remove x is ie => ((S x).remove P is ie).map (upd S x)
  | .removeAll x => some (upd S x ((S x).removeAll P))
  | .moveEntries x y cnt => ((S x).moveEntries P (S y) cnt).map (fun r => upd (upd S x r.2.1) y r.2.2)
  | .moveSize x y size => ((S x).moveSize P (S y) size).map (fun r => upd (upd S x r.2.1) y r.2.2)
  | .copyEntries x y start cnt => ((S x).copyEntries P (S y) start cnt).map (fun r => upd S x r.2)
  | .copySize x y start size => ((S x).copySize P (S y) start size).map (fun r => upd S x r.2)

def run (P : Params) : (Nat → VN) → List Op → Option (Nat → VN)
  | S, [] => some S
  | S, op :: ops => match step P S op with
    | none => none
    | some S => run P S ops

/-- Specification: nodes are lists. -/
def absStep (P : Params) (A : Nat → Abs) : Op → Option (Nat → Abs)
  | .alloc x leaf => some (upd A x { ents := [], edge := none, leaf })
  | .insert x ind kb vb => ((A x).insert P ind kb vb).map (upd A x)
  | .update x ind kb vb => ((A x).update P ind kb vb).map (upd A x)
  | .updateVal x ind vb => ((A x).updateVal P ind vb).map (upd A x)
  | .remove x is ie => ((A x).remove is ie).map (upd A x)
  | .removeAll x => some (upd A x (A x).removeAll)
  | .moveEntries x y cnt => ((A x).moveEntries P (A y) cnt).map (fun r => upd (upd A x r.1) y r.2)
  | .moveSize x y size => ((A x).moveSize P (A y) size).map (fun r => upd (upd A x r.2.1) y r.2.2)
  | .copyEntries x y start cnt => ((A x).copyEntries P (A y) start cnt).map (fun r => upd A x r.2)
  | .copySize x y start size => ((A x).copySize P (A y) start size).map (fun r => upd A x r.2)

def absRun (P : Params) : (Nat → Abs) → List Op → Option (Nat → Abs)
  | A, [] => some A
  | A, op :: ops => match absStep P A op with
    | none => none
    | some A => absRun P A ops

/-- Entries are moved and copied between different nodes, and what is put fits into 16 bits. -/
def Op.Ok (P : Params) : Op → Prop
  | .insert _ _ kb vb => kb.length + vb.length < 65500
  | .update _ _ kb vb => kb.length + vb.length < 65500
  | .updateVal _ _ vb => P.size + vb.length < 65500
  | .moveEntries x y _ => x ≠ y
  | .moveSize x y _ => x ≠ y
  | _ => True

theorem upd_same {α : Type} {f : Nat → α} {x : Nat} {a : α} : upd f x a x = a := by simp [upd]
theorem upd_other {α : Type} {f : Nat → α} {x y : Nat} {a : α} (h : y ≠ x) : upd f x a y = f y := by simp [upd, h]

/-- What holds of the nodes of the program and of the lists. -/
structure Sim (P : Params) (m0 : Nat → Mem) (S : Nat → VN) (A : Nat → Abs) : Prop where
  inv : ∀ x, Inv P (S x)
  abs : ∀ x, (S x).abs P = A x
  safe : ∀ x a, a < 6 ∨ P.size ≤ a → (S x).mem a = m0 x a

theorem Sim.upd1 {P : Params} {m0 : Nat → Mem} {S : Nat → VN} {A : Nat → Abs} {x : Nat} {r : VN} {a : Abs} (h : Sim P m0 S A) (hm : Meets P (S x) r a) :
    Sim P m0 (upd S x r) (upd A x a) := by
  refine ⟨fun y => ?_, fun y => ?_, fun y b hb => ?_⟩ <;> by_cases hy : y = x
  · subst hy; rw [upd_same]; exact hm.inv
  · rw [upd_other hy]; exact h.inv y
  · subst hy; rw [upd_same, upd_same]; exact hm.abs
  · rw [upd_other hy, upd_other hy]; exact h.abs y
  · subst hy; rw [upd_same, hm.safe b hb]; exact h.safe y b hb
  · rw [upd_other hy]; exact h.safe y b hb

theorem Sim.upd2 {P : Params} {m0 : Nat → Mem} {S : Nat → VN} {A : Nat → Abs} {x y : Nat} {r t : VN} {p : Abs × Abs} (h : Sim P m0 S A) (hne : x ≠ y)
    (hm : Meets2 P (S x) (S y) r t p) : Sim P m0 (upd (upd S x r) y t) (upd (upd A x p.1) y p.2) := by
  apply Sim.upd1 (h.upd1 ⟨hm.inv1, hm.abs1, hm.safe1⟩)
  rw [upd_other (Ne.symm hne)]
  exact ⟨hm.inv2, hm.abs2, hm.safe2⟩

theorem step_sim {P : Params} {m0 : Nat → Mem} {S : Nat → VN} {A : Nat → Abs} {op : Op} (hP : Sorts P.sort) (h : Sim P m0 S A) (hok : op.Ok P) :
    match step P S op, absStep P A op with
    | some S', some A' => Sim P m0 S' A'
    | none, none => True
    | _, _ => False := by
  cases op with
  | alloc x leaf =>
    exact h.upd1 ⟨inv_new (h.inv x).low (h.inv x).high, rfl, Safe.refl⟩
  | insert x ind kb vb =>
    have key := insert_spec (ind := ind) hP (h.inv x) hok
    rw [h.abs x] at key
    simp only [step, absStep]
    revert key
    cases (S x).insert P ind kb vb <;> cases (A x).insert P ind kb vb <;> intro key
    · trivial
    · exact key
    · exact key
    · exact h.upd1 key.1
  | update x ind kb vb =>
    have key := update_spec (ind := ind) hP (h.inv x) hok
    rw [h.abs x] at key
    simp only [step, absStep]
    revert key
    cases (S x).update P ind kb vb <;> cases (A x).update P ind kb vb <;> intro key
    · trivial
    · exact key
    · exact key
    · exact h.upd1 key
  | updateVal x ind vb =>
    have key := updateVal_spec (ind := ind) hP (h.inv x) hok
    rw [h.abs x] at key
    simp only [step, absStep]
    revert key
    cases (S x).updateVal P ind vb <;> cases (A x).updateVal P ind vb <;> intro key
    · trivial
    · exact key
    · exact key
    · exact h.upd1 key
  | remove x is ie =>
    have key := remove_spec (is := is) (ie := ie) (h.inv x)
    rw [h.abs x] at key
    simp only [step, absStep]
    revert key
    cases (S x).remove P is ie <;> cases (A x).remove is ie <;> intro key
    · trivial
    · exact key
    · exact key
    · exact h.upd1 key
  | removeAll x =>
    have key := removeAll_spec (h.inv x)
    rw [h.abs x] at key
    exact h.upd1 key
  | moveEntries x y cnt =>
    have key := moveEntries_spec (cnt := cnt) hP (h.inv x) (h.inv y)
    rw [h.abs x, h.abs y] at key
    simp only [step, absStep]
    revert key
    cases (S x).moveEntries P (S y) cnt <;> cases (A x).moveEntries P (A y) cnt <;> intro key
    · trivial
    · exact key
    · exact key
    · exact h.upd2 hok key.1
  | moveSize x y size =>
    have key := moveSize_spec (size := size) hP (h.inv x) (h.inv y)
    rw [h.abs x, h.abs y] at key
    simp only [step, absStep]
    revert key
    cases (S x).moveSize P (S y) size <;> cases (A x).moveSize P (A y) size <;> intro key
    · trivial
    · exact key
    · exact key
    · exact h.upd2 hok key.1
  | copyEntries x y start cnt =>
    have key := copyEntries_spec (start := start) (cnt := cnt) hP (h.inv x) (h.inv y)
    rw [h.abs x, h.abs y] at key
    simp only [step, absStep]
    revert key
    cases (S x).copyEntries P (S y) start cnt <;> cases (A x).copyEntries P (A y) start cnt <;> intro key
    · trivial
    · exact key
    · exact key
    · exact h.upd1 key.1
  | copySize x y start size =>
    have key := copySize_spec (start := start) (size := size) hP (h.inv x) (h.inv y)
    rw [h.abs x, h.abs y] at key
    simp only [step, absStep]
    revert key
    cases (S x).copySize P (S y) start size <;> cases (A x).copySize P (A y) start size <;> intro key
    · trivial
    · exact key
    · exact key
    · exact h.upd1 key.1

theorem run_sim {P : Params} {m0 : Nat → Mem} (hP : Sorts P.sort) : ∀ (ops : List Op) (S : Nat → VN) (A : Nat → Abs), Sim P m0 S A → (∀ op ∈ ops, op.Ok P) →
    match run P S ops, absRun P A ops with
    | some S', some A' => Sim P m0 S' A'
    | none, none => True
    | _, _ => False := by
  intro ops
  induction ops with
  | nil => intro S A h _; exact h
  | cons op ops ih =>
    intro S A h hok
    have key := step_sim hP h (hok op List.mem_cons_self)
    simp only [run, absRun]
    revert key
    cases step P S op <;> cases absStep P A op <;> intro key
    · trivial
    · exact key.elim
    · exact key.elim
    · exact ih _ _ key (fun o ho => hok o (List.mem_cons_of_mem _ ho))

/-- New nodes in buffers with any content. -/
def fresh (P : Params) (m0 : Nat → Mem) : Nat → VN := fun x => VN.new P (m0 x) true
def absFresh : Nat → Abs := fun _ => { ents := [], edge := none, leaf := true }

theorem sim_fresh {P : Params} {m0 : Nat → Mem} (h1 : 6 ≤ P.size) (h2 : P.size < 16384) : Sim P m0 (fresh P m0) absFresh :=
  ⟨fun _ => inv_new h1 h2, fun _ => rfl, fun _ _ _ => rfl⟩

/-- Every history of operations on nodes of less than 16 KiB: the program gives up (or leaves the node) exactly where
the lists do; otherwise every node reads as its list says, key by key and value by value, the counter of free space is
exact, and no byte outside the records and the objects has been written. -/
theorem C76_history_partial {P : Params} {m0 : Nat → Mem} {ops : List Op} (hP : Sorts P.sort) (h1 : 6 ≤ P.size) (h2 : P.size < 16384)
    (hok : ∀ op ∈ ops, op.Ok P) :
    (run P (fresh P m0) ops = none ↔ absRun P absFresh ops = none) ∧
    ∀ S A, run P (fresh P m0) ops = some S → absRun P absFresh ops = some A → ∀ x,
      (S x).n = (A x).ents.length ∧
      (∀ i, i < (S x).n → (A x).ents[i]? = some ((S x).key P i, (S x).value P i)) ∧
      (S x).edge = (A x).edge ∧ (S x).leaf = (A x).leaf ∧
      (S x).avail + costs P (A x).ents + 6 = P.size ∧
      ∀ a, a < 6 ∨ P.size ≤ a → (S x).mem a = m0 x a := by
  have key := run_sim hP ops _ _ (sim_fresh (m0 := m0) h1 h2) hok
  revert key
  cases hS : run P (fresh P m0) ops <;> cases hA : absRun P absFresh ops <;> intro key
  · simp
  · exact key.elim
  · exact key.elim
  · refine ⟨by simp, ?_⟩
    intro S A hs ha x
    cases hs
    cases ha
    have hx := key.abs x
    refine ⟨?_, ?_, ?_, ?_, ?_, key.safe x⟩
    · rw [← hx]
      exact ents_length.symm
    · intro i hi
      rw [← hx]
      exact nth_ents hi
    · rw [← hx]
      rfl
    · rw [← hx]
      rfl
    · have h3 := avail_eq (key.inv x)
      have h4 := costs_le (key.inv x)
      rw [← hx]
      simp only [Abs.free, VN.abs] at h3 ⊢
      omega

/-- What an operation reports: the size that an insert takes, the number of entries that a move by size or a copy
moves; and `num_entries_by_size`. -/
theorem C76_results_partial {P : Params} {m0 : Nat → Mem} {ops : List Op} {S : Nat → VN} (hP : Sorts P.sort) (h1 : 6 ≤ P.size) (h2 : P.size < 16384)
    (hok : ∀ op ∈ ops, op.Ok P) (hrun : run P (fresh P m0) ops = some S) :
    ∃ A, absRun P absFresh ops = some A ∧
      (∀ x ind kb vb r, kb.length + vb.length < 65500 → (S x).insert P ind kb vb = some r → r.1 = cost P (kb, vb)) ∧
      (∀ x y size r, (S x).moveSize P (S y) size = some r → r.1 = greedy P size (A x).ents.tail.reverse) ∧
      (∀ x y start size r, (S x).copySize P (S y) start size = some r → r.1 = greedy P size ((A y).ents.drop start)) ∧
      (∀ x y start cnt r, (S x).copyEntries P (S y) start cnt = some r → r.1 = min cnt ((A y).ents.length - start)) ∧
      (∀ x start size, (S x).numBySize P start size = greedy P size ((A x).ents.drop start)) ∧
      (∀ x, (S x).occupied = costs P (A x).ents) := by
  have key := run_sim hP ops _ _ (sim_fresh (m0 := m0) h1 h2) hok
  rw [hrun] at key
  cases hA : absRun P absFresh ops with
  | none => rw [hA] at key; exact key.elim
  | some A =>
    rw [hA] at key
    refine ⟨A, rfl, ?_, ?_, ?_, ?_, ?_, ?_⟩
    · intro x ind kb vb r hl hr
      have := insert_spec (ind := ind) hP (key.inv x) hl
      rw [hr] at this
      revert this
      cases ((S x).abs P).insert P ind kb vb <;> intro this
      · exact this.elim
      · exact this.2
    · intro x y size r hr
      have := moveSize_spec (size := size) hP (key.inv x) (key.inv y)
      rw [hr, key.abs x] at this
      revert this
      cases ha : (A x).moveSize P ((S y).abs P) size <;> intro this
      · exact this.elim
      · rw [this.2]
        rw [Abs.moveSize] at ha
        split at ha
        · simp at ha
        · rw [Option.map_eq_some_iff] at ha
          obtain ⟨p, -, rfl⟩ := ha
          rfl
    · intro x y start size r hr
      have := copySize_spec (start := start) (size := size) hP (key.inv x) (key.inv y)
      rw [hr, key.abs y] at this
      revert this
      cases ha : ((S x).abs P).copySize P (A y) start size <;> intro this
      · exact this.elim
      · rw [this.2]
        rw [Abs.copySize, Option.map_eq_some_iff] at ha
        obtain ⟨p, -, rfl⟩ := ha
        rfl
    · intro x y start cnt r hr
      have := copyEntries_spec (start := start) (cnt := cnt) hP (key.inv x) (key.inv y)
      rw [hr, key.abs y] at this
      revert this
      cases ha : ((S x).abs P).copyEntries P (A y) start cnt <;> intro this
      · exact this.elim
      · rw [this.2]
        rw [Abs.copyEntries] at ha
        split at ha
        · rw [Option.map_eq_some_iff] at ha
          obtain ⟨p, -, rfl⟩ := ha
          rfl
        · simp at ha
    · intro x start size
      rw [numBySize_spec, key.abs x]
    · intro x
      have h3 := avail_eq (key.inv x)
      have h4 := costs_le (key.inv x)
      have h5 := (key.inv x).init
      rw [← key.abs x]
      simp only [VN.occupied, Abs.free, VN.abs] at h3 ⊢
      omega

/-- `has_room_for_put` can be relied on: a put that it allows does not abort. -/
theorem C76_room_partial {P : Params} {m0 : Nat → Mem} {ops : List Op} {S : Nat → VN} (hP : Sorts P.sort) (h1 : 6 ≤ P.size) (h2 : P.size < 16384)
    (hok : ∀ op ∈ ops, op.Ok P) (hrun : run P (fresh P m0) ops = some S) {x ind : Nat} {kb vb : Bytes} (hf : P.kind.fits kb vb = true) :
    (ind ≤ (S x).n → ((S x).hasRoom P false kb.length vb.length = true ↔ (S x).insert P ind kb vb ≠ none) ∨ 65500 ≤ kb.length + vb.length) ∧
    (ind < (S x).n → (S x).hasRoom P true kb.length vb.length = true → (S x).update P ind kb vb ≠ none) := by
  have key := run_sim hP ops _ _ (sim_fresh (m0 := m0) h1 h2) hok
  rw [hrun] at key
  cases hA : absRun P absFresh ops with
  | none => rw [hA] at key; exact key.elim
  | some A =>
    rw [hA] at key
    have hav := avail_eq (key.inv x)
    have hle : ((S x).abs P).ents.length = (S x).n := ents_length
    have h4 := costs_le (key.inv x)
    constructor
    · intro hi
      by_cases hl : kb.length + vb.length < 65500
      · left
        have := insert_spec (ind := ind) hP (key.inv x) hl
        simp only [VN.hasRoom, decide_eq_true_eq, Bool.false_eq_true, if_false]
        revert this
        cases hx : (S x).insert P ind kb vb <;> cases ha : ((S x).abs P).insert P ind kb vb <;> intro this
        · simp only [ne_eq, not_true_eq_false, iff_false]
          intro h
          rw [Abs.insert, if_pos ⟨by omega, hf, by rw [← hav]; exact h⟩] at ha
          simp at ha
        · exact this.elim
        · exact this.elim
        · rw [Abs.insert] at ha
          split at ha
          · rename_i hc
            simp only [ne_eq, reduceCtorEq, not_false_eq_true, iff_true]
            rw [hav]
            exact hc.2.2
          · simp at ha
      · right
        omega
    · intro hi hr
      simp only [VN.hasRoom, decide_eq_true_eq, if_true] at hr
      have hl : kb.length + vb.length < 65500 := by
        simp only [Abs.free] at hav
        omega
      have := update_spec (ind := ind) hP (key.inv x) hl
      intro hx
      rw [hx] at this
      have ha : ((S x).abs P).update P ind kb vb = some { (S x).abs P with ents := ((S x).ents P).set ind (kb, vb) } := by
        have he : ((S x).abs P).ents[ind]? = some ((S x).key P ind, (S x).value P ind) := nth_ents hi
        rw [Abs.update, if_neg (by omega), he]
        simp only
        rw [if_pos ⟨hf, by omega⟩]
        rfl
      rw [ha] at this
      exact this

/-! ## Non-vacuity -/

def insSorted (a : Nat × Nat) : List (Nat × Nat) → List (Nat × Nat)
  | [] => [a]
  | b :: l => if b.1 ≤ a.1 then a :: b :: l else b :: insSorted a l

def isort : List (Nat × Nat) → List (Nat × Nat)
  | [] => []
  | a :: l => insSorted a (isort l)

theorem insSorted_perm {a : Nat × Nat} : ∀ l, (insSorted a l).Perm (a :: l)
  | [] => List.Perm.refl _
  | b :: l => by
    unfold insSorted
    split
    · exact List.Perm.refl _
    · exact ((insSorted_perm l).cons b).trans (List.Perm.swap a b l)

theorem insSorted_sorted {a : Nat × Nat} : ∀ l, l.Pairwise (fun a b : Nat × Nat => b.1 ≤ a.1) → (insSorted a l).Pairwise (fun a b : Nat × Nat => b.1 ≤ a.1)
  | [], _ => by simp [insSorted]
  | b :: l, h => by
    obtain ⟨h1, h2⟩ := List.pairwise_cons.1 h
    unfold insSorted
    split
    · rename_i hc
      refine List.pairwise_cons.2 ⟨?_, h⟩
      intro x hx
      rcases List.mem_cons.1 hx with rfl | hx
      · exact hc
      · exact Nat.le_trans (h1 x hx) hc
    · refine List.pairwise_cons.2 ⟨?_, insSorted_sorted l h2⟩
      intro x hx
      rcases List.mem_cons.1 ((insSorted_perm l).subset hx) with rfl | hx
      · omega
      · exact h1 x hx

theorem isort_sorts : Sorts isort := by
  intro l
  induction l with
  | nil => exact ⟨List.Perm.refl _, by simp [isort]⟩
  | cons a l ih => exact ⟨(insSorted_perm _).trans (ih.1.cons a), insSorted_sorted _ ih.2⟩

/-- Nodes of 60 bytes. -/
def exP : Params := { kind := .varObj, size := 60, sort := isort }

/-- Puts of different sizes, an update in place, one that moves the entry, a removal, an insert that needs a
compaction, a split and a copy back. -/
def exOps : List Op :=
  [.insert 0 0 [1] [10, 11], .insert 0 1 [3, 3] [30, 31, 32, 33], .insert 0 1 [2, 2] [20], .update 0 1 [2, 2] [],
   .updateVal 0 0 [12, 13, 14, 15], .remove 0 1 1, .insert 0 2 [4] [40, 41, 42, 43, 44, 45, 46, 47, 48, 49],
   .insert 0 0 [0] [], .moveSize 0 1 30, .insert 1 0 [3] [], .removeAll 2, .copySize 2 0 1 30, .copyEntries 2 1 0 1]

example : (∀ op ∈ exOps, op.Ok exP) ∧ (run exP (fresh exP (fun _ _ => 255)) exOps).isSome = true ∧
    (absRun exP absFresh exOps).map (fun A => ((A 0).ents, (A 1).ents, (A 2).ents)) =
      some ([([0], []), ([1], [12, 13, 14, 15])], [([3], []), ([3, 3], [30, 31, 32, 33]), ([4], [40, 41, 42, 43, 44, 45, 46, 47, 48, 49])],
        [([1], [12, 13, 14, 15]), ([3], [])]) := by
  refine ⟨?_, by decide +kernel, by rfl⟩
  intro op hop
  simp only [exOps, List.mem_cons, List.not_mem_nil, or_false] at hop
  rcases hop with rfl | rfl | rfl | rfl | rfl | rfl | rfl | rfl | rfl | rfl | rfl | rfl | rfl <;> simp [Op.Ok, exP]

end HS.Varlen
