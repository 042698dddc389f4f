/-!
# Concurrent operations on one B-tree: what a user relies on

A tree is shared by threads.  What they do is a history of calls and returns.  It is linearizable if
between each call and its return a point can be chosen such that every operation seems to happen at its
point, all at once: in the order of the points, the results are those of one map used by one thread.
-/

namespace HS.Conc

/-- `btree_kv.hpp` 33-37 `btree_put_type`. -/
inductive PutType where
  | insert | update | upsert
  deriving DecidableEq, Repr

/-- The calls: `get`, `put` and `remove` of one key. -/
inductive Op where
  | get (k : Nat)
  | put (ty : PutType) (k v : Nat)
  | remove (k : Nat)
  deriving DecidableEq, Repr

/-- The key of a call. -/
def Op.key : Op → Nat
  | .get k => k
  | .put _ k _ => k
  | .remove k => k

/-- What a call returns. -/
inductive Res where
  /-- `get`, `remove`: the value found (`none`: `not_found`) -/
  | val (v : Option Nat)
  /-- `put`: done; the value that was there before -/
  | ok (old : Option Nat)
  /-- `put` of type insert: `already_exists` -/
  | present (old : Nat)
  /-- `put` of type update: `not_found` -/
  | absent
  /-- `put`, `remove`: no space for a node (`space_not_avail`, `merge_failed`) -/
  | err
  deriving DecidableEq, Repr

/-- The map with one key set. -/
def setKey (M : Nat → Option Nat) (k v : Nat) : Nat → Option Nat := fun x => if x = k then some v else M x

/-- The map with one key removed. -/
def delKey (M : Nat → Option Nat) (k : Nat) : Nat → Option Nat := fun x => if x = k then none else M x

/-- One call on a map. -/
def apply (M : Nat → Option Nat) : Op → (Nat → Option Nat) × Res
  | .get k => (M, .val (M k))
  | .remove k => (delKey M k, .val (M k))
  | .put .upsert k v => (setKey M k v, .ok (M k))
  | .put .insert k v =>
    match M k with
    | some old => (M, .present old)
    | none => (setKey M k v, .ok none)
  | .put .update k v =>
    match M k with
    | some old => (setKey M k v, .ok (some old))
    | none => (M, .absent)

/-- A sequence of calls with their results on a map, and the map it ends with.  A put or remove that
returns an error changes nothing. -/
inductive Legal : (Nat → Option Nat) → List (Op × Res) → (Nat → Option Nat) → Prop where
  | nil (M) : Legal M [] M
  | ok {M M'} (o : Op) {l} : Legal (apply M o).1 l M' → Legal M ((o, (apply M o).2) :: l) M'
  | err {M M'} (o : Op) {l} : (∀ k, o ≠ .get k) → Legal M l M' → Legal M ((o, .err) :: l) M'

/-- What happens, in order: calls, the chosen points, returns. -/
inductive Ev where
  | call (t : Nat) (o : Op)
  | point (t : Nat) (o : Op) (r : Res)
  | ret (t : Nat) (r : Res)
  deriving DecidableEq, Repr

/-- What the user sees of it: calls and returns, in order. -/
def Ev.seen : Ev → Bool
  | .point _ _ _ => false
  | _ => true

/-- The points, in order. -/
def points : List Ev → List (Op × Res)
  | [] => []
  | .point _ o r :: l => (o, r) :: points l
  | _ :: l => points l

/-- Where one thread is: outside, in a call before its point, or in a call after its point. -/
inductive Phase where
  | out
  | before (o : Op)
  | after (r : Res)
  deriving DecidableEq, Repr

/-- One event, seen from thread `t`; `none`: not in the order call, point of this call, return of the
point's result. -/
def Phase.next (t : Nat) (p : Phase) : Ev → Option Phase
  | .call t' o => if t' = t then (if p = .out then some (.before o) else none) else some p
  | .point t' o r => if t' = t then (if p = .before o then some (.after r) else none) else some p
  | .ret t' r => if t' = t then (if p = .after r then some .out else none) else some p

/-- All events, seen from thread `t`. -/
def phase (t : Nat) : Phase → List Ev → Option Phase
  | p, [] => some p
  | p, e :: l => match p.next t e with | some p' => phase t p' l | none => none

/-- A history of calls and returns is linearizable, starting with a map. -/
def Linearizable (M : Nat → Option Nat) (h : List Ev) : Prop :=
  ∃ (tr : List Ev) (M' : Nat → Option Nat), tr.filter Ev.seen = h ∧ (∀ t, (phase t .out tr).isSome) ∧ Legal M (points tr) M'

/-- A linearizable history of three overlapping calls. -/
example : Linearizable (fun _ => none)
    [.call 0 (.put .insert 1 7), .call 1 (.get 1), .ret 1 (.val (some 7)), .call 1 (.put .insert 1 8), .ret 0 (.ok none),
      .ret 1 (.present 7)] := by
  refine ⟨[.call 0 (.put .insert 1 7), .call 1 (.get 1), .point 0 (.put .insert 1 7) (.ok none), .point 1 (.get 1) (.val (some 7)),
    .ret 1 (.val (some 7)), .call 1 (.put .insert 1 8), .point 1 (.put .insert 1 8) (.present 7), .ret 0 (.ok none), .ret 1 (.present 7)],
    _, rfl, ?_, .ok (.put .insert 1 7) (.ok (.get 1) (.ok (.put .insert 1 8) (.nil _)))⟩
  intro t
  by_cases h0 : t = 0
  · subst h0; rfl
  · by_cases h1 : t = 1
    · subst h1; rfl
    · simp [phase, Phase.next, Ne.symm h0, Ne.symm h1]

/-- A point of a thread that is not in a call is nowhere. -/
theorem no_point {t : Nat} {o : Op} {r : Res} {p : Phase} {l : List Ev} (hp : ∀ o', p ≠ .before o') : ¬ (phase t p (.point t o r :: l)).isSome := by
  simp [phase, Phase.next, hp o]

/-- A call that overlaps no other returns what the map says: there is one way to place its point. -/
theorem linearizable_alone {M : Nat → Option Nat} {t : Nat} {o : Op} {r : Res} (h : Linearizable M [.call t o, .ret t r]) :
    r = (apply M o).2 ∨ (r = .err ∧ ∀ k, o ≠ .get k) := by
  obtain ⟨tr, M', h1, h2, h3⟩ := h
  rcases tr with _ | ⟨e, l⟩
  · simp at h1
  rcases e with ⟨t1, o1⟩ | ⟨t', o', r'⟩ | ⟨t', r'⟩
  case point => exact absurd (h2 t') (no_point (by simp))
  case ret => simp [List.filter_cons, Ev.seen] at h1
  simp only [List.filter_cons, Ev.seen, if_true, List.cons.injEq, Ev.call.injEq] at h1
  obtain ⟨⟨rfl, rfl⟩, h1⟩ := h1
  rcases l with _ | ⟨e, l⟩
  · simp at h1
  rcases e with ⟨t2, o2⟩ | ⟨t2, o2, r2⟩ | ⟨t2, r2⟩
  case call => simp [List.filter_cons, Ev.seen] at h1
  case ret =>
    simp only [List.filter_cons, Ev.seen, if_true, List.cons.injEq, Ev.ret.injEq] at h1
    have := h2 t2
    simp [phase, Phase.next, h1.1.1] at this
  have ht : t2 = t1 := by
    by_cases ht : t2 = t1
    · exact ht
    · have := h2 t2
      simp [phase, Phase.next, Ne.symm ht] at this
  subst ht
  have ho : o1 = o2 := by
    have := h2 t2
    by_cases ho : o1 = o2
    · exact ho
    · simp [phase, Phase.next, ho] at this
  subst ho
  simp only [List.filter_cons, Ev.seen, Bool.false_eq_true, if_false] at h1
  rcases l with _ | ⟨e, l⟩
  · simp at h1
  rcases e with ⟨t3, o3⟩ | ⟨t3, o3, r3⟩ | ⟨t3, r3⟩
  case call => simp [List.filter_cons, Ev.seen] at h1
  case point =>
    have := h2 t3
    by_cases ht : t2 = t3
    · simp [phase, Phase.next, ht] at this
    · simp [phase, Phase.next, ht] at this
  simp only [List.filter_cons, Ev.seen, if_true, List.cons.injEq, Ev.ret.injEq] at h1
  obtain ⟨⟨rfl, rfl⟩, h1⟩ := h1
  have hr : r2 = r3 := by
    have := h2 t3
    by_cases hr : r2 = r3
    · exact hr
    · simp [phase, Phase.next, hr] at this
  subst hr
  simp only [points] at h3
  cases h3 with
  | ok _ _ => exact Or.inl rfl
  | err _ h _ => exact Or.inr ⟨rfl, h⟩

/-- So a history that is not linearizable. -/
example : ¬ Linearizable (fun _ => none) [.call 0 (.get 1), .ret 0 (.val (some 5))] := by
  intro h
  rcases linearizable_alone h with h | ⟨h, _⟩
  · simp [apply] at h
  · cases h

end HS.Conc
