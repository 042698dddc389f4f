import Verif.Btree.Total
import Verif.Btree.Query

/-!
# Histories of single-key operations

A caller that issues puts, gets and removes one at a time against one tree, and the same history against an
ordered map.
-/

namespace HS.Btree

variable {K V : Type} [LinearOrder K]

/-- One call of `Btree::put`, `Btree::get` or `Btree::remove` with a single-key request
(`btree.ipp` 84, 152, 176). -/
inductive Op (K V : Type) where
  | put (r : PutReq K V)
  | get (k : K)
  | remove (k : K)

/-- What the caller sees of one call: the status and `existing_val` of a put; the value found by a get
(`none`: `not_found`); the value removed by a remove (`none`: `not_found`). -/
inductive Out (V : Type) where
  | put (st : Status) (existing : Option V)
  | get (v : Option V)
  | remove (v : Option V)
  deriving DecidableEq

/-- One call on the tree. -/
def step (c : Cfg K V) (fuel : Nat) (b : BT K V) : Op K V → Except Fault (BT K V × Out V)
  | .put r =>
    match put c r fuel b with
    | .error e => .error e
    | .ok (b', st, ex) => .ok (b', .put st ex)
  | .get k =>
    match get b k with
    | .error e => .error e
    | .ok v => .ok (b, .get v)
  | .remove k =>
    match remove c k fuel b with
    | .error e => .error e
    | .ok (b', v) => .ok (b', .remove v)

/-- A history of calls on the tree; an error stops it. -/
def run (c : Cfg K V) (fuel : Nat) : BT K V → List (Op K V) → Except Fault (BT K V × List (Out V))
  | b, [] => .ok (b, [])
  | b, op :: ops =>
    match step c fuel b op with
    | .error e => .error e
    | .ok (b', o) =>
      match run c fuel b' ops with
      | .error e => .error e
      | .ok (b'', os) => .ok (b'', o :: os)

namespace Spec

/-- One call on an ordered map. -/
def step (M : K → Option V) : Op K V → (K → Option V) × Out V
  | .put r => ((put M r.key r.val r.type r.filter).1,
      .put (put M r.key r.val r.type r.filter).2.1 (put M r.key r.val r.type r.filter).2.2)
  | .get k => (M, .get (M k))
  | .remove k => (del M k, .remove (M k))

/-- A history of calls on an ordered map. -/
def run : (K → Option V) → List (Op K V) → (K → Option V) × List (Out V)
  | M, [] => (M, [])
  | M, op :: ops => ((run (step M op).1 ops).1, (step M op).2 :: (run (step M op).1 ops).2)

end Spec

theorem step_ok {c : Cfg K V} (hc : c.Good) {fuel : Nat} {b b' : BT K V} {op : Op K V} {o : Out V}
    (hb : b.Inv) (h : step c fuel b op = .ok (b', o)) :
    b'.Inv ∧ (b'.map, o) = Spec.step b.map op := by
  cases op with
  | put r =>
    unfold step at h
    simp only at h
    split at h
    · cases h
    · rename_i b1 st ex hp
      cases h
      obtain ⟨h1, h2⟩ := put_ok fuel hb hp
      refine ⟨h1, ?_⟩
      unfold Spec.step
      simp only
      rw [← h2]
  | get k =>
    unfold step at h
    simp only [get_ok hb k] at h
    cases h
    exact ⟨hb, rfl⟩
  | remove k =>
    unfold step at h
    simp only at h
    split at h
    · cases h
    · rename_i b1 ex hp
      cases h
      obtain ⟨h1, h2⟩ := remove_ok hc fuel hb hp
      refine ⟨h1, ?_⟩
      unfold Spec.remove at h2
      unfold Spec.step
      simp only [Prod.mk.injEq] at h2 ⊢
      exact ⟨h2.1, by rw [h2.2]⟩

theorem run_ok {c : Cfg K V} (hc : c.Good) {fuel : Nat} (ops : List (Op K V)) :
    ∀ {b b' : BT K V} {os : List (Out V)}, b.Inv → run c fuel b ops = .ok (b', os) →
      b'.Inv ∧ (b'.map, os) = Spec.run b.map ops := by
  induction ops with
  | nil => intro b b' os hb h; unfold run at h; cases h; exact ⟨hb, rfl⟩
  | cons op ops ih =>
    intro b b' os hb h
    unfold run at h
    split at h
    · cases h
    · rename_i b1 o h1
      split at h
      · cases h
      · rename_i b2 os' h2
        cases h
        obtain ⟨g1, g2⟩ := step_ok hc hb h1
        obtain ⟨g3, g4⟩ := ih g1 h2
        refine ⟨g3, ?_⟩
        unfold Spec.run
        rw [← g2, ← g4]

theorem run_total {c : Cfg K V} (hc : c.Fixed) (hg : c.Good) (hm : c.mergeOn = false) {fuel : Nat} (hf : 4 ≤ fuel)
    (ops : List (Op K V)) :
    ∀ {b : BT K V}, b.Inv → Fits c b.lvl b.root → ∃ b' os, run c fuel b ops = .ok (b', os) := by
  induction ops with
  | nil => intro b _ _; exact ⟨b, [], rfl⟩
  | cons op ops ih =>
    intro b hb hF
    have hs : ∃ b' o, step c fuel b op = .ok (b', o) ∧ Fits c b'.lvl b'.root := by
      cases op with
      | put r =>
        obtain ⟨b', st, ex, h1, h2⟩ := put_total hc (r := r) hf hb hF
        exact ⟨b', .put st ex, by unfold step; simp only [h1], h2⟩
      | get k => exact ⟨b, .get (b.map k), by unfold step; simp only [get_ok hb k], hF⟩
      | remove k =>
        obtain ⟨b', ex, h1, h2⟩ := remove_total hm (key := k) (f := fuel) (by omega) hb hF
        exact ⟨b', .remove ex, by unfold step; simp only [h1], h2⟩
    obtain ⟨b1, o, h1, h2⟩ := hs
    obtain ⟨g1, -⟩ := step_ok hg hb h1
    obtain ⟨b2, os, h3⟩ := ih g1 h2
    exact ⟨b2, o :: os, by unfold run; simp only [h1, h3]⟩

theorem empty_fits {c : Cfg K V} : Fits c (BT.empty : BT K V).lvl (BT.empty : BT K V).root := by
  show fit (c.nk 0) 0
  simp [fit]

theorem empty_map : (BT.empty : BT K V).map = fun _ => none := rfl

end HS.Btree
