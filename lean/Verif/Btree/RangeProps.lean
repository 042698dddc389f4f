import Verif.Btree.Props
import Verif.Btree.Any

/-!
# C51, C52: range removes, range updates and requests for any key of an interval

The specification is `Spec.removeRange`, `Spec.updateRange`, `Spec.del` and `Spec.inRange` in
`Verif/Btree/Spec.lean`.  `Holds b M`: every get on the tree `b` returns what the map `M` says.
-/

namespace HS.Btree

variable {K V : Type} [LinearOrder K]

/-- Every get on the tree returns what the map says. -/
def Holds (b : BT K V) (M : K → Option V) : Prop := ∀ k, get b k = .ok (M k)

/-- The trees that any history of mutating calls that return can lead to.  Range calls are restricted to
non-empty intervals, and range updates to filters that never decide `remove`. -/
inductive Reach (c : Cfg K V) : BT K V → Prop
  | empty : Reach c BT.empty
  | put {b b' : BT K V} {fuel r st ex} : Reach c b → put c r fuel b = .ok (b', st, ex) → Reach c b'
  | remove {b b' : BT K V} {fuel k v} : Reach c b → remove c k fuel b = .ok (b', v) → Reach c b'
  | rangeRemove {b b' : BT K V} {fuel I fl st} : Reach c b → Proper I →
      rangeRemove c I fl fuel b = .ok (b', st) → Reach c b'
  | rangeUpdate {b b' : BT K V} {fuel rq st} : Reach c b → Proper rq.range →
      (∀ k o, decision rq.filter k o rq.val ≠ .remove) → rangeUpdate c rq fuel b = .ok (b', st) → Reach c b'
  | removeAny {b b' : BT K V} {fuel r o} : Reach c b → removeAny c r fuel b = .ok (b', o) → Reach c b'

theorem Entry.whole {I : KeyRange K} (h : Proper I) : Entry I I none := ⟨rfl, rfl, h, by simp⟩

theorem Reach.inv {c : Cfg K V} (hc : c.Good) {b : BT K V} (h : Reach c b) : b.Inv := by
  induction h with
  | empty => exact empty_inv
  | put _ h ih => exact (put_ok _ ih h).1
  | remove _ h ih => exact (remove_ok hc _ ih h).1
  | rangeRemove _ hI h ih => exact (rangeRemove_ok hc hI _ ih h).1
  | rangeUpdate _ hI hd h ih => exact (rangePut_ok hd _ ih (Entry.whole hI) h).1
  | removeAny _ h ih => exact (removeAny_ok hc _ ih h).1

theorem reach_run {c : Cfg K V} {fuel : Nat} (ops : List (Op K V)) :
    ∀ {b b' : BT K V} {os : List (Out V)}, Reach c b → run c fuel b ops = .ok (b', os) → Reach c b' := by
  induction ops with
  | nil => intro b b' os hb h; unfold run at h; cases h; exact hb
  | cons op ops ih =>
    intro b b' os hb h
    unfold run at h
    split at h
    · cases h
    · rename_i b1 o h1
      split at h
      · cases h
      · rename_i b2 os' h2
        cases h
        refine ih ?_ h2
        cases op with
        | put r =>
          unfold step at h1
          simp only at h1
          split at h1
          · cases h1
          · rename_i hp; cases h1; exact hb.put hp
        | get k =>
          unfold step at h1
          simp only at h1
          split at h1
          · cases h1
          · cases h1; exact hb
        | remove k =>
          unfold step at h1
          simp only at h1
          split at h1
          · cases h1
          · rename_i hp; cases h1; exact hb.remove hp

theorem Holds.of_inv {b : BT K V} (h : b.Inv) : Holds b b.map := fun k => get_ok h k

theorem Holds.eq {b : BT K V} (h : b.Inv) {M : K → Option V} (hM : Holds b M) : M = b.map := by
  funext k
  have := hM k
  rw [get_ok h k] at this
  injection this with this
  exact this.symm

/-! ## C51: range remove -/

/-- C51, range remove: a range remove that returns has removed exactly the keys of the interval that the filter
selects, wherever the node boundaries fall, and has kept every other key with its value; it reports success
exactly when it removed something, otherwise `not_found`.  Missing: a remove that does not return (merging can
hang, `C39_merge_hangs_violated`), and intervals without room between their bounds, for which the status is wrong
(`C51_empty_interval_violated`). -/
theorem C51_range_remove_partial {c : Cfg K V} (hc : c.Good) {b b' : BT K V} (hb : Reach c b) {I : KeyRange K}
    (hI : I.startKey < I.endKey ∨ I.startKey = I.endKey ∧ I.startIncl = true) {fl : Option (K → V → Bool)}
    {fuel : Nat} {st : Status} (h : rangeRemove c I fl fuel b = .ok (b', st)) :
    ∃ M, Holds b M ∧ Holds b' (Spec.removeRange M I (selects fl)) ∧
      (st = .success ∧ (∃ k v, M k = some v ∧ Spec.inRange I k = true ∧ selects fl k v = true) ∨
       st = .not_found ∧ ∀ k v, M k = some v → Spec.inRange I k = true → selects fl k v = false) := by
  have hb0 := hb.inv hc
  obtain ⟨h1, h2, h3, h4⟩ := rangeRemove_ok hc hI fuel hb0 h
  refine ⟨b.map, Holds.of_inv hb0, by rw [← h2]; exact Holds.of_inv h1, ?_⟩
  rcases h3 with rfl | rfl
  · exact Or.inl ⟨rfl, h4.mp rfl⟩
  · refine Or.inr ⟨rfl, fun k v hk hi => ?_⟩
    cases hs : selects fl k v with
    | false => rfl
    | true => exact absurd (h4.mpr ⟨k, v, hk, hi, hs⟩) (by simp)

def dumpKeys (c : Cfg Nat Nat) (b : BT Nat Nat) : Option (List Nat) :=
  (query c b { range := { startKey := 0, startIncl := true, endKey := 1000, endIncl := true }, type := .sweep,
               batch := 1000 } [] 100).toOption.map (fun x => x.1.map (·.1))

/-- Twenty keys in a tree of three levels. -/
def twenty : List (Op Nat Nat) := (List.range 20).map (fun i => insertOp (7 * i % 20) i)

/-- Removing the even keys of `(2, 17)` from the tree, across leaves and interior nodes, with merges on the way. -/
example : completes c0 20 twenty = true ∧ Reach c0 (runTree c0 20 twenty) ∧
    (rangeRemove c0 { startKey := 2, startIncl := false, endKey := 17, endIncl := false }
      (some fun k _ => decide (k % 2 = 0)) 30 (runTree c0 20 twenty)).toOption.map
        (fun x => (dumpKeys c0 x.1, x.2)) =
      some (some [0, 1, 2, 3, 5, 7, 9, 11, 13, 15, 17, 18, 19], .success) := by
  have h : completes c0 20 twenty = true := by decide +kernel
  refine ⟨h, ?_, by decide +kernel⟩
  obtain ⟨outs, hr⟩ := runTree_ok h
  exact reach_run _ Reach.empty hr

/-- C51 is false in general (1): a range remove of the empty interval `(k, k]` reports success although it
removed nothing, when `k` separates two leaves. -/
theorem C51_empty_interval_violated :
    let b := runTree c0 20 twenty
    let I : KeyRange Nat := { startKey := 1, startIncl := false, endKey := 1, endIncl := true }
    completes c0 20 twenty = true ∧
    (∀ k, Spec.inRange I k = false) ∧
    (rangeRemove c0 I none 20 b).toOption.map (fun x => (dumpKeys c0 x.1, x.2)) =
      some (dumpKeys c0 b, .success) := by
  refine ⟨by decide +kernel, ?_, by decide +kernel⟩
  intro k
  unfold Spec.inRange
  simp only [Bool.false_eq_true, if_false, if_true, Bool.and_eq_false_iff, decide_eq_false_iff_not]
  omega

/-! ## C51: range update -/

/-- C51, range update: a range update with a filter that never decides `remove` leaves the set of keys as it is;
when it reports success it has treated every key of the interval as the filter decides and no other key; when it
reports `not_found` it has done so up to some point of the interval.  Missing: filters that decide `remove`
(`C51_update_filter_remove_violated`); `not_found` although the interval holds keys
(`C51_update_stops_violated`); updates that do not return. -/
theorem C51_range_update_partial {c : Cfg K V} (hc : c.Good) {b b' : BT K V} (hb : Reach c b) {rq : UpdReq K V}
    (hI : rq.range.startKey < rq.range.endKey ∨ rq.range.startKey = rq.range.endKey ∧ rq.range.startIncl = true)
    (hd : ∀ k o, decision rq.filter k o rq.val ≠ .remove)
    {fuel : Nat} {st : Status} (h : rangeUpdate c rq fuel b = .ok (b', st)) :
    ∃ M M', Holds b M ∧ Holds b' M' ∧
      (st = .success ∧ M' = Spec.updateRange M rq.range (decision rq.filter) rq.val ∨
       st = .not_found ∧ ∃ done : K → Bool,
        (∀ k, done k = true → Spec.inRange rq.range k = true) ∧
        (∀ k k', done k = true → Spec.inRange rq.range k' = true → k' ≤ k → done k' = true) ∧
        ∀ k, M' k = if done k then Spec.updateRange M rq.range (decision rq.filter) rq.val k else M k) := by
  have hb0 := hb.inv hc
  obtain ⟨h1, p, p1, p2, p3, p4⟩ := rangePut_ok hd fuel hb0 (Entry.whole hI) h
  have hup : ∀ k, b'.map k =
      if p k then Spec.updateRange b.map rq.range (decision rq.filter) rq.val k else b.map k := by
    intro k
    rw [p3 k]
    unfold Spec.updateRange
    cases hk : b.map k with
    | none => simp
    | some w =>
      cases hp : p k with
      | false => simp
      | true =>
        have := hd k w
        rw [p1 k hp]
        cases hdd : decision rq.filter k w rq.val <;> simp_all
  refine ⟨b.map, b'.map, Holds.of_inv hb0, Holds.of_inv h1, ?_⟩
  rcases p4 with ⟨rfl, hall⟩ | rfl
  · refine Or.inl ⟨rfl, ?_⟩
    funext k
    rw [hup k]
    split
    · rfl
    · rename_i hn
      unfold Spec.updateRange
      rw [hall k] at hn
      cases b.map k <;> simp [hn]
  · exact Or.inr ⟨rfl, p, p1, p2, hup⟩

/-- Updating the odd keys of `[3, 14]` with larger values of variable size: leaves fill up, the update splits
them and goes on. -/
example : completes cv 20 ((List.range 20).map (fun i => insertOp i 20)) = true ∧
    (rangeUpdate cv { range := { startKey := 3, startIncl := true, endKey := 14, endIncl := true }, val := 50,
                      filter := some (fun k _ _ => if k % 2 = 1 then .replace else .keep) } 40
      (runTree cv 20 ((List.range 20).map (fun i => insertOp i 20)))).toOption.map
        (fun x => ((List.range 20).map (fun k => (get x.1 k).toOption), x.2)) =
      some ((List.range 20).map (fun k => some (some (if k % 2 = 1 && decide (3 ≤ k) && decide (k ≤ 14) then 50 else 20))),
        .success) := by
  constructor <;> decide +kernel

/-- C51 is false in general (2): when the filter of a range update decides `remove`, the leaf's end index is not
moved, so the update runs past the interval.  Updating `[1, 2]` removes key 3; when every key is to be removed it
reads past the last entry. -/
theorem C51_update_filter_remove_violated :
    let b := runTree c0 20 [insertOp 1 10, insertOp 2 20, insertOp 3 30, insertOp 4 40]
    let I : KeyRange Nat := { startKey := 1, startIncl := true, endKey := 2, endIncl := true }
    Spec.inRange I 3 = false ∧ get b 3 = .ok (some 30) ∧
    (rangeUpdate c0 { range := I, val := 99, filter := some (fun k _ _ => if k = 1 ∨ k = 3 then .remove else .keep) } 20
      b).toOption.map (fun x => (dumpKeys c0 x.1, x.2)) = some (some [2, 4], .success) ∧
    (match rangeUpdate c0 { range := { I with endKey := 4 }, val := 99, filter := some (fun _ _ _ => .remove) } 20 b with
      | .error .ub => true
      | _ => false) = true := by
  refine ⟨by decide +kernel, by with_unfolding_all rfl, by decide +kernel, by decide +kernel⟩

/-- C51 is false in general (3): a range update stops at the first leaf that holds no key of the interval.  The
interval `[2, 6]` holds the keys 5 and 6; the update reports `not_found` and changes neither. -/
theorem C51_update_stops_violated :
    let ops := [insertOp 1 10, insertOp 3 30, insertOp 5 50, insertOp 6 60, insertOp 7 70, .remove 3]
    let b := runTree c1 20 ops
    completes c1 20 ops = true ∧ get b 5 = .ok (some 50) ∧ get b 6 = .ok (some 60) ∧
    (rangeUpdate c1 { range := { startKey := 2, startIncl := true, endKey := 6, endIncl := true }, val := 99 } 20
      b).toOption.map (fun x => ((get x.1 5).toOption, (get x.1 6).toOption, x.2)) =
        some (some (some 50), some (some 60), .not_found) := by
  refine ⟨by decide +kernel, by with_unfolding_all rfl, by with_unfolding_all rfl, by decide +kernel⟩

/-! ## C52: any key of an interval -/

/-- C52, `get_any` with the options `DO_NOT_CARE` and `LEFT_MOST`: what it returns is the first key of the
interval with its value; it always completes, and it finds the start key if that is present and included.
Missing: that it finds a key whenever there is one (`C52_get_other_leaf_violated`, `C52_get_open_end_violated`)
and the options `MID` and `RIGHT_MOST` (`C52_get_right_most_violated`). -/
theorem C52_get_any_partial {c : Cfg K V} (hc : c.Good) {b : BT K V} (hb : Reach c b) {r : KeyRange K}
    (hr : r.startKey < r.endKey ∨ r.startKey = r.endKey ∧ r.startIncl = true ∧ r.endIncl = true)
    (ho : r.opt = .doNotCare ∨ r.opt = .leftMost) :
    ∃ M o, Holds b M ∧ getAnyKey b r = .ok o ∧
      (∀ k v, o = some (k, v) → M k = some v ∧ Spec.inRange r k = true ∧
        ∀ k', M k' ≠ none → Spec.inRange r k' = true → k ≤ k') ∧
      (o = none → r.startIncl = true → M r.startKey = none) := by
  have hb0 := hb.inv hc
  obtain ⟨o, h1, h2, h3⟩ := getAnyKey_ok hb0 hr ho
  exact ⟨b.map, o, Holds.of_inv hb0, h1, h2, h3⟩

example : (getAnyKey (runTree c0 20 twenty)
    { startKey := 4, startIncl := false, endKey := 9, endIncl := true }).toOption = some (some (5, 15)) := by
  decide +kernel

/-- C52, `remove_any`: it removes exactly the key that it returns, and nothing when it returns none; with the
options `DO_NOT_CARE` and `LEFT_MOST` the key belongs to the interval.  Missing: that it finds a key whenever
there is one (`C52_remove_wrong_child_violated`), the other options, and calls that do not return. -/
theorem C52_remove_any_partial {c : Cfg K V} (hc : c.Good) {b b' : BT K V} (hb : Reach c b) {r : KeyRange K}
    {fuel : Nat} {o : Option (K × V)} (h : removeAny c r fuel b = .ok (b', o)) :
    ∃ M, Holds b M ∧ (o = none → Holds b' M) ∧
      ∀ k v, o = some (k, v) → M k = some v ∧ Holds b' (Spec.del M k) ∧
        ((r.startKey < r.endKey ∨ r.startKey = r.endKey ∧ r.startIncl = true ∧ r.endIncl = true) →
          (r.opt = .doNotCare ∨ r.opt = .leftMost) → Spec.inRange r k = true) := by
  have hb0 := hb.inv hc
  obtain ⟨h1, h2, h3⟩ := removeAny_ok hc fuel hb0 h
  refine ⟨b.map, Holds.of_inv hb0, fun ho => by rw [← h2 ho]; exact Holds.of_inv h1, fun k v ho => ?_⟩
  obtain ⟨g1, g2, g3⟩ := h3 k v ho
  exact ⟨g1, by rw [← g2]; exact Holds.of_inv h1, g3⟩

example : (removeAny c0 { startKey := 0, startIncl := false, endKey := 3, endIncl := true } 20
    (runTree c0 20 twenty)).toOption.map (fun x => (dumpKeys c0 x.1, x.2)) =
      some (some ((List.range 20).filter (fun k => k ≠ 1)), some (1, 3)) := by
  decide +kernel

/-- C52 is false in general (1): `get_any` looks only in the leaf of the start key.  `[2, 6]` holds 5 and 6, the
answer is `not_found`. -/
theorem C52_get_other_leaf_violated :
    let ops := [insertOp 1 10, insertOp 3 30, insertOp 5 50, insertOp 6 60, insertOp 7 70, .remove 3]
    let b := runTree c1 20 ops
    completes c1 20 ops = true ∧ get b 5 = .ok (some 50) ∧ get b 6 = .ok (some 60) ∧
    getAnyKey b { startKey := 2, startIncl := true, endKey := 6, endIncl := true } = .ok none := by
  refine ⟨by decide +kernel, ?_, ?_, ?_⟩ <;> with_unfolding_all rfl

/-- C52 is false in general (2): with an end that is not included but present, the key before it is not found.
`[2, 5)` holds 3, the answer is `not_found`. -/
theorem C52_get_open_end_violated :
    let b := runTree c0 20 [insertOp 3 30, insertOp 5 50]
    get b 3 = .ok (some 30) ∧
    getAnyKey b { startKey := 2, startIncl := true, endKey := 5, endIncl := false } = .ok none := by
  constructor <;> with_unfolding_all rfl

/-- C52 is false in general (3): with the option `RIGHT_MOST` a closed interval whose end is not a key answers
with the next key after the interval; if there is none, it reads past the last entry. -/
theorem C52_get_right_most_violated :
    let b := runTree c0 20 [insertOp 3 30, insertOp 5 50]
    getAnyKey b { startKey := 2, startIncl := true, endKey := 4, endIncl := true, opt := .rightMost } =
      .ok (some (5, 50)) ∧
    getAnyKey b { startKey := 2, startIncl := true, endKey := 9, endIncl := true, opt := .rightMost } =
      .error .ub := by
  constructor <;> with_unfolding_all rfl

/-- C52 is false in general (4): with the option `MID` the index is not offset by the first entry of the
interval, so the answer can lie before the interval. -/
theorem C52_get_mid_violated :
    let b := runTree c0 20 [insertOp 1 10, insertOp 3 30, insertOp 5 50]
    getAnyKey b { startKey := 3, startIncl := true, endKey := 5, endIncl := true, opt := .mid } =
      .ok (some (1, 10)) := by
  with_unfolding_all rfl

/-- C52 is false in general (5): in an interior node `remove_any` takes the child number `(end - start) / 2`, not
offset by the first child of the interval.  Every key of `[10, 15]` is present; the answer is `not_found` and
nothing is removed. -/
theorem C52_remove_wrong_child_violated :
    let b := runTree c0 20 twenty
    (∀ k ∈ [10, 11, 12, 13, 14, 15], (match get b k with | .ok (some _) => true | _ => false) = true) ∧
    (removeAny c0 { startKey := 10, startIncl := true, endKey := 15, endIncl := true } 20 b).toOption.map
      (fun x => (dumpKeys c0 x.1, x.2)) = some (some (List.range 20), none) := by
  constructor <;> decide +kernel

end HS.Btree
