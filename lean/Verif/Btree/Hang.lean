import Verif.Btree.Api

/-!
# A remove that never returns

`merge_nodes` fills new nodes until all entries are placed (`btree_remove_impl.ipp` 434-478).  For the last new
node it enlarges the window to the room that is left (468-470).  When that room is smaller than one entry of
constant size, a pass copies nothing and changes nothing, and the loop repeats forever.
-/

namespace HS.Btree

/-- A pass of the loop that copies nothing and leaves a window smaller than one entry is repeated forever. -/
theorem newLoop_stuck {K A : Type} {p : NK K A} {bal num : Nat} {olds : List (Node K A)} {s : NewSt K A}
    {old nn : Node K A} (hp : p.fixed = true) (ho : olds[s.ith]? = some old) (hn : s.news.getLast? = some nn)
    (hne : s.avail ≠ 0) (ha : s.avail = p.avail nn.es) (hsm : p.avail nn.es < p.obj)
    (h32 : p.avail nn.es < 4294967296) (hl : old.es.length ≠ s.nth) (hed : old.edge = none)
    (hnum : s.news.length = num - 1) (htot : s.totSize < p.avail nn.es) (f : Nat) :
    newLoop p bal num olds f s = .error .fuel := by
  have hcopy : copyBySize p nn old s.nth (u32 s.avail) = .ok (nn, 0) := by
    unfold copyBySize copyByEntries
    have : p.numBySize old.es s.nth (u32 s.avail) = 0 := by
      unfold NK.numBySize u32
      rw [if_pos hp, ha, Int.emod_eq_of_lt (by omega) (by omega)]
      have : ((p.avail nn.es : Nat) : Int).toNat / p.obj = 0 := by
        rw [Int.toNat_natCast]; exact Nat.div_eq_of_lt hsm
      rw [this]; simp
    rw [this]
    simp [hp, hed]
  have hds : s.news.dropLast ++ [nn] = s.news := by
    obtain ⟨l, hl⟩ := List.getLast?_eq_some_iff.mp hn
    rw [hl]; simp
  induction f with
  | zero => rfl
  | succ f ih =>
    rw [newLoop.eq_def]
    simp only [ho]
    have h0 : (decide (s.avail = 0) && decide (0 < s.totEnt)) = false := by simp [hne]
    simp only [h0, Bool.false_eq_true, if_false, hn, hcopy]
    show (if old.es.length = s.nth + 0 then _ else _) = _
    rw [if_neg (show ¬ old.es.length = s.nth + 0 by omega)]
    have hcs : (if p.used nn.es - p.used nn.es < s.totSize then s.totSize - (p.used nn.es - p.used nn.es) else 0) =
        s.totSize := by
      rw [Nat.sub_self]; split <;> omega
    rw [hcs, hds, if_pos ⟨hnum, htot⟩, ← ha]
    exact ih

namespace Hang

/-- 4 KiB nodes (4024 bytes of data), entries of 8 + 1018 bytes, default percentages. -/
def cH : Cfg Nat Nat :=
  { nodeData := 4024, leafFixed := true, leafObj := 1026, leafRec := 0, intFixed := true, intObj := 24,
    intRec := 0, ksz := fun _ => 8, vsz := fun _ => 1018, kmax := 8, keyFixed := true, dfltKey := 0 }

def ins (k : Nat) : Op Nat Nat := .put { key := k, val := k, type := .insert }

/-- Ten inserts and one remove. -/
def ops : List (Op Nat Nat) := [10, 20, 30, 40, 50, 60, 70, 80, 35, 55].map ins ++ [.remove 10]

def lf (id : Nat) (nx : Option Nat) (ks : List Nat) : Tree Nat Nat 0 :=
  { id := id, next := nx, es := ks.map (fun k => (k, k)), edge := none }

def rH : Tree Nat Nat (0 + 1) :=
  { id := 1, next := none, es := [(20, lf 0 (some 2) [20]), (40, lf 2 (some 3) [30, 35, 40]),
      (60, lf 3 (some 4) [50, 55, 60])], edge := some (lf 4 none [70, 80]) }

/-- The tree after `ops`. -/
def bH : BT Nat Nat := ⟨0 + 1, rH, 5⟩

theorem reach : run cH 8 BT.empty ops =
    .ok (bH, List.replicate 10 (.put .success none) ++ [.remove (some 10)]) := by
  with_unfolding_all rfl

theorem stuck (f : Nat) : mergeNodes cH (cH.nk 1) (cH.nk 0) f rH 0 2 5 = .error .fuel := by
  have h : ∀ f, newLoop (cH.nk 0) 3591 2 [lf 2 (some 3) [30, 35, 40], lf 3 (some 4) [50, 55, 60]] f
      { ith := 0, nth := 2, avail := 0, news := [], totSize := 3591, totEnt := 4, nid := 5 } = .error .fuel := by
    intro f
    match f with
    | 0 => rfl
    | 1 => rfl
    | f + 2 =>
      exact newLoop_stuck (p := cH.nk 0) (bal := 3591) (num := 2)
        (s := { ith := 1, nth := 2, avail := 946,
                news := [{ id := 5, next := none, es := [40, 50, 55].map (fun k => (k, k)), edge := none }],
                totSize := 513, totEnt := 1, nid := 6 })
        (olds := [lf 2 (some 3) [30, 35, 40], lf 3 (some 4) [50, 55, 60]]) (old := lf 3 (some 4) [50, 55, 60])
        rfl rfl rfl (by decide) rfl (by decide) (by decide) (by decide) rfl rfl (by decide) f
  show (newLoop (cH.nk 0) 3591 2 [lf 2 (some 3) [30, 35, 40], lf 3 (some 4) [50, 55, 60]] f
    { ith := 0, nth := 2, avail := 0, news := [], totSize := 3591, totEnt := 4, nid := 5 } >>= _) = _
  rw [h]
  rfl

theorem hang (f : Nat) : remove cH 20 f bH = .error .fuel := by
  match f with
  | 0 => rfl
  | 1 => rfl
  | f + 2 =>
    have : removeLoop cH 20 0 (doRemove cH 20 (f + 1) 0) (f + 1) rH 5 = .error .fuel := by
      unfold removeLoop
      rw [show bsearch rH.es 20 = some (true, 0) by decide +kernel]
      simp only [show Node.valAt rH 0 = some (lf 0 (some 2) [20]) from rfl]
      rw [if_pos (by decide)]
      show (mergeNodes cH (cH.nk 1) (cH.nk 0) f rH 0 2 5 >>= _) = _
      rw [stuck]
      rfl
    show (do
        let (t, nid, ex) ← removeLoop cH 20 0 (doRemove cH 20 (f + 1) 0) (f + 1) rH 5
        pure (({ lvl := 1, root := t, nid := nid } : BT Nat Nat), ex)) = _
    rw [this]
    rfl

end Hang
end HS.Btree
