import Verif.Varlen.Props
/-!
# C76: where nodes with entries of variable size do not do what they should
-/
namespace HS.Varlen

theorem fld_lt {m : Mem} {a : Nat} : fld m a < 16384 := by
  unfold fld
  omega

/-- Offsets have 14 bits, but nothing keeps nodes below 16 KiB (`m_tail_arena_offset` has 16 bits, and
btree_node.hpp:68 speaks of nodes up to 64K): in a larger node already the first entry is not read back. -/
theorem C76_large_node_violated {P : Params} {m : Mem} {leaf : Bool} (hk : P.kind = .varObj) (h1 : 16392 ≤ P.size) (h2 : P.size < 65536) :
    ∃ kb r, (VN.new P m leaf).insert P 0 kb [] = some r ∧ r.2.n = 1 ∧ r.2.key P 0 ≠ kb := by
  have hsz : u16 (P.size : Int) = P.size := u16_nat h2
  have hav : (VN.new P m leaf).avail = P.size - 6 := by
    show u16 ((u16 P.size : Int) - 6) = _
    rw [hsz]
    have := u16_id (x := (P.size : Int) - 6) (by omega) (by omega)
    omega
  have hfree : (VN.new P m leaf).arenaFree P = P.size - 6 := by
    have h0 : (VN.new P m leaf).tail = P.size := hsz
    have h3 : (VN.new P m leaf).n = 0 := rfl
    rw [VN.arenaFree, h0, h3]
    have := u16_id (x := (P.size : Int) - 6 - ((0 : Nat) : Int) * P.kind.rs) (by simp; omega) (by simp; omega)
    simp only [Int.natCast_zero, Int.zero_mul, Int.sub_zero] at this ⊢
    omega
  have hrs : P.kind.rs = 6 := by rw [hk]; rfl
  have hins : ∀ b : Nat, (VN.new P m leaf).insert P 0 [b] [] = some (7, (VN.new P m leaf).place P 0 1 [b] []) := by
    intro b
    have hf : P.kind.fits [b] [] = true := by rw [hk]; rfl
    have hobj : u16 ((([b] : Bytes).length : Int) + (([] : Bytes).length : Int)) = 1 := by simp [u16]
    have hneed : u16 (((1 : Nat) : Int) + P.kind.rs) = 7 := by rw [hrs]; rfl
    simp only [VN.insert, hf, hobj, hneed, Bool.not_true, Bool.or_false, decide_eq_true_eq]
    rw [if_neg (Nat.not_lt_zero _), if_neg (by omega), if_neg (by omega)]
  have htail : u16 (((VN.new P m leaf).tail : Int) - ((1 : Nat) : Int)) = P.size - 1 := by
    have h0 : (VN.new P m leaf).tail = P.size := hsz
    rw [h0]
    have := u16_id (x := (P.size : Int) - ((1 : Nat) : Int)) (by omega) (by omega)
    omega
  -- the memory before the byte of the key is written
  obtain ⟨M, hM⟩ : ∃ M : Mem, ∀ b : Nat, ((VN.new P m leaf).place P 0 1 [b] []).mem = write M (P.size - 1) [b] := by
    refine ⟨setFld (setVl P.kind (setKl P.kind (write (VN.new P m leaf).mem (recAt P.kind 0 + P.kind.rs) (read (VN.new P m leaf).mem (recAt P.kind 0) (((VN.new P m leaf).n - 0) * P.kind.rs))) (recAt P.kind 0) 1) (recAt P.kind 0) 0) (recAt P.kind 0) (P.size - 1), fun b => ?_⟩
    funext x
    simp only [VN.place, htail, List.length_singleton, List.length_nil]
    rw [write_out]
    simp only [List.length_nil]
    omega
  have hmem : ∀ b x, x ≠ P.size - 1 → ((VN.new P m leaf).place P 0 1 [b] []).mem x = M x := by
    intro b x hx
    rw [hM]
    exact write_out (by simp; omega)
  have hnth : ∀ b, ((VN.new P m leaf).place P 0 1 [b] []).nth P 0 = recOf P.kind M (recAt P.kind 0) := by
    intro b
    apply recOf_congr
    intro j hj
    apply hmem
    have : recAt P.kind 0 = 6 := by simp [recAt]
    omega
  have hoff : (recOf P.kind M (recAt P.kind 0)).off < 16384 := by
    rw [recOf_fld]
    exact fld_lt
  have hkey : ∀ b, ((VN.new P m leaf).place P 0 1 [b] []).key P 0 = [b] → M (recOf P.kind M (recAt P.kind 0)).off = b := by
    intro b hb
    rw [VN.key, hnth] at hb
    have hl := congrArg List.length hb
    rw [read_length] at hl
    rw [hl] at hb
    simp only [List.length_singleton, read, List.range_one, List.map_cons, List.map_nil, Nat.add_zero, List.cons.injEq, and_true] at hb
    rw [hmem b _ (by omega)] at hb
    exact hb
  by_cases h : ((VN.new P m leaf).place P 0 1 [1] []).key P 0 = [1]
  · refine ⟨[2], _, hins 2, rfl, ?_⟩
    intro h'
    have e1 := hkey 1 h
    have e2 := hkey 2 h'
    omega
  · exact ⟨[1], _, hins 1, rfl, h⟩

/-- Moving all entries of a node by their number reports one less. -/
theorem C76_move_all_count_violated {P : Params} {m0 : Nat → Mem} {ops : List Op} {S : Nat → VN} (hP : Sorts P.sort) (h1 : 6 ≤ P.size) (h2 : P.size < 16384)
    (hok : ∀ op ∈ ops, op.Ok P) (hrun : run P (fresh P m0) ops = some S) {x y cnt : Nat} {r : Nat × VN × VN} (hn : 0 < (S x).n) (hc : (S x).n ≤ cnt)
    (hr : (S x).moveEntries P (S y) cnt = some r) :
    r.2.1.n = 0 ∧ r.2.2.n = (S y).n + (S x).n ∧ r.1 + 1 = (S x).n := by
  have key := run_sim hP ops _ _ (sim_fresh (m0 := m0) h1 h2) hok
  rw [hrun] at key
  cases hA : absRun P absFresh ops with
  | none => rw [hA] at key; exact key.elim
  | some A =>
    rw [hA] at key
    have hm := moveEntries_spec (cnt := cnt) hP (key.inv x) (key.inv y)
    rw [hr] at hm
    revert hm
    cases ha : ((S x).abs P).moveEntries P ((S y).abs P) cnt <;> intro hm
    · exact hm.elim
    · rename_i p
      obtain ⟨hm, hres⟩ := hm
      rw [if_pos hc] at hres
      have hle : ((S x).abs P).ents.length = (S x).n := ents_length
      have hle2 : ((S y).abs P).ents.length = (S y).n := ents_length
      have hp : p.1.ents.length = 0 ∧ p.2.ents.length = (S y).n + (S x).n := by
        rw [Abs.moveEntries, hle, Nat.min_eq_right hc, if_neg (by omega)] at ha
        simp only [Abs.move, hle, Nat.sub_self, List.drop_zero, List.take_zero] at ha
        split at ha
        · split at ha <;> cases ha <;> exact ⟨rfl, by simp [hle, hle2]; omega⟩
        · simp at ha
      refine ⟨?_, ?_, by omega⟩
      · rw [← ents_length (P := P), show r.2.1.ents P = (r.2.1.abs P).ents from rfl, hm.abs1]
        exact hp.1
      · rw [← ents_length (P := P), show r.2.2.ents P = (r.2.2.abs P).ents from rfl, hm.abs2]
        exact hp.2

def exAll : List Op := [.insert 0 0 [1] [10, 11], .insert 0 1 [3, 3] [30, 31, 32, 33]]

example : (∀ op ∈ exAll, op.Ok exP) ∧ (run exP (fresh exP (fun _ _ => 0)) exAll).map (fun S => (decide (0 < (S 0).n), ((S 0).moveEntries exP (S 1) 5).map Prod.fst)) = some (true, some 1) := by
  constructor
  · intro op hop
    simp only [exAll, List.mem_cons, List.not_mem_nil, or_false] at hop
    rcases hop with rfl | rfl <;> simp [Op.Ok]
  · decide +kernel

/-- `split_node` moves entries from the end of at most half of the filled size (btree_mutate_impl.ipp:268-273,
btree_internal.hpp:245, 279) and aborts if there are none. -/
def splitSize (P : Params) (s : VN) : Nat := (P.size - s.avail) * 50 / 100

/-- A node of any size may hold a small entry and then one that is larger than half of the node.  When the next put
finds no room, the split moves nothing and the process aborts. -/
theorem C76_split_nothing_violated {P : Params} {m0 : Nat → Mem} (hP : Sorts P.sort) (hk : P.kind = .varObj) (h1 : 32 ≤ P.size) (h2 : P.size < 16384) :
    ∃ ops S, (∀ op ∈ ops, op.Ok P) ∧ run P (fresh P m0) ops = some S ∧ (S 0).n = 2 ∧ (S 0).leaf = true ∧
      (S 0).hasRoom P false 1 0 = false ∧
      ∃ r, (S 0).moveSize P (S 1) (splitSize P (S 0)) = some r ∧ r.1 = 0 := by
  have hrs : P.kind.rs = 6 := by rw [hk]; rfl
  let ops : List Op := [.insert 0 0 [1] [], .insert 0 1 [2] (List.replicate (P.size - 20) 0)]
  have hok : ∀ op ∈ ops, op.Ok P := by
    intro op hop
    simp only [ops, List.mem_cons, List.not_mem_nil, or_false] at hop
    rcases hop with rfl | rfl
    · simp [Op.Ok]
    · simp only [Op.Ok, List.length_singleton, List.length_replicate]
      omega
  have key := run_sim (m0 := m0) hP ops _ _ (sim_fresh (m0 := m0) (by omega) h2) hok
  have hf1 : P.kind.fits [1] [] = true := by rw [hk]; rfl
  have hf2 : P.kind.fits [2] (List.replicate (P.size - 20) 0) = true := by rw [hk]; rfl
  let a1 : Abs := { ents := [([1], [])], edge := none, leaf := true }
  let a2 : Abs := { ents := [([1], []), ([2], List.replicate (P.size - 20) 0)], edge := none, leaf := true }
  have hA : absRun P absFresh ops = some (upd (upd absFresh 0 a1) 0 a2) := by
    have e1 : (absFresh 0).insert P 0 [1] [] = some a1 := by
      rw [Abs.insert, if_pos]
      · rfl
      · refine ⟨Nat.zero_le _, hf1, ?_⟩
        simp only [cost, Abs.free, absFresh, costs, List.map_nil, List.sum_nil, List.length_singleton, List.length_nil]
        omega
    have e2 : a1.insert P 1 [2] (List.replicate (P.size - 20) 0) = some a2 := by
      rw [Abs.insert, if_pos]
      · rfl
      · refine ⟨Nat.le_refl _, hf2, ?_⟩
        simp only [a1, cost, Abs.free, costs, List.map_cons, List.map_nil, List.sum_cons, List.sum_nil, List.length_singleton, List.length_nil, List.length_replicate]
        omega
    simp only [ops, absRun, absStep, e1, e2, Option.map_some, upd_same]
  rw [hA] at key
  cases hS : run P (fresh P m0) ops with
  | none => rw [hS] at key; exact key.elim
  | some S =>
    rw [hS] at key
    have hx : (S 0).abs P = a2 := key.abs 0
    have hy : (S 1).abs P = absFresh 1 := key.abs 1
    have hav := avail_eq (key.inv 0)
    rw [hx] at hav
    simp only [a2, Abs.free, costs, cost, List.map_cons, List.map_nil, List.sum_cons, List.sum_nil, List.length_singleton, List.length_nil, List.length_replicate] at hav
    refine ⟨ops, S, hok, hS, ?_, congrArg Abs.leaf hx, ?_, ?_⟩
    · rw [← ents_length (P := P)]
      exact congrArg (fun a : Abs => a.ents.length) hx
    · simp only [VN.hasRoom, decide_eq_false_iff_not, Bool.false_eq_true, if_false]
      omega
    · have hm := moveSize_spec (size := splitSize P (S 0)) hP (key.inv 0) (key.inv 1)
      have hg : greedy P (splitSize P (S 0)) a2.ents.tail.reverse = 0 := by
        simp only [a2, List.tail_cons, List.reverse_cons, List.reverse_nil, List.nil_append, greedy]
        rw [if_neg]
        simp only [cost, splitSize, List.length_singleton, List.length_replicate]
        omega
      have ha : ∃ p, a2.moveSize P (absFresh 1) (splitSize P (S 0)) = some (0, p) := by
        rw [Abs.moveSize, if_neg (by simp [a2]), hg]
        simp only [Abs.move, Nat.sub_zero, List.drop_length, costs, List.map_nil, List.sum_nil, Nat.zero_le, if_true]
        split <;> exact ⟨_, rfl⟩
      obtain ⟨p, ha⟩ := ha
      rw [hx, hy, ha] at hm
      revert hm
      cases (S 0).moveSize P (S 1) (splitSize P (S 0)) <;> intro hm
      · exact hm.elim
      · exact ⟨_, rfl, hm.2⟩

example : ({ kind := .varObj, size := 4030, sort := isort } : Params).kind = .varObj ∧ 32 ≤ 4030 ∧ 4030 < 16384 ∧ Sorts isort := ⟨rfl, by decide, by decide, isort_sorts⟩

end HS.Varlen
