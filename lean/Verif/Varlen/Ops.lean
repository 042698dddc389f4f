import Verif.Varlen.Compact
import Verif.Varlen.Spec
/-!
# The operations of a node meet their specification
-/
namespace HS.Varlen

def VN.abs (P : Params) (s : VN) : Abs := { ents := s.ents P, edge := s.edge, leaf := s.leaf }

theorem ents_length {P : Params} {s : VN} : (s.ents P).length = s.n := by simp [VN.ents]

theorem costs_eq {P : Params} {s : VN} : costs P (s.ents P) = ((s.recs P).map Rec.len).sum + s.n * P.kind.rs := by
  have : ∀ l : List Rec, costs P (l.map (content s.mem)) = (l.map Rec.len).sum + l.length * P.kind.rs := by
    intro l
    induction l with
    | nil => simp [costs]
    | cons r l ih =>
      simp only [costs, List.map_cons, List.sum_cons, cost, List.length_cons, Nat.add_mul] at *
      have := content_length (m := s.mem) (r := r)
      omega
  rw [ents_eq, this]
  simp [VN.recs]

/-- The counter of free space is exact. -/
theorem avail_eq {P : Params} {s : VN} (h : Inv P s) : s.avail = (s.abs P).free P := by
  have := h.space
  simp only [Abs.free, VN.abs, costs_eq]
  simp only [recAt] at this
  omega

theorem costs_le {P : Params} {s : VN} (h : Inv P s) : costs P (s.ents P) + 6 ≤ P.size := by
  have := h.space
  rw [costs_eq]
  simp only [recAt] at this
  omega

/-- What an operation on one node must do. -/
structure Meets (P : Params) (s s' : VN) (a : Abs) : Prop where
  inv : Inv P s'
  abs : s'.abs P = a
  safe : Safe P s s'

theorem insert_spec {P : Params} {s : VN} {ind : Nat} {kb vb : Bytes} (hP : Sorts P.sort) (h : Inv P s) (hl : kb.length + vb.length < 65500) :
    match s.insert P ind kb vb, (s.abs P).insert P ind kb vb with
    | some r, some a => Meets P s r.2 a ∧ r.1 = cost P (kb, vb)
    | none, none => True
    | _, _ => False := by
  have hrs := rs_le (k := P.kind)
  have hav := avail_eq h
  by_cases h1 : ind ≤ s.n ∧ P.kind.fits kb vb = true
  · have hobj : u16 ((kb.length : Int) + vb.length) = kb.length + vb.length := u16_nat (by omega)
    have hneed : u16 (((kb.length + vb.length : Nat) : Int) + P.kind.rs) = kb.length + vb.length + P.kind.rs := u16_nat (by omega)
    have hc1 : (decide (s.n < ind) || !P.kind.fits kb vb) = false := by simp [h1.2]; omega
    by_cases h2 : kb.length + vb.length + P.kind.rs ≤ s.avail
    · have ha : (s.abs P).insert P ind kb vb = some { s.abs P with ents := (s.ents P).take ind ++ (kb, vb) :: (s.ents P).drop ind } := by
        rw [Abs.insert, if_pos]
        · rfl
        · refine ⟨by rw [show (s.abs P).ents = s.ents P from rfl, ents_length]; exact h1.1, h1.2, ?_⟩
          rw [← hav]
          exact h2
      obtain ⟨s1, hs1, hi1, he1, hsa1, hn1, hav1, hl1, hed1, hroom⟩ : ∃ s1 : VN, (if s.arenaFree P < kb.length + vb.length + P.kind.rs then s.compact P else s) = s1 ∧
          Inv P s1 ∧ s1.ents P = s.ents P ∧ Safe P s s1 ∧ s1.n = s.n ∧ s1.avail = s.avail ∧ s1.leaf = s.leaf ∧ s1.edge = s.edge ∧
          recAt P.kind (s1.n + 1) + kb.length + vb.length ≤ s1.tail := by
        by_cases h3 : s.arenaFree P < kb.length + vb.length + P.kind.rs
        · obtain ⟨c1, c2, c3, c4, c5, c6, c7, c8⟩ := compact_spec hP h
          refine ⟨s.compact P, by rw [if_pos h3], c1, c2, c3, c5, c6, c7, c8, ?_⟩
          rw [c4, c5, recAt_succ]
          omega
        · refine ⟨s, by rw [if_neg h3], h, rfl, Safe.refl, rfl, rfl, rfl, rfl, ?_⟩
          have hlo := h.lo
          have hhi := h.hi
          have hh := h.high
          have : (s.arenaFree P : Int) = (s.tail : Int) - recAt P.kind s.n := by
            have hmul : ((s.n * P.kind.rs : Nat) : Int) = (s.n : Int) * P.kind.rs := by simp
            have hge : 0 ≤ ((s.n * P.kind.rs : Nat) : Int) := by omega
            simp only [recAt] at hlo
            have h4 := u16_id (x := (s.tail : Int) - 6 - s.n * P.kind.rs) (by rw [← hmul]; omega) (by rw [← hmul]; omega)
            simp only [VN.arenaFree, h4, recAt]
            rw [← hmul]
            omega
          rw [recAt_succ]
          omega
      have hm : s.insert P ind kb vb = some (kb.length + vb.length + P.kind.rs, s1.place P ind (kb.length + vb.length) kb vb) := by
        simp only [VN.insert, hc1, hobj, hneed, Bool.false_eq_true, if_false]
        rw [if_neg (by omega), hs1]
      obtain ⟨p1, p2, p3, p4, p5, p6, p7⟩ := place_inv (ind := ind) hi1 (by omega) h1.2 hroom (by omega)
      rw [hm, ha]
      refine ⟨⟨p1, ?_, hsa1.trans p3⟩, rfl⟩
      simp only [VN.abs, p2, p6, p7, he1, hl1, hed1]
    · have hm : s.insert P ind kb vb = none := by
        simp only [VN.insert, hc1, hobj, hneed, Bool.false_eq_true, if_false]
        rw [if_pos (by omega)]
      have ha : (s.abs P).insert P ind kb vb = none := by
        rw [Abs.insert, if_neg]
        rintro ⟨-, -, h3⟩
        rw [← hav] at h3
        exact h2 h3
      rw [hm, ha]
      trivial
  · have hm : s.insert P ind kb vb = none := by
      rw [VN.insert, if_pos]
      by_cases hf : P.kind.fits kb vb = true
      · have : s.n < ind := by
          apply Nat.lt_of_not_le
          intro hle
          exact h1 ⟨hle, hf⟩
        simp [this]
      · simp [hf]
    have ha : (s.abs P).insert P ind kb vb = none := by
      rw [Abs.insert, if_neg]
      rintro ⟨h2, h3, -⟩
      rw [show (s.abs P).ents = s.ents P from rfl, ents_length] at h2
      exact h1 ⟨h2, h3⟩
    rw [hm, ha]
    trivial

/-! ## `remove` -/

theorem claim_eq {P : Params} {s : VN} {i : Nat} : ∀ cnt : Nat,
    s.avail + ((List.range cnt).map (fun j => (s.nth P (i + j)).len + P.kind.rs)).sum < 65536 →
    s.claim P i cnt = s.avail + ((List.range cnt).map (fun j => (s.nth P (i + j)).len + P.kind.rs)).sum
  | 0, _ => by simp [VN.claim]
  | cnt + 1, h => by
    have ih := claim_eq (s := s) (P := P) (i := i) cnt
    simp only [List.range_succ, List.map_append, List.sum_append, List.map_cons, List.map_nil, List.sum_cons, List.sum_nil] at *
    have ih := ih (by omega)
    simp only [VN.claim, List.range_succ, List.foldl_append, List.foldl_cons, List.foldl_nil] at *
    rw [ih]
    have := u16_nat (x := s.avail + ((List.range cnt).map (fun j => (s.nth P (i + j)).len + P.kind.rs)).sum + (s.nth P (i + cnt)).len + P.kind.rs) (by omega)
    have h2 : ((s.avail + ((List.range cnt).map (fun j => (s.nth P (i + j)).len + P.kind.rs)).sum + (s.nth P (i + cnt)).len + P.kind.rs : Nat) : Int) =
      ((s.avail + ((List.range cnt).map (fun j => (s.nth P (i + j)).len + P.kind.rs)).sum : Nat) : Int) + (s.nth P (i + cnt)).len + P.kind.rs := by omega
    rw [← h2, this]
    omega

theorem drop_take_recs {P : Params} {s : VN} {i cnt : Nat} (h : i + cnt ≤ s.n) :
    ((s.recs P).drop i).take cnt = (List.range cnt).map (fun j => s.nth P (i + j)) := by
  apply List.ext_getElem
  · simp [VN.recs]
    omega
  · intro j h1 h2
    simp [VN.recs]

theorem sum_add_const {l : List Rec} {c : Nat} : (l.map (fun r => r.len + c)).sum = (l.map Rec.len).sum + l.length * c := by
  induction l with
  | nil => simp
  | cons r l ih =>
    simp only [List.map_cons, List.sum_cons, List.length_cons, Nat.add_mul]
    omega

theorem sum_split {l : List Rec} {i cnt : Nat} :
    (l.map Rec.len).sum = ((l.take i).map Rec.len).sum + (((l.drop i).take cnt).map Rec.len).sum + ((l.drop (i + cnt)).map Rec.len).sum := by
  have : l = l.take i ++ ((l.drop i).take cnt ++ l.drop (i + cnt)) := by
    rw [← List.drop_drop, List.take_append_drop, List.take_append_drop]
  conv => lhs; rw [this]
  simp only [List.map_append, List.sum_append]
  omega

theorem claim_sum {P : Params} {s : VN} (h : Inv P s) {i cnt : Nat} (hi : i + cnt ≤ s.n) :
    s.claim P i cnt = s.avail + (((s.recs P).drop i).take cnt |>.map Rec.len).sum + cnt * P.kind.rs := by
  have hsp := h.space
  have hh := h.high
  have hs := sum_split (l := s.recs P) (i := i) (cnt := cnt)
  have hl : (((s.recs P).drop i).take cnt).length = cnt := by simp [VN.recs]; omega
  have e : ((List.range cnt).map (fun j => (s.nth P (i + j)).len + P.kind.rs)).sum =
      (((s.recs P).drop i).take cnt |>.map Rec.len).sum + cnt * P.kind.rs := by
    have h1 := sum_add_const (l := ((s.recs P).drop i).take cnt) (c := P.kind.rs)
    rw [hl] at h1
    rw [← h1, drop_take_recs hi, List.map_map]
    rfl
  have hc : cnt * P.kind.rs ≤ s.n * P.kind.rs := Nat.mul_le_mul_right _ (by omega)
  simp only [recAt] at hsp
  rw [claim_eq _ (by omega), e]
  omega

/-- A node with some of the entries of another one, at the same places. -/
theorem inv_sub {P : Params} {s s' : VN} {is cnt : Nat} (h : Inv P s) (hi : is + cnt ≤ s.n) (hn : s'.n = s.n - cnt)
    (ht : s'.tail = s.tail) (hin : s'.init = s.init) (hm : ∀ x, s.tail ≤ x → s'.mem x = s.mem x)
    (hr : s'.recs P = (s.recs P).take is ++ (s.recs P).drop (is + cnt)) (ha : s'.avail = s.claim P is cnt) :
    Inv P s' ∧ s'.ents P = (s.ents P).take is ++ (s.ents P).drop (is + cnt) := by
  have hsub : (s'.recs P).Sublist (s.recs P) := by
    rw [hr]
    have h1 : ((s.recs P).drop (is + cnt)).Sublist ((s.recs P).drop is) := by
      rw [← List.drop_drop]
      exact List.drop_sublist _ _
    have := (List.Sublist.refl ((s.recs P).take is)).append h1
    rwa [List.take_append_drop] at this
  have hcl := claim_sum h hi
  have hsp := h.space
  have hs := sum_split (l := s.recs P) (i := is) (cnt := cnt)
  refine ⟨⟨h.low, h.high, hin.trans h.init, ?_, by rw [ht]; exact h.hi, ?_, h.disj.sublist hsub, ?_⟩, ?_⟩
  · rw [hn, ht]
    exact Nat.le_trans (recAt_le (by omega)) h.lo
  · intro r hrm
    rw [ht]
    exact h.bnd r (hsub.subset hrm)
  · rw [ha, hcl, hn, hr]
    have : recAt P.kind s.n = recAt P.kind (s.n - cnt) + cnt * P.kind.rs := by
      conv => lhs; rw [show s.n = s.n - cnt + cnt by omega]
      exact recAt_add
    simp only [List.map_append, List.sum_append]
    omega
  · rw [ents_eq, ents_eq, hr, ← List.map_take, ← List.map_drop, ← List.map_append]
    apply List.map_congr_left
    intro r hrm
    rw [← hr] at hrm
    have := h.bnd r (hsub.subset hrm)
    exact content_congr (fun x hx _ => hm x (by omega))

theorem remove_mem {P : Params} {s : VN} {is ie : Nat} (h : Inv P s) (h1 : ie < s.n) (h2 : is ≤ ie + 1) :
    ∃ s', s.remove P is ie = some s' ∧ Inv P s' ∧ s'.ents P = (s.ents P).take is ++ (s.ents P).drop (ie + 1) ∧ Safe P s s' ∧
      s'.edge = s.edge ∧ s'.leaf = s.leaf ∧ s'.n = s.n - (ie + 1 - is) := by
  have hlo := h.lo
  have hhi := h.hi
  refine ⟨_, by
    rw [VN.remove, if_neg (by simp; omega), if_neg (by omega), if_neg (by omega)], ?_⟩
  generalize hs' : ({ s with avail := _, mem := _, n := _ } : VN) = s'
  subst hs'
  have hcnt : is + (ie + 1 - is) = ie + 1 := by omega
  have hlen : s.n - ie - 1 = s.n - (ie + 1) := by omega
  have hend : recAt P.kind is + (s.n - (ie + 1)) * P.kind.rs ≤ recAt P.kind s.n := by
    rw [← recAt_add]
    exact recAt_le (by omega)
  have hmem : ∀ x, recAt P.kind s.n ≤ x → write s.mem (recAt P.kind is) (read s.mem (recAt P.kind is + P.kind.rs * (ie + 1 - is)) ((s.n - ie - 1) * P.kind.rs)) x = s.mem x := by
    intro x hx
    apply write_out
    rw [read_length, hlen]
    omega
  have key := inv_sub (P := P) (s := s) (is := is) (cnt := ie + 1 - is)
    (s' := { s with avail := s.claim P is (ie + 1 - is), mem := write s.mem (recAt P.kind is) (read s.mem (recAt P.kind is + P.kind.rs * (ie + 1 - is)) ((s.n - ie - 1) * P.kind.rs)), n := s.n - (ie + 1 - is) })
    h (by omega) rfl rfl rfl (fun x hx => hmem x (by omega)) (by
      apply rem_map (by omega)
      · intro i hi
        apply recOf_congr
        intro j hj
        have := recAt_lt (k := P.kind) hi
        exact write_out (by omega)
      · intro i hi1 hi2
        apply recOf_congr
        intro j hj
        have e1 : recAt P.kind i + j = recAt P.kind is + ((i - is) * P.kind.rs + j) := by
          conv => lhs; rw [show i = is + (i - is) by omega]
          rw [recAt_add]
          omega
        have h3 : (i - is) * P.kind.rs + j < (s.n - ie - 1) * P.kind.rs := by
          have : (i - is + 1) * P.kind.rs ≤ (s.n - ie - 1) * P.kind.rs := Nat.mul_le_mul_right _ (by omega)
          rw [Nat.add_mul] at this
          omega
        show write s.mem _ _ (recAt P.kind i + j) = _
        rw [e1, write_in (by rw [read_length]; exact h3), read_getD h3]
        congr 1
        have e2 : recAt P.kind (i + (ie + 1 - is)) = recAt P.kind i + (ie + 1 - is) * P.kind.rs := recAt_add
        have e3 : P.kind.rs * (ie + 1 - is) = (ie + 1 - is) * P.kind.rs := Nat.mul_comm _ _
        omega) rfl
  rw [hcnt] at key
  refine ⟨key.1, key.2, ?_, rfl, rfl, rfl⟩
  intro x hx
  rcases hx with hx | hx
  · have := recAt_low (k := P.kind) (i := is)
    exact write_out (by omega)
  · exact hmem x (by omega)

theorem nth_ents {P : Params} {s : VN} {i : Nat} (h : i < s.n) : (s.ents P)[i]? = some (s.key P i, s.value P i) := by
  simp [VN.ents, h]

theorem remove_spec {P : Params} {s : VN} {is ie : Nat} (h : Inv P s) :
    match s.remove P is ie, (s.abs P).remove is ie with
    | some r, some a => Meets P s r a
    | none, none => True
    | _, _ => False := by
  have hen : (s.abs P).ents = s.ents P := rfl
  have hle : (s.abs P).ents.length = s.n := ents_length
  by_cases he : ie = s.n
  · by_cases hc : s.leaf = false ∧ s.edge.isSome = true ∧ 1 ≤ is ∧ is ≤ ie
    · have hm : s.remove P is ie = some { s with edge := some (s.value P (is - 1)), avail := s.claim P (is - 1) (s.n - (is - 1)), n := s.n - (s.n - is + 1) } := by
        have hed : s.edge.isNone = false := by rw [← Option.not_isSome, hc.2.1]; rfl
        have h0 : is ≠ 0 := by omega
        rw [VN.remove, if_neg (by simp; omega), if_pos he, if_neg (by simp [hc.1, hed, h0])]
      have ha : (s.abs P).remove is ie = some { s.abs P with edge := some (s.value P (is - 1)), ents := (s.ents P).take (is - 1) } := by
        rw [Abs.remove, if_pos (by rw [hle]; exact he), if_pos (by exact hc), hen, nth_ents (by omega)]
      rw [hm, ha]
      have key := inv_sub (P := P) (s := s) (is := is - 1) (cnt := s.n - (is - 1))
        (s' := { s with edge := some (s.value P (is - 1)), avail := s.claim P (is - 1) (s.n - (is - 1)), n := s.n - (s.n - is + 1) })
        h (by omega) (by show s.n - (s.n - is + 1) = _; omega) rfl rfl (fun _ _ => rfl) (by
          have := rem_map (f := s.nth P) (g := s.nth P) (n := s.n) (is := is - 1) (cnt := s.n - (is - 1)) (by omega) (fun _ _ => rfl) (by intro i h1 h2; omega)
          show (List.range (s.n - (s.n - is + 1))).map (s.nth P) = _
          rw [← show s.n - (s.n - (is - 1)) = s.n - (s.n - is + 1) by omega]
          exact this) rfl
      refine ⟨key.1, ?_, fun _ _ => rfl⟩
      have : ((s.ents P).drop (is - 1 + (s.n - (is - 1)))) = [] := by
        rw [List.drop_eq_nil_iff, ents_length]
        omega
      rw [this, List.append_nil] at key
      simp only [VN.abs, key.2]
    · have hm : s.remove P is ie = none := by
        by_cases h2 : s.n < is
        · rw [VN.remove, if_pos (by simp [h2])]
        · rw [VN.remove, if_neg (by simp; omega), if_pos he, if_pos]
          by_cases h3 : s.leaf = true
          · simp [h3]
          · by_cases h4 : s.edge = none
            · simp [h4]
            · have : is = 0 := by
                apply Classical.byContradiction
                intro h5
                exact hc ⟨by simpa using h3, Option.isSome_iff_ne_none.2 h4, by omega, by omega⟩
              simp [this]
      have ha : (s.abs P).remove is ie = none := by
        rw [Abs.remove, if_pos (by rw [hle]; exact he), if_neg (by exact hc)]
      rw [hm, ha]
      trivial
  · by_cases hc : ie < s.n ∧ is ≤ ie + 1
    · obtain ⟨s', h1, h2, h3, h4, h5, h6, -⟩ := remove_mem h hc.1 hc.2
      have ha : (s.abs P).remove is ie = some { s.abs P with ents := (s.ents P).take is ++ (s.ents P).drop (ie + 1) } := by
        rw [Abs.remove, if_neg (by rw [hle]; exact he), if_pos (by rw [hle]; exact hc)]
        rfl
      rw [h1, ha]
      exact ⟨h2, by simp only [VN.abs, h3, h5, h6], h4⟩
    · have hm : s.remove P is ie = none := by
        by_cases h1 : s.n < is ∨ s.n < ie
        · rw [VN.remove, if_pos (by simpa using h1)]
        · rw [VN.remove, if_neg (by simpa using h1), if_neg he, if_pos (by omega)]
      have ha : (s.abs P).remove is ie = none := by
        rw [Abs.remove, if_neg (by rw [hle]; exact he), if_neg (by rw [hle]; exact hc)]
      rw [hm, ha]
      trivial

end HS.Varlen
