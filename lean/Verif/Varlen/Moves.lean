import Verif.Varlen.Update
/-!
# Moving and copying entries between nodes meet their specification
-/
namespace HS.Varlen

theorem fits_entry {P : Params} {s : VN} {i : Nat} : P.kind.fits (s.key P i) (s.value P i) = true := by
  unfold Kind.fits VN.key VN.value VN.nth recOf
  cases P.kind <;> simp

theorem costs_append {P : Params} {l l' : List (Bytes × Bytes)} : costs P (l ++ l') = costs P l + costs P l' := by
  simp [costs]

theorem costs_cons {P : Params} {e : Bytes × Bytes} {l : List (Bytes × Bytes)} : costs P (e :: l) = cost P e + costs P l := by
  simp [costs]

/-- Inserting an entry of another node succeeds if and only if there is space. -/
theorem insert_entry {P : Params} {s o : VN} {i ind : Nat} (hP : Sorts P.sort) (hs : Inv P s) (ho : Inv P o) (hi : i < s.n) (hind : ind ≤ o.n) :
    if cost P (s.key P i, s.value P i) ≤ o.avail then
      ∃ o', o.insert P ind (s.key P i) (s.value P i) = some (cost P (s.key P i, s.value P i), o') ∧ Inv P o' ∧ Safe P o o' ∧
        o'.ents P = (o.ents P).take ind ++ (s.key P i, s.value P i) :: (o.ents P).drop ind ∧ o'.edge = o.edge ∧ o'.leaf = o.leaf ∧
        o'.avail + cost P (s.key P i, s.value P i) = o.avail ∧ o'.n = o.n + 1
    else o.insert P ind (s.key P i) (s.value P i) = none := by
  have hb := hs.bnd _ (nth_mem hi)
  have hh := hs.high
  have hl := entry_len (P := P) (s := s) (i := i)
  have key := insert_spec (ind := ind) (kb := s.key P i) (vb := s.value P i) hP ho (by omega)
  have hav := avail_eq ho
  have hle : (o.abs P).ents.length = o.n := ents_length
  by_cases hc : cost P (s.key P i, s.value P i) ≤ o.avail
  · rw [if_pos hc]
    have ha : (o.abs P).insert P ind (s.key P i) (s.value P i) = some { o.abs P with ents := (o.ents P).take ind ++ (s.key P i, s.value P i) :: (o.ents P).drop ind } := by
      rw [Abs.insert, if_pos ⟨by omega, fits_entry, by omega⟩]
      rfl
    rw [ha] at key
    cases hx : o.insert P ind (s.key P i) (s.value P i) with
    | none => rw [hx] at key; exact key.elim
    | some r =>
      rw [hx] at key
      obtain ⟨⟨k1, k2, k3⟩, k4⟩ := key
      have he : r.2.ents P = (o.ents P).take ind ++ (s.key P i, s.value P i) :: (o.ents P).drop ind := congrArg Abs.ents k2
      refine ⟨r.2, ?_, k1, k3, he, congrArg Abs.edge k2, congrArg Abs.leaf k2, ?_, ?_⟩
      · rw [← k4]
      · have h1 := avail_eq k1
        have h2 : costs P (r.2.ents P) = costs P (o.ents P) + cost P (s.key P i, s.value P i) := by
          rw [he, costs_append, costs_cons]
          have : costs P (o.ents P) = costs P ((o.ents P).take ind) + costs P ((o.ents P).drop ind) := by
            rw [← costs_append, List.take_append_drop]
          omega
        have h3 := costs_le k1
        simp only [Abs.free, VN.abs] at h1 hav
        omega
      · have := congrArg List.length he
        simp only [List.length_append, List.length_cons, List.length_take, List.length_drop, ents_length] at this
        omega
  · rw [if_neg hc]
    have ha : (o.abs P).insert P ind (s.key P i) (s.value P i) = none := by
      rw [Abs.insert, if_neg]
      rintro ⟨-, -, h3⟩
      omega
    rw [ha] at key
    cases hx : o.insert P ind (s.key P i) (s.value P i) with
    | none => rfl
    | some r => rw [hx] at key; exact key.elim

theorem seg_succ {l : List (Bytes × Bytes)} {i cnt : Nat} {e : Bytes × Bytes} (h : cnt < i) (he : l[i - 1]? = some e) :
    (l.drop (i - (cnt + 1))).take (cnt + 1) = (l.drop (i - 1 - cnt)).take cnt ++ [e] := by
  rw [List.take_succ, List.getElem?_drop, show i - (cnt + 1) = i - 1 - cnt by omega, show i - 1 - cnt + cnt = i - 1 by omega, he]
  rfl

theorem moveLoop_spec {P : Params} {s : VN} (hP : Sorts P.sort) (hs : Inv P s) : ∀ (cnt i : Nat) (o : VN), Inv P o → cnt ≤ i → i ≤ s.n →
    if costs P (((s.ents P).drop (i - cnt)).take cnt) ≤ o.avail then
      ∃ o', moveLoop P s cnt i o = some o' ∧ Inv P o' ∧ Safe P o o' ∧ o'.ents P = ((s.ents P).drop (i - cnt)).take cnt ++ o.ents P ∧
        o'.edge = o.edge ∧ o'.leaf = o.leaf ∧ o'.n = o.n + cnt
    else moveLoop P s cnt i o = none := by
  intro cnt
  induction cnt with
  | zero =>
    intro i o ho _ _
    rw [if_pos (by simp [costs])]
    exact ⟨o, rfl, ho, Safe.refl, by simp, rfl, rfl, rfl⟩
  | succ cnt ih =>
    intro i o ho h1 h2
    have he : (s.ents P)[i - 1]? = some (s.key P (i - 1), s.value P (i - 1)) := nth_ents (by omega)
    have hseg := seg_succ (by omega : cnt < i) he
    have hins := insert_entry (ind := 0) hP hs ho (by omega : i - 1 < s.n) (by omega)
    have hc : costs P (((s.ents P).drop (i - (cnt + 1))).take (cnt + 1)) = costs P (((s.ents P).drop (i - 1 - cnt)).take cnt) + cost P (s.key P (i - 1), s.value P (i - 1)) := by
      rw [hseg, costs_append, costs_cons]
      simp [costs]
    by_cases hcost : cost P (s.key P (i - 1), s.value P (i - 1)) ≤ o.avail
    · rw [if_pos hcost] at hins
      obtain ⟨o1, j1, j2, j3, j4, j5, j6, j7, j8⟩ := hins
      have hl : moveLoop P s (cnt + 1) i o = moveLoop P s cnt (i - 1) o1 := by
        rw [moveLoop, j1]
      have := ih (i - 1) o1 j2 (by omega) (by omega)
      by_cases hr : costs P (((s.ents P).drop (i - (cnt + 1))).take (cnt + 1)) ≤ o.avail
      · rw [if_pos hr]
        rw [if_pos (by omega)] at this
        obtain ⟨o', k1, k2, k3, k4, k5, k6, k7⟩ := this
        refine ⟨o', by rw [hl, k1], k2, j3.trans k3, ?_, k5.trans j5, k6.trans j6, by omega⟩
        rw [k4, j4, hseg]
        simp
      · rw [if_neg hr, hl]
        rw [if_neg (by omega)] at this
        exact this
    · rw [if_neg hcost] at hins
      rw [if_neg (by omega), moveLoop, hins]

theorem moveEdge_spec {P : Params} {s o : VN} (hs : Inv P s) (ho : Inv P o) :
    Inv P (moveEdge s o).1 ∧ Inv P (moveEdge s o).2 ∧ (moveEdge s o).1.ents P = s.ents P ∧ (moveEdge s o).2.ents P = o.ents P ∧
    (moveEdge s o).1.mem = s.mem ∧ (moveEdge s o).2.mem = o.mem ∧ (moveEdge s o).1.n = s.n ∧
    (moveEdge s o).1.leaf = s.leaf ∧ (moveEdge s o).2.leaf = o.leaf ∧
    (moveEdge s o).1.edge = (if s.leaf = false ∧ o.ents P ≠ [] then none else s.edge) ∧
    (moveEdge s o).2.edge = (if s.leaf = false ∧ o.ents P ≠ [] then s.edge else o.edge) := by
  have hn : o.ents P ≠ [] ↔ o.n ≠ 0 := by
    rw [ne_eq, ← List.length_eq_zero_iff, ents_length]
  have hi : ∀ (s : VN) (e : Option Bytes), Inv P s → Inv P { s with edge := e } := fun s e h =>
    ⟨h.low, h.high, h.init, h.lo, h.hi, h.bnd, h.disj, h.space⟩
  unfold moveEdge
  by_cases hc : s.leaf = false ∧ o.n ≠ 0
  · have hc' : s.leaf = false ∧ o.ents P ≠ [] := ⟨hc.1, hn.2 hc.2⟩
    rw [if_pos (by simp [hc.1, hc.2]), if_pos hc', if_pos hc']
    exact ⟨hi _ _ hs, hi _ _ ho, rfl, rfl, rfl, rfl, rfl, rfl, rfl, rfl, rfl⟩
  · have hc' : ¬ (s.leaf = false ∧ o.ents P ≠ []) := fun h => hc ⟨h.1, hn.1 h.2⟩
    rw [if_neg (by simpa using hc), if_neg hc', if_neg hc']
    exact ⟨hs, ho, rfl, rfl, rfl, rfl, rfl, rfl, rfl, rfl, rfl⟩

/-- Two nodes after a move. -/
structure Meets2 (P : Params) (s o s' o' : VN) (p : Abs × Abs) : Prop where
  inv1 : Inv P s'
  inv2 : Inv P o'
  abs1 : s'.abs P = p.1
  abs2 : o'.abs P = p.2
  safe1 : Safe P s s'
  safe2 : Safe P o o'

theorem moveEntries_spec {P : Params} {s o : VN} {cnt : Nat} (hP : Sorts P.sort) (hs : Inv P s) (ho : Inv P o) :
    match s.moveEntries P o cnt, (s.abs P).moveEntries P (o.abs P) cnt with
    | some r, some p => Meets2 P s o r.2.1 r.2.2 p ∧ r.1 = if s.n ≤ cnt then s.n - 1 else cnt
    | none, none => True
    | _, _ => False := by
  have hle : (s.abs P).ents.length = s.n := ents_length
  have hav := avail_eq ho
  by_cases h0 : min cnt s.n = 0
  · have hm : s.moveEntries P o cnt = some (0, s, o) := by simp only [VN.moveEntries, if_pos h0]
    have ha : (s.abs P).moveEntries P (o.abs P) cnt = some (s.abs P, o.abs P) := by
      rw [Abs.moveEntries, if_pos (by rw [hle]; exact h0)]
    rw [hm, ha]
    refine ⟨⟨hs, ho, rfl, rfl, Safe.refl, Safe.refl⟩, ?_⟩
    show 0 = _
    split <;> omega
  · have key := moveLoop_spec hP hs (min cnt s.n) s.n o ho (by omega) (Nat.le_refl _)
    have htk : ((s.ents P).drop (s.n - min cnt s.n)).take (min cnt s.n) = (s.ents P).drop (s.n - min cnt s.n) := by
      apply List.take_of_length_le
      rw [List.length_drop, ents_length]
      omega
    rw [htk] at key
    by_cases hc : costs P ((s.ents P).drop (s.n - min cnt s.n)) ≤ o.avail
    · rw [if_pos hc] at key
      obtain ⟨o', k1, k2, k3, k4, k5, k6, k7⟩ := key
      obtain ⟨e1, e2, e3, e4, e5, e6, e7, e8, e9, e10, e11⟩ := moveEdge_spec hs k2
      obtain ⟨s', r1, r2, r3, r4, r5, r6, r7⟩ := remove_mem (is := s.n - min cnt s.n) (ie := s.n - 1) e1 (by omega) (by omega)
      have hm : s.moveEntries P o cnt = some (if min cnt s.n = s.n then s.n - 1 else min cnt s.n, s', (moveEdge s o').2) := by
        simp only [VN.moveEntries, if_neg h0, k1, r1]
      have hdrop : (s.ents P).drop (s.n - 1 + 1) = [] := by
        rw [List.drop_eq_nil_iff, ents_length]
        omega
      rw [e3, hdrop, List.append_nil] at r3
      have ha : (s.abs P).moveEntries P (o.abs P) cnt = (s.abs P).move P (o.abs P) (min cnt s.n) := by
        rw [Abs.moveEntries, hle, if_neg h0]
      have hres : (if min cnt s.n = s.n then s.n - 1 else min cnt s.n) = if s.n ≤ cnt then s.n - 1 else cnt := by
        by_cases h : s.n ≤ cnt
        · rw [if_pos h, if_pos (by omega)]
        · rw [if_neg h, if_neg (by omega)]
          omega
      have hab : (s.abs P).move P (o.abs P) (min cnt s.n) = some (s'.abs P, (moveEdge s o').2.abs P) := by
        simp only [Abs.move, hle]
        rw [if_pos (by rw [← hav]; exact hc)]
        rw [k4] at e10 e11
        by_cases hed : s.leaf = false ∧ (s.ents P).drop (s.n - min cnt s.n) ++ o.ents P ≠ []
        · rw [if_pos hed] at e10 e11
          rw [if_pos (by exact hed)]
          simp only [VN.abs, e4, e8, e9, e10, e11, r3, r5, r6, k4, k6]
        · rw [if_neg hed] at e10 e11
          rw [if_neg (by exact hed)]
          simp only [VN.abs, e4, e8, e9, e10, e11, r3, r5, r6, k4, k5, k6]
      rw [hm, ha, hab]
      exact ⟨⟨r2, e2, rfl, rfl, fun x hx => (r4 x hx).trans (by rw [e5]), fun x hx => (by rw [e6]; exact k3 x hx)⟩, hres⟩
    · rw [if_neg hc] at key
      have hm : s.moveEntries P o cnt = none := by
        simp only [VN.moveEntries, if_neg h0, key]
      have ha : (s.abs P).moveEntries P (o.abs P) cnt = none := by
        rw [Abs.moveEntries, hle, if_neg h0]
        simp only [Abs.move, hle]
        rw [if_neg (by rw [← hav]; exact hc)]
      rw [hm, ha]
      trivial

/-! ## By size -/

/-- The entries from `1` to `ind`, the last first. -/
def backs (l : List (Bytes × Bytes)) (ind : Nat) : List (Bytes × Bytes) := ((l.take (ind + 1)).drop 1).reverse

theorem backs_succ {l : List (Bytes × Bytes)} {ind : Nat} {e : Bytes × Bytes} (he : l[ind + 1]? = some e) :
    backs l (ind + 1) = e :: backs l ind := by
  have hlt : ind + 1 < l.length := by
    apply Nat.lt_of_not_le
    intro h
    rw [List.getElem?_eq_none h] at he
    simp at he
  unfold backs
  rw [List.take_succ, he]
  rw [List.drop_append_of_le_length (by rw [List.length_take]; omega)]
  simp

theorem moveSizeLoop_spec {P : Params} {s : VN} (hP : Sorts P.sort) (hs : Inv P s) : ∀ (ind left mv : Nat) (o : VN), Inv P o → ind < s.n →
    let g := greedy P left (backs (s.ents P) ind)
    g ≤ ind ∧
    if costs P (((s.ents P).drop (ind + 1 - g)).take g) ≤ o.avail then
      ∃ o', moveSizeLoop P s ind left mv o = some (ind - g, mv + g, o') ∧ Inv P o' ∧ Safe P o o' ∧
        o'.ents P = ((s.ents P).drop (ind + 1 - g)).take g ++ o.ents P ∧ o'.edge = o.edge ∧ o'.leaf = o.leaf
    else moveSizeLoop P s ind left mv o = none := by
  intro ind
  induction ind with
  | zero =>
    intro left mv o ho _
    have hb : backs (s.ents P) 0 = [] := by
      unfold backs
      rw [List.reverse_eq_nil_iff, List.drop_eq_nil_iff, List.length_take]
      omega
    rw [hb]
    refine ⟨Nat.le_refl _, ?_⟩
    rw [show greedy P left [] = 0 from rfl, if_pos (by simp [costs])]
    exact ⟨o, rfl, ho, Safe.refl, by simp, rfl, rfl⟩
  | succ ind ih =>
    intro left mv o ho h2
    have he : (s.ents P)[ind + 1]? = some (s.key P (ind + 1), s.value P (ind + 1)) := nth_ents h2
    rw [backs_succ he]
    by_cases hc : cost P (s.key P (ind + 1), s.value P (ind + 1)) ≤ left
    · have hg : greedy P left ((s.key P (ind + 1), s.value P (ind + 1)) :: backs (s.ents P) ind) = greedy P (left - cost P (s.key P (ind + 1), s.value P (ind + 1))) (backs (s.ents P) ind) + 1 := by
        rw [greedy, if_pos hc]
      rw [hg]
      generalize hgd : greedy P (left - cost P (s.key P (ind + 1), s.value P (ind + 1))) (backs (s.ents P) ind) = g
      have hgle : ∀ o1, Inv P o1 → _ := fun o1 h1 => ih (left - cost P (s.key P (ind + 1), s.value P (ind + 1))) (mv + 1) o1 h1 (by omega)
      have hle := (hgle o ho).1
      rw [hgd] at hle
      refine ⟨by omega, ?_⟩
      have hseg := seg_succ (l := s.ents P) (i := ind + 2) (cnt := g) (by omega) (by simpa using he)
      rw [show ind + 2 - 1 - g = ind + 1 - g by omega, show ind + 2 - (g + 1) = ind + 1 + 1 - (g + 1) by omega] at hseg
      have hcs : costs P (((s.ents P).drop (ind + 1 + 1 - (g + 1))).take (g + 1)) = costs P (((s.ents P).drop (ind + 1 - g)).take g) + cost P (s.key P (ind + 1), s.value P (ind + 1)) := by
        rw [hseg, costs_append, costs_cons]
        simp [costs]
      have hins := insert_entry (ind := 0) hP hs ho h2 (by omega)
      have hnot : ¬ left < (s.key P (ind + 1)).length + (s.value P (ind + 1)).length + P.kind.rs := by
        simp only [cost] at hc
        omega
      by_cases hcost : cost P (s.key P (ind + 1), s.value P (ind + 1)) ≤ o.avail
      · rw [if_pos hcost] at hins
        obtain ⟨o1, j1, j2, j3, j4, j5, j6, j7, j8⟩ := hins
        have hl : moveSizeLoop P s (ind + 1) left mv o = moveSizeLoop P s ind (left - cost P (s.key P (ind + 1), s.value P (ind + 1))) (mv + 1) o1 := by
          rw [moveSizeLoop, if_neg hnot, j1]
        have := (hgle o1 j2).2
        rw [hgd] at this
        by_cases hr : costs P (((s.ents P).drop (ind + 1 + 1 - (g + 1))).take (g + 1)) ≤ o.avail
        · rw [if_pos hr]
          rw [if_pos (by omega)] at this
          obtain ⟨o', k1, k2, k3, k4, k5, k6⟩ := this
          refine ⟨o', ?_, k2, j3.trans k3, ?_, k5.trans j5, k6.trans j6⟩
          · rw [hl, k1, show ind + 1 - (g + 1) = ind - g by omega, show mv + (g + 1) = mv + 1 + g by omega]
          · rw [k4, j4, hseg]
            simp
        · rw [if_neg hr, hl]
          rw [if_neg (by omega)] at this
          exact this
      · rw [if_neg hcost] at hins
        rw [if_neg (by omega), moveSizeLoop, if_neg hnot, hins]
    · have hg : greedy P left ((s.key P (ind + 1), s.value P (ind + 1)) :: backs (s.ents P) ind) = 0 := by
        rw [greedy, if_neg hc]
      rw [hg]
      refine ⟨by omega, ?_⟩
      rw [if_pos (by simp [costs])]
      refine ⟨o, ?_, ho, Safe.refl, by simp, rfl, rfl⟩
      rw [moveSizeLoop, if_pos]
      · rfl
      · simp only [cost] at hc
        omega

theorem moveSize_spec {P : Params} {s o : VN} {size : Nat} (hP : Sorts P.sort) (hs : Inv P s) (ho : Inv P o) :
    match s.moveSize P o size, (s.abs P).moveSize P (o.abs P) size with
    | some r, some p => Meets2 P s o r.2.1 r.2.2 p.2 ∧ r.1 = p.1
    | none, none => True
    | _, _ => False := by
  have hle : (s.abs P).ents.length = s.n := ents_length
  have hav := avail_eq ho
  by_cases h0 : s.n = 0
  · have hm : s.moveSize P o size = none := by rw [VN.moveSize, if_pos h0]
    have ha : (s.abs P).moveSize P (o.abs P) size = none := by
      rw [Abs.moveSize, if_pos]
      rw [← List.length_eq_zero_iff, hle, h0]
    rw [hm, ha]
    trivial
  · have hne : (s.abs P).ents ≠ [] := by
      intro h
      rw [← List.length_eq_zero_iff, hle] at h
      exact h0 h
    have hbk : backs (s.ents P) (s.n - 1) = (s.ents P).tail.reverse := by
      unfold backs
      rw [List.take_of_length_le (by rw [ents_length]; omega), List.drop_one]
    obtain ⟨hg, key⟩ := moveSizeLoop_spec hP hs (s.n - 1) size 0 o ho (by omega)
    rw [hbk, show s.n - 1 + 1 = s.n by omega] at key
    rw [hbk] at hg
    have ha : (s.abs P).moveSize P (o.abs P) size = ((s.abs P).move P (o.abs P) (greedy P size (s.ents P).tail.reverse)).map (fun p => (greedy P size (s.ents P).tail.reverse, p)) := by
      rw [Abs.moveSize, if_neg hne]
      rfl
    generalize greedy P size (s.ents P).tail.reverse = g at *
    have htk : ((s.ents P).drop (s.n - g)).take g = (s.ents P).drop (s.n - g) := by
      apply List.take_of_length_le
      rw [List.length_drop, ents_length]
      omega
    rw [htk] at key
    by_cases hc : costs P ((s.ents P).drop (s.n - g)) ≤ o.avail
    · rw [if_pos hc] at key
      obtain ⟨o', k1, k2, k3, k4, k5, k6⟩ := key
      obtain ⟨s', r1, r2, r3, r4, r5, r6, r7⟩ := remove_mem (is := s.n - 1 - g + 1) (ie := s.n - 1) hs (by omega) (by omega)
      obtain ⟨e1, e2, e3, e4, e5, e6, e7, e8, e9, e10, e11⟩ := moveEdge_spec r2 k2
      have hm : s.moveSize P o size = some (g, (moveEdge s' o').1, (moveEdge s' o').2) := by
        simp only [VN.moveSize, if_neg h0, k1, r1, Nat.zero_add]
      have hdrop : (s.ents P).drop (s.n - 1 + 1) = [] := by
        rw [List.drop_eq_nil_iff, ents_length]
        omega
      rw [hdrop, List.append_nil, show s.n - 1 - g + 1 = s.n - g by omega] at r3
      have hab : (s.abs P).move P (o.abs P) g = some ((moveEdge s' o').1.abs P, (moveEdge s' o').2.abs P) := by
        simp only [Abs.move, hle]
        rw [if_pos (by rw [← hav]; exact hc)]
        rw [k4, r6, r5] at e10 e11
        by_cases hed : s.leaf = false ∧ (s.ents P).drop (s.n - g) ++ o.ents P ≠ []
        · rw [if_pos hed] at e10 e11
          rw [if_pos (by exact hed)]
          simp only [VN.abs, e3, e4, e8, e9, e10, e11, r3, r6, k4, k6]
        · rw [if_neg hed] at e10 e11
          rw [if_neg (by exact hed)]
          simp only [VN.abs, e3, e4, e8, e9, e10, e11, r3, r6, k4, k5, k6]
      rw [hm, ha, hab]
      exact ⟨⟨e1, e2, rfl, rfl, fun x hx => (by rw [e5]; exact r4 x hx), fun x hx => (by rw [e6]; exact k3 x hx)⟩, rfl⟩
    · rw [if_neg hc] at key
      have hm : s.moveSize P o size = none := by
        simp only [VN.moveSize, if_neg h0, key]
      have hab : (s.abs P).move P (o.abs P) g = none := by
        simp only [Abs.move, hle]
        rw [if_neg (by rw [← hav]; exact hc)]
      rw [hm, ha, hab]
      trivial

theorem numLoop_eq {P : Params} {s : VN} {size : Nat} : ∀ (f i cum : Nat), i + f = s.n → cum ≤ size →
    numLoop P s size f i cum = greedy P (size - cum) ((s.ents P).drop i) := by
  intro f
  induction f with
  | zero =>
    intro i cum hi _
    rw [List.drop_eq_nil_of_le (by rw [ents_length]; omega)]
    rfl
  | succ f ih =>
    intro i cum hi hc
    have hlt : i < (s.ents P).length := by rw [ents_length]; omega
    have he : (s.ents P)[i] = (s.key P i, s.value P i) := by
      have := nth_ents (P := P) (s := s) (i := i) (by omega)
      rw [List.getElem?_eq_getElem hlt] at this
      simpa using this
    rw [List.drop_eq_getElem_cons hlt, he]
    have hl := entry_len (P := P) (s := s) (i := i)
    simp only [numLoop, greedy, cost, hl]
    by_cases h : size < cum + (P.kind.rs + (s.nth P i).len)
    · rw [if_pos h, if_neg (by omega)]
    · rw [if_neg h, if_pos (by omega), ih (i + 1) _ (by omega) (by omega)]
      congr 2
      omega

/-- `num_entries_by_size` counts the entries that fit. -/
theorem numBySize_spec {P : Params} {s : VN} {start size : Nat} : s.numBySize P start size = greedy P size ((s.abs P).ents.drop start) := by
  by_cases h : start ≤ s.n
  · exact numLoop_eq (s.n - start) start 0 (by omega) (by omega)
  · rw [VN.numBySize, show s.n - start = 0 by omega, List.drop_eq_nil_of_le (by show (s.ents P).length ≤ _; rw [ents_length]; omega)]
    rfl

/-! ## Copies -/

theorem copyLoop_spec {P : Params} {src : VN} (hP : Sorts P.sort) (hs : Inv P src) : ∀ (cnt i : Nat) (o : VN), Inv P o → i + cnt ≤ src.n →
    if costs P (((src.ents P).drop i).take cnt) ≤ o.avail then
      ∃ o', copyLoop P src cnt i o = some o' ∧ Inv P o' ∧ Safe P o o' ∧ o'.ents P = o.ents P ++ ((src.ents P).drop i).take cnt ∧
        o'.edge = o.edge ∧ o'.leaf = o.leaf
    else copyLoop P src cnt i o = none := by
  intro cnt
  induction cnt with
  | zero =>
    intro i o ho _
    rw [if_pos (by simp [costs])]
    exact ⟨o, rfl, ho, Safe.refl, by simp, rfl, rfl⟩
  | succ cnt ih =>
    intro i o ho h2
    have hlt : i < (src.ents P).length := by rw [ents_length]; omega
    have he : (src.ents P)[i] = (src.key P i, src.value P i) := by
      have := nth_ents (P := P) (s := src) (i := i) (by omega)
      rw [List.getElem?_eq_getElem hlt] at this
      simpa using this
    have hseg : ((src.ents P).drop i).take (cnt + 1) = (src.key P i, src.value P i) :: ((src.ents P).drop (i + 1)).take cnt := by
      rw [List.drop_eq_getElem_cons hlt, he]
      rfl
    have hins := insert_entry (ind := o.n) hP hs ho (by omega : i < src.n) (Nat.le_refl _)
    have hc : costs P (((src.ents P).drop i).take (cnt + 1)) = cost P (src.key P i, src.value P i) + costs P (((src.ents P).drop (i + 1)).take cnt) := by
      rw [hseg, costs_cons]
    by_cases hcost : cost P (src.key P i, src.value P i) ≤ o.avail
    · rw [if_pos hcost] at hins
      obtain ⟨o1, j1, j2, j3, j4, j5, j6, j7, j8⟩ := hins
      have hl : copyLoop P src (cnt + 1) i o = copyLoop P src cnt (i + 1) o1 := by
        rw [copyLoop, j1]
      have := ih (i + 1) o1 j2 (by omega)
      by_cases hr : costs P (((src.ents P).drop i).take (cnt + 1)) ≤ o.avail
      · rw [if_pos hr]
        rw [if_pos (by omega)] at this
        obtain ⟨o', k1, k2, k3, k4, k5, k6⟩ := this
        refine ⟨o', by rw [hl, k1], k2, j3.trans k3, ?_, k5.trans j5, k6.trans j6⟩
        rw [k4, j4, hseg, List.take_of_length_le (by rw [ents_length]; omega), List.drop_eq_nil_of_le (by rw [ents_length]; omega)]
        simp
      · rw [if_neg hr, hl]
        rw [if_neg (by omega)] at this
        exact this
    · rw [if_neg hcost] at hins
      rw [if_neg (by omega), copyLoop, hins]

/-- Whether the edge is copied. -/
theorem copyEdge_spec {P : Params} {src o : VN} {start cnt : Nat} (ho : Inv P o) :
    Inv P (copyEdge src o start cnt) ∧ Safe P o (copyEdge src o start cnt) ∧
    (copyEdge src o start cnt).abs P = { o.abs P with edge := if src.leaf = false ∧ src.edge.isSome = true ∧ start + cnt = src.n then src.edge else o.edge } := by
  unfold copyEdge
  by_cases hc : src.leaf = false ∧ src.edge.isSome = true ∧ start + cnt = src.n
  · rw [if_pos (by simp [hc.1, hc.2.1, hc.2.2]), if_pos hc]
    exact ⟨⟨ho.low, ho.high, ho.init, ho.lo, ho.hi, ho.bnd, ho.disj, ho.space⟩, Safe.refl, rfl⟩
  · rw [if_neg, if_neg hc]
    · exact ⟨ho, Safe.refl, rfl⟩
    · intro h
      apply hc
      simpa [and_assoc] using h

theorem copyEntries_spec {P : Params} {s src : VN} {start cnt : Nat} (hP : Sorts P.sort) (hs : Inv P s) (ho : Inv P src) :
    match s.copyEntries P src start cnt, (s.abs P).copyEntries P (src.abs P) start cnt with
    | some r, some a => Meets P s r.2 a.2 ∧ r.1 = a.1
    | none, none => True
    | _, _ => False := by
  have hle : (src.abs P).ents.length = src.n := ents_length
  have hav := avail_eq hs
  by_cases h0 : src.n < start
  · have hm : s.copyEntries P src start cnt = none := by rw [VN.copyEntries, if_pos h0]
    have ha : (s.abs P).copyEntries P (src.abs P) start cnt = none := by rw [Abs.copyEntries, if_neg (by omega)]
    rw [hm, ha]
    trivial
  · have key := copyLoop_spec hP ho (min cnt (src.n - start)) start s hs (by omega)
    have ha : (s.abs P).copyEntries P (src.abs P) start cnt = ((s.abs P).copy P (src.abs P) start (min cnt (src.n - start))).map (fun r => (min cnt (src.n - start), r)) := by
      rw [Abs.copyEntries, if_pos (by omega), hle]
    have hen : (src.abs P).ents = src.ents P := rfl
    generalize hc0 : min cnt (src.n - start) = m at *
    by_cases hc : costs P (((src.ents P).drop start).take m) ≤ s.avail
    · rw [if_pos hc] at key
      obtain ⟨o', k1, k2, k3, k4, k5, k6⟩ := key
      obtain ⟨e1, e2, e3⟩ := copyEdge_spec (src := src) (start := start) (cnt := m) k2
      have hm : s.copyEntries P src start cnt = some (m, copyEdge src o' start m) := by
        simp only [VN.copyEntries, if_neg h0, hc0, k1]
      rw [hm, ha]
      simp only [Abs.copy, hle, hen]
      rw [if_pos (by rw [← hav]; exact hc)]
      refine ⟨⟨e1, ?_, k3.trans e2⟩, rfl⟩
      rw [e3]
      simp only [VN.abs, k4, k5, k6, ents_length]
    · rw [if_neg hc] at key
      have hm : s.copyEntries P src start cnt = none := by
        simp only [VN.copyEntries, if_neg h0, hc0, key]
      rw [hm, ha]
      simp only [Abs.copy, hen]
      rw [if_neg (by rw [← hav]; exact hc)]
      trivial

theorem copySizeLoop_spec {P : Params} {src : VN} (hP : Sorts P.sort) (hs : Inv P src) : ∀ (f i left c : Nat) (o : VN), Inv P o → i + f = src.n →
    let g := greedy P left ((src.ents P).drop i)
    if costs P (((src.ents P).drop i).take g) ≤ o.avail then
      ∃ o', copySizeLoop P src f i left c o = some (c + g, o') ∧ Inv P o' ∧ Safe P o o' ∧ o'.ents P = o.ents P ++ ((src.ents P).drop i).take g ∧
        o'.edge = o.edge ∧ o'.leaf = o.leaf
    else copySizeLoop P src f i left c o = none := by
  intro f
  induction f with
  | zero =>
    intro i left c o ho hi
    have : (src.ents P).drop i = [] := List.drop_eq_nil_of_le (by rw [ents_length]; omega)
    rw [this]
    show if costs P (([] : List (Bytes × Bytes)).take (greedy P left [])) ≤ o.avail then _ else _
    rw [show greedy P left [] = 0 from rfl, if_pos (by simp [costs])]
    exact ⟨o, rfl, ho, Safe.refl, by simp, rfl, rfl⟩
  | succ f ih =>
    intro i left c o ho h2
    have hlt : i < (src.ents P).length := by rw [ents_length]; omega
    have he : (src.ents P)[i] = (src.key P i, src.value P i) := by
      have := nth_ents (P := P) (s := src) (i := i) (by omega)
      rw [List.getElem?_eq_getElem hlt] at this
      simpa using this
    rw [List.drop_eq_getElem_cons hlt, he]
    intro g0
    have hg0 : g0 = greedy P left ((src.key P i, src.value P i) :: (src.ents P).drop (i + 1)) := rfl
    clear_value g0
    rw [greedy] at hg0
    by_cases hc : cost P (src.key P i, src.value P i) ≤ left
    · have hnot : ¬ left < (src.key P i).length + (src.value P i).length + P.kind.rs := by
        simp only [cost] at hc
        omega
      rw [if_pos hc] at hg0
      have hih := fun o1 h1 => ih (i + 1) (left - cost P (src.key P i, src.value P i)) (c + 1) o1 h1 (by omega)
      generalize greedy P (left - cost P (src.key P i, src.value P i)) ((src.ents P).drop (i + 1)) = g at *
      subst hg0
      rw [List.take_succ_cons, costs_cons]
      have hins := insert_entry (ind := o.n) hP hs ho (by omega : i < src.n) (Nat.le_refl _)
      by_cases hcost : cost P (src.key P i, src.value P i) ≤ o.avail
      · rw [if_pos hcost] at hins
        obtain ⟨o1, j1, j2, j3, j4, j5, j6, j7, j8⟩ := hins
        have hl : copySizeLoop P src (f + 1) i left c o = copySizeLoop P src f (i + 1) (left - cost P (src.key P i, src.value P i)) (c + 1) o1 := by
          rw [copySizeLoop, if_neg hnot, j1]
        have := hih o1 j2
        simp only at this
        by_cases hr : cost P (src.key P i, src.value P i) + costs P (((src.ents P).drop (i + 1)).take g) ≤ o.avail
        · rw [if_pos hr]
          rw [if_pos (by omega)] at this
          obtain ⟨o', k1, k2, k3, k4, k5, k6⟩ := this
          refine ⟨o', by rw [hl, k1, show c + (g + 1) = c + 1 + g by omega], k2, j3.trans k3, ?_, k5.trans j5, k6.trans j6⟩
          rw [k4, j4, List.take_of_length_le (by rw [ents_length]; omega), List.drop_eq_nil_of_le (by rw [ents_length]; omega)]
          simp
        · rw [if_neg hr, hl]
          rw [if_neg (by omega)] at this
          exact this
      · rw [if_neg hcost] at hins
        rw [if_neg (by omega), copySizeLoop, if_neg hnot, hins]
    · rw [if_neg hc] at hg0
      subst hg0
      rw [if_pos (by simp [costs])]
      refine ⟨o, ?_, ho, Safe.refl, by simp, rfl, rfl⟩
      rw [copySizeLoop, if_pos]
      · rfl
      · simp only [cost] at hc
        omega

theorem copySize_spec {P : Params} {s src : VN} {start size : Nat} (hP : Sorts P.sort) (hs : Inv P s) (ho : Inv P src) :
    match s.copySize P src start size, (s.abs P).copySize P (src.abs P) start size with
    | some r, some a => Meets P s r.2 a.2 ∧ r.1 = a.1
    | none, none => True
    | _, _ => False := by
  have hle : (src.abs P).ents.length = src.n := ents_length
  have hav := avail_eq hs
  have hen : (src.abs P).ents = src.ents P := rfl
  by_cases h0 : src.n < start
  · have hm : s.copySize P src start size = some (0, copyEdge src s start 0) := by
      rw [VN.copySize, show src.n - start = 0 by omega]
      rfl
    have hd : (src.ents P).drop start = [] := List.drop_eq_nil_of_le (by rw [ents_length]; omega)
    have ha : (s.abs P).copySize P (src.abs P) start size = some (0, s.abs P) := by
      simp only [Abs.copySize, hen, hd, greedy, Abs.copy]
      rw [if_pos (by simp [costs]), if_neg (by rintro ⟨-, -, h⟩; rw [ents_length] at h; omega)]
      simp [VN.abs]
    obtain ⟨e1, e2, e3⟩ := copyEdge_spec (src := src) (start := start) (cnt := 0) hs
    rw [hm, ha]
    refine ⟨⟨e1, ?_, e2⟩, rfl⟩
    rw [e3, if_neg (by rintro ⟨-, -, h⟩; omega)]
    rfl
  · have key := copySizeLoop_spec hP ho (src.n - start) start size 0 s hs (by omega)
    have ha : (s.abs P).copySize P (src.abs P) start size = ((s.abs P).copy P (src.abs P) start (greedy P size ((src.ents P).drop start))).map (fun r => (greedy P size ((src.ents P).drop start), r)) := rfl
    simp only at key
    generalize greedy P size ((src.ents P).drop start) = m at *
    by_cases hc : costs P (((src.ents P).drop start).take m) ≤ s.avail
    · rw [if_pos hc] at key
      obtain ⟨o', k1, k2, k3, k4, k5, k6⟩ := key
      obtain ⟨e1, e2, e3⟩ := copyEdge_spec (src := src) (start := start) (cnt := m) k2
      have hm : s.copySize P src start size = some (m, copyEdge src o' start m) := by
        simp only [VN.copySize, k1, Nat.zero_add]
      rw [hm, ha]
      simp only [Abs.copy, hle, hen]
      rw [if_pos (by rw [← hav]; exact hc)]
      refine ⟨⟨e1, ?_, k3.trans e2⟩, rfl⟩
      rw [e3]
      simp only [VN.abs, k4, k5, k6, ents_length]
    · rw [if_neg hc] at key
      have hm : s.copySize P src start size = none := by
        simp only [VN.copySize, key]
      rw [hm, ha]
      simp only [Abs.copy, hen]
      rw [if_neg (by rw [← hav]; exact hc)]
      trivial

end HS.Varlen
