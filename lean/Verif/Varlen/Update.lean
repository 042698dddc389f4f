import Verif.Varlen.Ops
/-!
# `update`, moves and copies meet their specification
-/
namespace HS.Varlen

theorem pairwise_set {l : List Rec} {i : Nat} {old new : Rec} (hp : l.Pairwise Disj) (hi : l[i]? = some old)
    (hd : ∀ x, Disj old x → Disj new x) : (l.set i new).Pairwise Disj := by
  induction l generalizing i with
  | nil => simp
  | cons a l ih =>
    obtain ⟨h1, h2⟩ := List.pairwise_cons.1 hp
    cases i with
    | zero =>
      simp only [List.getElem?_cons_zero, Option.some.injEq] at hi
      subst hi
      exact List.pairwise_cons.2 ⟨fun x hx => hd x (h1 x hx), h2⟩
    | succ i =>
      simp only [List.getElem?_cons_succ] at hi
      refine List.pairwise_cons.2 ⟨?_, ih h2 hi⟩
      intro x hx
      rcases List.mem_or_eq_of_mem_set hx with hx | rfl
      · exact h1 x hx
      · exact (hd a (h1 old (List.mem_of_getElem? hi)).symm).symm

theorem sum_set {l : List Rec} {i : Nat} {old new : Rec} (hi : l[i]? = some old) :
    ((l.set i new).map Rec.len).sum + old.len = (l.map Rec.len).sum + new.len := by
  induction l generalizing i with
  | nil => simp at hi
  | cons a l ih =>
    cases i with
    | zero =>
      simp only [List.getElem?_cons_zero, Option.some.injEq] at hi
      subst hi
      simp only [List.set_cons_zero, List.map_cons, List.sum_cons]
      omega
    | succ i =>
      simp only [List.getElem?_cons_succ] at hi
      have := ih hi
      simp only [List.set_cons_succ, List.map_cons, List.sum_cons]
      omega

theorem nth_recs {P : Params} {s : VN} {i : Nat} (h : i < s.n) : (s.recs P)[i]? = some (s.nth P i) := by
  simp [VN.recs, h]

theorem nth_disj {P : Params} {s : VN} (h : Inv P s) {i j : Nat} (hi : i < s.n) (hj : j < s.n) (hne : j ≠ i) : Disj (s.nth P i) (s.nth P j) := by
  have hp := h.disj
  rw [VN.recs, List.pairwise_map, List.pairwise_iff_getElem] at hp
  rcases Nat.lt_or_gt_of_ne hne with hlt | hlt
  · have := hp j i (by simpa using hj) (by simpa using hi) hlt
    rw [List.getElem_range, List.getElem_range] at this
    exact this.symm
  · have := hp i j (by simpa using hi) (by simpa using hj) hlt
    rw [List.getElem_range, List.getElem_range] at this
    exact this

/-- Overwriting an object by one that is not larger. -/
theorem update_place {P : Params} {s : VN} {ind : Nat} {kb vb : Bytes} (h : Inv P s) (hi : ind < s.n) (hf : P.kind.fits kb vb = true)
    (hl : kb.length + vb.length ≤ (s.nth P ind).len) :
    let p := (s.nth P ind).off
    let a := recAt P.kind ind
    let s' : VN := { s with mem := setVl P.kind (setKl P.kind (write (write s.mem p kb) (p + kb.length) vb) a kb.length) a vb.length, avail := s.avail + ((s.nth P ind).len - (kb.length + vb.length)) }
    Inv P s' ∧ s'.ents P = (s.ents P).set ind (kb, vb) ∧ Safe P s s' := by
  intro p a s'
  have hb := h.bnd _ (nth_mem hi)
  have hh := h.high
  have hlo := h.lo
  have hrs4 := rs_pos (k := P.kind)
  have hrec : ∀ j, j < s.n → recAt P.kind j + P.kind.rs ≤ s.tail := by
    intro j hj
    have := recAt_lt (k := P.kind) hj
    omega
  have hpe : p = (s.nth P ind).off := rfl
  let m2 := write (write s.mem p kb) (p + kb.length) vb
  have e2 : ∀ x, x < p ∨ p + (kb.length + vb.length) ≤ x → m2 x = s.mem x := by
    intro x hx
    show write (write _ _ _) _ _ x = _
    rw [write_out (by omega), write_out (by omega)]
  have e4 : ∀ x, x < a ∨ a + P.kind.rs ≤ x → s'.mem x = m2 x := by
    intro x hx
    show setVl _ (setKl _ m2 _ _) _ _ x = _
    rw [setVl_out (by omega), setKl_out (by omega)]
  have hai := hrec ind hi
  have hae : a = recAt P.kind ind := rfl
  have hoth : ∀ j, j < s.n → j ≠ ind → s'.nth P j = s.nth P j := by
    intro j hj hne
    apply recOf_congr
    intro t ht
    have := hrec j hj
    rw [e4, e2 _ (by omega)]
    rcases Nat.lt_or_gt_of_ne hne with hlt | hlt
    · have := recAt_lt (k := P.kind) hlt
      omega
    · have := recAt_lt (k := P.kind) hlt
      omega
  have hnew : s'.nth P ind = { off := p, kl := kb.length, vl := vb.length } := by
    show recOf P.kind (setVl _ (setKl _ m2 _ _) _ _) _ = _
    rw [recOf_lens hf (by omega) (by omega)]
    have : fld m2 a = p := by
      rw [hpe]
      show _ = (recOf P.kind s.mem (recAt P.kind ind)).off
      rw [recOf_fld]
      exact fld_congr (e2 _ (by omega)) (e2 _ (by omega))
    rw [this]
  have hrecs : s'.recs P = (s.recs P).set ind { off := p, kl := kb.length, vl := vb.length } := set_map hoth hnew
  have hcnew : content s'.mem { off := p, kl := kb.length, vl := vb.length } = (kb, vb) := by
    have : content s'.mem { off := p, kl := kb.length, vl := vb.length } = content m2 { off := p, kl := kb.length, vl := vb.length } :=
      content_congr (fun x hx _ => e4 x (by simp only at hx; omega))
    rw [this]
    simp only [content, Prod.mk.injEq]
    constructor
    · show read (write _ _ _) _ _ = _
      rw [read_other (by omega)]
      exact read_write
    · exact read_write
  have hsp := h.space
  have hss := sum_set (new := { off := p, kl := kb.length, vl := vb.length }) (nth_recs (P := P) hi)
  refine ⟨⟨h.low, h.high, h.init, h.lo, h.hi, ?_, ?_, ?_⟩, ?_, ?_⟩
  · intro r hr
    rw [hrecs] at hr
    rcases List.mem_or_eq_of_mem_set hr with hr | rfl
    · exact h.bnd r hr
    · show s.tail ≤ p ∧ p + (kb.length + vb.length) ≤ P.size
      omega
  · rw [hrecs]
    refine pairwise_set h.disj (nth_recs hi) ?_
    intro x hx
    simp only [Disj, Rec.len] at *
    omega
  · rw [hrecs]
    show s.avail + ((s.nth P ind).len - (kb.length + vb.length)) + recAt P.kind s.n + _ = _
    simp only [Rec.len] at *
    omega
  · show (List.range s.n).map _ = _
    refine set_map (f := fun i => (s.key P i, s.value P i)) ?_ ?_
    · intro j hj hne
      show content s'.mem (s'.nth P j) = content s.mem (s.nth P j)
      rw [hoth j hj hne]
      have hbj := h.bnd _ (nth_mem hj)
      have hdj := nth_disj h hi hj hne
      apply content_congr
      intro x hx1 hx2
      rw [e4 x (by omega), e2 x (by simp only [Disj] at hdj; omega)]
    · show content s'.mem (s'.nth P ind) = _
      rw [hnew, hcnew]
  · intro x hx
    have := recAt_low (k := P.kind) (i := ind)
    rw [e4 x (by omega), e2 x (by omega)]

theorem Meets.of {P : Params} {s s1 s2 : VN} {a : Abs} (h1 : Safe P s s1) (h2 : Meets P s1 s2 a) : Meets P s s2 a :=
  ⟨h2.inv, h2.abs, h1.trans h2.safe⟩

theorem entry_len {P : Params} {s : VN} {i : Nat} : (s.key P i).length + (s.value P i).length = (s.nth P i).len := by
  simp [VN.key, VN.value, Rec.len]

theorem update_spec {P : Params} {s : VN} {ind : Nat} {kb vb : Bytes} (hP : Sorts P.sort) (h : Inv P s) (hl : kb.length + vb.length < 65500) :
    match s.update P ind kb vb, (s.abs P).update P ind kb vb with
    | some r, some a => Meets P s r a
    | none, none => True
    | _, _ => False := by
  have hle : (s.abs P).ents.length = s.n := ents_length
  have hh := h.high
  by_cases he : ind = s.n
  · have hm : s.update P ind kb vb = if s.leaf then none else some { s with edge := some vb } := by rw [VN.update, if_pos he]
    have ha : (s.abs P).update P ind kb vb = if s.leaf then none else some { s.abs P with edge := some vb } := by
      rw [Abs.update, if_pos (by rw [hle]; exact he)]
      rfl
    rw [hm, ha]
    cases hlf : s.leaf with
    | true => trivial
    | false => exact ⟨⟨h.low, h.high, h.init, h.lo, h.hi, h.bnd, h.disj, h.space⟩, by simp only [VN.abs, hlf]; rfl, Safe.refl⟩
  · by_cases hi : ind < s.n
    · have hent : (s.abs P).ents[ind]? = some (s.key P ind, s.value P ind) := nth_ents hi
      have hb := h.bnd _ (nth_mem hi)
      have hel := entry_len (P := P) (s := s) (i := ind)
      have hav := avail_eq h
      by_cases hf : P.kind.fits kb vb = true
      · have hcond : (decide (s.n < ind) || !P.kind.fits kb vb) = false := by simp [hf]; omega
        have hnew : u16 ((kb.length : Int) + vb.length) = kb.length + vb.length := u16_nat (by omega)
        have hcur : u16 ((s.nth P ind).len : Int) = (s.nth P ind).len := u16_nat (by omega)
        by_cases hs : kb.length + vb.length ≤ (s.nth P ind).len
        · have hm : s.update P ind kb vb = some { s with mem := setVl P.kind (setKl P.kind (write (write s.mem (s.nth P ind).off kb) ((s.nth P ind).off + kb.length) vb) (recAt P.kind ind) kb.length) (recAt P.kind ind) vb.length, avail := s.avail + ((s.nth P ind).len - (kb.length + vb.length)) } := by
            have hsp := h.space
            have : u16 ((s.avail : Int) + (((s.nth P ind).len : Int) - ((kb.length + vb.length : Nat) : Int))) = s.avail + ((s.nth P ind).len - (kb.length + vb.length)) := by
              have := u16_id (x := (s.avail : Int) + (((s.nth P ind).len : Int) - ((kb.length + vb.length : Nat) : Int))) (by omega) (by omega)
              omega
            rw [VN.update, if_neg he, hcond]
            simp only [Bool.false_eq_true, if_false, hnew, hcur]
            rw [if_pos hs, this]
          have ha : (s.abs P).update P ind kb vb = some { s.abs P with ents := (s.ents P).set ind (kb, vb) } := by
            rw [Abs.update, if_neg (by rw [hle]; exact he), hent]
            simp only
            rw [if_pos ⟨hf, by omega⟩]
            rfl
          rw [hm, ha]
          obtain ⟨k1, k2, k3⟩ := update_place h hi hf hs
          exact ⟨k1, by simp only [VN.abs] at *; rw [k2], k3⟩
        · obtain ⟨s1, r1, r2, r3, r4, r5, r6, r7⟩ := remove_mem h hi (by omega : ind ≤ ind + 1)
          have hav1 := avail_eq r2
          have hcl : s1.avail = s.avail + (s.nth P ind).len + P.kind.rs := by
            have hr : s1.avail = s.claim P ind 1 := by
              have hx := r1
              rw [VN.remove, if_neg (by simp; omega), if_neg (by omega), if_neg (by omega)] at hx
              simp only [Option.some.injEq] at hx
              rw [← hx]
              show s.claim P ind (ind + 1 - ind) = _
              rw [show ind + 1 - ind = 1 by omega]
            rw [hr, claim_sum h (by omega), drop_take_recs (by omega)]
            simp
          have hins := insert_spec (ind := ind) hP r2 hl
          have hm : s.update P ind kb vb = match s1.insert P ind kb vb with | none => none | some r => some r.2 := by
            rw [VN.update, if_neg he, hcond]
            simp only [Bool.false_eq_true, if_false, hnew, hcur]
            rw [if_neg hs, r1]
            rfl
          rw [hm]
          have hs1n : s1.n = s.n - 1 := by omega
          have hs1l : (s1.abs P).ents.length = s.n - 1 := by
            show (s1.ents P).length = _
            rw [ents_length, hs1n]
          have hset : (s1.ents P).take ind ++ (kb, vb) :: (s1.ents P).drop ind = (s.ents P).set ind (kb, vb) := by
            have hlen : ((s.ents P).take ind).length = ind := by
              rw [List.length_take, ents_length]
              omega
            rw [r3, List.set_eq_take_append_cons_drop, if_pos (by rw [ents_length]; exact hi)]
            congr 1
            · rw [List.take_append_of_le_length (by omega), List.take_take, Nat.min_self]
            · congr 1
              rw [List.drop_append_of_le_length (by omega), List.drop_eq_nil_of_le (by omega), List.nil_append]
          by_cases hsp : kb.length + vb.length ≤ (s.nth P ind).len + s.avail
          · have ha : (s.abs P).update P ind kb vb = some { s.abs P with ents := (s.ents P).set ind (kb, vb) } := by
              rw [Abs.update, if_neg (by rw [hle]; exact he), hent]
              simp only
              rw [if_pos ⟨hf, by omega⟩]
              rfl
            have ha1 : (s1.abs P).insert P ind kb vb = some { s1.abs P with ents := (s.ents P).set ind (kb, vb) } := by
              rw [Abs.insert, if_pos]
              · rw [← hset]
                rfl
              · exact ⟨by omega, hf, by rw [← hav1]; simp only [cost]; omega⟩
            rw [ha]
            rw [ha1] at hins
            cases hx : s1.insert P ind kb vb with
            | none => rw [hx] at hins; exact hins
            | some r =>
              rw [hx] at hins
              refine Meets.of r4 ⟨hins.1.inv, ?_, hins.1.safe⟩
              rw [hins.1.abs]
              simp only [VN.abs, r5, r6]
          · have ha : (s.abs P).update P ind kb vb = none := by
              rw [Abs.update, if_neg (by rw [hle]; exact he), hent]
              simp only
              rw [if_neg (by rintro ⟨-, h2⟩; omega)]
            have ha1 : (s1.abs P).insert P ind kb vb = none := by
              rw [Abs.insert, if_neg]
              rintro ⟨-, -, h2⟩
              rw [← hav1] at h2
              simp only [cost] at h2
              omega
            rw [ha]
            rw [ha1] at hins
            cases hx : s1.insert P ind kb vb with
            | none => trivial
            | some r => rw [hx] at hins; exact hins
      · have hm : s.update P ind kb vb = none := by
          rw [VN.update, if_neg he, if_pos (by simp [hf])]
        have ha : (s.abs P).update P ind kb vb = none := by
          rw [Abs.update, if_neg (by rw [hle]; exact he), hent]
          simp only
          rw [if_neg (by rintro ⟨h1, -⟩; exact hf h1)]
        rw [hm, ha]
        trivial
    · have hm : s.update P ind kb vb = none := by
        rw [VN.update, if_neg he, if_pos (by simp; omega)]
      have ha : (s.abs P).update P ind kb vb = none := by
        rw [Abs.update, if_neg (by rw [hle]; exact he), List.getElem?_eq_none (by omega)]
      rw [hm, ha]
      trivial

theorem updateVal_spec {P : Params} {s : VN} {ind : Nat} {vb : Bytes} (hP : Sorts P.sort) (h : Inv P s) (hl : P.size + vb.length < 65500) :
    match s.updateVal P ind vb, (s.abs P).updateVal P ind vb with
    | some r, some a => Meets P s r a
    | none, none => True
    | _, _ => False := by
  have hle : (s.abs P).ents.length = s.n := ents_length
  by_cases he : ind = s.n
  · have hm : s.updateVal P ind vb = s.update P ind [] vb := by simp only [VN.updateVal, VN.update, if_pos he]
    have ha : (s.abs P).updateVal P ind vb = (s.abs P).update P ind [] vb := by
      have : ind = (s.abs P).ents.length := by rw [hle]; exact he
      simp only [Abs.updateVal, Abs.update, if_pos this]
    rw [hm, ha]
    exact update_spec hP h (by simp; omega)
  · by_cases hi : ind < s.n
    · have hent : (s.abs P).ents[ind]? = some (s.key P ind, s.value P ind) := nth_ents hi
      have hm : s.updateVal P ind vb = s.update P ind (s.key P ind) vb := by rw [VN.updateVal, if_neg he, if_neg (by omega)]
      have ha : (s.abs P).updateVal P ind vb = (s.abs P).update P ind (s.key P ind) vb := by
        rw [Abs.updateVal, if_neg (by rw [hle]; exact he), hent]
      rw [hm, ha]
      have hb := h.bnd _ (nth_mem hi)
      have := entry_len (P := P) (s := s) (i := ind)
      exact update_spec hP h (by omega)
    · have hm : s.updateVal P ind vb = none := by rw [VN.updateVal, if_neg he, if_pos (by omega)]
      have ha : (s.abs P).updateVal P ind vb = none := by
        rw [Abs.updateVal, if_neg (by rw [hle]; exact he), List.getElem?_eq_none (by omega)]
      rw [hm, ha]
      trivial

theorem removeAll_spec {P : Params} {s : VN} (h : Inv P s) : Meets P s (s.removeAll P) (s.abs P).removeAll := by
  have hn := inv_new (P := P) (m := s.mem) (leaf := s.leaf) h.low h.high
  exact ⟨hn, rfl, Safe.refl⟩

end HS.Varlen
