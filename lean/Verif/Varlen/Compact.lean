import Verif.Varlen.Insert
/-!
# Compaction
-/
namespace HS.Varlen

/-- What `std::sort` does here: the same elements by descending offset. -/
def Sorts (f : List (Nat × Nat) → List (Nat × Nat)) : Prop :=
  ∀ l, (f l).Perm l ∧ (f l).Pairwise (fun a b => b.1 ≤ a.1)

/-- The loop of `compact` has done the records `done` and has the records `todo` still to do. -/
structure Comp (P : Params) (s0 s : VN) (last : Nat) (done todo : List Nat) : Prop where
  n : s.n = s0.n
  rest : s.avail = s0.avail ∧ s.init = s0.init ∧ s.leaf = s0.leaf ∧ s.edge = s0.edge ∧ s.tail = s0.tail
  lens : ∀ i, i < s0.n → (s.nth P i).kl = (s0.nth P i).kl ∧ (s.nth P i).vl = (s0.nth P i).vl
  same : ∀ i, i < s0.n → content s.mem (s.nth P i) = content s0.mem (s0.nth P i)
  safe : Safe P s0 s
  size : last ≤ P.size
  low : s0.tail ≤ last
  moved : ∀ i ∈ done, last ≤ (s.nth P i).off ∧ (s.nth P i).off + (s.nth P i).len ≤ P.size
  apart : done.Pairwise (fun i j => Disj (s.nth P i) (s.nth P j))
  still : ∀ j ∈ todo, (s.nth P j).off = (s0.nth P j).off ∧ (s0.nth P j).off + (s0.nth P j).len ≤ last
  sum : last + (done.map (fun i => (s0.nth P i).len)).sum = P.size

theorem len_eq {a b : Rec} (h : a.kl = b.kl ∧ a.vl = b.vl) : a.len = b.len := by simp [Rec.len, h.1, h.2]

/-- One record. -/
theorem comp_step {P : Params} {s0 s : VN} {last i : Nat} {done todo : List Nat} (h0 : Inv P s0) (h : Comp P s0 s last done (i :: todo))
    (hi : i < s0.n) (hin : ∀ j ∈ done ++ todo, j < s0.n ∧ j ≠ i)
    (hall : ∀ j, j < s0.n → j ∈ done ∨ j = i ∨ j ∈ todo) (hle : ∀ j ∈ todo, (s0.nth P j).off ≤ (s0.nth P i).off) (l : List (Nat × Nat)) :
    ∃ s' last', compactLoop P (((s0.nth P i).off, i) :: l) last s = compactLoop P l last' s' ∧ Comp P s0 s' last' (done ++ [i]) todo := by
  have hh := h0.high
  have hb := h0.bnd _ (nth_mem hi)
  have hti := h.still i List.mem_cons_self
  have hlen : (s.nth P i).len = (s0.nth P i).len := len_eq (h.lens i hi)
  have hsz := h.size
  have hdis : ∀ j, j < s0.n → j ≠ i → Disj (s0.nth P i) (s0.nth P j) := by
    intro j hj hne
    have hp := h0.disj
    rw [VN.recs, List.pairwise_map, List.pairwise_iff_getElem] at hp
    rcases Nat.lt_or_gt_of_ne hne with hlt | hlt
    · have := hp j i (by simpa using hj) (by simpa using hi) hlt
      rw [List.getElem_range, List.getElem_range] at this
      exact this.symm
    · have := hp i j (by simpa using hi) (by simpa using hj) hlt
      rw [List.getElem_range, List.getElem_range] at this
      exact this
  have hlo := h0.lo
  have hrecL : ∀ j, j < s0.n → recAt P.kind j + P.kind.rs ≤ s0.tail := by
    intro j hj
    have := recAt_lt (k := P.kind) hj
    omega
  -- the objects of the other records are left alone
  have hfree : ∀ j ∈ todo, (s0.nth P j).off + (s0.nth P j).len ≤ last - (s0.nth P i).len := by
    intro j hj
    have h1 := hle j hj
    have h2 := hdis j (hin j (by simp [hj])).1 (hin j (by simp [hj])).2
    have h3 := (h.still j (List.mem_cons_of_mem _ hj)).2
    simp only [Disj] at h2
    omega
  have hl16 : u16 (s.nth P i).len = (s0.nth P i).len := by rw [hlen]; exact u16_nat (by omega)
  have hsp : u16 ((last : Int) - ((s0.nth P i).off + ((s0.nth P i).len : Nat))) = last - ((s0.nth P i).off + (s0.nth P i).len) := by
    have := u16_id (x := (last : Int) - (((s0.nth P i).off : Int) + ((s0.nth P i).len : Nat))) (by omega) (by omega)
    omega
  by_cases hz : last - ((s0.nth P i).off + (s0.nth P i).len) = 0
  · refine ⟨s, (s0.nth P i).off, ?_, ?_⟩
    · simp only [compactLoop, hl16, hsp, hz]
      simp
    · have hlast : last = (s0.nth P i).off + (s0.nth P i).len := by omega
      refine ⟨h.n, h.rest, h.lens, h.same, h.safe, by omega, hb.1, ?_, ?_, ?_, ?_⟩
      · intro j hj
        rcases List.mem_append.1 hj with hj | hj
        · have := h.moved j hj
          omega
        · simp only [List.mem_singleton] at hj
          subst hj
          rw [hti.1, hlen]
          omega
      · refine List.pairwise_append.2 ⟨h.apart, by simp, ?_⟩
        intro j hj k hk
        simp only [List.mem_singleton] at hk
        subst hk
        have := h.moved j hj
        simp only [Disj, hti.1, hlen]
        omega
      · intro j hj
        have := h.still j (List.mem_cons_of_mem _ hj)
        have := hfree j hj
        exact ⟨by omega, by omega⟩
      · have := h.sum
        simp only [List.map_append, List.sum_append, List.map_cons, List.map_nil, List.sum_cons, List.sum_nil]
        omega
  · -- the object is moved
    generalize hS : last - ((s0.nth P i).off + (s0.nth P i).len) = S at *
    let m1 := write s.mem ((s.nth P i).off + S) (read s.mem (s.nth P i).off (s0.nth P i).len)
    let m2 := setFld m1 (recAt P.kind i) ((recOf P.kind m1 (recAt P.kind i)).off + S)
    let s' : VN := { s with mem := m2 }
    have htail := h.low
    have ho : (s.nth P i).off = (s0.nth P i).off := hti.1
    have hSl : (s0.nth P i).off + S + (s0.nth P i).len = last := by omega
    have em1r : ∀ x, x < s0.tail → m1 x = s.mem x := fun x hx => write_out (by rw [read_length]; omega)
    have er1 : ∀ j, j < s0.n → recOf P.kind m1 (recAt P.kind j) = s.nth P j := by
      intro j hj
      apply recOf_congr
      intro t ht
      have := hrecL j hj
      exact em1r _ (by omega)
    have em2 : ∀ x, x < recAt P.kind i ∨ recAt P.kind i + 2 ≤ x → m2 x = m1 x := fun x hx => setFld_out hx
    have hrs4 := rs_pos (k := P.kind)
    have er2 : ∀ j, j < s0.n → j ≠ i → s'.nth P j = s.nth P j := by
      intro j hj hne
      rw [← er1 j hj]
      apply recOf_congr
      intro t ht
      apply em2
      rcases Nat.lt_or_gt_of_ne hne with hlt | hlt
      · have := recAt_lt (k := P.kind) hlt
        omega
      · have := recAt_lt (k := P.kind) hlt
        omega
    have eri : s'.nth P i = { s.nth P i with off := (s0.nth P i).off + S } := by
      show recOf P.kind (setFld m1 _ _) _ = _
      rw [recOf_off (by rw [er1 i hi]; omega), er1 i hi, ho]
    have em2o : ∀ x, s0.tail ≤ x → m2 x = m1 x := by
      intro x hx
      have := hrecL i hi
      exact em2 x (by omega)
    refine ⟨s', (s0.nth P i).off + S, ?_, ?_⟩
    · have hpos : 0 < S := by omega
      simp only [compactLoop, hl16, hsp]
      rw [if_pos hpos]
      have : (recOf P.kind m2 (recAt P.kind i)).off = (s0.nth P i).off + S := by
        have := congrArg Rec.off eri
        exact this
      show compactLoop P l (recOf P.kind m2 (recAt P.kind i)).off s' = _
      rw [this]
    · have hcont : ∀ j, j < s0.n → j ≠ i → (((s.nth P j).off + (s.nth P j).len ≤ last - (s0.nth P i).len) ∨ last ≤ (s.nth P j).off) → s0.tail ≤ (s.nth P j).off →
          content m2 (s'.nth P j) = content s.mem (s.nth P j) := by
        intro j hj hne ha hta
        rw [er2 j hj hne]
        apply content_congr
        intro x hx1 hx2
        rw [em2o x (by omega)]
        exact write_out (by rw [read_length]; omega)
      refine ⟨h.n, h.rest, ?_, ?_, ?_, by omega, by omega, ?_, ?_, ?_, ?_⟩
      · intro j hj
        by_cases hji : j = i
        · subst hji
          rw [eri]
          exact h.lens j hj
        · rw [er2 j hj hji]
          exact h.lens j hj
      · intro j hj
        by_cases hji : j = i
        · subst hji
          rw [← h.same j hj]
          show content m2 (s'.nth P j) = content s.mem (s.nth P j)
          rw [eri]
          have hk : ∀ t, t < (s0.nth P j).len → m2 ((s0.nth P j).off + S + t) = s.mem ((s.nth P j).off + t) := by
            intro t ht
            rw [em2o _ (by omega)]
            show write s.mem ((s.nth P j).off + S) _ _ = _
            rw [ho, write_in (by rw [read_length]; exact ht), read_getD ht]
          have hlen' : (s.nth P j).kl + (s.nth P j).vl = (s0.nth P j).len := hlen
          simp only [content, Prod.mk.injEq]
          constructor
          · exact read_congr (fun t ht => hk t (by omega))
          · refine read_congr (fun t ht => ?_)
            have := hk ((s.nth P j).kl + t) (by omega)
            simpa [Nat.add_assoc] using this
        · rw [← h.same j hj]
          by_cases hd : j ∈ done
          · have := h.moved j hd
            exact hcont j hj hji (Or.inr this.1) (by omega)
          · by_cases ht : j ∈ todo
            · have h1 := h.still j (List.mem_cons_of_mem _ ht)
              have h2 := hfree j ht
              have h3 := h0.bnd _ (nth_mem hj)
              have h4 := len_eq (h.lens j hj)
              exact hcont j hj hji (Or.inl (by omega)) (by omega)
            · rcases hall j hj with h1 | h1 | h1 <;> contradiction
      · intro x hx
        rw [← h.safe x hx]
        show m2 x = s.mem x
        have := hrecL i hi
        have := recAt_low (k := P.kind) (i := i)
        rw [em2 x (by omega)]
        exact write_out (by rw [read_length]; omega)
      · intro j hj
        rcases List.mem_append.1 hj with hj | hj
        · rw [er2 j (hin j (by simp [hj])).1 (hin j (by simp [hj])).2]
          have := h.moved j hj
          omega
        · simp only [List.mem_singleton] at hj
          subst hj
          rw [eri]
          show _ ≤ (s0.nth P j).off + S ∧ (s0.nth P j).off + S + (s.nth P j).len ≤ _
          omega
      · refine List.pairwise_append.2 ⟨?_, by simp, ?_⟩
        · refine h.apart.imp_of_mem ?_
          intro j k hj hk hd
          rw [er2 j (hin j (by simp [hj])).1 (hin j (by simp [hj])).2, er2 k (hin k (by simp [hk])).1 (hin k (by simp [hk])).2]
          exact hd
        · intro j hj k hk
          simp only [List.mem_singleton] at hk
          subst hk
          rw [er2 j (hin j (by simp [hj])).1 (hin j (by simp [hj])).2, eri]
          have := h.moved j hj
          show (s.nth P j).off + (s.nth P j).len ≤ (s0.nth P k).off + S ∨ (s0.nth P k).off + S + (s.nth P k).len ≤ (s.nth P j).off
          omega
      · intro j hj
        have h1 := h.still j (List.mem_cons_of_mem _ hj)
        have h2 := hfree j hj
        rw [er2 j (hin j (by simp [hj])).1 (hin j (by simp [hj])).2]
        exact ⟨by omega, by omega⟩
      · have := h.sum
        simp only [List.map_append, List.sum_append, List.map_cons, List.map_nil, List.sum_cons, List.sum_nil]
        omega

theorem comp_all {P : Params} {s0 : VN} (h0 : Inv P s0) : ∀ (l : List (Nat × Nat)) (s : VN) (last : Nat) (done : List Nat),
    Comp P s0 s last done (l.map (·.2)) → (done ++ l.map (·.2)).Perm (List.range s0.n) →
    (∀ x ∈ l, x.1 = (s0.nth P x.2).off) → l.Pairwise (fun a b => b.1 ≤ a.1) →
    ∃ s' last' done', compactLoop P l last s = (last', s') ∧ Comp P s0 s' last' done' [] ∧ done'.Perm (List.range s0.n)
  | [], s, last, done, h, hp, _, _ => ⟨s, last, done, rfl, h, by simpa using hp⟩
  | (o, i) :: l, s, last, done, h, hp, hx, hs => by
    have hnd : (done ++ i :: l.map (·.2)).Nodup := (hp.nodup_iff).2 List.nodup_range
    have hmem : ∀ j, j ∈ done ++ i :: l.map (·.2) ↔ j < s0.n := by
      intro j
      rw [show i :: l.map (·.2) = ((o, i) :: l).map (·.2) from rfl, hp.mem_iff, List.mem_range]
    have ho : o = (s0.nth P i).off := hx (o, i) List.mem_cons_self
    subst ho
    obtain ⟨hs1, hs2⟩ := List.pairwise_cons.1 hs
    have hi : i < s0.n := (hmem i).1 (by simp)
    obtain ⟨s', last', h1, h2⟩ := comp_step h0 h hi (by
        intro j hj
        refine ⟨(hmem j).1 ?_, ?_⟩
        · rcases List.mem_append.1 hj with hj | hj
          · exact List.mem_append_left _ hj
          · exact List.mem_append_right _ (List.mem_cons_of_mem _ hj)
        · rintro rfl
          have hd := List.nodup_append.1 hnd
          rcases List.mem_append.1 hj with hj | hj
          · exact hd.2.2 j hj j List.mem_cons_self rfl
          · exact (List.nodup_cons.1 hd.2.1).1 hj) (by
        intro j hj
        have := (hmem j).2 hj
        simpa using this) (by
        intro j hj
        obtain ⟨x, hxl, rfl⟩ := List.mem_map.1 hj
        rw [← hx x (List.mem_cons_of_mem _ hxl)]
        exact hs1 x hxl) l
    obtain ⟨s'', last'', done'', h3, h4, h5⟩ := comp_all h0 l s' last' (done ++ [i]) h2 (by simpa using hp) (fun x hxl => hx x (List.mem_cons_of_mem _ hxl)) hs2
    exact ⟨s'', last'', done'', h1.trans h3, h4, h5⟩

/-- Compaction: all entries stay, and all the free space is in one piece. -/
theorem compact_spec {P : Params} {s : VN} (hP : Sorts P.sort) (h : Inv P s) :
    Inv P (s.compact P) ∧ (s.compact P).ents P = s.ents P ∧ Safe P s (s.compact P) ∧
      (s.compact P).tail = recAt P.kind s.n + s.avail ∧ (s.compact P).n = s.n ∧ (s.compact P).avail = s.avail ∧
      (s.compact P).leaf = s.leaf ∧ (s.compact P).edge = s.edge := by
  by_cases hn : s.n = 0
  · have hsp := h.space
    have hr : s.recs P = [] := by simp [VN.recs, hn]
    have hin := h.init
    have hc : s.compact P = { s with tail := s.init } := by rw [VN.compact, if_pos hn]
    rw [hc]
    refine ⟨⟨h.low, h.high, h.init, ?_, ?_, ?_, ?_, ?_⟩, ?_, Safe.refl, ?_, rfl, rfl, rfl, rfl⟩
    · have := h.lo
      have := h.hi
      show recAt P.kind s.n ≤ s.init
      omega
    · show s.init ≤ _
      omega
    · intro r hrm
      have : r ∈ s.recs P := hrm
      rw [hr] at this
      cases this
    · exact h.disj
    · exact h.space
    · rfl
    · rw [hr] at hsp
      simp only [List.map_nil, List.sum_nil] at hsp
      show s.init = _
      omega
  · have hs := hP ((List.range s.n).map (fun i => ((s.nth P i).off, i)))
    have hsnd : (P.sort ((List.range s.n).map (fun i => ((s.nth P i).off, i)))).map (·.2) |>.Perm (List.range s.n) := by
      have := hs.1.map (·.2)
      simpa [List.map_map, Function.comp_def] using this
    have hb := h.bnd
    have hin := h.init
    obtain ⟨s', last', done', h1, h2, h3⟩ := comp_all h (P.sort ((List.range s.n).map (fun i => ((s.nth P i).off, i)))) s s.init []
      ⟨rfl, ⟨rfl, rfl, rfl, rfl, rfl⟩, fun _ _ => ⟨rfl, rfl⟩, fun _ _ => rfl, Safe.refl, by omega, by have := h.hi; omega, by simp, by simp,
        by
          intro j hj
          refine ⟨rfl, ?_⟩
          have hjn : j < s.n := by simpa using hsnd.mem_iff.1 hj
          have := hb _ (nth_mem hjn)
          omega,
        by simpa using hin⟩
      (by simpa using hsnd)
      (by
        intro x hx
        have := hs.1.mem_iff.1 hx
        simp only [List.mem_map] at this
        obtain ⟨i, -, rfl⟩ := this
        rfl)
      hs.2
    have hc : s.compact P = { s' with tail := last' } := by
      simp only [VN.compact, hn, if_false, h1]
    have hmem : ∀ j, j ∈ done' ↔ j < s.n := by
      intro j
      rw [h3.mem_iff, List.mem_range]
    have hsum : (done'.map (fun i => (s.nth P i).len)).sum = ((s.recs P).map Rec.len).sum := by
      rw [sum_perm (h3.map _), VN.recs, List.map_map]
      rfl
    have hlast : last' = recAt P.kind s.n + s.avail := by
      have := h2.sum
      have := h.space
      omega
    rw [hc]
    have hlens : (({ s' with tail := last' } : VN).recs P).map Rec.len = (s.recs P).map Rec.len := by
      simp only [VN.recs, List.map_map, h2.n]
      apply List.map_congr_left
      intro i hi
      exact len_eq (h2.lens i (by simpa using hi))
    refine ⟨⟨h.low, h.high, ?_, ?_, h2.size, ?_, ?_, ?_⟩, ?_, h2.safe, hlast, h2.n, h2.rest.1, h2.rest.2.2.1, h2.rest.2.2.2.1⟩
    · exact h2.rest.2.1.trans h.init
    · show recAt P.kind s'.n ≤ last'
      rw [h2.n]
      omega
    · intro r hr
      simp only [VN.recs, List.mem_map, List.mem_range] at hr
      obtain ⟨i, hi, rfl⟩ := hr
      exact h2.moved i ((hmem i).2 (by simpa [h2.n] using hi))
    · show (VN.recs P { s' with tail := last' }).Pairwise Disj
      simp only [VN.recs, h2.n]
      rw [List.pairwise_map]
      exact h2.apart.perm h3 (fun hd => hd.symm)
    · rw [hlens]
      show s'.avail + recAt P.kind s'.n + _ = _
      rw [h2.rest.1, h2.n]
      exact h.space
    · show (VN.ents P { s' with tail := last' }) = _
      simp only [VN.ents, h2.n]
      apply List.map_congr_left
      intro i hi
      exact h2.same i (by simpa using hi)

end HS.Varlen
