import Verif.Btree.MergePlan

/-!
# Merging keeps the tree's contents
-/

namespace HS.Btree

section
variable {K A : Type}

theorem childrenAt_ok {t : Node K A} : ∀ {n i : Nat} {cs : List A}, t.childrenAt i n = some cs →
    i + n ≤ t.kids.length + (if n = 0 then i else 0) ∧
      ∃ O b, t.kids.drop i = O ++ b ∧ O.map (·.2) = cs ∧ O.length = n := by
  intro n
  induction n with
  | zero =>
    intro i cs h
    simp [Node.childrenAt] at h
    exact ⟨by simp, [], _, rfl, by simp [h], rfl⟩
  | succ n ih =>
    intro i cs h
    unfold Node.childrenAt at h
    cases hv : t.valAt i with
    | none => rw [hv] at h; cases h
    | some c =>
      rw [hv] at h
      cases hr : t.childrenAt (i + 1) n with
      | none => simp [hr] at h
      | some cs' =>
        simp [hr] at h
        subst h
        obtain ⟨a, q, z, hk, ha⟩ := valAt_split hv
        obtain ⟨-, O, b, h1, h2, h3⟩ := ih hr
        have hd : t.kids.drop i = (q, c) :: z := by rw [hk, ← ha]; simp
        have hd' : t.kids.drop (i + 1) = z := by
          rw [← List.drop_drop, hd]; rfl
        refine ⟨?_, (q, c) :: O, b, by rw [hd, ← hd', h1]; rfl, by simp [h2], by simp [h3]⟩
        have : z.length = O.length + b.length := by rw [← hd', h1]; simp
        rw [hk]; simp; omega

/-! ## Links and keys of the new nodes -/

theorem linkNews_map {B : Type} (g : Node K A → B) (hg : ∀ x nx, g { x with next := nx } = g x)
    (nx : Option Nat) (xs : List (Node K A)) : (linkNews nx xs).1.map g = xs.map g := by
  induction xs with
  | nil => rfl
  | cons x r ih => simp [linkNews, hg, ih]

theorem linkNews_head (nx : Option Nat) (xs : List (Node K A)) : (linkNews nx xs).2 = headId nx xs := by
  cases xs <;> rfl

theorem headId_link (nx : Option Nat) (xs : List (Node K A)) :
    headId nx (linkNews nx xs).1 = headId nx xs := by
  cases xs <;> rfl

theorem linkNews_chain (nx : Option Nat) (xs : List (Node K A)) : Chain nx (linkNews nx xs).1 := by
  induction xs with
  | nil => trivial
  | cons x r ih =>
    refine ⟨?_, ih⟩
    show (linkNews nx r).2 = _
    rw [linkNews_head, headId_link]

theorem linkNews_length (nx : Option Nat) (xs : List (Node K A)) :
    (linkNews nx xs).1.length = xs.length := by
  have := linkNews_map (fun _ => ()) (fun _ _ => rfl) nx xs
  simpa using congrArg List.length this

/-- A child entered at the place of another: where there was a key, the last key of the new child, if it
has one. -/
def rekey (y : Option K × Node K A) (x : Node K A) : Option K × Node K A :=
  (y.1.map (fun k => ((x.es.getLast?).map (·.1)).getD k), x)

theorem updateKV_rekey {p : NK K (Node K A)} {t t' : Node K (Node K A)} {a b : List (Option K × Node K A)}
    {y : Option K × Node K A} {x : Node K A} {e : K × A} (hk : t.kids = a ++ y :: b)
    (he : x.es.getLast? = some e) (h : p.updateKV t a.length e.1 x = .ok t') :
    t'.kids = a ++ rekey y x :: b := by
  rw [kids_updateKV (by rw [hk]; simp) h, hk, modify_at]
  simp [rekey, he]

theorem enterNews_ok {p : NK K (Node K A)} : ∀ (xs : List (Node K A)) {t t' : Node K (Node K A)}
    {a Y b : List (Option K × Node K A)}, t.kids = a ++ (Y ++ b) → Y.length = xs.length →
    enterNews p xs a.length t = .ok t' →
    (∀ x ∈ xs, x.es ≠ []) ∧ t'.kids = a ++ (List.zipWith rekey Y xs ++ b) := by
  intro xs
  induction xs with
  | nil =>
    intro t t' a Y b hk hl h
    cases h
    have : Y = [] := List.eq_nil_of_length_eq_zero hl
    subst this
    exact ⟨by simp, by simpa using hk⟩
  | cons x xs ih =>
    intro t t' a Y b hk hl h
    cases Y with
    | nil => simp at hl
    | cons y Y =>
      unfold enterNews at h
      cases he : x.es.getLast? with
      | none => rw [he] at h; cases h
      | some e =>
        rw [he] at h
        obtain ⟨t1, h1, h2⟩ := bind_ok h
        have hk1 := updateKV_rekey (a := a) (b := Y ++ b) (by simpa using hk) he h1
        obtain ⟨h3, h4⟩ := ih (a := a ++ [rekey y x]) (Y := Y) (b := b) (by rw [hk1]; simp)
          (by simpa using hl) (by simpa using h2)
        refine ⟨?_, by rw [h4]; simp⟩
        intro z hz
        rcases List.mem_cons.mp hz with rfl | hz
        · rintro h0; rw [h0] at he; cases he
        · exact h3 z hz

end

section
variable {K A : Type}

theorem kids_last_some {t : Node K A} {c : List (Option K × A)} {k : K} {x : A}
    (h : t.kids = c ++ [(some k, x)]) :
    t.edge = none ∧ t.es.getLast? = some (k, x) ∧ t.es.length = c.length + 1 := by
  unfold Node.kids at h
  cases he : t.edge with
  | some e =>
    rw [he] at h
    have := congrArg List.getLast? h
    simp at this
  | none =>
    rw [he] at h
    simp only [Option.map_none, Option.toList_none, List.append_nil] at h
    refine ⟨rfl, ?_, ?_⟩
    · have := congrArg List.getLast? h
      rw [List.getLast?_map] at this
      cases hg : t.es.getLast? with
      | none => rw [hg] at this; simp at this
      | some e => rw [hg] at this; simp at this; rw [← this.1, ← this.2]
    · simpa using congrArg List.length h

theorem kids_last_none {t : Node K A} {c : List (Option K × A)} {x : A}
    (h : t.kids = c ++ [(none, x)]) : t.edge = some x ∧ t.es.length = c.length := by
  unfold Node.kids at h
  cases he : t.edge with
  | some e =>
    rw [he] at h
    simp only [Option.map_some, Option.toList_some] at h
    obtain ⟨h1, h2⟩ := List.append_inj' h rfl
    simp at h2
    exact ⟨by rw [h2], by simpa using congrArg List.length h1⟩
  | none =>
    rw [he] at h
    have := congrArg List.getLast? h
    simp at this

/-- A child with its own last key, or `ks` when it has no entries. -/
def own (ks : K) (x : Node K A) : Option K × Node K A :=
  (some (((x.es.getLast?).map (·.1)).getD ks), x)

theorem rekey_own {ks : K} {y : Option K × Node K A} {x : Node K A} (h : y.1 ≠ none)
    (hx : x.es ≠ [] ∨ y.1 = some ks) : rekey y x = own ks x := by
  obtain ⟨k, hk⟩ := Option.ne_none_iff_exists'.mp h
  unfold rekey own
  rw [hk]
  rcases hx with hx | hx
  · rw [List.getLast?_eq_some_getLast hx]; rfl
  · rw [hk] at hx; cases hx; rfl

theorem zip_own {ks : K} : ∀ {Y : List (Option K × Node K A)} {X : List (Node K A)},
    Y.length = X.length → (∀ y ∈ Y, y.1 ≠ none) → (∀ x ∈ X, x.es ≠ []) →
    List.zipWith rekey Y X = X.map (own ks) := by
  intro Y
  induction Y with
  | nil => intro X h _ _; simp at h; rw [List.eq_nil_of_length_eq_zero h.symm]; rfl
  | cons y Y ih =>
    intro X h hy hx
    cases X with
    | nil => simp at h
    | cons x X =>
      rw [List.zipWith_cons_cons, List.map_cons,
        rekey_own (hy y (by simp)) (Or.inl (hx x (by simp))),
        ih (by simpa using h) (fun z hz => hy z (by simp [hz])) (fun z hz => hx z (by simp [hz]))]

theorem remove_excess {t t1 : Node K (Node K A)} {left lastOld : Node K A} {start d : Nat}
    {a O' b : List (Option K × Node K A)} {ks : K} {qf : Option K}
    (hk : t.kids = a ++ ((some ks, left) :: ((O' ++ [(qf, lastOld)]) ++ b))) (ha : a.length = start)
    (hd : d ≤ O'.length + 1)
    (h : dropExcess t start d = .ok t1) :
    ∃ q1, t1.kids = a ++ ((q1, left) :: ((O' ++ [(qf, lastOld)]).drop d ++ b)) ∧
      (d ≤ O'.length → q1 = some ks) ∧
      (d = O'.length + 1 → (qf = none → q1 = none) ∧ (qf ≠ none → q1 = some ks)) := by
  unfold dropExcess at h
  by_cases h0 : d = 0
  · rw [if_pos h0] at h
    cases h
    subst h0
    exact ⟨some ks, by simpa using hk, fun _ => rfl, fun h => by omega⟩
  · rw [if_neg h0] at h
    have hpos : t.kids[start + (O'.length + 1)]? = some (qf, lastOld) := by
      rw [hk, ← ha, List.getElem?_append_right (by omega)]
      rw [show a.length + (O'.length + 1) - a.length = O'.length + 1 by omega]
      simp
    obtain ⟨hq, hle⟩ := kids_key t hpos
    rcases kids_removeRange (by omega) h with ⟨h1, h2⟩ | ⟨h1, y, h2, h3⟩
    · refine ⟨some ks, ?_, fun _ => rfl, fun hd' => ⟨fun hn => ?_, fun _ => rfl⟩⟩
      · rw [h2, hk]
        have e1 : (a ++ ((some ks, left) :: ((O' ++ [(qf, lastOld)]) ++ b))).take (start + 1) =
            a ++ [(some ks, left)] := by
          rw [List.take_append, List.take_of_length_le (by omega)]
          rw [show start + 1 - a.length = 1 by omega]; rfl
        have e2 : (a ++ ((some ks, left) :: ((O' ++ [(qf, lastOld)]) ++ b))).drop (start + d + 1) =
            (O' ++ [(qf, lastOld)]).drop d ++ b := by
          rw [List.drop_append, List.drop_of_length_le (by omega)]
          rw [show start + d + 1 - a.length = d + 1 by omega]
          rw [List.nil_append, List.drop_succ_cons, List.drop_append_of_le_length (by simp; omega)]
        rw [e1, e2]; simp
      · have := hq.mp hn; omega
    · have hy : y = (some ks, left) := by
        rw [hk, ← ha] at h2
        simpa using h2.symm
      subst hy
      have hdd : d = O'.length + 1 := by omega
      have hqn : qf = none := hq.mpr (by omega)
      have hb : b = [] := by
        have hl := kids_length t
        rw [hk] at hl
        simp at hl
        have : (if t.edge.isSome = true then 1 else 0) ≤ 1 := by split <;> omega
        apply List.eq_nil_of_length_eq_zero
        omega
      refine ⟨none, ?_, fun h => by omega, fun _ => ⟨fun _ => rfl, fun h => absurd hqn h⟩⟩
      rw [h3, hk, hdd, hb, ← ha, List.drop_of_length_le (by simp)]
      simp

/-- The key the last of the new children gets. -/
def lastQ (ks : K) (qf : Option K) (b : List (Option K × Node K A)) (x : Node K A) : Option K :=
  if qf.isNone then none else if b.isEmpty then qf else (own ks x).1

end

section
variable {K A : Type} [LinearOrder K]

/-- The children after `mergeCommit`. -/
theorem kids_mergeCommit {p : NK K (Node K A)} {pc : NK K A} {dflt : K} {t t' : Node K (Node K A)}
    {left : Node K A} {news : List (Node K A)} {plan : LeftPlan} {start fin : Nat}
    {a O' b : List (Option K × Node K A)} {ks : K} {qf : Option K} {lastOld : Node K A}
    (hk : t.kids = a ++ ((some ks, left) :: ((O' ++ [(qf, lastOld)]) ++ b))) (ha : a.length = start)
    (hO : ∀ y ∈ O', y.1 ≠ none) (hb : qf = none → b = []) (hfin : fin = start + (O'.length + 1))
    (hnews : news.length ≤ O'.length + 1)
    (h : mergeCommit p pc dflt t left ((O' ++ [(qf, lastOld)]).map (·.2)) news plan start fin = .ok t') :
    ∃ left1 news' left2 X' x,
      fillLeft pc plan.upto (((O' ++ [(qf, lastOld)]).map (·.2)).take plan.pushed) left = .ok left1 ∧
      news' = (linkNews lastOld.next news).1 ∧
      left2 = { left1 with next := headId lastOld.next news' } ∧
      (∀ x ∈ news', x.es ≠ []) ∧ left2 :: news' = X' ++ [x] ∧
      t'.kids = a ++ (X'.map (own ks) ++ (lastQ ks qf b x, x) :: b) := by
  unfold mergeCommit at h
  obtain ⟨left1, h1, h⟩ := bind_ok h
  have hlast : (((O' ++ [(qf, lastOld)]).map (·.2)).getLast?).bind (·.next) = lastOld.next := by simp
  rw [hlast] at h
  have hlen : ((O' ++ [(qf, lastOld)]).map (·.2)).length = O'.length + 1 := by simp
  rw [hlen] at h
  obtain ⟨t1, h2, h⟩ := bind_ok h
  obtain ⟨q1, hk1, hq1, hq2⟩ := remove_excess hk ha (by omega) h2
  generalize hln : linkNews lastOld.next news = ln at h
  have hl1 : ln.1.length = news.length := by rw [← hln, linkNews_length]
  have hl2 : ln.2 = headId lastOld.next ln.1 := by rw [← hln, linkNews_head, headId_link]
  obtain ⟨news', nx⟩ := ln
  simp only at hl1 hl2 h
  replace h := h
  obtain ⟨t2, h3, h⟩ := bind_ok h
  have hpos : fin - (O'.length + 1 - news.length) + 1 - news.length = (a ++ [(q1, left)]).length := by
    simp; omega
  rw [hpos] at h3
  obtain ⟨hne, hk2⟩ := enterNews_ok news' (Y := (O' ++ [(qf, lastOld)]).drop (O'.length + 1 - news.length))
    (b := b) (by rw [hk1]; simp) (by simp; omega) h3
  rw [List.append_assoc] at hk2
  have hk2' : t2.kids = a ++ ((q1, left) :: (List.zipWith rekey
      ((O' ++ [(qf, lastOld)]).drop (O'.length + 1 - news.length)) news' ++ b)) := by
    rw [hk2]; simp
  obtain ⟨t3, h4, h5⟩ := bind_ok h
  have hk3 : t3.kids = a ++ (List.zipWith rekey ((q1, left) ::
      (O' ++ [(qf, lastOld)]).drop (O'.length + 1 - news.length)) ({ left1 with next := nx } :: news') ++ b) := by
    rw [List.zipWith_cons_cons]
    unfold enterLeft at h4
    split at h4
    · rename_i he
      cases h4
      rw [kids_setVal t2 (by rw [hk2']; simp; omega), hk2', ← ha, modify_at]
      have : left1.es.getLast? = none := he
      simp [rekey, this]
    · rename_i e he
      rw [← ha] at h4
      rw [updateKV_rekey hk2' he h4]
      simp
  have hleft2 : ({ left1 with next := nx } : Node K A) = { left1 with next := headId lastOld.next news' } := by
    rw [hl2]
  generalize ({ left1 with next := nx } : Node K A) = left2 at hk3 h5 hleft2
  -- shape of the list of children
  obtain ⟨X', x, hX, hzip⟩ : ∃ X' x, left2 :: news' = X' ++ [x] ∧
      List.zipWith rekey ((q1, left) :: (O' ++ [(qf, lastOld)]).drop (O'.length + 1 - news.length))
        (left2 :: news') =
        X'.map (own ks) ++ [(if qf = none then none else (own ks x).1, x)] := by
    rcases List.eq_nil_or_concat news' with hn | ⟨N, n, hn⟩
    · subst hn
      have hn0 : news.length = 0 := by simpa using hl1.symm
      refine ⟨[], left2, rfl, ?_⟩
      rw [hn0, Nat.sub_zero]
      have := hq2 (by omega)
      simp only [List.zipWith_cons_cons, List.zipWith_nil_right, List.map_nil, List.nil_append]
      congr 1
      by_cases hqn : qf = none
      · rw [if_pos hqn, this.1 hqn]; rfl
      · rw [if_neg hqn, this.2 hqn]; rfl
    · rw [List.concat_eq_append] at hn
      subst hn
      have hnl : news.length = N.length + 1 := by simpa using hl1.symm
      have hq := hq1 (by omega)
      refine ⟨left2 :: N, n, by simp, ?_⟩
      have hdr : (O' ++ [(qf, lastOld)]).drop (O'.length + 1 - news.length) =
          O'.drop (O'.length - N.length) ++ [(qf, lastOld)] := by
        rw [hnl, show O'.length + 1 - (N.length + 1) = O'.length - N.length by omega,
          List.drop_append_of_le_length (by omega)]
      rw [hdr, List.zipWith_cons_cons, List.zipWith_append (by simp; omega)]
      rw [zip_own (ks := ks) (by simp; omega)
        (fun y hy => hO y (List.mem_of_mem_drop hy)) (fun z hz => hne z (by simp [hz]))]
      rw [rekey_own (ks := ks) (by rw [hq]; simp) (Or.inr hq)]
      simp only [List.zipWith_cons_cons, List.zipWith_nil_right, List.map_cons, List.cons_append]
      congr 2
      by_cases hqn : qf = none
      · rw [if_pos hqn, hqn]; rfl
      · rw [if_neg hqn, rekey_own (ks := ks) hqn (Or.inl (hne n (by simp)))]; rfl
  rw [hzip] at hk3
  refine ⟨left1, news', left2, X', x, h1, rfl, hleft2, hne, hX, ?_⟩
  have hxl : x = news'.getLast?.getD left2 := by
    have := congrArg List.getLast? hX
    rw [List.getLast?_cons, List.getLast?_concat] at this
    exact (Option.some.inj this).symm
  unfold keepLastKey at h5
  unfold lastQ
  by_cases hqn : qf = none
  · have hb0 := hb hqn
    subst hb0
    rw [if_pos hqn, List.append_nil] at hk3
    have he := (kids_last_none (t := t3) (x := x) (c := a ++ X'.map (own ks)) (by rw [hk3]; simp)).1
    have ht : t' = t3 := by
      split at h5
      · cases h5; rfl
      · rw [he] at h5; simp at h5; cases h5; rfl
    rw [ht, hk3, hqn]; simp
  · rw [if_neg hqn] at hk3
    have hqi : qf.isNone = false := by cases qf <;> simp_all
    rw [hqi]
    obtain ⟨kf, rfl⟩ := Option.ne_none_iff_exists'.mp hqn
    rcases List.eq_nil_or_concat b with hb0 | ⟨b', w, hb0⟩
    · subst hb0
      have hkt : t.kids = (a ++ ((some ks, left) :: O')) ++ [(some kf, lastOld)] := by rw [hk]; simp
      have hpl : lastKey dflt t = kf := by
        unfold lastKey
        rw [(kids_last_some hkt).2.1]; rfl
      have hx : (own ks x) = (some (((x.es.getLast?).map (·.1)).getD ks), x) := rfl
      rw [hx] at hk3
      obtain ⟨he, hg, hl⟩ := kids_last_some (t := t3) (x := x)
        (k := ((x.es.getLast?).map (·.1)).getD ks) (c := a ++ X'.map (own ks)) (by rw [hk3]; simp)
      rw [hg] at h5
      simp only [he, hpl, Option.isSome_none, Bool.false_or, decide_eq_true_eq] at h5
      split at h5
      · rename_i heq
        cases h5
        rw [hk3, heq]; simp
      · have := kids_updateKV (by rw [hk3]; simp at hl ⊢; omega) h5
        rw [this, hk3, hl]
        have e1 : a ++ (X'.map (own ks) ++ [((some (((x.es.getLast?).map (·.1)).getD ks)), x)] ++ []) =
            (a ++ X'.map (own ks)) ++ ((some (((x.es.getLast?).map (·.1)).getD ks)), x) :: [] := by simp
        rw [e1, show (a ++ X'.map (own ks)).length + 1 - 1 = (a ++ X'.map (own ks)).length by omega,
          modify_at, ← hxl]
        simp
    · rw [List.concat_eq_append] at hb0
      subst hb0
      have ht : t' = t3 := by
        obtain ⟨qw, w⟩ := w
        cases qw with
        | none =>
          have he := (kids_last_none (t := t3) (x := w)
            (c := a ++ (X'.map (own ks) ++ [((own ks x).1, x)] ++ b')) (by rw [hk3]; simp)).1
          split at h5
          · cases h5; rfl
          · rw [he] at h5; simp at h5; cases h5; rfl
        | some kw =>
          obtain ⟨he, hg, -⟩ := kids_last_some (t := t3) (x := w) (k := kw)
            (c := a ++ (X'.map (own ks) ++ [((own ks x).1, x)] ++ b')) (by rw [hk3]; simp)
          obtain ⟨-, hg', -⟩ := kids_last_some (t := t) (x := w) (k := kw)
            (c := a ++ ((some ks, left) :: ((O' ++ [(some kf, lastOld)]) ++ b'))) (by rw [hk]; simp)
          have hpl : lastKey dflt t = kw := by
            unfold lastKey
            rw [hg']; rfl
          rw [hg] at h5
          simp [hpl] at h5
          cases h5; rfl
      rw [ht, hk3]
      simp

end
end HS.Btree
