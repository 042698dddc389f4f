import Verif.Btree.Put
import Mathlib.Tactic.Ring

/-!
# Merging: how the entries are dealt out

The dry run for the leftmost node, the loop that fills new nodes, and the copy into the leftmost node.
-/

namespace HS.Btree

section
variable {K A : Type}

/-- What the code takes for granted about a node format: a FIXED node has no header and objects of
positive size. -/
def NK.Good (p : NK K A) : Prop := p.fixed = true → p.hdr = 0 ∧ 0 < p.obj

theorem used_nil (p : NK K A) : p.used [] = 0 := rfl

theorem used_append (p : NK K A) (a b : List (K × A)) : p.used (a ++ b) = p.used a + p.used b := by
  simp [NK.used]

theorem used_fixed (p : NK K A) (h : p.fixed = true) (a : List (K × A)) : p.used a = a.length * p.obj := by
  induction a with
  | nil => simp [NK.used]
  | cons x r ih =>
    have : p.used (x :: r) = p.esz x + p.used r := by simp [NK.used]
    rw [this, ih]
    simp [NK.esz, h]
    ring

theorem countBySize_le (p : NK K A) (es : List (K × A)) (size : Nat) :
    countBySize p es size ≤ es.length ∧ p.used (es.take (countBySize p es size)) ≤ size := by
  induction es generalizing size with
  | nil => simp [countBySize, used_nil]
  | cons x r ih =>
    unfold countBySize
    split
    · simp [used_nil]
    · have h := ih (size - p.esz x)
      refine ⟨by simp; exact h.1, ?_⟩
      rw [List.take_succ_cons]
      have : p.used (x :: r.take (countBySize p r (size - p.esz x))) =
          p.esz x + p.used (r.take (countBySize p r (size - p.esz x))) := by simp [NK.used]
      omega

theorem numBySize_le (p : NK K A) (es : List (K × A)) (start size : Nat) :
    p.numBySize es start size ≤ es.length - start := by
  unfold NK.numBySize
  split
  · omega
  · have := (countBySize_le p (es.drop start) size).1
    simpa using this

theorem numBySize_used (p : NK K A) (es : List (K × A)) (size : Nat) :
    p.used (es.take (p.numBySize es 0 size)) ≤ size := by
  unfold NK.numBySize
  split
  · rename_i h
    rw [used_fixed p h, List.length_take]
    have h1 : size / p.obj * p.obj ≤ size := Nat.div_mul_le_self _ _
    have h2 : min (min (size / p.obj) (es.length - 0)) es.length * p.obj ≤ size / p.obj * p.obj :=
      Nat.mul_le_mul_right _ (by omega)
    omega
  · simpa using (countBySize_le p es size).2

/-! ## The dry run -/

/-- Result of the dry run: whole nodes `a`, then `u` entries of `o`. -/
theorem leftPlan_ok (p : NK K A) : ∀ (olds : List (Node K A)) (i avail : Nat), olds ≠ [] →
    ∃ a o b u, olds = a ++ o :: b ∧ (leftPlan p olds i avail).pushed = i + a.length + 1 ∧
      (leftPlan p olds i avail).upto = u ∧ u ≤ o.es.length ∧
      (leftPlan p olds i avail).moved = (a.flatMap (·.es)).length + u ∧
      p.used (a.flatMap (·.es) ++ o.es.take u) ≤ avail ∧
      ((u < o.es.length ∧ (leftPlan p olds i avail).ith = i + a.length ∧
          (leftPlan p olds i avail).nth = u) ∨
        (u = o.es.length ∧ b = [] ∧ (leftPlan p olds i avail).ith = i + olds.length ∧
          (leftPlan p olds i avail).nth = 0)) := by
  intro olds
  induction olds with
  | nil => intro i avail h; exact absurd rfl h
  | cons o os ih =>
    intro i avail _
    have h1 := numBySize_le p o.es 0 avail
    have h2 := numBySize_used p o.es avail
    unfold leftPlan
    simp only
    by_cases hw : o.es.length - p.numBySize o.es 0 avail = 0
    · rw [if_pos hw]
      have he : p.numBySize o.es 0 avail = o.es.length := by omega
      rw [he, List.take_length] at h2
      cases os with
      | nil =>
        rw [if_pos (by rfl)]
        refine ⟨[], o, [], _, rfl, by simp, rfl, by omega, by simp, by simpa [he] using h2, Or.inr ?_⟩
        exact ⟨he, rfl, by simp, rfl⟩
      | cons o' os' =>
        rw [if_neg (by simp)]
        obtain ⟨a, o2, b, u, g1, g2, g3, g4, g5, g6, g7⟩ := ih (i + 1) (avail - p.used o.es) (by simp)
        refine ⟨o :: a, o2, b, u, by rw [g1]; rfl, ?_, g3, g4, ?_, ?_, ?_⟩
        · simp only [g2, List.length_cons]; omega
        · simp only [g5, he, List.flatMap_cons, List.length_append]; omega
        · rw [List.flatMap_cons, List.append_assoc, used_append]; omega
        · rcases g7 with ⟨q1, q2, q3⟩ | ⟨q1, q2, q3, q4⟩
          · exact Or.inl ⟨q1, by simp only [q2, List.length_cons]; omega, q3⟩
          · refine Or.inr ⟨q1, q2, ?_, q4⟩
            simp only [q3, List.length_cons]; omega
    · rw [if_neg hw]
      refine ⟨[], o, os, _, rfl, by simp, rfl, by omega, by simp, by simpa using h2, Or.inl ?_⟩
      exact ⟨by show p.numBySize o.es 0 avail < _; omega, by simp, rfl⟩

/-! ## Copying -/

theorem copyByEntries_ok {p : NK K A} {dst src r : Node K A} {start n m : Nat}
    (h : copyByEntries p dst src start n = .ok (r, m)) :
    m ≤ n ∧ m ≤ src.es.length - start ∧
      r = { dst with
            es := dst.es ++ (src.es.drop start).take m,
            edge := if src.edge.isSome ∧ start + m = src.es.length then src.edge else dst.edge } := by
  unfold copyByEntries at h
  simp only at h
  generalize hm : (if p.fixed = true then min (min n (src.es.length - start)) (p.avail dst.es / p.obj)
    else min n (src.es.length - start)) = m' at h
  by_cases hc : (!p.fixed && decide (p.avail dst.es < p.used ((src.es.drop start).take m'))) = true
  · rw [if_pos hc] at h; cases h
  · rw [if_neg hc] at h
    cases h
    refine ⟨?_, ?_, rfl⟩
    · split at hm <;> omega
    · split at hm <;> omega

theorem copyByEntries_full {p : NK K A} {dst src r : Node K A} {n m : Nat} (hp : p.Good)
    (hroom : p.fixed = true → p.used dst.es + p.used (src.es.take n) ≤ p.data)
    (h : copyByEntries p dst src 0 n = .ok (r, m)) : m = min n src.es.length := by
  unfold copyByEntries at h
  simp only at h
  generalize hm : (if p.fixed = true then min (min n (src.es.length - 0)) (p.avail dst.es / p.obj)
    else min n (src.es.length - 0)) = m' at h
  by_cases hc : (!p.fixed && decide (p.avail dst.es < p.used ((src.es.drop 0).take m'))) = true
  · rw [if_pos hc] at h; cases h
  · rw [if_neg hc] at h
    cases h
    rw [← hm]
    by_cases hf : p.fixed = true
    · rw [if_pos hf]
      obtain ⟨h0, h1⟩ := hp hf
      have h2 := hroom hf
      rw [used_fixed p hf (src.es.take n), List.length_take] at h2
      have h3 : min n src.es.length ≤ p.avail dst.es / p.obj := by
        rw [Nat.le_div_iff_mul_le h1]
        unfold NK.avail
        omega
      simp only [Nat.sub_zero]
      omega
    · rw [if_neg hf]; simp

theorem fillLeft_ok {p : NK K A} (hp : p.Good) {u : Nat} : ∀ (a : List (Node K A)) (o : Node K A)
    {l r : Node K A}, (∀ x ∈ a, x.edge = none) → u ≤ o.es.length →
    (p.fixed = true → p.used l.es + p.used (a.flatMap (·.es) ++ o.es.take u) ≤ p.data) →
    fillLeft p u (a ++ [o]) l = .ok r →
    r = { l with
          es := l.es ++ (a.flatMap (·.es) ++ o.es.take u),
          edge := if o.edge.isSome ∧ u = o.es.length then o.edge else l.edge } := by
  intro a
  induction a with
  | nil =>
    intro o l r _ hu hroom h
    simp only [List.nil_append, fillLeft, List.isEmpty_nil, if_true] at h
    obtain ⟨⟨l', m⟩, h1, h2⟩ := bind_ok h
    cases h2
    obtain ⟨-, -, h3⟩ := copyByEntries_ok h1
    have h4 := copyByEntries_full hp (by simpa using hroom) h1
    rw [h3, h4]
    have : min u o.es.length = u := by omega
    simp [this]
  | cons x a ih =>
    intro o l r ha hu hroom h
    simp only [List.cons_append, fillLeft] at h
    obtain ⟨⟨l', m⟩, h1, h2⟩ := bind_ok h
    rw [if_neg (by simp)] at h1
    obtain ⟨-, -, h3⟩ := copyByEntries_ok h1
    have h4 := copyByEntries_full hp (by
      intro hf
      have := hroom hf
      rw [List.flatMap_cons, List.append_assoc, used_append] at this
      rw [List.take_length]
      omega) h1
    rw [ha x (by simp)] at h3
    simp only [h4, Option.isSome_none, Bool.false_eq_true, false_and, if_false, Nat.min_self,
      List.drop_zero, List.take_length] at h3
    subst h3
    have h5 := ih o (fun y hy => ha y (by simp [hy])) hu (by
      intro hf
      have := hroom hf
      rw [List.flatMap_cons, List.append_assoc, used_append] at this
      simp only [used_append] at this ⊢
      omega) h2
    rw [h5]
    simp [List.append_assoc]

/-! ## Filling the new nodes -/

/-- Entries not yet copied. -/
def remaining (olds : List (Node K A)) (ith nth : Nat) : List (K × A) :=
  ((olds.drop ith).flatMap (·.es)).drop nth

/-- Invariant of the loop: `R` is what had to be copied, `n0` the first new id. -/
structure NewInv (olds : List (Node K A)) (R : List (K × A)) (n0 : Nat) (s : NewSt K A) : Prop where
  parts : s.news.flatMap (·.es) ++ remaining olds s.ith s.nth = R
  ith : s.ith ≤ olds.length
  nth : ∀ o, olds[s.ith]? = some o → s.nth ≤ o.es.length
  ent : s.totEnt = (remaining olds s.ith s.nth).length
  edges : s.ith < olds.length → ∀ x ∈ s.news, x.edge = none
  edgesL : ∀ x ∈ s.news.dropLast, x.edge = none
  edgeE : s.ith = olds.length → ∀ x, s.news.getLast? = some x → x.edge = (olds.getLast?).bind (·.edge)
  ids : ids s.news = List.range' n0 s.news.length
  nid : s.nid = n0 + s.news.length
  first : s.news = [] → s.ith < olds.length → s.avail = 0 ∧ remaining olds s.ith s.nth ≠ []

theorem remaining_step {olds : List (Node K A)} {i n : Nat} {o : Node K A} (h : olds[i]? = some o)
    (hn : n ≤ o.es.length) :
    remaining olds i n = o.es.drop n ++ remaining olds (i + 1) 0 := by
  unfold remaining
  have hd : olds.drop i = o :: olds.drop (i + 1) := by
    obtain ⟨hi, rfl⟩ := List.getElem?_eq_some_iff.mp h
    exact List.drop_eq_getElem_cons hi
  rw [hd, List.flatMap_cons, List.drop_append_of_le_length hn]
  simp

theorem newLoop_ok {p : NK K A} {bal num : Nat} {olds : List (Node K A)} {R : List (K × A)} {n0 : Nat}
    (hold : ∀ x ∈ olds.dropLast, x.edge = none) :
    ∀ (f : Nat) {s s' : NewSt K A}, NewInv olds R n0 s → newLoop p bal num olds f s = .ok s' →
      NewInv olds R n0 s' ∧ s'.ith = olds.length := by
  intro f
  induction f with
  | zero => intro s s' _ h; cases h
  | succ f ih =>
    intro s s' hs h
    unfold newLoop at h
    cases ho : olds[s.ith]? with
    | none =>
      rw [ho] at h
      cases h
      have := List.getElem?_eq_none_iff.mp ho
      exact ⟨hs, by have := hs.ith; omega⟩
    | some old =>
      rw [ho] at h
      simp only at h
      have hith : s.ith < olds.length := (List.getElem?_eq_some_iff.mp ho).1
      -- the list of new nodes after the allocation
      obtain ⟨news, avail, nid, hnews, havail, hnid⟩ :
          ∃ news avail nid, news = (if (decide (s.avail = 0) && decide (0 < s.totEnt)) = true then
              s.news ++ [{ id := s.nid, next := none, es := [], edge := none }] else s.news) ∧
            avail = (if (decide (s.avail = 0) && decide (0 < s.totEnt)) = true then (bal : Int) else s.avail) ∧
            nid = (if (decide (s.avail = 0) && decide (0 < s.totEnt)) = true then s.nid + 1 else s.nid) :=
        ⟨_, _, _, rfl, rfl, rfl⟩
      rw [← hnews, ← havail, ← hnid] at h
      have hn1 : news.flatMap (·.es) = s.news.flatMap (·.es) := by
        rw [hnews]; split <;> simp
      have hn2 : ∀ x ∈ news, x.edge = none := by
        rw [hnews]
        split
        · intro x hx
          rcases List.mem_append.mp hx with hx | hx
          · exact hs.edges hith x hx
          · simp at hx; rw [hx]
        · exact hs.edges hith
      have hn3 : Btree.ids news = List.range' n0 news.length := by
        rw [hnews]
        split
        · have := hs.ids
          simp only [Btree.ids, List.map_append, List.map_cons, List.map_nil, List.length_append,
            List.length_cons, List.length_nil] at this ⊢
          rw [this, List.range'_append_1.symm]
          simp [hs.nid]
        · exact hs.ids
      have hn4 : nid = n0 + news.length := by
        rw [hnid, hnews]
        have := hs.nid
        split
        · simp; omega
        · exact this
      have hn5 : news ≠ [] := by
        rw [hnews]
        split
        · simp
        · rename_i hc
          intro h0
          obtain ⟨h1, h2⟩ := hs.first h0 hith
          apply hc
          rw [h1, hs.ent]
          simp
          exact List.length_pos_of_ne_nil h2
      obtain ⟨nn, hl⟩ : ∃ nn, news.getLast? = some nn := ⟨_, List.getLast?_eq_some_getLast hn5⟩
      rw [hl] at h
      simp only at h
      obtain ⟨⟨nn', m⟩, hc, h⟩ := bind_ok h
      obtain ⟨-, hm, hnn⟩ := copyByEntries_ok hc
      obtain ⟨pre, hpre⟩ := List.getLast?_eq_some_iff.mp hl
      have hdl : news.dropLast = pre := by rw [hpre]; simp
      rw [hdl] at h
      simp only at h
      have hnth := hs.nth old ho
      have hrem := remaining_step ho hnth
      -- the next state
      have key : ∀ (av : Int) (ts : Nat) (i' n' : Nat), s'.ith = s'.ith →
          (old.es.length = s.nth + m ∧ i' = s.ith + 1 ∧ n' = 0 ∨
            old.es.length ≠ s.nth + m ∧ i' = s.ith ∧ n' = s.nth + m) →
          NewInv olds R n0 { ith := i', nth := n', avail := av, news := pre ++ [nn'], totSize := ts,
                             totEnt := s.totEnt - m, nid := nid } := by
        intro av ts i' n' _ hcase
        have hes : nn'.es = nn.es ++ (old.es.drop s.nth).take m := by rw [hnn]
        have hid : nn'.id = nn.id := by rw [hnn]
        have hnne : nn.edge = none := hn2 nn (by rw [hpre]; simp)
        have hflat : news.flatMap (·.es) = pre.flatMap (·.es) ++ nn.es := by rw [hpre]; simp
        have hlen : (pre ++ [nn']).length = news.length := by rw [hpre]; simp
        have hsplit : old.es.drop s.nth = (old.es.drop s.nth).take m ++ old.es.drop (s.nth + m) := by
          rw [← List.drop_drop, List.take_append_drop]
        have hremlen : (remaining olds s.ith s.nth).length =
            (old.es.length - s.nth) + (remaining olds (s.ith + 1) 0).length := by
          rw [hrem]; simp
        have hids : Btree.ids (pre ++ [nn']) = List.range' n0 (pre ++ [nn']).length := by
          rw [hlen, ← hn3, hpre]
          simp [Btree.ids, hid]
        rcases hcase with ⟨c1, rfl, rfl⟩ | ⟨c1, rfl, rfl⟩
        · have hdn : old.es.drop (s.nth + m) = [] := by rw [List.drop_eq_nil_iff]; omega
          have hfull : (old.es.drop s.nth).take m = old.es.drop s.nth :=
            List.take_of_length_le (by simp; omega)
          refine ⟨?_, by simp; omega, ?_, ?_, ?_, ?_, ?_, hids, by rw [hlen]; exact hn4, by simp⟩
          · rw [← hs.parts, ← hn1, hflat, hrem]
            simp [hes, hfull]
          · intro o _; exact Nat.zero_le _
          · simp only; rw [hs.ent, hremlen]; omega
          · intro hlt x hx
            rcases List.mem_append.mp hx with hx | hx
            · exact hn2 x (by rw [hpre]; simp [hx])
            · simp at hx
              have hoe : old.edge = none := by
                apply hold
                rw [List.mem_iff_getElem?]
                refine ⟨s.ith, ?_⟩
                simp only at hlt
                rw [List.getElem?_dropLast, if_pos (by omega)]
                exact ho
              rw [hx, hnn, hoe]
              simp [hnne]
          · intro x hx
            simp at hx
            exact hn2 x (by rw [hpre]; simp [hx])
          · intro hE x hx
            simp only at hE
            simp at hx
            have hlast : olds.getLast? = some old := by
              rw [List.getLast?_eq_getElem?]
              rw [← ho]; congr 1; omega
            rw [hlast, ← hx, hnn]
            simp only [Option.bind_some]
            cases hoe : old.edge with
            | none => simp [hnne]
            | some e => simp [c1]
        · refine ⟨?_, by simp; omega, ?_, ?_, ?_, ?_, ?_, hids, by rw [hlen]; exact hn4, by simp⟩
          · simp only
            rw [← hs.parts, ← hn1, hflat, hrem, remaining_step ho (n := s.nth + m) (by omega), hsplit]
            simp [hes]
          · intro o ho'
            simp only at ho'
            rw [ho] at ho'
            cases ho'
            simp only
            omega
          · simp only
            rw [hs.ent, hremlen, remaining_step ho (n := s.nth + m) (by omega)]
            simp
            omega
          · intro _ x hx
            rcases List.mem_append.mp hx with hx | hx
            · exact hn2 x (by rw [hpre]; simp [hx])
            · simp at hx
              rw [hx, hnn]
              simp only
              rw [if_neg (fun hh => c1 hh.2.symm)]
              exact hnne
          · intro x hx
            simp at hx
            exact hn2 x (by rw [hpre]; simp [hx])
          · intro hE; simp only at hE; omega
      generalize (if p.used nn'.es - p.used nn.es < s.totSize then s.totSize - (p.used nn'.es - p.used nn.es)
        else 0) = ts at h
      split at h
      · rename_i c1
        exact ih (key _ _ _ _ rfl (Or.inl ⟨c1, rfl, rfl⟩)) h
      · rename_i c1
        split at h
        · exact ih (key _ _ _ _ rfl (Or.inr ⟨c1, rfl, rfl⟩)) h
        · exact ih (key _ _ _ _ rfl (Or.inr ⟨c1, rfl, rfl⟩)) h

end
end HS.Btree
