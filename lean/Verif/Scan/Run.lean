import Verif.Scan.Inv

/-!
# The steps of the queries
-/

namespace HS.Scan

open HS.Conc

variable {y : Sys} {i : Nat} {q : Query}

/-- A query moves on: what has to be shown. -/
theorem SInv.move (h : SInv y) (p : QPc) (ext : List Ev) (h1 : ops ext = []) (h2 : ∀ j, j ≠ i → Quiet j ext) (hl : ∀ n ∈ p.locks, y.canRead n)
    (hq : QOk y.s y.link (y.tr ++ ext) i p) (ha : Answered (y.tr ++ ext)) : SInv (({ y with tr := y.tr ++ ext } : Sys).goto i p) := by
  refine ⟨h.conc, h.linked, ?_, fun j hj n hn => ?_, fun j hj => ?_, ha⟩
  · show ops (y.tr ++ ext) = _
    rw [ops_append, h1, List.append_nil]
    exact h.trace
  · show y.canRead n
    by_cases hji : j = i
    · subst hji
      simp only [Sys.goto, if_true] at hn
      exact hl n hn
    · simp only [Sys.goto, if_neg hji] at hn
      exact h.mutex j hj n hn
  · show QOk y.s y.link (y.tr ++ ext) j _
    by_cases hji : j = i
    · subst hji
      simp only [Sys.goto, if_true]
      exact hq
    · simp only [Sys.goto, if_neg hji]
      refine (h.qs j hj).still ext (h2 j hji) fun n hn => ⟨?_, rfl⟩
      have hx : Still y.s y.s n ↔ Live y.s.nodes y.s.fresh n := ⟨fun h => h.live, fun h => Still.same h rfl rfl⟩
      rw [hx]
      exact h.live hj hn

/-- The same, nothing having happened. -/
theorem SInv.step0 (h : SInv y) (p : QPc) (hl : ∀ n ∈ p.locks, y.canRead n) (hq : QOk y.s y.link y.tr i p) : SInv (y.goto i p) := by
  have := h.move (i := i) p [] rfl (fun _ _ _ he => by cases he) hl (by simpa using hq) (by simpa using h.hist)
  simpa using this

theorem quiet_fail (i j : Nat) : Quiet j [.fail i] := by
  intro e he
  cases List.mem_singleton.1 he
  exact ⟨fun _ h => (by cases h), fun _ _ h => (by cases h)⟩

theorem quiet_trim (i j : Nat) : Quiet j [.trim i] := by
  intro e he
  cases List.mem_singleton.1 he
  exact ⟨fun _ h => (by cases h), fun _ _ h => (by cases h)⟩

/-- A node could not be read. -/
theorem SInv.fail (h : SInv y) (p : QPc) (hl : ∀ n ∈ p.locks, y.canRead n) (hq : QOk y.s y.link (y.tr ++ [.fail i]) i p) :
    SInv ((y.emit (.fail i)).goto i p) :=
  h.move p [.fail i] rfl (fun j _ => quiet_fail i j) hl hq (h.hist.ext _ fun e he _ _ _ h => by cases List.mem_singleton.1 he; cases h)

/-- The map now. -/
theorem SInv.map (h : SInv y) : ∃ M, MapAt y.tr y.tr.length M ∧ ∀ k v, M k = some v ↔ Holds y.s.nodes y.s.fresh k v := by
  obtain ⟨M, h1, h2⟩ := h.conc.lin
  refine ⟨M, ?_, h2⟩
  unfold MapAt
  rw [List.take_length, h.trace]
  exact h1

/-- Finishing. -/
theorem QOk.finish {s : St} {link : Nat → Option Nat} {tr : List Ev} {b : Nat} {out : List (Nat × Nat)} {r : Status} (ha : Asked tr b i q)
    (hd : Done tr b i q out r) : QOk s link tr i (finish q out r) ∧ (finish q out r).locks = [] := by
  obtain ⟨r', h1, h2⟩ := finish_fin q out r
  rw [h1]
  exact ⟨⟨b, q, ha, fun _ => hd.finish h2⟩, rfl⟩

theorem Chain.front_gap {P : Nat → Option Nat → Option Nat → Prop} : ∀ {es : List Ent} {lo m : Option Nat} {k : Nat}, Chain P lo (front k es) m →
    m = lo ∨ ∃ x, m = some x ∧ x ≤ k
  | [], _, _, _, h => Or.inl h.symm
  | e :: t, lo, m, k, h => by
    unfold front at h
    rw [List.takeWhile_cons] at h
    by_cases hc : covers e.1 k = true
    · simp only [hc, Bool.not_true, Bool.false_eq_true, if_false] at h
      exact Or.inl h.symm
    · have hc' : (!covers e.1 k) = true := by simpa using hc
      rw [hc', if_pos rfl] at h
      right
      have hcut : ∃ x, cut e.1 = some x ∧ x ≤ k := by
        cases he : e.1 with
        | none => rw [he] at hc; exact absurd rfl hc
        | some a =>
          rw [he] at hc
          simp only [covers, decide_eq_true_eq] at hc
          exact ⟨a + 1, rfl, by omega⟩
      rcases Chain.front_gap (es := t) h.2.2 with h' | h'
      · rw [h']; exact hcut
      · exact h'

theorem Chain.upTo {P : Nat → Option Nat → Option Nat → Prop} : ∀ {r : List Ent} {p hi : Option Nat} (k : Nat), Chain P p r hi →
    ∃ z m, r = upTo k r ++ z ∧ Chain P p (upTo k r) m ∧ leB m hi ∧ (m = hi ∨ ∀ x, m = some x → k < x)
  | [], p, hi, k, h => ⟨[], hi, rfl, h, leB.refl _, Or.inl rfl⟩
  | e :: t, p, hi, k, h => by
    by_cases hc : covers e.1 k = true
    · refine ⟨t, cut e.1, by simp [HS.Scan.upTo, hc], by simp only [HS.Scan.upTo, hc, if_true]; exact ⟨h.1, h.2.1, rfl⟩, h.2.2.le, Or.inr ?_⟩
      intro x hx
      cases he : e.1 with
      | none => rw [he] at hx; cases hx
      | some a =>
        rw [he] at hx hc
        simp only [covers, decide_eq_true_eq] at hc
        cases hx
        show k < a + 1
        omega
    · obtain ⟨z, m, h1, h2, h3, h4⟩ := Chain.upTo k h.2.2
      refine ⟨z, m, ?_, ?_, h3, h4⟩
      · simp only [HS.Scan.upTo, hc]
        exact congrArg (e :: ·) h1
      · simp only [HS.Scan.upTo, hc]
        exact ⟨h.1, h.2.1, h2⟩

theorem Chain.of_append_mid {P : Nat → Option Nat → Option Nat → Prop} {a r : List Ent} {lo hi : Option Nat} (h : Chain P lo (a ++ r) hi) {p : Option Nat}
    (hb : Bounds lo a p) : Chain P p r hi := by
  obtain ⟨m, h1, h2⟩ := Chain.append.1 h
  rw [Bounds.uniq hb h1]
  exact h2

/-- The steps of a query keep the invariant. -/
theorem sinv_query {y' : Sys} (h : SInv y) {a : QAct} (hs : y.qStep i a = some y') : SInv y' := by
  unfold Sys.qStep at hs
  split at hs
  case isFalse => cases hs
  case isTrue hi =>
  have hq := h.qs i hi
  have hmx := h.mutex i hi
  have hT := h.conc.tree
  split at hs
  -- ask
  · next q hpc =>
    cases hs
    have ha : Asked (y.tr ++ [.ask i q]) y.tr.length i q := by
      refine ⟨by simp, fun j hj => ?_⟩
      have : (y.tr ++ [Ev.ask i q])[j]? = none := by
        rw [List.getElem?_eq_none_iff]
        simp
        omega
      rw [this]
      exact ⟨fun _ h => (by cases h), fun _ _ h => (by cases h)⟩
    refine h.move _ [.ask i q] rfl ?_ ?_ ?_ ?_
    · intro j hj e he
      cases List.mem_singleton.1 he
      exact ⟨fun _ h => (by cases h; exact hj rfl), fun _ _ h => (by cases h)⟩
    · intro n hn
      split at hn <;> cases hn
    · split
      · next hb => exact ⟨_, q, ha, fun h0 => by omega⟩
      · next hb => exact ⟨by omega, _, ha⟩
    · exact h.hist.ext _ fun e he _ _ _ h => by cases List.mem_singleton.1 he; cases h
  -- lockRoot
  · next q hpc =>
    rw [hpc] at hq
    obtain ⟨h0, b, ha⟩ := hq
    split at hs
    case isFalse => cases hs
    case isTrue hc =>
    cases hs
    refine h.step0 _ ?_ ⟨b, some 0, ha, Cover.nil ha.lt fun k _ hb => absurd (below_some.1 hb) (by omega), ?_⟩
    · intro n hn
      simp only [QPc.locks, List.map_nil, List.mem_singleton] at hn
      subst hn
      exact hc
    · have hb := hT.base
      have hn := hT.node _ hb.1
      refine ⟨hb.1, h0, ?_, ?_, fun _ => hb.2.1.symm, fun hl => ?_, fun _ => ⟨rfl, fun _ => ⟨rfl, ?_⟩⟩, fun _ => ⟨none, ?_, ?_⟩⟩
      · rw [hb.2.1]; exact leB.refl _
      · rw [hb.2.2]; exact ⟨0, rfl, fun _ h => by cases h⟩
      · rw [← hb.2.1]; exact hn.2.1 hl
      · rw [hb.2.1, hb.2.2]; exact ⟨⟨0, rfl, Nat.zero_le _⟩, fun _ h => by cases h⟩
      · rw [hb.2.2]; exact Gap.refl _ _
      · exact fun k _ x hx => by cases hx
  -- the root cannot be read
  · next q hpc =>
    rw [hpc] at hq
    obtain ⟨h0, b, ha⟩ := hq
    cases hs
    have ha' := ha.ext (quiet_fail i i)
    refine h.fail _ (fun n hn => by cases hn) ⟨b, q, ha', fun _ => ⟨some 0, Cover.nil ha'.lt fun k _ hb => absurd (below_some.1 hb) (by omega),
      fun h => (by cases h), fun h => (by cases h)⟩⟩
  -- down
  · next q st n out hpc =>
    rw [hpc] at hq
    obtain ⟨b, p, ha, hcov, hon⟩ := hq
    split at hs
    case isFalse => cases hs
    case isTrue hw =>
    split at hs
    case h_2 => cases hs
    case h_1 c hchild =>
    split at hs
    case isFalse => cases hs
    case isTrue hc =>
    cases hs
    obtain ⟨rfl, hsw⟩ := hon.sweep hw.1
    obtain ⟨rfl, hin⟩ := hsw hw.2
    obtain ⟨e, t, m, g1, g2, g3, g4, g5, g6⟩ := (hT.chain hon.live hw.2).child hin
    have hce : e.2 = c := by
      simp only [child, g1, List.head?_cons, Option.map_some, Option.some.injEq] at hchild
      exact hchild
    subst hce
    obtain ⟨k1, k2, k3, k4⟩ := g4
    have hno : ∀ k, q.has k → ¬ below k (y.s.nodes e.2).lo := by
      intro k hk hb
      rw [k3] at hb
      obtain ⟨⟨x, hx, l⟩, _⟩ := g5
      have := hb x hx
      have := Query.le_has hk
      omega
    have hnode := hT.node _ k1
    refine h.step0 _ ?_ ⟨b, (y.s.nodes e.2).lo, ha, Cover.nil ha.lt hno, ?_⟩
    · intro n' hn'
      simp only [QPc.locks, List.map_nil, List.mem_singleton] at hn'
      subst hn'
      exact hc
    · refine ⟨k1, hon.few, leB.refl _, hnode.1, fun _ => rfl, hnode.2.1, fun _ => ⟨rfl, fun _ => ⟨rfl, ?_⟩⟩, fun hf => ?_⟩
      · rw [k3, k4]; exact g5
      · rw [hw.1] at hf; cases hf
  -- enter
  · next q st n out hpc =>
    rw [hpc] at hq hmx
    obtain ⟨b, p, ha, hcov, hon⟩ := hq
    split at hs
    case isFalse => cases hs
    case isTrue hw =>
    cases hs
    have hch := hT.chain hon.live hw.2
    have hes : (y.s.nodes n).es = front q.lo (y.s.nodes n).es ++ rest q.lo (y.s.nodes n).es :=
      (List.takeWhile_append_dropWhile (p := fun e : Ent => !covers e.1 q.lo)).symm
    have hch' := hch
    rw [hes] at hch'
    obtain ⟨p', c1, c2⟩ := Chain.append.1 hch'
    have hpl := hon.eq hw.2
    have hg : Gap q p p' := by
      rw [hpl]
      refine ⟨c1.le, fun k hk hb => ?_⟩
      rcases Chain.front_gap c1 with h' | ⟨x, hx, l⟩
      · rw [h'] at hb; exact hb
      · have := hb x hx
        have := Query.le_has hk
        omega
    have hcov' := hcov.raise hg
    obtain ⟨e, ge, hst⟩ := hon.walk hw.1
    obtain ⟨z, m, u1, u2, u3, u4⟩ := Chain.upTo q.hi c2
    have hgm : Gap q m (y.s.nodes n).hi := by
      refine ⟨u3, fun k hk hb => ?_⟩
      rcases u4 with u4 | u4
      · rw [u4]; exact hb
      · intro x hx
        have := u4 x hx
        have := Query.has_le hk
        omega
    by_cases hkids : kids q (y.s.nodes n).es = []
    · rw [show keepTop n (kids q (y.s.nodes n).es) st = st by simp [keepTop, hkids]]
      have hnil : upTo q.hi (rest q.lo (y.s.nodes n).es) = [] := List.map_eq_nil_iff.1 hkids
      rw [hnil] at u2
      have hpm : p' = m := u2
      subst hpm
      refine h.step0 _ (fun x hx => hmx x ?_) ⟨b, e, ha, hcov'.raise (hgm.trans ge), hst, hw.1, hon.few, by simp⟩
      simp only [QPc.locks, List.mem_cons] at hx ⊢
      exact Or.inr hx
    · rw [show keepTop n (kids q (y.s.nodes n).es) st = (n, kids q (y.s.nodes n).es) :: st by simp [keepTop, hkids]]
      refine h.step0 _ (fun x hx => hmx x ?_) ⟨b, p', ha, hcov', ⟨hon.live, hw.2, ⟨_, _, z, m, ?_, rfl, hkids, Bounds.of c1, Bounds.of u2, hgm⟩,
        e, ge, hst⟩, hw.1, hon.few, by simp⟩
      · simpa [QPc.locks] using hx
      · rw [← u1]; exact hes
  -- read
  · next q st n out hpc =>
    rw [hpc] at hq hmx
    obtain ⟨b, p, ha, hcov, hon⟩ := hq
    split at hs
    case isFalse => cases hs
    case isTrue h0 =>
    obtain ⟨M, hM, hH⟩ := h.map
    have hread : ∀ k v, inR p (y.s.nodes n).hi k → (M k = some v ↔ (some k, v) ∈ (y.s.nodes n).es) := fun k v hk =>
      (hH k v).trans (holds_leaf hT hon.live h0 (hk.mono hon.le (leB.refl _)) v)
    -- what has happened
    obtain ⟨ext, hy', hx1, hx2, hx3, hx4⟩ : ∃ ext : List Ev,
        (if q.batch - out.length < (inside q (y.s.nodes n).es).length then y.emit (.trim i) else y) = ({ y with tr := y.tr ++ ext } : Sys) ∧
        (q.batch - out.length < (inside q (y.s.nodes n).es).length → .trim i ∈ ext) ∧ ops ext = [] ∧ (∀ j, Quiet j ext) ∧
        ∀ e ∈ ext, ∀ i out st, e ≠ .answer i out st := by
      split
      · refine ⟨[.trim i], rfl, fun _ => by simp, rfl, fun j => quiet_trim i j, fun e he _ _ _ h => ?_⟩
        cases List.mem_singleton.1 he
        cases h
      · refine ⟨[], by simp, fun h => absurd h (by assumption), rfl, fun j e he => (by cases he), fun e he => (by cases he)⟩
    simp only [hy'] at hs
    have ha' := ha.ext (hx3 i)
    have hhist := h.hist.ext ext hx4
    have hfin : ∀ r : Status, Done (y.tr ++ ext) b i q (out ++ multiGet q (q.batch - out.length) (y.s.nodes n).es) r →
        SInv (({ y with tr := y.tr ++ ext } : Sys).goto i (finish q (out ++ multiGet q (q.batch - out.length) (y.s.nodes n).es) r)) := by
      intro r hd
      obtain ⟨f1, f2⟩ := QOk.finish (s := y.s) (link := y.link) ha' hd
      exact h.move _ ext hx2 (fun j _ => hx3 j) (by rw [f2]; exact fun n hn => by cases hn) f1 hhist
    by_cases hlen : (out ++ multiGet q (q.batch - out.length) (y.s.nodes n).es).length < q.batch
    · rw [if_pos hlen] at hs
      have hc' := hcov.read (hon.leaf h0) hon.lt hM hread ha.lt ext hx1 hon.few _ (Or.inl ⟨rfl, hlen⟩)
      by_cases hsw : q.sweep = true
      · rw [if_pos hsw] at hs
        by_cases hend : q.hi ≤ (lastKey (some 0) (y.s.nodes n).es).getD 0
        · rw [if_pos hend] at hs
          cases hs
          refine hfin _ ⟨_, hc', fun _ k hk => ?_, fun h => by cases h⟩
          have hkh := Query.has_le hk
          cases hl : (y.s.nodes n).es.getLast? with
          | none =>
            simp only [lastKey, hl, Option.getD_some] at hend
            obtain ⟨a, _, hlt⟩ := hon.lt
            intro x hx
            have := hlt x hx
            omega
          | some e =>
            simp only [lastKey, hl] at hend
            obtain ⟨k', e1, e2⟩ := LeafOk.mem (hon.leaf h0) (List.mem_of_getLast? hl)
            rw [e1, Option.getD_some] at hend
            intro x hx
            have := e2.2 x hx
            omega
        · rw [if_neg hend] at hs
          split at hs
          · next hlk =>
            cases hs
            refine hfin _ ⟨_, hc', fun _ k hk => ?_, fun h => by cases h⟩
            rcases h.linked n hon.live with ⟨g1, _⟩ | ⟨z, g1, _⟩
            · rw [g1]; exact fun x hx => by cases hx
            · rw [hlk] at g1; cases g1
          · next z hlk =>
            cases hs
            refine h.move _ ext hx2 (fun j _ => hx3 j) (fun x hx => hmx x ?_) ⟨b, ha', hc', hon.live, h0, hlk, hsw, hlen⟩ hhist
            simp only [QPc.locks, List.mem_singleton] at hx
            rw [hx]
            simp [QPc.locks]
      · rw [if_neg hsw] at hs
        cases hs
        have hsw' : q.sweep = false := by simpa using hsw
        obtain ⟨e, ge, hst⟩ := hon.walk hsw'
        refine h.move _ ext hx2 (fun j _ => hx3 j) (fun x hx => hmx x ?_) ⟨b, e, ha', hc'.raise ge, hst, hsw', hlen, by simp⟩ hhist
        simp only [QPc.locks, List.mem_cons] at hx ⊢
        exact Or.inr hx
    · rw [if_neg hlen] at hs
      cases hs
      have hcnt := multiGet_length (q := q) (q.batch - out.length) (y.s.nodes n).es
      have hfew := hon.few
      rw [List.length_append] at hlen
      have hne : multiGet q (q.batch - out.length) (y.s.nodes n).es ≠ [] := by
        intro hne
        rw [hne] at hlen
        simp at hlen
        omega
      have hsorted := multiGet_sorted (q := q) (hon.leaf h0) (q.batch - out.length)
      have hlast : ∀ z ∈ multiGet q (q.batch - out.length) (y.s.nodes n).es,
          z.1 ≤ ((multiGet q (q.batch - out.length) (y.s.nodes n).es).getLast hne).1 := by
        intro z hz
        rw [← List.dropLast_concat_getLast hne] at hz hsorted
        rcases List.mem_append.1 hz with hz | hz
        · exact Nat.le_of_lt ((List.pairwise_append.1 hsorted).2.2 z hz _ (List.mem_singleton.2 rfl))
        · rw [List.mem_singleton.1 hz]
          exact Nat.le_refl _
      have hc' := hcov.read (hon.leaf h0) hon.lt hM hread ha.lt ext hx1 hon.few _ (Or.inr ⟨_, List.getLast_mem hne, rfl, hlast⟩)
      refine hfin _ ⟨_, hc', fun h => (by cases h), fun _ => ?_⟩
      rw [List.length_append]
      omega
  -- the child cannot be read
  · next q st n out hpc =>
    rw [hpc] at hq
    obtain ⟨b, p, ha, hcov, hon⟩ := hq
    split at hs
    case isFalse => cases hs
    case isTrue hw =>
    cases hs
    obtain ⟨f1, f2⟩ := QOk.finish (s := y.s) (link := y.link) (ha.ext (quiet_fail i i)) (r := .failed)
      ⟨p, hcov.ext [.fail i], fun h => (by cases h), fun h => (by cases h)⟩
    exact h.fail _ (by rw [f2]; exact fun n hn => by cases hn) f1
  -- follow
  · next q n z out hpc =>
    rw [hpc] at hq
    obtain ⟨b, ha, hcov, hlive, hlev, hlk, hsw, hlen⟩ := hq
    split at hs
    case isFalse => cases hs
    case isTrue hc =>
    cases hs
    rcases h.linked n hlive with ⟨_, g⟩ | ⟨z', g1, g2, g3, g4⟩
    · rw [hlk] at g; cases g
    · rw [hlk] at g1
      cases g1
      have hnode := hT.node _ g2
      refine h.step0 _ ?_ ⟨b, (y.s.nodes z).lo, ha, by rw [g4]; exact hcov, g2, hlen, leB.refl _, hnode.1, fun _ => rfl, hnode.2.1,
        fun _ => ⟨rfl, fun h' => absurd (g3.trans hlev) h'⟩, fun hf => ?_⟩
      · intro n' hn'
        simp only [QPc.locks, List.map_nil, List.mem_singleton] at hn'
        subst hn'
        exact hc
      · rw [hsw] at hf; cases hf
  -- the next leaf cannot be read
  · next q n z out hpc =>
    rw [hpc] at hq
    obtain ⟨b, ha, hcov, hlive, hlev, hlk, hsw, hlen⟩ := hq
    cases hs
    obtain ⟨f1, f2⟩ := QOk.finish (s := y.s) (link := y.link) (ha.ext (quiet_fail i i)) (r := .failed)
      ⟨_, hcov.ext [.fail i], fun h => (by cases h), fun h => (by cases h)⟩
    exact h.fail _ (by rw [f2]; exact fun n hn => by cases hn) f1
  -- visit
  · next q n c rem st out r hpc =>
    rw [hpc] at hq hmx
    obtain ⟨b, p, ha, hcov, ⟨hlive, hlev, ⟨a, mid, z, m, g1, g2, g3, g4, g5, g6⟩, e, ge, hst⟩, hsw, hlen, hr⟩ := hq
    split at hs
    case isFalse => cases hs
    case isTrue hc =>
    cases hs
    cases mid with
    | nil => simp at g2
    | cons f mid =>
      simp only [List.map_cons, List.cons.injEq] at g2
      obtain ⟨rfl, rfl⟩ := g2
      have hch := hT.chain hlive hlev
      rw [g1] at hch
      have hch2 := Chain.of_append_mid hch g4
      obtain ⟨k1, k2, k3, k4⟩ := hch2.2.1
      have hnode := hT.node _ k1
      have hlocks : ∀ x ∈ (QPc.on q (keepTop n (mid.map (·.2)) st) f.2 out).locks, y.canRead x := by
        intro x hx
        simp only [QPc.locks, List.mem_cons] at hx
        rcases hx with rfl | hx
        · exact hc
        · refine hmx x ?_
          simp only [QPc.locks, List.map_cons, List.mem_cons]
          unfold keepTop at hx
          split at hx
          · exact Or.inr hx
          · simpa using hx
      refine h.step0 _ hlocks ⟨b, p, ha, hcov, k1, hlen, ?_, ?_, fun _ => k3.symm, ?_, fun hf => ?_, fun _ => ?_⟩
      · rw [k3]; exact leB.refl _
      · rw [← k3]; exact hnode.1
      · rw [← k3]; exact hnode.2.1
      · rw [hsw] at hf; cases hf
      · rw [k4]
        cases mid with
        | nil =>
          have hm : cut f.1 = m := g5.2.2
          rw [show keepTop n (List.map (·.2) ([] : List Ent)) st = st by simp [keepTop], hm]
          exact ⟨e, g6.trans ge, hst⟩
        | cons f' mid =>
          rw [show keepTop n (List.map (·.2) (f' :: mid)) st = (n, List.map (·.2) (f' :: mid)) :: st by simp [keepTop]]
          refine ⟨cut f.1, Gap.refl _ _, hlive, hlev, ⟨a ++ [f], f' :: mid, z, m, by rw [g1]; simp, rfl, by simp, ?_, g5.2.2, g6⟩, e, ge, hst⟩
          exact Chain.append.2 ⟨p, g4, g5.1, trivial, rfl⟩
  -- the child cannot be read
  · next q n c rem st out r hpc =>
    rw [hpc] at hq hmx
    obtain ⟨b, p, ha, hcov, ⟨hlive, hlev, ⟨a, mid, z, m, g1, g2, g3, g4, g5, g6⟩, e, ge, hst⟩, hsw, hlen, hr⟩ := hq
    cases hs
    have hple : leB p e := (g5.le.trans g6.1).trans ge.1
    refine h.fail _ (fun x hx => hmx x ?_) ⟨b, e, ha.ext (quiet_fail i i), (hcov.ext [.fail i]).raise' hple fun hsure => ?_, hst, hsw, hlen, by simp⟩
    · simp only [QPc.locks, List.map_cons, List.mem_cons] at hx ⊢
      exact Or.inr hx
    · rcases hsure.1 with h' | h'
      · rw [hsw] at h'; cases h'
      · exact h' y.tr.length ha.lt (by simp)
  -- done
  · next q out r hpc =>
    rw [hpc] at hq
    obtain ⟨b, p, ha, hcov, hst, hsw, hlen, hr⟩ := hq
    cases hs
    obtain ⟨f1, f2⟩ := QOk.finish (s := y.s) (link := y.link) ha (r := r) ⟨p, hcov, fun _ => hst, fun h => absurd h hr⟩
    exact h.step0 _ (by rw [f2]; exact fun n hn => by cases hn) f1
  -- answer
  · next out r hpc =>
    rw [hpc] at hq
    obtain ⟨b, q, ha, hd⟩ := hq
    cases hs
    refine h.move _ [.answer i out r] rfl ?_ (fun n hn => by cases hn) trivial (h.hist.answer ha hd)
    intro j hj e he
    cases List.mem_singleton.1 he
    exact ⟨fun _ h => (by cases h), fun _ _ h => (by cases h; exact hj rfl)⟩
  · cases hs

/-- It holds at the start. -/
theorem sinv_init (nt nq : Nat) : SInv (Sys.init nt nq) := by
  refine ⟨inv_init nt, fun x hx => Or.inl ⟨rfl, rfl⟩, rfl, fun i _ n hn => (by cases hn), fun i _ => trivial, fun e i out st he => ?_⟩
  simp [Sys.init] at he

theorem sinv_reach {y y' : Sys} {l : List Move} (hr : Sys.Reach y l y') (h : SInv y) : SInv y' := by
  induction hr with
  | nil => exact h
  | cons hs _ ih =>
    cases hs with
    | op h1 h2 => exact ih (sinv_op h h1 h2)
    | query h1 => exact ih (sinv_query h h1)

end HS.Scan
