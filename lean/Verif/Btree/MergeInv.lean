import Verif.Btree.Merge

/-!
# Merging keeps the invariant
-/

namespace HS.Btree

section
variable {K V A : Type} [LinearOrder K]

theorem USeg.le_hi {P : A → Option K → Option K → Prop} {hi : Option K} :
    ∀ {l : List (Option K × A)} {a : K}, USeg P (some a) l hi → leHi a hi := by
  intro l
  induction l with
  | nil => intro a h; cases h; simp
  | cons w l ih =>
    intro a h
    obtain ⟨p, e⟩ := w
    cases p with
    | none => rw [h.2.1]; simp
    | some p =>
      have h4 := h.1
      simp at h4
      exact (ih h.2.2).trans h4.le

theorem USeg.mono {L : Lvl K V A} {lo lo' hi : Option K} {b : List (Option K × Node K A)} (hb : b ≠ [])
    (hl : leLo lo' lo) (h : USeg L.P lo b hi) : USeg L.P lo' b hi := by
  cases b with
  | nil => exact absurd rfl hb
  | cons y r =>
    obtain ⟨q, c⟩ := y
    cases q with
    | none => exact ⟨h.1, h.2.1, L.P_mono hl h.2.2⟩
    | some q => exact ⟨h.1.mono hl, L.P_mono hl h.2.1, h.2.2⟩

theorem Lvl.P_edge {L : Lvl K V A} {c : Node K A} {lo : Option K} {k : K} (h : L.P c lo (some k)) :
    c.edge = none := by
  cases he : c.edge with
  | none => rfl
  | some e =>
    unfold Lvl.P at h
    rw [he] at h
    cases L.edgeHi h

/-- Consecutive children seen as one big node. -/
theorem gather {L : Lvl K V A} : ∀ {O' : List (Option K × Node K A)} {lo q : Option K} {c : Node K A},
    (∀ y ∈ O', y.1 ≠ none) → USeg L.P lo (O' ++ [(q, c)]) q →
    L.Q lo ((O' ++ [(q, c)]).flatMap (·.2.es)) c.edge q := by
  intro O'
  induction O' with
  | nil =>
    intro lo q c _ h
    have := h.head
    simpa [Lvl.P] using this
  | cons y O' ih =>
    intro lo q c hk h
    obtain ⟨k, d⟩ := y
    cases k with
    | none => exact absurd rfl (hk (none, d) (by simp))
    | some k =>
      obtain ⟨h1, h2, h3⟩ := h
      have h4 := ih (fun y hy => hk y (by simp [hy])) h3
      have h5 : L.Q lo d.es none (some k) := by
        have := L.P_edge h2
        unfold Lvl.P at h2
        rw [this] at h2
        exact h2
      rw [List.cons_append, List.flatMap_cons]
      exact L.app h1 h3.le_hi h5 h4

/-- A big node cut into non-empty pieces. -/
theorem deal {L : Lvl K V A} (ks : K) : ∀ {X' : List (Node K A)} {x : Node K A} {lo hi : Option K},
    (∀ y ∈ X' ++ [x], y.es ≠ []) → (∀ y ∈ X', y.edge = none) →
    L.Q lo ((X' ++ [x]).flatMap (·.es)) x.edge hi →
    USeg L.P lo (X'.map (own ks) ++ [(hi, x)]) hi := by
  intro X'
  induction X' with
  | nil =>
    intro x lo hi hne _ h
    simp only [List.nil_append, List.flatMap_cons, List.flatMap_nil, List.append_nil] at h
    simp only [List.map_nil, List.nil_append]
    cases hi with
    | none => exact ⟨rfl, rfl, h⟩
    | some k =>
      refine ⟨?_, h, rfl⟩
      obtain ⟨e, r, he⟩ := List.exists_cons_of_ne_nil (hne x (by simp))
      have := L.bnd h (x := e) (by rw [he]; simp)
      exact this.1.trans (by simpa using this.2)
  | cons y X' ih =>
    intro x lo hi hne hed h
    rw [List.cons_append, List.flatMap_cons] at h
    have hy := hne y (by simp)
    have hl := List.getLast?_eq_some_getLast hy
    have hr : (X' ++ [x]).flatMap (·.es) ≠ [] := by
      have := hne x (by simp)
      simp [this]
    obtain ⟨h1, h2⟩ := L.cut hl (Or.inl hr) h
    have h3 := ih (fun z hz => hne z (by simp at hz ⊢; tauto)) (fun z hz => hed z (by simp [hz])) h2
    have hown : own ks y = (some (y.es.getLast hy).1, y) := by unfold own; rw [hl]; rfl
    rw [List.map_cons, List.cons_append, hown]
    refine ⟨(L.bnd h1 (List.getLast_mem hy)).1, ?_, h3⟩
    unfold Lvl.P
    rw [hed y (by simp)]
    exact h1

/-- The children after a merge cover what the children before did. -/
theorem pieces_cover {L : Lvl K V A} {m0 hi qf : Option K} {ks : K} {left left2 lastOld x : Node K A}
    {O' b : List (Option K × Node K A)} {news' X' : List (Node K A)}
    (hl : ltLo m0 ks) (hleft : L.P left m0 (some ks))
    (hO : USeg L.P (some ks) ((O' ++ [(qf, lastOld)]) ++ b) hi) (hOk : ∀ y ∈ O', y.1 ≠ none)
    (hX : left2 :: news' = X' ++ [x]) (hne : ∀ y ∈ news', y.es ≠ [])
    (hflat : (X' ++ [x]).flatMap (·.es) = left.es ++ (O' ++ [(qf, lastOld)]).flatMap (·.2.es))
    (hedge : ∀ y ∈ X', y.edge = none) (hxe : x.edge = lastOld.edge)
    (hleft2 : left2.es = [] → left.es = []) :
    USeg L.P m0 (X'.map (own ks) ++ (lastQ ks qf b x, x) :: b) hi := by
  have hOb : USeg L.P (some ks) (O' ++ [(qf, lastOld)]) qf ∧
      (b = [] ∧ hi = qf ∨ b ≠ [] ∧ ∃ kf, qf = some kf ∧ USeg L.P (some kf) b hi) := by
    by_cases hb : b = []
    · subst hb
      rw [List.append_nil] at hO
      have := hO.last
      simp only at this
      rw [this] at hO
      exact ⟨hO, Or.inl ⟨rfl, this⟩⟩
    · obtain ⟨m, h1, h2, h3⟩ := hO.split hb
      have h4 := h1.last
      simp only at h4
      rw [h4] at h1 h2
      obtain ⟨kf, hkf⟩ := Option.ne_none_iff_exists'.mp (h3 (qf, lastOld) (by simp))
      simp only at hkf
      exact ⟨h1, Or.inr ⟨hb, kf, hkf, by rw [← hkf]; exact h2⟩⟩
  obtain ⟨hOq, hb⟩ := hOb
  have hle := L.P_edge hleft
  have hleftQ : L.Q m0 left.es none (some ks) := by
    unfold Lvl.P at hleft; rw [hle] at hleft; exact hleft
  have g1 := gather hOk hOq
  have g2 := L.app hl hOq.le_hi hleftQ g1
  rw [← hflat, ← hxe] at g2
  have hks := hOq.le_hi
  have hempty : left2.es = [] → left2.edge = none → L.P left2 m0 (some ks) := by
    intro h1 h2
    unfold Lvl.P
    rw [h1, h2, ← hleft2 h1]
    exact hleftQ
  -- with the old upper bound for the last piece
  have core : USeg L.P m0 (X'.map (own ks) ++ [(qf, x)]) qf := by
    by_cases h0 : left2.es = []
    · cases X' with
      | nil =>
        simp only [List.nil_append, List.flatMap_cons, List.flatMap_nil, List.append_nil] at g2
        simp only [List.map_nil, List.nil_append]
        cases qf with
        | none => exact ⟨rfl, rfl, g2⟩
        | some kf => exact ⟨hl.trans (by simpa using hks), g2, rfl⟩
      | cons y X'' =>
        simp only [List.cons_append, List.cons.injEq] at hX
        obtain ⟨rfl, rfl⟩ := hX
        have hown : own ks left2 = (some ks, left2) := by unfold own; rw [h0]; rfl
        rw [List.map_cons, List.cons_append, hown]
        refine ⟨hl, hempty h0 (hedge left2 (by simp)), ?_⟩
        apply deal ks hne (fun z hz => hedge z (by simp [hz]))
        rw [hxe]
        rw [List.cons_append, List.flatMap_cons, h0, hleft2 h0] at hflat
        simp only [List.nil_append] at hflat
        rw [hflat]
        exact g1
    · apply deal ks _ hedge g2
      rw [← hX]
      intro y hy
      rcases List.mem_cons.mp hy with rfl | hy
      · exact h0
      · exact hne y hy
  rcases hb with ⟨rfl, rfl⟩ | ⟨hb, kf, rfl, hbu⟩
  · have : lastQ ks hi [] x = hi := by cases hi <;> simp [lastQ]
    rw [this]
    exact core
  · have hq : lastQ ks (some kf) b x = (own ks x).1 := by
      unfold lastQ
      have : b.isEmpty = false := by cases b <;> simp_all
      simp [this]
    rw [hq]
    obtain ⟨m1, c1, c2, c3⟩ := core.split (by simp)
    refine c1.join c3 ?_
    obtain ⟨c4, c5, -⟩ := c2
    have hxed := L.P_edge c5
    by_cases hx0 : x.es = []
    · have hX0 : X' = [] ∧ x = left2 := by
        cases X' with
        | nil => simp at hX; exact ⟨rfl, hX.1.symm⟩
        | cons y X'' =>
          exfalso
          simp only [List.cons_append, List.cons.injEq] at hX
          exact hne x (by rw [hX.2]; simp) hx0
      obtain ⟨rfl, rfl⟩ := hX0
      cases c1
      have hown : (own ks x).1 = some ks := by unfold own; rw [hx0]; rfl
      rw [hown]
      refine ⟨hl, hempty hx0 hxed, hbu.mono hb ?_⟩
      intro a ha
      cases ha
      exact ⟨kf, rfl, by simpa using hks⟩
    · have hgl := List.getLast?_eq_some_getLast hx0
      have hown : (own ks x).1 = some (x.es.getLast hx0).1 := by unfold own; rw [hgl]; rfl
      rw [hown]
      have c6 := L.bnd c5 (List.getLast_mem hx0)
      refine ⟨c6.1, ?_, hbu.mono hb ?_⟩
      · unfold Lvl.P at c5 ⊢
        rw [hxed] at c5 ⊢
        exact L.shrink hgl c5
      · intro a ha
        cases ha
        exact ⟨kf, rfl, by simpa using c6.2⟩

theorem flatMap_own {L : Lvl K V A} (ks : K) (X : List (Node K A)) :
    lvs L (X.map (own ks)) = X.flatMap L.lv := by
  unfold lvs
  rw [List.flatMap_map]
  rfl

end

theorem bal_le {total ideal : Nat} (hi : total ≠ 0 → ideal ≠ 0) :
    mergeBal total (mergeNum total ideal) ≤ ideal := by
  unfold mergeBal mergeNum
  by_cases h0 : total = 0
  · simp [h0]
  · rw [if_neg h0, if_neg h0]
    have hi' : 0 < ideal := by have := hi h0; omega
    have h1 : total - 1 < ideal * ((total - 1) / ideal + 1) := Nat.lt_mul_div_succ _ hi'
    have h2 : (total - 1) / ((total - 1) / ideal + 1) < ideal := by
      rw [Nat.div_lt_iff_lt_mul (Nat.succ_pos _)]
      exact h1
    omega

section
variable {K A : Type}

/-- What the old nodes hold after the merge: `left1 :: news` in the place of `left :: olds`. -/
theorem build_ok {p : NK K A} (hp : p.Good) {bal num fuel nid avail : Nat} {left left1 : Node K A}
    {olds : List (Node K A)} {s : NewSt K A} {ts : Nat} (hne : olds ≠ [])
    (hE : ∀ x ∈ olds.dropLast, x.edge = none) (hl : left.edge = none)
    (hroom : p.used left.es + avail ≤ p.data)
    (hs : newLoop p bal num olds fuel
      { ith := (leftPlan p olds 0 avail).ith, nth := (leftPlan p olds 0 avail).nth, avail := 0, news := [],
        totSize := ts, totEnt := (olds.map (fun o => o.es.length)).sum - (leftPlan p olds 0 avail).moved,
        nid := nid } = .ok s)
    (hf : fillLeft p (leftPlan p olds 0 avail).upto (olds.take (leftPlan p olds 0 avail).pushed) left
      = .ok left1) :
    left1.es ++ s.news.flatMap (·.es) = left.es ++ olds.flatMap (·.es) ∧
    (∀ x ∈ (left1 :: s.news).dropLast, x.edge = none) ∧
    ((left1 :: s.news).getLast?).bind (·.edge) = (olds.getLast?).bind (·.edge) ∧
    left1.id = left.id ∧ ids s.news = List.range' nid s.news.length ∧ s.nid = nid + s.news.length ∧
    (left1.es = [] → left.es = []) := by
  obtain ⟨a, o, b, u, e1, e2, e3, e4, e5, e6, e7⟩ := leftPlan_ok p olds 0 avail hne
  have hE' : (∀ x ∈ a, x.edge = none) ∧ (b ≠ [] → o.edge = none) := by
    rw [e1] at hE
    constructor
    · intro x hx
      apply hE
      rw [List.dropLast_append_of_ne_nil (by simp)]
      simp [hx]
    · intro hb
      apply hE
      rw [List.dropLast_append_of_ne_nil (by simp), List.dropLast_cons_of_ne_nil hb]
      simp
  have htake : olds.take (leftPlan p olds 0 avail).pushed = a ++ [o] := by
    rw [e2, e1]
    have : 0 + a.length + 1 = (a ++ [o]).length := by simp
    rw [this, show a ++ o :: b = (a ++ [o]) ++ b by simp, List.take_left']
    rfl
  rw [htake, e3] at hf
  have hleft1 := fillLeft_ok hp a o hE'.1 e4 (fun _ => by omega) hf
  have hsum : (olds.map (fun o => o.es.length)).sum = (olds.flatMap (·.es)).length := by
    simp [List.length_flatMap]
  have hflat : olds.flatMap (·.es) = (a.flatMap (·.es) ++ o.es.take u) ++ (o.es.drop u ++ b.flatMap (·.es)) := by
    rw [e1]
    simp only [List.flatMap_append, List.flatMap_cons, List.append_assoc]
    rw [← List.append_assoc (o.es.take u), List.take_append_drop]
  have hrem : remaining olds (leftPlan p olds 0 avail).ith (leftPlan p olds 0 avail).nth =
      o.es.drop u ++ b.flatMap (·.es) := by
    rcases e7 with ⟨f1, f2, f3⟩ | ⟨f1, f2, f3, f4⟩
    · rw [f2, f3]
      unfold remaining
      rw [e1]
      simp only [Nat.zero_add, List.drop_left', List.flatMap_cons]
      rw [List.drop_append_of_le_length e4]
    · rw [f3, f4]
      unfold remaining
      subst f1 f2
      have : olds.drop (0 + olds.length) = [] := by simp
      rw [this]
      simp
  have hlen : olds.length = a.length + 1 + b.length := by rw [e1]; simp; omega
  have hinv : NewInv olds (o.es.drop u ++ b.flatMap (·.es)) nid
      { ith := (leftPlan p olds 0 avail).ith, nth := (leftPlan p olds 0 avail).nth, avail := 0, news := [],
        totSize := ts, totEnt := (olds.map (fun o => o.es.length)).sum - (leftPlan p olds 0 avail).moved,
        nid := nid } := by
    refine ⟨by simpa using hrem, ?_, ?_, ?_, by simp, by simp, by simp, by simp [ids], by simp, ?_⟩
    · simp only
      rcases e7 with ⟨f1, f2, f3⟩ | ⟨f1, f2, f3, f4⟩ <;> omega
    · simp only
      intro o' ho'
      rcases e7 with ⟨f1, f2, f3⟩ | ⟨f1, f2, f3, f4⟩
      · rw [f2, e1] at ho'
        simp at ho'
        rw [f3, ← ho']; exact e4
      · rw [f4]; omega
    · simp only
      rw [hrem, hsum, hflat, e5]
      simp only [List.length_append, List.length_take]
      omega
    · simp only
      intro _ hlt
      refine ⟨trivial, ?_⟩
      rw [hrem]
      rcases e7 with ⟨f1, f2, f3⟩ | ⟨f1, f2, f3, f4⟩
      · intro h0
        have := (List.append_eq_nil_iff.mp h0).1
        rw [List.drop_eq_nil_iff] at this
        omega
      · omega
  obtain ⟨hI, hith⟩ := newLoop_ok hE fuel hinv hs
  have hdone : (leftPlan p olds 0 avail).ith = 0 + olds.length → s.news = [] := by
    intro hd
    cases fuel with
    | zero => cases hs
    | succ f =>
      unfold newLoop at hs
      simp only at hs
      have : olds[(leftPlan p olds 0 avail).ith]? = none := by rw [hd]; simp
      rw [this] at hs
      cases hs
      rfl
  have hparts := hI.parts
  have hr0 : remaining olds s.ith s.nth = [] := by
    rw [hith]; unfold remaining; simp
  rw [hr0, List.append_nil] at hparts
  refine ⟨?_, ?_, ?_, by rw [hleft1], hI.ids, hI.nid, ?_⟩
  · rw [hleft1, hparts, hflat]
    simp
  · intro x hx
    by_cases hn : s.news = []
    · rw [hn] at hx; simp at hx
    · rw [List.dropLast_cons_of_ne_nil hn, List.mem_cons] at hx
      rcases hx with rfl | hx
      · rw [hleft1]
        simp only
        rw [if_neg, hl]
        rintro ⟨g1, g2⟩
        rcases e7 with ⟨f1, f2, f3⟩ | ⟨f1, f2, f3, f4⟩
        · omega
        · exact hn (hdone f3)
      · exact hI.edgesL x hx
  · by_cases hn : s.news = []
    · rw [hn] at hparts ⊢
      simp at hparts
      rw [hleft1]
      simp only [List.getLast?_singleton, Option.bind_some]
      rcases e7 with ⟨f1, f2, f3⟩ | ⟨f1, f2, f3, f4⟩
      · omega
      · rw [e1, f2, hl]
        simp only [List.getLast?_append, List.getLast?_singleton, Option.some_or, Option.bind_some]
        cases ho : o.edge with
        | none => simp
        | some e => simp [f1]
    · have hg := List.getLast?_eq_some_getLast hn
      have := hI.edgeE hith _ hg
      rw [List.getLast?_cons, hg]
      simpa using this
  · intro h0
    rw [hleft1] at h0
    exact (List.append_eq_nil_iff.mp h0).1

end

section
variable {K V A : Type} [LinearOrder K]

omit [LinearOrder K] in
theorem newLoop_nid {p : NK K A} {bal num : Nat} {olds : List (Node K A)} : ∀ (f : Nat) {s s' : NewSt K A},
    newLoop p bal num olds f s = .ok s' → s.nid ≤ s'.nid := by
  intro f
  induction f with
  | zero => intro s s' h; cases h
  | succ f ih =>
    intro s s' h
    have hn : s.nid ≤ (if (decide (s.avail = 0) && decide (0 < s.totEnt)) = true then s.nid + 1 else s.nid) := by
      split <;> omega
    unfold newLoop at h
    simp only at h
    split at h
    · cases h; exact le_rfl
    · split at h
      · split at h
        · cases h; exact le_rfl
        · cases h
      · obtain ⟨⟨nn', m⟩, -, h⟩ := bind_ok h
        simp only at h
        generalize (if (decide (s.avail = 0) && decide (0 < s.totEnt)) = true then s.nid + 1 else s.nid) = n2
          at h hn
        generalize (if (decide (s.avail = 0) && decide (0 < s.totEnt)) = true then
          s.news ++ [{ id := s.nid, next := none, es := [], edge := none }] else s.news) = news2 at h
        generalize (if p.used nn'.es - _ < s.totSize then _ else 0) = ts2 at h
        split at h
        · exact hn.trans (ih h)
        · split at h
          · exact hn.trans (ih h)
          · exact hn.trans (ih h)

omit [LinearOrder K] in
theorem edges_congr {l l' : List (Node K A)} (h : l'.map (·.edge) = l.map (·.edge)) :
    ((∀ x ∈ l.dropLast, x.edge = none) → ∀ x ∈ l'.dropLast, x.edge = none) ∧
      (l'.getLast?).bind (·.edge) = (l.getLast?).bind (·.edge) := by
  have hm : l'.dropLast.map (·.edge) = l.dropLast.map (·.edge) := by
    rw [List.map_dropLast, List.map_dropLast, h]
  constructor
  · intro hl x hx
    have : x.edge ∈ l'.dropLast.map (·.edge) := List.mem_map_of_mem hx
    rw [hm] at this
    obtain ⟨y, hy, he⟩ := List.mem_map.mp this
    rw [← he]; exact hl y hy
  · have g : ∀ l : List (Node K A), (l.getLast?).bind (·.edge) = ((l.map (·.edge)).getLast?).join := by
      intro l
      rw [List.getLast?_map]
      cases l.getLast? <;> rfl
    rw [g, g, h]

/-- What the theorems assume about the configuration: entries of fixed size are not empty, and the ideal
fill is at most the whole node. -/
structure Cfg.Good (c : Cfg K V) : Prop where
  leaf : c.leafFixed = true → 0 < c.leafObj
  int : c.intFixed = true → 0 < c.intObj
  ideal : c.idealPct ≤ 100

/-- What a merge does to the parent: its contents, and the children that are replaced. -/
theorem mergeBuild_full {c : Cfg K V} {L : Lvl K V A} {p : NK K (Node K A)} {pc : NK K A}
    {fuel total num bal start fin nid : Nat} {left : Node K A} {olds : List (Node K A)}
    {t : Node K (Node K A)} {lo hi : Option K} {res : Option (Node K (Node K A))} {nid' : Nat}
    (hp : pc.Good) (hbal : bal ≤ pc.data) (hbu : pc.used left.es ≤ bal) (hsf : start < fin)
    (hv : t.valAt start = some left) (hch : t.childrenAt (start + 1) (fin - start) = some olds)
    (hQ : (intLvl L).P t lo hi)
    (h : mergeBuild c p pc fuel t left olds total num bal start fin nid = .ok (res, nid')) :
    nid ≤ nid' ∧ ∀ t', res = some t' →
      (intLvl L).P t' lo hi ∧ Step ((intLvl L).lv t) ((intLvl L).lv t') nid nid' ∧
        cont ((intLvl L).lv t') = cont ((intLvl L).lv t) ∧
        ∃ a b xs ys, t.kids.map (·.2) = a ++ xs ++ b ∧ t'.kids.map (·.2) = a ++ ys ++ b ∧
          Regroup xs ys nid nid' ∧ ys.length + (fin - start) + nid = xs.length + nid' := by
  unfold mergeBuild at h
  obtain ⟨s, hs, h⟩ := bind_ok h
  -- the children
  obtain ⟨a, qs, z, hk, ha⟩ := valAt_split hv
  obtain ⟨-, O, b, hO1, hO2, hO3⟩ := childrenAt_ok hch
  have hz : z = O ++ b := by
    rw [← hO1, hk, ← ha, ← List.drop_drop]; simp
  subst hz
  have hOne : O ≠ [] := by rintro rfl; simp at hO3; omega
  obtain ⟨O', lastO, hOe⟩ := (List.eq_nil_or_concat O).resolve_left hOne
  rw [List.concat_eq_append] at hOe
  obtain ⟨qf, lastOld⟩ := lastO
  subst hOe
  have hQ' : Kids L.P lo t.es t.edge hi := hQ
  obtain ⟨-, hu⟩ := Kids_iff.mp hQ'
  rw [hk] at hu
  obtain ⟨m0, u1, u2, u3⟩ := hu.split (by simp)
  obtain ⟨ks, rfl⟩ : ∃ ks, qs = some ks := by
    cases qs with
    | none => have := u2.1; simp at this
    | some ks => exact ⟨ks, rfl⟩
  obtain ⟨v1, v2, v3⟩ := u2
  have hOk : ∀ y ∈ O', y.1 ≠ none := by
    rw [List.append_assoc] at v3
    obtain ⟨_, _, _, w⟩ := v3.split (by simp)
    exact w
  have hqb : qf = none → b = [] := by
    rintro rfl
    rw [List.append_assoc] at v3
    obtain ⟨_, _, w, _⟩ := v3.split (by simp)
    exact w.1
  have holdsLen : olds.length = O'.length + 1 := by rw [← hO2]; simp
  have holds : olds ≠ [] := by rw [← hO2]; simp
  have holdE : ∀ x ∈ olds.dropLast, x.edge = none := by
    rw [← hO2]
    simp only [List.map_append, List.map_cons, List.map_nil, List.dropLast_concat]
    intro x hx
    obtain ⟨y, hy, rfl⟩ := List.mem_map.mp hx
    obtain ⟨i, hi', hge⟩ := List.getElem_of_mem hy
    obtain ⟨a1, z1, e1, e2⟩ := split_at (List.getElem?_eq_getElem hi')
    rw [hge] at e1
    have v3' := v3
    rw [e1] at v3'
    simp only [List.append_assoc, List.cons_append] at v3'
    obtain ⟨mm, _, w, _⟩ := v3'.split (by simp)
    obtain ⟨ky, hky⟩ := Option.ne_none_iff_exists'.mp (hOk y hy)
    have w' := w.head
    rw [hky] at w'
    exact L.P_edge w'
  have hlastE : (olds.getLast?).bind (·.edge) = lastOld.edge := by rw [← hO2]; simp
  have hlastN : (olds.getLast?).bind (·.next) = lastOld.next := by rw [← hO2]; simp
  have hle := L.P_edge v2
  have hnid : nid ≤ s.nid := newLoop_nid fuel hs
  split at h
  · cases h
  split at h
  · cases h; exact ⟨hnid, by simp⟩
  rename_i hnews
  split at h
  · cases h; exact ⟨hnid, by simp⟩
  split at h
  · cases h; exact ⟨hnid, by simp⟩
  obtain ⟨t1, h1, h⟩ := bind_ok h
  cases h
  refine ⟨hnid, ?_⟩
  intro t' ht'
  obtain rfl : t1 = t' := Option.some.inj ht'
  rw [← hO2] at h1
  obtain ⟨left1, news', left2, X', x, k1, k2, k3, k4, k5, k6⟩ := kids_mergeCommit hk ha hOk hqb
    (by simp at hO3; omega) (by omega) h1
  rw [hO2] at k1
  obtain ⟨b1, b2, b3, b4, b5, b6, b7⟩ := build_ok hp holds holdE hle (by omega) hs k1
  have m1 : (left2 :: news').map (·.edge) = (left1 :: s.news).map (·.edge) := by
    rw [k2, k3, List.map_cons, List.map_cons, linkNews_map (·.edge) (fun _ _ => rfl)]
  have m2 : news'.flatMap (·.es) = s.news.flatMap (·.es) := by
    rw [List.flatMap_def, List.flatMap_def, k2, linkNews_map (·.es) (fun _ _ => rfl)]
  have m3 : ids news' = ids s.news := by
    unfold ids; rw [k2, linkNews_map (·.id) (fun _ _ => rfl)]
  have hl2es : left2.es = left1.es := by rw [k3]
  have hes : olds.flatMap (·.es) = (O' ++ [(qf, lastOld)]).flatMap (·.2.es) := by
    rw [← hO2, List.flatMap_map]
  obtain ⟨n1, n2⟩ := edges_congr m1
  have hsame : (left2 :: news').flatMap (·.es) = left.es ++ olds.flatMap (·.es) := by
    rw [List.flatMap_cons, m2, hl2es, b1]
  have hcov := pieces_cover (left2 := left2) (x := x) v1 v2 v3 hOk k5 k4
    (by rw [← k5, hsame, hes])
    (by
      have := n1 b2
      rw [k5, List.dropLast_concat] at this
      exact this)
    (by
      have := n2
      rw [b3, hlastE, k5] at this
      simpa using this)
    (by rw [hl2es]; exact b7)
  have hreg : Regroup (left :: olds) (left2 :: news') nid s.nid := by
    refine ⟨hnid, by rw [hsame, List.flatMap_cons], by simp, by simp, ?_, n1 b2, ?_, ?_, ?_, ?_, ?_⟩
    · intro y hy
      rw [List.dropLast_cons_of_ne_nil holds, List.mem_cons] at hy
      rcases hy with rfl | hy
      · exact hle
      · exact holdE y hy
    · rw [n2, b3]
      obtain ⟨o, ho⟩ := Option.isSome_iff_exists.mp (by simpa using holds : olds.getLast?.isSome)
      rw [List.getLast?_cons, ho]
      rfl
    · rw [k3]; simp [b4]
    · have : ((left :: olds).getLast?).bind (·.next) = lastOld.next := by
        rw [← hlastN]
        obtain ⟨o, ho⟩ := Option.isSome_iff_exists.mp (by simpa using holds : olds.getLast?.isSome)
        rw [List.getLast?_cons, ho]
        rfl
      rw [this]
      refine ⟨by rw [k3], ?_⟩
      rw [k2]
      exact linkNews_chain _ _
    · intro y hy
      have : y.id ∈ ids news' := List.mem_map_of_mem hy
      rw [m3, b5] at this
      simp at this
      omega
    · show (ids news').Nodup
      rw [m3, b5]
      exact List.nodup_range'
  have hlv : (intLvl L).lv t = lvs L a ++ (left :: olds).flatMap L.lv ++ lvs L b := by
    rw [lv_kids, hk, ← hO2]
    simp [lvs, List.flatMap_map]
  have hlv' : (intLvl L).lv t1 = lvs L a ++ (left2 :: news').flatMap L.lv ++ lvs L b := by
    rw [lv_kids, k6, k5]
    simp [flatMap_own]
  refine ⟨?_, ?_, ?_, a.map (·.2), b.map (·.2), left :: olds, left2 :: news', ?_, ?_, hreg, ?_⟩
  · show Kids L.P lo t1.es t1.edge hi
    rw [Kids_iff, k6]
    exact ⟨by simp, u1.join u3 hcov⟩
  · rw [hlv, hlv']
    exact (L.regroup_step hreg).ctx _ _
  · rw [hlv, hlv']
    simp only [cont_append]
    rw [L.regroup_cont hreg]
  · rw [hk, ← hO2]; simp
  · rw [k6, k5]
    have hown : (X'.map (own ks)).map (·.2) = X' := by
      rw [List.map_map]
      exact List.map_id' X'
    simp [hown]
  · have hnl : news'.length = s.news.length := by rw [k2, linkNews_length]
    simp only [List.length_cons]
    simp only [List.length_append, List.length_cons, List.length_nil] at hO3
    omega

theorem mergeNodes_full {c : Cfg K V} {L : Lvl K V A} {p : NK K (Node K A)} {pc : NK K A} {fuel start fin nid : Nat}
    {t : Node K (Node K A)} {lo hi : Option K} {res : Option (Node K (Node K A))} {nid' : Nat}
    (hp : pc.Good) (hd : pc.data = c.nodeData) (hi100 : c.idealPct ≤ 100) (hsf : start < fin)
    (hQ : (intLvl L).P t lo hi)
    (h : mergeNodes c p pc fuel t start fin nid = .ok (res, nid')) :
    nid ≤ nid' ∧ ∀ t', res = some t' →
      (intLvl L).P t' lo hi ∧ Step ((intLvl L).lv t) ((intLvl L).lv t') nid nid' ∧
        cont ((intLvl L).lv t') = cont ((intLvl L).lv t) ∧
        ∃ a b xs ys, t.kids.map (·.2) = a ++ xs ++ b ∧ t'.kids.map (·.2) = a ++ ys ++ b ∧
          Regroup xs ys nid nid' ∧ ys.length + (fin - start) + nid = xs.length + nid' := by
  unfold mergeNodes at h
  split at h
  · cases h; exact ⟨le_rfl, by simp⟩
  split at h
  case h_2 => cases h
  rename_i left olds hv hch
  simp only at h
  split at h
  · cases h
  rename_i hub
  split at h
  · cases h; exact ⟨le_rfl, by simp⟩
  split at h
  · cases h; exact ⟨le_rfl, by simp⟩
  rename_i hbal
  refine mergeBuild_full hp ?_ (by omega) hsf hv hch hQ h
  refine (bal_le (fun h0 h1 => hub ⟨h0, h1⟩)).trans ?_
  rw [hd]
  unfold Cfg.idealFill
  calc c.nodeData * c.idealPct / 100 ≤ c.nodeData * 100 / 100 :=
        Nat.div_le_div_right (Nat.mul_le_mul_left _ hi100)
    _ = c.nodeData := by omega

theorem mergeNodes_inv {c : Cfg K V} {L : Lvl K V A} {p : NK K (Node K A)} {pc : NK K A} {fuel start fin nid : Nat}
    {t : Node K (Node K A)} {lo hi : Option K} {res : Option (Node K (Node K A))} {nid' : Nat}
    (hp : pc.Good) (hd : pc.data = c.nodeData) (hi100 : c.idealPct ≤ 100) (hsf : start < fin)
    (hQ : (intLvl L).P t lo hi)
    (h : mergeNodes c p pc fuel t start fin nid = .ok (res, nid')) :
    nid ≤ nid' ∧ ∀ t', res = some t' →
      (intLvl L).P t' lo hi ∧ Step ((intLvl L).lv t) ((intLvl L).lv t') nid nid' ∧
        cont ((intLvl L).lv t') = cont ((intLvl L).lv t) := by
  obtain ⟨h1, h2⟩ := mergeNodes_full hp hd hi100 hsf hQ h
  exact ⟨h1, fun t' ht => ⟨(h2 t' ht).1, (h2 t' ht).2.1, (h2 t' ht).2.2.1⟩⟩

end
end HS.Btree
