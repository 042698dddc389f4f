import Verif.DevMgr.VdevsLemmas

/-!
# Chunk ids over any history: theorems (C44)
-/

namespace HS.DevMgr

def IsValid (w : World) (d : Nat) : Prop := (w d).valid = true

/-- Every start is given all formatted devices of the store, each once. -/
def AllPresent (s : Sys) : VEv → Prop
  | .run (.boot order _) => order.Nodup ∧ ∀ d, IsValid s.world d → d ∈ order
  | .crash (.boot order _) _ => order.Nodup ∧ ∀ d, IsValid s.world d → d ∈ order
  | _ => True

def AllPresents : Sys → List VEv → Prop
  | _, [] => True
  | s, ev :: evs => AllPresent s ev ∧ AllPresents (ev.step s) evs

structure RunInv (w : World) (m : Mem) : Prop where
  nodup : m.order.Nodup
  valid : ∀ d, IsValid w d → d ∈ m.order
  good : ∃ m', Good w m.order m' [] ∧ (m.slots = true → m'.used = m.used ∧ m'.chunks = m.chunks)
  idle : m.slots = false → m.chunks = []

structure VInv (s : Sys) : Prop where
  distinct : DistinctOn s.world (IsValid s.world)
  mem : ∀ m, s.mem = some m → RunInv s.world m

theorem Good.congr {w : World} {ds : List Nat} {m m' : Mem} {ws : List Wr} (h : Good w ds m ws) (hu : m.used = m'.used)
    (hc : m.chunks = m'.chunks) : Good w ds m' ws :=
  ⟨h.pre, by rw [← hu]; exact h.used, by rw [← hc]; exact h.known, h.devs⟩

theorem exists_good {w : World} {ds : List Nat} (h : DistinctOn w (· ∈ ds)) : ∃ m, Good w ds m [] := by
  refine ⟨⟨ds, [], (allChunks w ds).map (fun x => x.2.1), (allChunks w ds).map (fun x => (x.2.1, x.1, x.2.2)), true⟩, ?_⟩
  refine ⟨fun k => by rw [List.take_nil]; exact h, ?_, ?_, by simp⟩
  · intro d hd c hc
    exact List.mem_map.2 ⟨(d, c), mem_allChunks.2 ⟨hd, hc⟩, rfl⟩
  · intro i d v
    constructor
    · intro hx
      obtain ⟨x, hx, he⟩ := List.mem_map.1 hx
      cases he
      exact mem_allChunks.1 (by assumption : _ ∈ allChunks w ds)
    · rintro ⟨h1, h2⟩
      exact List.mem_map.2 ⟨(d, (i, v)), mem_allChunks.2 ⟨h1, h2⟩, rfl⟩

theorem Good.reset {w : World} {ds : List Nat} {m : Mem} {ws : List Wr} (h : Good w ds m ws) : Good (applyAll w ws) ds m [] :=
  ⟨fun k => by rw [List.take_nil]; exact prefixes_full (Q := fun l => DistinctOn (applyAll w l) (· ∈ ds)) h.pre,
    h.used, h.known, by simp⟩

theorem valid_in {w : World} {ds : List Nat} {ws : List Wr} (hv : ∀ d, IsValid w d → d ∈ ds) (hd : ∀ x ∈ ws, x.dev ∈ ds) :
    ∀ d, IsValid (applyAll w ws) d → d ∈ ds := by
  intro d h
  by_contra hn
  have : applyAll w ws d = w d := applyAll_other (fun x hx he => hn (by rw [← he]; exact hd x hx))
  unfold IsValid at h
  rw [this] at h
  exact hn (hv d h)

/-- What an operation of a running system leaves at each of its writes. -/
theorem Good.crash {w : World} {ds : List Nat} {m : Mem} {ws : List Wr} (h : Good w ds m ws)
    (hv : ∀ d, IsValid w d → d ∈ ds) (k : Nat) :
    DistinctOn (applyAll w (ws.take k)) (IsValid (applyAll w (ws.take k))) :=
  (h.pre k).mono (valid_in hv (fun x hx => h.devs x (List.mem_of_mem_take hx)))

theorem formats (l : List Nat) : ∀ (w : World) (d : Nat), applyAll w (l.map Wr.format) d = if d ∈ l then .empty else w d := by
  induction l with
  | nil => intro w d; simp [applyAll]
  | cons x l ih =>
    intro w d
    show applyAll ((Wr.format x).apply w) (l.map Wr.format) d = _
    rw [ih]
    by_cases h1 : d ∈ l
    · rw [if_pos h1, if_pos (List.mem_cons_of_mem _ h1)]
    · rw [if_neg h1]
      by_cases h2 : d = x
      · subst h2
        rw [if_pos List.mem_cons_self]
        exact apply_same
      · rw [if_neg (by rw [List.mem_cons]; rintro (h | h) <;> contradiction)]
        exact apply_other h2

theorem formats_valid {w : World} {l : List Nat} {d : Nat} :
    IsValid (applyAll w (l.map Wr.format)) d → IsValid w d ∧ applyAll w (l.map Wr.format) d = w d := by
  intro h
  have hn : d ∉ l := by
    intro hd
    unfold IsValid at h
    rw [formats, if_pos hd] at h
    exact Bool.false_ne_true h
  have e : applyAll w (l.map Wr.format) d = w d := by rw [formats, if_neg hn]
  exact ⟨by unfold IsValid at h ⊢; rwa [e] at h, e⟩

/-- The outcome of an operation. -/
structure Outcome (w : World) (r : List Wr × Option Mem) : Prop where
  crash : ∀ k, DistinctOn (applyAll w (r.1.take k)) (IsValid (applyAll w (r.1.take k)))
  mem : ∀ m, r.2 = some m → RunInv (applyAll w r.1) m

theorem Outcome.of_good {w : World} {ds : List Nat} {m' : Mem} {r : List Wr × Option Mem} (h : Good w ds m' r.1)
    (hn : ds.Nodup) (hv : ∀ d, IsValid w d → d ∈ ds)
    (hm : ∀ m, r.2 = some m → m.order = ds ∧ (m.slots = true → m'.used = m.used ∧ m'.chunks = m.chunks) ∧
      (m.slots = false → m.chunks = [])) : Outcome w r := by
  refine ⟨h.crash hv, fun m he => ?_⟩
  obtain ⟨h1, h2, h3⟩ := hm m he
  refine ⟨by rw [h1]; exact hn, by rw [h1]; exact valid_in hv h.devs, ⟨m', ?_, h2⟩, h3⟩
  rw [h1]
  exact h.reset

theorem boot_outcome {w : World} (hd : DistinctOn w (IsValid w)) {order : List Nat} (hn : order.Nodup)
    (hp : ∀ d, IsValid w d → d ∈ order) (cnt : Nat → Nat → Nat) (m0 : Option Mem) : Outcome w (Op.run w m0 (.boot order cnt)) := by
  unfold Op.run
  simp only
  generalize holds : order.filter (fun d => (w d).valid) = olds
  generalize hnews : order.filter (fun d => ! (w d).valid) = news
  have hnv : ∀ d ∈ news, (w d).valid = false := by
    intro d h
    rw [← hnews, List.mem_filter] at h
    simpa using h.2
  have hov : ∀ d ∈ olds, (w d).valid = true := by
    intro d h
    rw [← holds, List.mem_filter] at h
    exact h.2
  have hpd : (olds ++ news).Nodup := by
    refine List.nodup_append.2 ⟨by rw [← holds]; exact hn.filter _, by rw [← hnews]; exact hn.filter _, ?_⟩
    intro a ha b hb hab
    have h1 := hov a ha
    rw [hab, hnv b hb] at h1
    cases h1
  have hval : ∀ d, IsValid w d → d ∈ olds ++ news := by
    intro d h
    refine List.mem_append_left _ ?_
    rw [← holds, List.mem_filter]
    exact ⟨hp d h, h⟩
  -- the state after formatting the new devices
  have hfmt : ∀ k, DistinctOn (applyAll w ((news.map Wr.format).take k)) (IsValid (applyAll w ((news.map Wr.format).take k))) := by
    intro k
    rw [← List.map_take]
    refine ⟨fun d h => ?_, fun d e h1 h2 hne c hc c' hc' => ?_⟩
    · obtain ⟨h1, h2⟩ := formats_valid h
      rw [h2]; exact hd.1 d h1
    · obtain ⟨h3, h4⟩ := formats_valid h1
      obtain ⟨h5, h6⟩ := formats_valid h2
      rw [h4] at hc; rw [h6] at hc'
      exact hd.2 d e h3 h5 hne c hc c' hc'
  have hdist1 : DistinctOn (applyAll w (news.map Wr.format)) (· ∈ olds ++ news) := by
    have h1 : ∀ d, (d ∈ news ∧ (applyAll w (news.map Wr.format) d).chunks = []) ∨
        (d ∉ news ∧ applyAll w (news.map Wr.format) d = w d) := by
      intro d
      rw [formats]
      by_cases h : d ∈ news
      · rw [if_pos h]; exact Or.inl ⟨h, rfl⟩
      · rw [if_neg h]; exact Or.inr ⟨h, rfl⟩
    have h2 : ∀ d, d ∈ olds ++ news → d ∉ news → IsValid w d := by
      intro d h hnn
      rcases List.mem_append.1 h with h | h
      · exact hov d h
      · exact absurd h hnn
    refine ⟨fun d h => ?_, fun d e hd' he' hne c hc c' hc' => ?_⟩
    · rcases h1 d with ⟨_, h3⟩ | ⟨h3, h4⟩
      · rw [h3]; exact List.nodup_nil
      · rw [h4]; exact hd.1 d (h2 d h h3)
    · rcases h1 d with ⟨_, h3⟩ | ⟨h3, h4⟩
      · rw [h3] at hc; cases hc
      · rcases h1 e with ⟨_, h5⟩ | ⟨h5, h6⟩
        · rw [h5] at hc'; cases hc'
        · rw [h4] at hc; rw [h6] at hc'
          exact hd.2 d e (h2 d hd' h3) (h2 e he' h5) hne c hc c' hc'
  have hval1 : ∀ d, IsValid (applyAll w (news.map Wr.format)) d → d ∈ olds ++ news :=
    fun d h => hval d (formats_valid h).1
  -- a boot that goes on with writes `ws`
  have hcont : ∀ (ws : List Wr) (m m' : Mem), Good (applyAll w (news.map Wr.format)) (olds ++ news) m' ws →
      m.order = olds ++ news → (m.slots = true → m'.used = m.used ∧ m'.chunks = m.chunks) →
      (m.slots = false → m.chunks = []) → Outcome w (news.map Wr.format ++ ws, some m) := by
    intro ws m m' hg ho hs hi
    refine ⟨fun k => ?_, fun m1 he => ?_⟩
    · simp only
      rw [List.take_append, applyAll_append]
      by_cases hk : k ≤ (news.map Wr.format).length
      · rw [show k - (news.map Wr.format).length = 0 by omega, List.take_zero]
        exact hfmt k
      · rw [List.take_of_length_le (by omega)]
        exact hg.crash hval1 _
    · cases he
      simp only
      rw [applyAll_append]
      refine ⟨by rw [ho]; exact hpd, by rw [ho]; exact valid_in hval1 hg.devs, ⟨m', ?_, hs⟩, hi⟩
      rw [ho]; exact hg.reset
  cases hl : loadVdevs (applyAll w (news.map Wr.format)) (olds ++ news) news with
  | none => exact ⟨hfmt, by intro m h; cases h⟩
  | some m =>
    obtain ⟨l1, l2, l3⟩ := loadVdevs_good hpd hdist1 (by intro d h; rw [formats, if_pos h]; rfl) hl
    simp only
    -- a `Good` state to start from
    obtain ⟨m', hg, hs⟩ : ∃ m', Good (applyAll w (news.map Wr.format)) (olds ++ news) m' [] ∧
        (m.slots = true → m'.used = m.used ∧ m'.chunks = m.chunks) := by
      by_cases h : m.slots = true
      · exact ⟨m, l2 h, fun _ => ⟨rfl, rfl⟩⟩
      · obtain ⟨m', hg⟩ := exists_good hdist1
        exact ⟨m', hg, fun h' => absurd h' h⟩
    have hplain := hcont [] m m' hg l1 hs (fun h => (l3 h).1)
    rw [List.append_nil] at hplain
    split
    · exact hplain
    · split
      · exact hplain
      · by_cases h : m.slots = true
        · have hgm : Good (applyAll w (news.map Wr.format)) (olds ++ news) m ([] ++ []) := l2 h
          obtain ⟨g1, g2, g3, g4⟩ := Good.growVdevs (acc := (m, [])) cnt hgm l1 m.vd.length
          rw [List.nil_append] at g1
          have g5 := g1.plains (f := Wr.commit) (fun _ => rfl) (fun _ _ => rfl) (l := olds ++ news) (fun _ h => h)
          have := hcont _ (growVdevs cnt (m, []) m.vd.length).1 (growVdevs cnt (m, []) m.vd.length).1 g5 g2 (fun _ => ⟨rfl, rfl⟩)
            (fun h' => by rw [g4] at h'; rw [h] at h'; cases h')
          rw [← List.append_assoc] at this
          exact this
        · -- no vdev was found
          have hvd : m.vd.length = 0 := by rw [(l3 (by simpa using h)).2]; rfl
          rw [hvd]
          have g5 := hg.plains (f := Wr.commit) (fun _ => rfl) (fun _ _ => rfl) (l := olds ++ news) (fun _ h => h)
          have := hcont _ m m' g5 l1 hs (fun h => (l3 h).1)
          rw [List.nil_append] at this
          rw [show growVdevs cnt (m, []) 0 = (m, []) from rfl]
          simpa using this

theorem Good.rm {w : World} {ds : List Nat} {m m1 : Mem} {c : Nat × Nat × Nat} (h : Good w ds m []) (hc : c ∈ m.chunks)
    (hu : m1.used = m.used.filter (fun i => decide (i ≠ c.1)))
    (hch : m1.chunks = m.chunks.filter (fun x => decide (x.1 ≠ c.1))) : Good w ds m1 [Wr.rm c.2.1 c.1] := by
  obtain ⟨i, d, v⟩ := c
  obtain ⟨hd, hrec⟩ := (h.known i d v).1 hc
  have hrec : (i, v) ∈ (w d).chunks := hrec
  have hdist : DistinctOn w (· ∈ ds) := prefixes_full (Q := fun l => DistinctOn (applyAll w l) (· ∈ ds)) h.pre
  have hw : ∀ e, ((Wr.rm d i).apply w e).chunks = if e = d then (w d).chunks.filter (fun c => decide (c.1 ≠ i)) else (w e).chunks := by
    intro e
    by_cases he : e = d
    · subst he
      rw [if_pos rfl]
      exact congrArg Dev.chunks (apply_same (w := w) (x := Wr.rm e i))
    · rw [if_neg he]
      exact congrArg Dev.chunks (apply_other (w := w) (x := Wr.rm d i) he)
  have hmem : ∀ e, ∀ x, x ∈ ((Wr.rm d i).apply w e).chunks ↔ x ∈ (w e).chunks ∧ (e = d → x.1 ≠ i) := by
    intro e x
    rw [hw]
    split
    · rename_i he
      rw [List.mem_filter, he]
      simp
    · rename_i he
      exact ⟨fun h => ⟨h, fun h' => absurd h' he⟩, fun h => h.1⟩
  have hnot : ∀ e ∈ ds, ∀ x ∈ ((Wr.rm d i).apply w e).chunks, x.1 ≠ i := by
    intro e he x hx
    obtain ⟨h1, h2⟩ := (hmem e x).1 hx
    by_cases hed : e = d
    · exact h2 hed
    · exact hdist.2 e d he hd hed x h1 _ hrec
  have hd2 : DistinctOn ((Wr.rm d i).apply w) (· ∈ ds) := by
    refine ⟨fun e he => ?_, fun a b ha hb hab x hx y hy => ?_⟩
    · rw [hw]
      split
      · exact (List.filter_sublist.map _).nodup (hdist.1 d hd)
      · exact hdist.1 e he
    · exact hdist.2 a b ha hb hab x ((hmem a x).1 hx).1 y ((hmem b y).1 hy).1
  have ha : applyAll w [Wr.rm d i] = (Wr.rm d i).apply w := rfl
  refine ⟨?_, ?_, ?_, ?_⟩
  · exact prefixes_snoc (Q := fun l => DistinctOn (applyAll w l) (· ∈ ds)) h.pre hd2
  · intro e he x hx
    rw [hu, List.mem_filter]
    rw [ha] at hx
    exact ⟨h.used e he x ((hmem e x).1 hx).1, by simpa using hnot e he x hx⟩
  · intro j e u
    rw [hch, List.mem_filter, h.known, ha, hmem]
    constructor
    · rintro ⟨⟨h1, h2⟩, h3⟩
      exact ⟨h1, h2, fun _ => by simpa using h3⟩
    · rintro ⟨h1, h2, h3⟩
      refine ⟨⟨h1, h2⟩, ?_⟩
      simpa using hnot e h1 (j, u) ((hmem e (j, u)).2 ⟨h2, h3⟩)
  · intro x hx
    rw [List.mem_singleton] at hx
    rw [hx]; exact hd

theorem op_outcome {w : World} (hd : DistinctOn w (IsValid w)) {mo : Option Mem} (hm : ∀ m, mo = some m → RunInv w m) {op : Op}
    (hop : ∀ order cnt, op = .boot order cnt → order.Nodup ∧ ∀ d, IsValid w d → d ∈ order) : Outcome w (op.run w mo) := by
  have hdead : Outcome w ([], none) := ⟨fun k => by rw [List.take_nil]; exact hd, by intro m h; cases h⟩
  cases op with
  | boot order cnt => exact boot_outcome hd (hop order cnt rfl).1 (hop order cnt rfl).2 cnt mo
  | mkVdev dyn cnt =>
    cases mo with
    | none => exact hdead
    | some m =>
      obtain ⟨h1, h2, ⟨m', hg, hs⟩, hi⟩ := hm m rfl
      simp only [Op.run]
      split
      · have g := hg.plains (f := fun d => Wr.info d m.vd.length true) (fun _ => rfl) (fun _ _ => rfl) (l := m.order) (fun _ h => h)
        rw [List.nil_append] at g
        refine Outcome.of_good g h1 h2 ?_
        intro m1 he
        cases he
        exact ⟨rfl, hs, hi⟩
      · split
        · exact hdead
        · rename_i hslots
          have hslots : m.slots = true := by simpa using hslots
          have hg : Good w m.order ({ m with vd := m.vd ++ [some false] }) [] := hg.congr (hs hslots).1 (hs hslots).2
          obtain ⟨g1, g2, g3, g4⟩ := Good.spreadAll (acc := ({ m with vd := m.vd ++ [some false] }, [])) cnt m.vd.length hg
            (l := m.order) (fun _ h => h)
          have g := g1.plains (f := fun d => Wr.info d m.vd.length false) (fun _ => rfl) (fun _ _ => rfl) (l := m.order) (fun _ h => h)
          refine Outcome.of_good g h1 h2 ?_
          intro m1 he
          cases he
          exact ⟨g2, fun _ => ⟨rfl, rfl⟩, fun h => by rw [g4] at h; rw [hslots] at h; cases h⟩
  | mkChunk v d =>
    cases mo with
    | none => exact hdead
    | some m =>
      obtain ⟨h1, h2, ⟨m', hg, hs⟩, hi⟩ := hm m rfl
      simp only [Op.run]
      split
      · exact hdead
      · rename_i hslots
        have hslots : m.slots = true := by simpa using hslots
        have hg : Good w m.order m [] := hg.congr (hs hslots).1 (hs hslots).2
        split
        · refine Outcome.of_good (m' := { m with used := nextFree m.used :: m.used })
            ⟨hg.pre, fun d hd c hc => List.mem_cons_of_mem _ (hg.used d hd c hc), hg.known, hg.devs⟩ h1 h2 ?_
          intro m1 he
          cases he
          exact ⟨rfl, fun _ => ⟨rfl, rfl⟩, fun h => by have := hslots.symm.trans (show m.slots = false from h); cases this⟩
        · rename_i hmem
          have hmem : d ∈ m.order := by simpa using hmem
          split
          · rename_i dyn _
            have g := (hg.addPdev hmem v 1).plain (x := Wr.info d v dyn) hmem (fun _ => rfl)
            rw [List.nil_append] at g
            refine Outcome.of_good g h1 h2 ?_
            intro m1 he
            cases he
            exact ⟨rfl, fun _ => ⟨rfl, rfl⟩, fun h => by have := hslots.symm.trans (show m.slots = false from h); cases this⟩
          · exact hdead
  | rmChunk id =>
    cases mo with
    | none => exact hdead
    | some m =>
      obtain ⟨h1, h2, ⟨m', hg, hs⟩, hi⟩ := hm m rfl
      simp only [Op.run]
      have hidle : Outcome w ([], some m) := Outcome.of_good hg h1 h2 (fun m1 he => by cases he; exact ⟨rfl, hs, hi⟩)
      split
      · exact hidle
      · rename_i c hc
        split
        · rename_i dyn _
          have hid : c.1 = id := by simpa using List.find?_some hc
          have hcm : c ∈ m.chunks := List.mem_of_find?_eq_some hc
          by_cases hslots : m.slots = true
          · have hg : Good w m.order m [] := hg.congr (hs hslots).1 (hs hslots).2
            have hdm : c.2.1 ∈ m.order := ((hg.known c.1 c.2.1 c.2.2).1 hcm).1
            have g := (Good.rm (m1 := { m with used := m.used.filter (fun i => decide (i ≠ id))
                                               chunks := m.chunks.filter (fun x => decide (x.1 ≠ id)) }) hg hcm
              (by rw [hid]) (by rw [hid])).plain (x := Wr.info c.2.1 c.2.2 dyn) hdm (fun _ => rfl)
            rw [hid] at g
            refine Outcome.of_good g h1 h2 ?_
            intro m1 he
            cases he
            exact ⟨rfl, fun _ => ⟨rfl, rfl⟩, fun h => by have := hslots.symm.trans (show m.slots = false from h); cases this⟩
          · rw [hi (by simpa using hslots)] at hcm; cases hcm
        · exact hdead
  | commit =>
    cases mo with
    | none => exact hdead
    | some m =>
      obtain ⟨h1, h2, ⟨m', hg, hs⟩, hi⟩ := hm m rfl
      simp only [Op.run]
      have g := hg.plains (f := Wr.commit) (fun _ => rfl) (fun _ _ => rfl) (l := m.order) (fun _ h => h)
      rw [List.nil_append] at g
      refine Outcome.of_good g h1 h2 ?_
      intro m1 he
      cases he
      exact ⟨rfl, hs, hi⟩

theorem step_inv {s : Sys} (h : VInv s) {ev : VEv} (he : AllPresent s ev) : VInv (ev.step s) := by
  cases ev with
  | run op =>
    have ho := op_outcome h.distinct h.mem (op := op) (by intro order cnt e; subst e; exact he)
    refine ⟨?_, ho.mem⟩
    have := ho.crash (op.run s.world s.mem).1.length
    rw [List.take_length] at this
    exact this
  | crash op k =>
    have ho := op_outcome h.distinct h.mem (op := op) (by intro order cnt e; subst e; exact he)
    exact ⟨ho.crash k, by intro m hm; cases hm⟩
  | wipe d =>
    have hv : ∀ x, IsValid (VEv.step s (.wipe d)).world x → IsValid s.world x ∧ (VEv.step s (.wipe d)).world x = s.world x := by
      intro x hx
      unfold IsValid at hx
      simp only [VEv.step] at hx ⊢
      split at hx
      · cases hx
      · rename_i hne; exact ⟨hx, by rw [if_neg hne]⟩
    refine ⟨⟨fun x hx => ?_, fun x y hx hy hne c hc c' hc' => ?_⟩, by intro m hm; cases hm⟩
    · obtain ⟨h1, h2⟩ := hv x hx
      rw [h2]; exact h.distinct.1 x h1
    · obtain ⟨h1, h2⟩ := hv x hx
      obtain ⟨h3, h4⟩ := hv y hy
      rw [h2] at hc; rw [h4] at hc'
      exact h.distinct.2 x y h1 h3 hne c hc c' hc'
  | down => exact ⟨h.distinct, by intro m hm; cases hm⟩

theorem blank_vinv : VInv Sys.blank := by
  refine ⟨⟨fun d h => ?_, fun d e h => ?_⟩, by intro m hm; cases hm⟩ <;> cases h

theorem after_inv {evs : List VEv} : ∀ {s : Sys}, VInv s → AllPresents s evs → VInv (s.after evs) := by
  induction evs with
  | nil => intro s h _; exact h
  | cons ev evs ih => intro s h hp; exact ih (step_inv h hp.1) hp.2

/-- **C44.** Over every history of starts, creations of virtual devices and chunks, removals of chunks, crashes at any
write, and replacements of devices by blank ones, in which every start is given all formatted devices: no two chunk
records on formatted devices have the same chunk id. -/
theorem C44_unique_partial {evs : List VEv} (h : AllPresents Sys.blank evs) :
    DistinctOn (Sys.blank.after evs).world (IsValid (Sys.blank.after evs).world) :=
  (after_inv blank_vinv h).distinct

/-- ... and a running system that can create chunks knows exactly the chunks recorded on its devices, each under its own
id. -/
theorem C44_known_partial {evs : List VEv} (h : AllPresents Sys.blank evs) {m : Mem}
    (hm : (Sys.blank.after evs).mem = some m) (hs : m.slots = true) :
    DistinctOn (Sys.blank.after evs).world (· ∈ m.order) ∧
    ∀ i d v, (i, d, v) ∈ m.chunks ↔ d ∈ m.order ∧ (i, v) ∈ ((Sys.blank.after evs).world d).chunks := by
  obtain ⟨_, _, ⟨m', hg, hs'⟩, _⟩ := (after_inv blank_vinv h).mem m hm
  have hg := hg.congr (hs' hs).1 (hs' hs).2
  exact ⟨prefixes_full (Q := fun l => DistinctOn (applyAll _ l) (· ∈ m.order)) hg.pre, hg.known⟩

/-- A history: three devices with two vdevs, a chunk more and one less, device 1 replaced, a crash while the new one is
added, a restart. -/
def sampleVdevs : List VEv :=
  [.run (.boot [0, 1, 2] (fun _ _ => 0)), .run (.mkVdev false (fun _ => 2)), .run (.mkVdev true (fun _ => 0)),
   .run .commit, .run (.mkChunk 1 2), .run (.rmChunk 1), .run (.mkChunk 0 1), .wipe 1,
   .crash (.boot [2, 1, 0] (fun _ _ => 2)) 2, .run (.boot [2, 1, 0] (fun _ _ => 2))]

example : ((Sys.blank.after sampleVdevs).mem.map (fun m => (m.vd, m.order, m.chunks))) =
    some ([some false, some true], [2, 0, 1],
      [(4, 2, 0), (5, 2, 0), (6, 2, 1), (0, 0, 0), (1, 1, 0), (2, 1, 0)]) := by decide +kernel

/-- The hypothesis of the theorems, for a history with a restart. -/
theorem sampleVdevs_ok : AllPresents Sys.blank [.run (.boot [0, 1] (fun _ _ => 0)), .run (.mkVdev false (fun _ => 2)),
    .run .commit, .run (.mkChunk 0 1), .run (.boot [1, 0] (fun _ _ => 0))] := by
  refine ⟨⟨by decide, ?_⟩, trivial, trivial, trivial, ⟨by decide, ?_⟩, trivial⟩
  · intro d h; cases h
  · intro d h
    have hv : ∀ x ∈ [0, 1], x ∈ [1, 0] := by decide
    refine hv d ?_
    by_contra hn
    have hn0 : d ≠ 0 := fun e => hn (by rw [e]; decide)
    have hn1 : d ≠ 1 := fun e => hn (by rw [e]; decide)
    have hinv := after_inv (evs := [.run (.boot [0, 1] (fun _ _ => 0)), .run (.mkVdev false (fun _ => 2)),
      .run .commit, .run (.mkChunk 0 1)]) blank_vinv ⟨⟨by decide, by intro d h; cases h⟩, trivial, trivial, trivial, trivial⟩
    have horder : ((Sys.blank.after [.run (.boot [0, 1] (fun _ _ => 0)), .run (.mkVdev false (fun _ => 2)),
      .run .commit, .run (.mkChunk 0 1)]).mem.map (·.order)) = some [0, 1] := by decide +kernel
    cases hm : (Sys.blank.after [.run (.boot [0, 1] (fun _ _ => 0)), .run (.mkVdev false (fun _ => 2)),
      .run .commit, .run (.mkChunk 0 1)]).mem with
    | none => rw [hm] at horder; cases horder
    | some m =>
      rw [hm] at horder
      have ho : m.order = [0, 1] := by simpa using horder
      have := (hinv.mem m hm).valid d h
      rw [ho] at this
      exact hn this

/-- **C44 fails** when a start goes without one of the devices: the ids of its chunks are given to new chunks, and when
the device is back two chunks have the same id, of which the system knows one. -/
theorem C44_missing_device_violated :
    let evs : List VEv := [.run (.boot [0, 1] (fun _ _ => 0)), .run (.mkVdev false (fun _ => 1)), .run .commit, .down,
      .run (.boot [0] (fun _ _ => 0)), .run (.mkChunk 0 0), .down, .run (.boot [0, 1] (fun _ _ => 0))]
    ((Sys.blank.after evs).world 0).chunks = [(0, 0), (1, 0)] ∧ ((Sys.blank.after evs).world 1).chunks = [(1, 0)] ∧
    (Sys.blank.after evs).mem.map (·.chunks) = some [(0, 0, 0), (1, 1, 0)] := by decide +kernel

/-- A crash inside `create_vdev` of a store that has other vdevs: every restart dies, in whatever order the devices are
given (`device_manager.cpp` 593 makes the table longer with a null pointer, which 609 uses). -/
theorem C44_crash_in_create_violated :
    let evs : List VEv := [.run (.boot [0, 1] (fun _ _ => 0)), .run (.mkVdev false (fun _ => 1)), .run .commit,
      .crash (.mkVdev false (fun _ => 1)) 1]
    ∀ cnt, ((Sys.blank.after evs).after [.run (.boot [0, 1] cnt)]).mem = none ∧
      ((Sys.blank.after evs).after [.run (.boot [1, 0] cnt)]).mem = none ∧
      ((Sys.blank.after evs).after [.run (.boot [0, 1] cnt)]).world 0 = (Sys.blank.after evs).world 0 := by
  intro evs cnt
  have h : ∀ order ∈ [[0, 1], [1, 0]], loadVdevs (applyAll (Sys.blank.after evs).world []) order [] = none := by decide +kernel
  have hf : ∀ order ∈ [[0, 1], [1, 0]], order.filter (fun d => ((Sys.blank.after evs).world d).valid) = order ∧
      order.filter (fun d => ! ((Sys.blank.after evs).world d).valid) = [] := by decide +kernel
  have hrun : ∀ order ∈ [[0, 1], [1, 0]], Op.run (Sys.blank.after evs).world (Sys.blank.after evs).mem (.boot order cnt) = ([], none) := by
    intro order ho
    obtain ⟨h1, h2⟩ := hf order ho
    have := h order ho
    simp only [Op.run, h1, h2, List.map_nil, List.append_nil, this]
  have e1 := hrun [0, 1] (by decide)
  have e2 := hrun [1, 0] (by decide)
  refine ⟨?_, ?_, ?_⟩ <;> simp only [Sys.after, List.foldl_cons, List.foldl_nil, VEv.step] at e1 e2 ⊢
  · rw [e1]
  · rw [e2]
  · rw [e1]; rfl

end HS.DevMgr
