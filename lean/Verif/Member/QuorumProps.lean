import Verif.Member.Props

/-!
# The safety check of a replacement (C112)
-/
namespace HS.Member

/-- These members have a vote in the configuration, and are more than half of those who have. -/
def Majority (up : List RId) (ms : List Srv) : Prop :=
  up.Nodup ∧ (∀ p ∈ up, p ∈ voters ms) ∧ (voters ms).length < 2 * up.length

instance (up : List RId) (ms : List Srv) : Decidable (Majority up ms) := inferInstanceAs (Decidable (_ ∧ _))

/-- The node and those of the members `active` that neither leave nor come. -/
def others (me : RId) (active : List RId) (out inn : RId) : List RId := me :: active.filter fun p => p ≠ out && p ≠ inn

theorem length_filter_count {l : List RId} {out inn : RId} (h : out ≠ inn) :
    (l.filter fun p => p ≠ out && p ≠ inn).length + l.count out + l.count inn = l.length := by
  induction l with
  | nil => rfl
  | cons a l ih =>
    simp only [List.filter_cons, List.count_cons, List.length_cons]
    by_cases h1 : a = out
    · subst h1
      have h2 : ¬ (a == inn) = true := by simpa using h
      simp [h2]
      simp at ih
      omega
    · by_cases h2 : a = inn
      · subst h2
        simp [h1]
        simp at ih
        omega
      · simp [h1, h2]
        simp at ih
        omega

theorem voters_length (ms : List Srv) : (voters ms).length = (ms.filter fun v => !v.learner).length := by simp [voters, ids]

theorem unsafe_iff {ms : List Srv} {me : RId} {active : List RId} {out inn : RId} (hne : out ≠ inn) :
    unsafeNow ms active out inn 0 = false ↔ (voters ms).length < 2 * (others me active out inn).length := by
  have h := length_filter_count (l := active) hne
  rw [voters_length]
  unfold unsafeNow commitQuorum others
  simp only [decide_true, Bool.and_true, decide_eq_false_iff_not, List.length_cons]
  omega

/-- A step of a call at the check. -/
theorem safe_step {s : St} {c : Nat} {r : Run} {t : Bytes} {out inn : RId} {q : Nat} {a : Ans} (hc : s.runs c = some r)
    (hk : r.call = .replace t out inn q) (hp : r.pc = .safe) :
    ∃ s', step s (.step c a) = some s' ∧ s'.log = s.log ∧ s'.pend = s.pend ∧ s'.nodes = s.nodes ∧
      (s'.runs c).map (·.pc) = some (if unsafeNow (s.conf r.node) a.active out inn q then .reset (.err .quorumNotMet) else .flipLead) := by
  unfold step
  simp only [hc]
  unfold advance
  simp only [hp, hk]
  simp only [St.effect]
  refine ⟨_, rfl, rfl, rfl, rfl, ?_⟩
  simp [upd, Run.after]

/-! ## The theorems -/

/-- **C112 (part)**.  Let the members that are up to date have a vote, and let the members who leaves and who comes differ from the node.  A
replacement without a quorum of its own goes on after the check if and only if the node and the members up to date that neither leave nor come
are a majority; otherwise it ends with QUORUM_NOT_MET, and nothing was changed. -/
theorem C112_check_partial {s : St} {c : Nat} {r : Run} {t : Bytes} {out inn : RId} {a : Ans} (hc : s.runs c = some r)
    (hk : r.call = .replace t out inn 0) (hp : r.pc = .safe) (hne : out ≠ inn) (hnd : a.active.Nodup) (hme : r.node ∉ a.active)
    (hv : ∀ p ∈ r.node :: a.active, p ∈ voters (s.conf r.node)) :
    ∃ s', step s (.step c a) = some s' ∧ s'.log = s.log ∧ s'.pend = s.pend ∧ s'.nodes = s.nodes ∧
      ((s'.runs c).map (·.pc) = some .flipLead ↔ Majority (others r.node a.active out inn) (s.conf r.node)) ∧
      ((s'.runs c).map (·.pc) = some (.reset (.err .quorumNotMet)) ↔ ¬ Majority (others r.node a.active out inn) (s.conf r.node)) := by
  obtain ⟨s', h1, h2, h3, h4, h5⟩ := safe_step (a := a) hc hk hp
  refine ⟨s', h1, h2, h3, h4, ?_⟩
  rw [h5]
  have hi := unsafe_iff (ms := s.conf r.node) (me := r.node) (active := a.active) hne
  have hm : Majority (others r.node a.active out inn) (s.conf r.node) ↔ unsafeNow (s.conf r.node) a.active out inn 0 = false := by
    rw [hi]
    unfold Majority
    constructor
    · exact fun h => h.2.2
    · refine fun h => ⟨?_, ?_, h⟩
      · unfold others
        exact List.nodup_cons.2 ⟨fun h => hme (List.mem_filter.1 h).1, hnd.filter _⟩
      · intro p hp
        apply hv
        rcases List.mem_cons.1 hp with h | h
        · exact h ▸ List.mem_cons_self
        · exact List.mem_cons_of_mem _ (List.mem_filter.1 h).1
  rw [hm]
  cases h : unsafeNow (s.conf r.node) a.active out inn 0 <;> simp

theorem filter_learn (ms : List Srv) (out : RId) :
    voters (memberStep ms (.learn out true)) = (voters ms).filter fun p => p ≠ out := by
  unfold voters ids memberStep
  induction ms with
  | nil => rfl
  | cons v ms ih =>
    by_cases h : v.id = out
    · cases hl : v.learner <;> simp [h, hl, List.filter_cons] <;> simpa using ih
    · cases hl : v.learner <;> simp [h, hl, List.filter_cons] <;> simpa using ih

theorem voters_add (ms : List Srv) (v : Srv) (h : v.learner = false) : voters (memberStep ms (.add v)) = voters ms ++ [v.id] := by
  unfold voters ids memberStep
  simp [h]

theorem voters_rem (ms : List Srv) (out : RId) : voters (memberStep ms (.rem out)) = (voters ms).filter fun p => p ≠ out := by
  unfold voters ids memberStep
  induction ms with
  | nil => rfl
  | cons v ms ih =>
    by_cases h : v.id = out
    · cases hl : v.learner <;> simp [h, hl, List.filter_cons] <;> simpa using ih
    · cases hl : v.learner <;> simp [h, hl, List.filter_cons] <;> simpa using ih

theorem filter_shorter {l : List RId} {x : RId} (h : x ∈ l) : (l.filter fun p => p ≠ x).length + 1 ≤ l.length := by
  have := List.length_filter_lt_length_iff_exists (l := l) (p := fun p => decide (p ≠ x))
  have h2 := this.2 ⟨x, h, by simp⟩
  omega

/-- **C112 (part)**.  A majority of those that neither leave nor come, when the one who leaves has a vote, stays one through all the configurations of the replacement: the one who leaves becomes a learner, the other is added, the first is removed.
All these can be committed without the two. -/
theorem C112_stays_partial {ms : List Srv} {me : RId} {active : List RId} {out inn : RId} {p : Nat} (hmo : me ≠ out)
    (hout : out ∈ voters ms) (hm : Majority (others me active out inn) ms) :
    let m1 := memberStep ms (.learn out true)
    let m2 := memberStep m1 (.add ⟨inn, false, p⟩)
    let m3 := memberStep m2 (.rem out)
    Majority (others me active out inn) m1 ∧ Majority (others me active out inn) m2 ∧ Majority (others me active out inn) m3 := by
  obtain ⟨h1, h2, h3⟩ := hm
  intro m1 m2 m3
  have hno : ∀ q ∈ others me active out inn, q ≠ out := by
    intro q hq
    rcases List.mem_cons.1 hq with h | h
    · exact h ▸ hmo
    · have := (List.mem_filter.1 h).2
      simp at this
      exact this.1
  have e1 : voters m1 = (voters ms).filter fun p => p ≠ out := filter_learn ms out
  have e2 : voters m2 = voters m1 ++ [inn] := voters_add m1 _ rfl
  have e3 : voters m3 = (voters m2).filter fun p => p ≠ out := voters_rem m2 out
  have l1 := filter_shorter hout
  have q1 : ∀ q ∈ others me active out inn, q ∈ voters m1 := by
    intro q hq
    rw [e1]
    exact List.mem_filter.2 ⟨h2 q hq, by simpa using hno q hq⟩
  have q2 : ∀ q ∈ others me active out inn, q ∈ voters m2 := by
    intro q hq
    rw [e2]
    exact List.mem_append_left _ (q1 q hq)
  have n1 : (voters m1).length + 1 ≤ (voters ms).length := by rw [e1]; exact l1
  have n2 : (voters m2).length = (voters m1).length + 1 := by rw [e2]; simp
  have n3 : (voters m3).length ≤ (voters m2).length := by rw [e3]; exact List.length_filter_le _ _
  refine ⟨⟨h1, q1, by omega⟩, ⟨h1, q2, by omega⟩, ⟨h1, ?_, by omega⟩⟩
  intro q hq
  rw [e3]
  exact List.mem_filter.2 ⟨q2 q hq, by simpa using hno q hq⟩

/-- The members 1, 2, 3, and 5 as a learner. -/
def threeAndLearner : List Srv := three ++ [⟨5, true, 9⟩]

/-- **C112 (violated)**.  A learner that is up to date is counted: with 2 behind, the replacement of 3 by 4 goes on, and the leader alone is left of the
two who have a vote when 3 has become a learner. -/
theorem C112_learner_counts_violated : ∃ l s, run (St.start threeAndLearner) l = some s ∧
    (s.runs 0).map (fun r => (r.node, r.call, r.pc)) = some (1, .replace [65] 3 4 0, .init) ∧
    voters (members s.init s.log) = [1, 2] ∧
    ¬ Majority [1] (members s.init s.log) := by
  obtain ⟨s, h1, h2⟩ := ends (ms := threeAndLearner)
    (l := [.elect 1 0, .call 0 1 (.replace [65] 3 4 0)] ++ goes 0 4 ++ [.step 0 { active := [3, 5] }] ++ goes 0 3 ++ upTo 1 ++ goes 0 1)
    (f := fun s => ((s.runs 0).map (fun r => (r.node, r.call, r.pc)), voters (members s.init s.log), decide (Majority [1] (members s.init s.log))))
    (x := (some (1, .replace [65] 3 4 0, .init), [1, 2], false)) (by decide +kernel)
  simp only [Prod.mk.injEq, decide_eq_false_iff_not] at h2
  exact ⟨_, s, h1, h2⟩

/-! ## Cases that meet the hypotheses -/

/-- A replacement of 3 by 4 that is at the check. -/
def atCheck : List Act := [.elect 1 0, .call 0 1 (.replace [65] 3 4 0)] ++ goes 0 4

example : (run (St.start three) atCheck).map (fun s => (s.runs 0).map (fun r => (r.node, r.call, r.pc))) =
    some (some (1, .replace [65] 3 4 0, .safe)) := by decide +kernel

example : (run (St.start three) (atCheck ++ [.step 0 { active := [2, 3] }])).map (fun s => (s.runs 0).map (·.pc)) = some (some .flipLead) := by
  decide +kernel

example : (run (St.start three) (atCheck ++ [.step 0 { active := [3] }])).map (fun s => (s.runs 0).map (·.pc)) =
    some (some (.reset (.err .quorumNotMet))) := by decide +kernel

example : Majority (others 1 [2, 3] 3 4) three ∧ 3 ∈ voters three ∧ ¬ Majority (others 1 [3] 3 4) three := by decide

end HS.Member
