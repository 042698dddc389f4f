import Verif.Active.Model
/-!
# C124: which members are counted on

Vocabulary: `CaughtUp` — what a caller of the settings understands: the member lags behind the commits of the leader by no more than the
threshold, and the leader's log still has the entry after its last; `Majority ms k` — `k` members are more than half of those of `ms` with a vote.
-/
namespace HS.Active
open HS.Member

/-- The member is behind by no more than `laggy`, and the log, which starts with `start`, has what comes next. -/
def CaughtUp (commit laggy : Int) (start : Nat) (p : Peer) : Prop := commit - p.idx ≤ laggy ∧ start ≤ p.idx + 1

theorem mem_active {me : RId} {lo : Nat} {st : List Peer} {i : RId} :
    i ∈ activePeers me lo st ↔ ∃ p ∈ st, p.id = i ∧ p.id ≠ me ∧ lo ≤ p.idx := by
  induction st with
  | nil => simp [activePeers]
  | cons p ps ih =>
    simp only [activePeers, List.mem_cons, exists_eq_or_imp]
    split
    · rename_i h; rw [ih]; simp [h]
    · rename_i h
      split
      · rename_i h2
        rw [List.mem_cons, ih]
        constructor
        · rintro (rfl | h3)
          · exact .inl ⟨rfl, h, h2⟩
          · exact .inr h3
        · rintro (⟨rfl, _⟩ | h3)
          · exact .inl rfl
          · exact .inr h3
      · rename_i h2
        rw [ih]
        constructor
        · exact .inr
        · rintro (⟨_, _, h3⟩ | h3)
          · exact absurd h3 h2
          · exact h3

/-- **C124**: the active peers are exactly the other members that have caught up, for every setting that is not negative, every
commit index, log and status. -/
theorem C124_active {me : RId} {commit laggy : Int} {start : Nat} {st : List Peer} {i : RId} (hs : 1 ≤ start) (hl : 0 ≤ laggy) :
    i ∈ activePeers me (least commit laggy start) st ↔ ∃ p ∈ st, p.id = i ∧ i ≠ me ∧ CaughtUp commit laggy start p := by
  rw [mem_active]
  have key : ∀ p : Peer, least commit laggy start ≤ p.idx ↔ CaughtUp commit laggy start p := by
    intro p
    unfold least CaughtUp
    split <;> omega
  constructor
  · rintro ⟨p, hp, rfl, h1, h2⟩; exact ⟨p, hp, rfl, h1, (key p).mp h2⟩
  · rintro ⟨p, hp, rfl, h1, h2⟩; exact ⟨p, hp, rfl, h1, (key p).mpr h2⟩

theorem active_nodup {me : RId} {lo : Nat} {st : List Peer} (hd : (st.map (·.id)).Nodup) : (activePeers me lo st).Nodup := by
  induction st with
  | nil => simp [activePeers]
  | cons p ps ih =>
    simp only [List.map_cons, List.nodup_cons] at hd
    have := ih hd.2
    simp only [activePeers]
    split
    · exact this
    · split
      · rw [List.nodup_cons]
        refine ⟨fun h => hd.1 ?_, this⟩
        obtain ⟨q, hq, he, _⟩ := mem_active.mp h
        exact List.mem_map.mpr ⟨q, hq, he⟩
      · exact this

/-- The members that are counted: the leader and the active peers but `out` and `inn`. -/
def counted (me : RId) (lo : Nat) (st : List Peer) (out inn : RId) : List RId :=
  me :: (activePeers me lo st).filter fun i => i ≠ out ∧ i ≠ inn

theorem filter_two (l : List RId) (a b : RId) (h : a ≠ b) :
    (l.filter fun i => i ≠ a ∧ i ≠ b).length + l.count a + l.count b = l.length := by
  induction l with
  | nil => rfl
  | cons x l ih =>
    by_cases h1 : x = a
    · subst h1
      simp [h] at ih ⊢
      omega
    · by_cases h2 : x = b
      · subst h2
        simp [h1] at ih ⊢
        omega
      · simp [h1, h2] at ih ⊢
        omega

theorem activeNum_eq {me : RId} {lo : Nat} {st : List Peer} {out inn : RId} (h : out ≠ inn) :
    activeNum me lo st out inn = (counted me lo st out inn).length := by
  have := filter_two (activePeers me lo st) out inn h
  simp only [activeNum, counted, List.length_cons]
  omega

theorem passes_iff {me : RId} {lo : Nat} {st : List Peer} {out inn : RId} :
    passes me lo st out inn = true ↔ commitQuorum (srvs st) ≤ activeNum me lo st out inn := by
  simp [passes, unsafeNow, activeNum]

/-- The members with a vote. -/
def voters (ms : List Srv) : List Srv := ms.filter fun v => !v.learner

theorem voters_flip (ms : List Srv) (out : RId) :
    (voters (flip ms out)).length = ((voters ms).filter fun v => v.id ≠ out).length := by
  induction ms with
  | nil => rfl
  | cons v ms ih =>
    unfold voters flip at ih ⊢
    by_cases h : v.id = out <;> cases hl : v.learner <;> simp [h, hl] at ih ⊢ <;> exact ih

theorem voters_flip_lt {ms : List Srv} {out : RId} (h : ∃ v ∈ ms, v.id = out ∧ v.learner = false) :
    (voters (flip ms out)).length < (voters ms).length := by
  rw [voters_flip]
  obtain ⟨v, hv, he, hl⟩ := h
  have hm : v ∈ voters ms := by simp [voters, hv, hl]
  rcases Nat.lt_or_ge ((voters ms).filter fun v => v.id ≠ out).length (voters ms).length with h | h
  · exact h
  · have := (List.length_filter_eq_length_iff).mp (Nat.le_antisymm (List.length_filter_le _ _) h) v hm
    simp [he] at this

def Majority (ms : List Srv) (k : Nat) : Prop := (voters ms).length < 2 * k

theorem quorum_iff (ms : List Srv) (k : Nat) : commitQuorum ms ≤ k ↔ Majority ms k := by
  have : commitQuorum ms = (voters ms).length / 2 + 1 := rfl
  unfold Majority
  omega

theorem voters_add (ms : List Srv) (inn : RId) : (voters (add ms inn)).length = (voters ms).length + 1 := by
  simp [voters, add]

theorem voters_remove (ms : List Srv) (out : RId) : (voters (remove ms out)).length ≤ (voters ms).length := by
  unfold voters remove
  rw [List.filter_filter]
  have : (ms.filter fun v => !v.learner && decide (v.id ≠ out)) =
      (ms.filter fun v => !v.learner).filter fun v => decide (v.id ≠ out) := by
    rw [List.filter_filter]; congr 1; funext v; exact Bool.and_comm _ _
  rw [this]
  exact List.length_filter_le _ _

/-- **C124**, partial: if a replacement goes on without a forced quorum, the old member has a vote and the new one is not yet in the
group, and no learner counts as active, then at each of its stages the members that were counted, which are the leader and
members that have caught up, all have a vote and are neither the old nor the new one, are a majority.  Missing: active
learners, and replacements that are tried again, see `C124_learner_violated` and `C124_again_violated`. -/
theorem C124_majority_partial {me : RId} {lo : Nat} {st : List Peer} {out inn : RId}
    (hd : (st.map (·.id)).Nodup) (hme : ∃ p ∈ st, p.id = me ∧ p.learner = false) (hmo : me ≠ out) (hmi : me ≠ inn) (hoi : out ≠ inn)
    (hout : ∃ p ∈ st, p.id = out ∧ p.learner = false)
    (hlearn : ∀ p ∈ st, p.id ∈ activePeers me lo st → p.learner = false)
    (h : passes me lo st out inn = true) :
    let c := counted me lo st out inn
    (c.Nodup ∧ ∀ i ∈ c, i ≠ out ∧ i ≠ inn ∧ ∃ p ∈ st, p.id = i ∧ p.learner = false ∧ (i ≠ me → lo ≤ p.idx)) ∧
    Majority (srvs st) c.length ∧
    Majority (flip (srvs st) out) c.length ∧
    Majority (add (flip (srvs st) out) inn) c.length ∧
    Majority (remove (add (flip (srvs st) out) inn) out) c.length := by
  intro c
  have hq := passes_iff.mp h
  rw [activeNum_eq hoi, quorum_iff] at hq
  have h1 : (voters (flip (srvs st) out)).length < (voters (srvs st)).length := by
    apply voters_flip_lt
    obtain ⟨p, hp, he, hl⟩ := hout
    exact ⟨⟨p.id, p.learner, 0⟩, List.mem_map.mpr ⟨p, hp, rfl⟩, he, hl⟩
  have h2 := voters_add (flip (srvs st) out) inn
  have h3 := voters_remove (add (flip (srvs st) out) inn) out
  refine ⟨⟨?_, ?_⟩, hq, ?_, ?_, ?_⟩
  · show (me :: _).Nodup
    rw [List.nodup_cons]
    refine ⟨fun hm => ?_, (active_nodup hd).filter _⟩
    obtain ⟨q, _, he, hne, _⟩ := mem_active.mp (List.mem_filter.mp hm).1
    exact hne he
  · intro i hi
    rcases List.mem_cons.mp hi with rfl | hi
    · obtain ⟨p, hp, he, hl⟩ := hme
      exact ⟨hmo, hmi, p, hp, he, hl, fun h => absurd rfl h⟩
    · obtain ⟨ha, hf⟩ := List.mem_filter.mp hi
      simp only [ne_eq, decide_eq_true_eq] at hf
      obtain ⟨p, hp, he, _, hlo⟩ := mem_active.mp ha
      exact ⟨hf.1, hf.2, p, hp, he, hlearn p hp (by rw [he]; exact ha), fun _ => hlo⟩
  · unfold Majority at hq ⊢; show _ < 2 * (counted me lo st out inn).length; omega
  · unfold Majority at hq ⊢; show _ < 2 * (counted me lo st out inn).length; omega
  · unfold Majority at hq ⊢; show _ < 2 * (counted me lo st out inn).length; omega

/-- **C124**, the other way: a replacement without a forced quorum is refused only if the leader and the caught-up members, but
the old and the new one, are no majority of those with a vote now. -/
theorem C124_refused {me : RId} {lo : Nat} {st : List Peer} {out inn : RId} (hoi : out ≠ inn) :
    passes me lo st out inn = false ↔ ¬ Majority (srvs st) (counted me lo st out inn).length := by
  rw [← activeNum_eq hoi, ← quorum_iff]
  have := passes_iff (me := me) (lo := lo) (st := st) (out := out) (inn := inn)
  cases hp : passes me lo st out inn with
  | true => simp [this.mp hp]
  | false =>
    simp only [true_iff]
    intro hle
    rw [this.mpr hle] at hp; cases hp

theorem active_append (me : RId) (lo : Nat) (a b : List Peer) :
    activePeers me lo (a ++ b) = activePeers me lo a ++ activePeers me lo b := by
  induction a with
  | nil => rfl
  | cons p a ih =>
    simp only [List.cons_append, activePeers, ih]
    split
    · rfl
    · split <;> rfl

/-- **C124** is violated: a learner that has caught up counts as one of the majority although it has no vote.  In every group, each such learner
raises the number that is compared and not the number of votes. -/
theorem C124_learner_violated {me : RId} {lo : Nat} {st : List Peer} {out inn : RId} {p : Peer} (hoi : out ≠ inn)
    (hl : p.learner = true) (hc : lo ≤ p.idx) (h : p.id ≠ me ∧ p.id ≠ out ∧ p.id ≠ inn) :
    (counted me lo (st ++ [p]) out inn).length = (counted me lo st out inn).length + 1 ∧
      voters (srvs (st ++ [p])) = voters (srvs st) := by
  constructor
  · have : activePeers me lo [p] = [p.id] := by simp [activePeers, h.1, hc]
    simp [counted, active_append, this, h.2.1, h.2.2]
  · simp [voters, srvs, hl]

/-- **C124** is violated: whether a member answers is not looked at.  Whatever time members have been silent, the same peers are
active, and the same replacements go on. -/
theorem C124_silent_violated (me : RId) (lo : Nat) (st : List Peer) (out inn : RId) (silent : Peer → Nat) :
    activePeers me lo (st.map fun p => { p with resp := silent p }) = activePeers me lo st ∧
      passes me lo (st.map fun p => { p with resp := silent p }) out inn = passes me lo st out inn := by
  have h1 : activePeers me lo (st.map fun p => { p with resp := silent p }) = activePeers me lo st := by
    induction st with
    | nil => rfl
    | cons p ps ih => simp only [List.map_cons, activePeers, ih]
  refine ⟨h1, ?_⟩
  have h2 : srvs (st.map fun p => { p with resp := silent p }) = srvs st := by simp [srvs, Function.comp_def]
  simp only [passes, h1, h2]

/-- **C124** is violated for a replacement that is tried again after the old member became a learner: the check counts votes without the old
member, and the new one brings a vote.  In every group with an odd number of votes left, a replacement that goes on with just as many
members as are needed has no majority once the new member is added. -/
theorem C124_again_violated {me : RId} {lo : Nat} {st : List Peer} {out inn : RId} (hoi : out ≠ inn)
    (hout : ∀ p ∈ st, p.id = out → p.learner = true) (hodd : (voters (srvs st)).length % 2 = 1)
    (heq : Majority (srvs st) (counted me lo st out inn).length) (hmin : ¬ Majority (srvs st) ((counted me lo st out inn).length - 1)) :
    passes me lo st out inn = true ∧
      ¬ Majority (add (flip (srvs st) out) inn) (counted me lo st out inn).length := by
  refine ⟨passes_iff.mpr (by rw [activeNum_eq hoi, quorum_iff]; exact heq), ?_⟩
  have hf : flip (srvs st) out = srvs st := by
    unfold flip srvs
    rw [List.map_map]
    apply List.map_congr_left
    intro p hp
    simp only [Function.comp]
    split
    · rename_i h; simp [hout p hp h]
    · rfl
  unfold Majority at heq hmin ⊢
  rw [hf, voters_add]
  omega

/-! ## Concrete cases -/

/-- Leader 1 has committed 5000 and its log starts at 2500; 2 is close, 3 is far behind, 4 is to be replaced. -/
def four : List Peer := [⟨1, 5000, 0, false⟩, ⟨2, 4990, 9, false⟩, ⟨3, 2600, 7, false⟩, ⟨4, 10, 99, false⟩]

example : least 5000 2000 2500 = 3000 ∧ activePeers 1 3000 four = [2] ∧ passes 1 3000 four 4 5 = false ∧
    least 100 2000 1 = 0 ∧ least 5000 2000 4001 = 4000 := by decide

-- with 3 caught up the replacement goes on, and the hypotheses of the partial theorem hold
def four' : List Peer := [⟨1, 5000, 0, false⟩, ⟨2, 4990, 9, false⟩, ⟨3, 4000, 7, false⟩, ⟨4, 10, 99, false⟩]

example : (four'.map (·.id)).Nodup ∧ passes 1 3000 four' 4 5 = true ∧ counted 1 3000 four' 4 5 = [1, 2, 3] ∧
    (∀ p ∈ four', p.id ∈ activePeers 1 3000 four' → p.learner = false) ∧
    Majority (add (flip (srvs four') 4) 5) 3 ∧ ¬ Majority (add (flip (srvs four') 4) 5) 2 := by unfold Majority; decide

-- a caught-up learner: the replacement goes on though of the three votes only the leader's is there beside the old member's
example : passes 1 3000 [⟨1, 5000, 0, false⟩, ⟨2, 10, 0, false⟩, ⟨3, 5000, 0, false⟩, ⟨6, 5000, 0, true⟩] 3 5 = true ∧
    passes 1 3000 [⟨1, 5000, 0, false⟩, ⟨2, 10, 0, false⟩, ⟨3, 5000, 0, false⟩] 3 5 = false := by decide

-- again, after 4 became a learner: with 3 far behind the replacement was refused before and goes on now
def again : List Peer := [⟨1, 5000, 0, false⟩, ⟨2, 4990, 9, false⟩, ⟨3, 2600, 7, false⟩, ⟨4, 10, 99, true⟩]

example : (∀ p ∈ again, p.id = 4 → p.learner = true) ∧ (voters (srvs again)).length % 2 = 1 ∧
    Majority (srvs again) (counted 1 3000 again 4 5).length ∧ ¬ Majority (srvs again) ((counted 1 3000 again 4 5).length - 1) ∧
    passes 1 3000 four 4 5 = false := by unfold Majority; decide

end HS.Active
