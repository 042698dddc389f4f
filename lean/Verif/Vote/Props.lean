import Verif.Vote.Model
/-!
# C109: what raft has saved is there after a crash, and a member votes once in a term
-/
namespace HS.Vote

/-! ## Specification -/

/-- The last state that was saved, or reached the disk before a crash. -/
def lastState (s : SrvState) : List Op → SrvState
  | [] => s
  | .save t _ :: l => lastState t l
  | .saveCrash t true :: l => lastState t l
  | _ :: l => lastState s l

/-- The same of the configuration. -/
def lastConfig (k : Config) : List Op → Config
  | [] => k
  | .config t :: l => lastConfig t l
  | .configCrash t true :: l => lastConfig t l
  | _ :: l => lastConfig k l

/-- Votes given up to a state: of earlier terms, or the one that the state has. -/
def Covers (s : SrvState) (votes : List (Nat × Nat)) : Prop := ∀ x ∈ votes, x.1 < s.term ∨ (x.1 = s.term ∧ s.voted = some x.2)

/-- At most one candidate has a vote of a term. -/
def OneVote (votes : List (Nat × Nat)) : Prop := ∀ x ∈ votes, ∀ y ∈ votes, x.1 = y.1 → x.2 = y.2

/-! ## The invariant -/

theorem deServer_ser (s : Server) : deServer (serServer s) = some s := rfl

theorem deServers_ser (l : List Server) : deServers (l.map serServer) = some l := by
  induction l with
  | nil => rfl
  | cons s l ih => simp only [List.map_cons, deServers, deServer_ser, ih]; rfl

theorem deConfig_ser (k : Config) : deConfig (serConfig k) = some k := by
  obtain ⟨a, b, e, u, l⟩ := k
  have h : deConfig (serConfig ⟨a, b, e, u, l⟩) = (deServers (l.map serServer)).bind fun v => some ⟨a, b, e, u, v⟩ := rfl
  rw [h, deServers_ser]; rfl

/-- The configuration of a superblock: without one, only this member. -/
def cfgOf (own : Config) (j : Json) : Option Config :=
  match j.config with
  | none => some own
  | some v => deConfig v

theorem load_cfg (own : Config) (j : Json) : (loadConfig own j).2 = cfgOf own j := by
  unfold loadConfig cfgOf
  cases j.config with
  | none => exact deConfig_ser own
  | some v => rfl

theorem load_has (own : Config) (j : Json) {k : Config} (h : cfgOf own j = some k) : ∃ v, (loadConfig own j).1.config = some v ∧ deConfig v = some k := by
  unfold cfgOf at h
  unfold loadConfig
  cases hc : j.config with
  | none => rw [hc] at h; exact ⟨_, rfl, by rw [deConfig_ser]; exact h⟩
  | some v => rw [hc] at h; exact ⟨v, hc, h⟩

theorem load_same (own : Config) (j : Json) : (loadConfig own j).1.state = j.state ∧ (loadConfig own j).1.nuraft = j.nuraft := by
  unfold loadConfig
  cases j.config <;> exact ⟨rfl, rfl⟩

structure Inv (c : Codec) (own : Config) (s : St) (st : SrvState) (k : Config) : Prop where
  read : readState c s.disk = some st
  cfg : cfgOf own s.disk = some k
  mem : ∀ m, s.mem = some m → m.st = st ∧ m.cfg = k ∧ (∃ v, m.js.config = some v ∧ deConfig v = some k) ∧ m.js.state = s.disk.state ∧ m.js.nuraft = s.disk.nuraft
  votes : Covers st s.votes
  one : OneVote s.votes

theorem read_put {c : Codec} (hc : c.Ok) (j : Json) (s : SrvState) : readState c (putState c j s) = some s := by
  unfold readState putState
  simp only [hc.some s, and_false, if_false]
  simp [hc.some s, hc.back s]

theorem read_congr {c : Codec} {j j' : Json} (h1 : j.state = j'.state) (h2 : j.nuraft = j'.nuraft) : readState c j = readState c j' := by
  unfold readState; rw [h1, h2]

theorem covers_allowed {old new : SrvState} {v : List (Nat × Nat)} (h : Covers old v) (ha : allowed old new = true) : Covers new v := by
  intro x hx
  unfold allowed at ha
  simp only [Bool.or_eq_true, Bool.and_eq_true, decide_eq_true_eq] at ha
  rcases h x hx with h | ⟨h1, h2⟩
  · rcases ha with ha | ⟨ha, _⟩
    · exact Or.inl (by omega)
    · exact Or.inl (by omega)
  · rcases ha with ha | ⟨ha, hv⟩
    · exact Or.inl (by omega)
    · rcases hv with hv | hv
      · rw [h2] at hv; cases hv
      · exact Or.inr ⟨h1.trans ha, by rw [hv, h2]⟩

theorem inv_step {c : Codec} (hc : c.Ok) {own : Config} {s s' : St} {st : SrvState} {k : Config} {o : Op} (h : Inv c own s st k)
    (hs : step c own s o = .ok s') : Inv c own s' (lastState st [o]) (lastConfig k [o]) := by
  obtain ⟨h1, h2, h3, h4, h5⟩ := h
  cases o with
  | start =>
    simp only [step] at hs
    split at hs
    · cases hs
    · rename_i hm
      rw [load_cfg, h2, h1] at hs
      injection hs with hs; subst hs
      refine ⟨h1, h2, ?_, h4, h5⟩
      intro m hmm
      injection hmm with hmm; subst hmm
      exact ⟨rfl, rfl, load_has own s.disk h2, (load_same own s.disk).1, (load_same own s.disk).2⟩
  | crash =>
    injection hs with hs; subst hs
    exact ⟨h1, h2, (by intro m hm; cases hm), h4, h5⟩
  | save t v =>
    simp only [step] at hs
    cases hm : s.mem with
    | none => rw [hm] at hs; cases hs
    | some m =>
      rw [hm] at hs
      simp only at hs
      obtain ⟨m1, m2, m3, m4, m5⟩ := h3 m hm
      split at hs
      · rename_i ha
        injection hs with hs; subst hs
        have hcov := covers_allowed h4 (m1 ▸ ha.1)
        refine ⟨read_put hc _ _, ?_, ?_, ?_, ?_⟩
        · obtain ⟨v0, e1, e2⟩ := m3
          show cfgOf own (putState c m.js t) = some k
          unfold cfgOf putState
          rw [e1]; exact e2
        · intro q hq
          injection hq with hq; subst hq
          exact ⟨rfl, m2, m3, rfl, rfl⟩
        · show Covers t _
          cases v with
          | none => exact hcov
          | some n =>
            intro x hx
            rcases List.mem_cons.1 hx with hx | hx
            · subst hx; exact Or.inr ⟨rfl, ha.2 n rfl⟩
            · exact hcov x hx
        · cases v with
          | none => exact h5
          | some n =>
            have hvn := ha.2 n rfl
            have key : ∀ x ∈ s.votes, x.1 = t.term → x.2 = n := by
              intro x hx e
              rcases hcov x hx with h | ⟨_, h⟩
              · omega
              · rw [hvn] at h; injection h with h; exact h.symm
            intro x hx y hy e
            rcases List.mem_cons.1 hx with hx | hx <;> rcases List.mem_cons.1 hy with hy | hy
            · rw [hx, hy]
            · subst hx; exact (key y hy e.symm).symm
            · subst hy; exact key x hx e
            · exact h5 x hx y hy e
      · cases hs
  | saveCrash t w =>
    simp only [step] at hs
    cases hm : s.mem with
    | none => rw [hm] at hs; cases hs
    | some m =>
      rw [hm] at hs
      simp only at hs
      obtain ⟨m1, m2, m3, m4, m5⟩ := h3 m hm
      split at hs
      · rename_i ha
        injection hs with hs; subst hs
        cases w with
        | false => exact ⟨h1, h2, (by intro m hm; cases hm), h4, h5⟩
        | true =>
          refine ⟨read_put hc _ _, ?_, (by intro m hm; cases hm), covers_allowed h4 (m1 ▸ ha), h5⟩
          obtain ⟨v0, e1, e2⟩ := m3
          show cfgOf own (putState c m.js t) = some k
          unfold cfgOf putState
          rw [e1]; exact e2
      · cases hs
  | config q =>
    simp only [step] at hs
    cases hm : s.mem with
    | none => rw [hm] at hs; cases hs
    | some m =>
      rw [hm] at hs
      injection hs with hs; subst hs
      obtain ⟨m1, m2, m3, m4, m5⟩ := h3 m hm
      refine ⟨?_, deConfig_ser q, ?_, h4, h5⟩
      · show readState c (putConfig m.js q) = some st
        rw [← h1]; exact read_congr m4 m5
      · intro x hx
        injection hx with hx; subst hx
        exact ⟨m1, rfl, ⟨_, rfl, deConfig_ser q⟩, rfl, rfl⟩
  | configCrash q w =>
    simp only [step] at hs
    cases hm : s.mem with
    | none => rw [hm] at hs; cases hs
    | some m =>
      rw [hm] at hs
      injection hs with hs; subst hs
      obtain ⟨m1, m2, m3, m4, m5⟩ := h3 m hm
      cases w with
      | false => exact ⟨h1, h2, (by intro m hm; cases hm), h4, h5⟩
      | true =>
        refine ⟨?_, deConfig_ser q, (by intro m hm; cases hm), h4, h5⟩
        show readState c (putConfig m.js q) = some st
        rw [← h1]; exact read_congr m4 m5

theorem lastState_cons (s : SrvState) (o : Op) (l : List Op) : lastState s (o :: l) = lastState (lastState s [o]) l := by
  cases o with
  | saveCrash t w => cases w <;> rfl
  | _ => rfl

theorem lastConfig_cons (s : Config) (o : Op) (l : List Op) : lastConfig s (o :: l) = lastConfig (lastConfig s [o]) l := by
  cases o with
  | configCrash t w => cases w <;> rfl
  | _ => rfl

theorem inv_run {c : Codec} (hc : c.Ok) {own : Config} {l : List Op} : ∀ {s : St} {st : SrvState} {k : Config}, Inv c own s st k →
    run c own s l ≠ .throws ∧ ∀ s', run c own s l = .ok s' → Inv c own s' (lastState st l) (lastConfig k l) := by
  induction l with
  | nil => intro s st k h; exact ⟨by simp [run], by intro s' hs; injection hs with hs; subst hs; exact h⟩
  | cons o l ih =>
    intro s st k h
    rw [lastState_cons, lastConfig_cons]
    simp only [run]
    cases hr : step c own s o with
    | ok s1 => exact ih (inv_step hc h hr)
    | no => exact ⟨by simp, by intro s' hs; cases hs⟩
    | throws =>
      exfalso
      cases o with
      | start =>
        simp only [step] at hr
        split at hr
        · cases hr
        · rw [load_cfg, h.cfg, h.read] at hr; cases hr
      | crash => cases hr
      | save t v => simp only [step] at hr; split at hr <;> first | cases hr | (split at hr <;> cases hr)
      | saveCrash t v => simp only [step] at hr; split at hr <;> first | cases hr | (split at hr <;> cases hr)
      | config t => simp only [step] at hr; split at hr <;> cases hr
      | configCrash t v => simp only [step] at hr; split at hr <;> cases hr

/-- A member that is down, with its superblock and the votes it gave earlier. -/
def down (disk : Json) (votes : List (Nat × Nat)) : St := { disk, mem := none, votes }

theorem inv_down {c : Codec} {own : Config} {disk : Json} {votes : List (Nat × Nat)} {st : SrvState} (hr : readState c disk = some st)
    {k : Config} (hk : cfgOf own disk = some k) (hv : Covers st votes) (h1 : OneVote votes) : Inv c own (down disk votes) st k :=
  ⟨hr, hk, (by intro m hm; cases hm), hv, h1⟩

/-- **C109 (part)**.  A member whose superblock can be read, with no vote newer than what it says: after any history of starts, saves and
crashes a start succeeds, and raft gets the last state and the last configuration that were saved, or were on disk when the
machine failed in a save. -/
theorem C109_saved_partial {c : Codec} (hc : c.Ok) {own : Config} {disk : Json} {votes : List (Nat × Nat)} {st : SrvState}
    (hr : readState c disk = some st) {k : Config} (hk : cfgOf own disk = some k) (hv : Covers st votes) (h1 : OneVote votes) {l : List Op} {s : St}
    (hrun : run c own (down disk votes) l = .ok s) (hdown : s.mem = none) :
    ∃ s' m, step c own s .start = .ok s' ∧ s'.mem = some m ∧ m.st = lastState st l ∧ m.cfg = lastConfig k l := by
  have hi := (inv_run hc (inv_down (own := own) hr hk hv h1)).2 s hrun
  have he : step c own s .start = .ok { s with mem := some { js := (loadConfig own s.disk).1, st := lastState st l, cfg := lastConfig k l } } := by
    simp only [step, hdown, load_cfg, hi.read, hi.cfg]
  have hi2 := (inv_step hc hi he).mem _ rfl
  exact ⟨_, _, he, rfl, hi2.1, hi2.2.1⟩

/-- **C109 (part)**.  In all such histories the member gives at most one candidate its vote of a term, and no start throws. -/
theorem C109_one_vote_partial {c : Codec} (hc : c.Ok) {own : Config} {disk : Json} {votes : List (Nat × Nat)} {st : SrvState}
    (hr : readState c disk = some st) {k : Config} (hk : cfgOf own disk = some k) (hv : Covers st votes) (h1 : OneVote votes) (l : List Op) :
    run c own (down disk votes) l ≠ .throws ∧ ∀ s, run c own (down disk votes) l = .ok s → OneVote s.votes :=
  ⟨(inv_run hc (inv_down hr hk hv h1)).1, fun s hs => ((inv_run hc (inv_down (own := own) hr hk hv h1)).2 s hs).one⟩

/-- **C109**.  The state that an older version wrote is read, with its term and vote. -/
theorem C109_legacy (c : Codec) (k : Option J) (t : Nat) (v : Option Nat) (e q : Bool) :
    ∃ st, readState c ⟨k, some ⟨some t, some v, some e, some q⟩, []⟩ = some st ∧ st.term = t ∧ st.voted = v ∧ st.timer = e ∧ st.catching = q :=
  ⟨_, rfl, rfl, rfl, rfl, rfl⟩

/-- **C109**.  A new member, without a saved state, starts with the first term, no vote and a configuration of itself, and meets the hypotheses of the theorems above. -/
theorem C109_new_member (c : Codec) (own : Config) : ∃ st, readState c ⟨none, none, []⟩ = some st ∧ st.term = 0 ∧ st.voted = none ∧
    cfgOf own ⟨none, none, []⟩ = some own ∧ Covers st [] ∧ OneVote [] :=
  ⟨_, rfl, rfl, rfl, rfl, (by intro x hx; cases hx), (by intro x hx; cases hx)⟩

/-! ## A codec that meets the contract: one number per field -/

def bit (b : Bool) : Nat := if b then 1 else 0

def plain : Codec :=
  { enc := fun s => [s.term, (match s.voted with | none => 0 | some v => v + 1), bit s.timer, bit s.catching, bit s.receiving]
    dec := fun l => match l with
      | [t, v, e, k, r] => some { term := t, voted := if v = 0 then none else some (v - 1), timer := e = 1, catching := k = 1, receiving := r = 1 }
      | _ => none }

theorem plain_ok : plain.Ok := by
  refine ⟨?_, by intro s; simp [plain]⟩
  intro s
  obtain ⟨t, v, e, k, r⟩ := s
  cases v <;> cases e <;> cases k <;> cases r <;> simp [plain, bit]

/-! ## Where it fails -/

/-- **C109 (violated)**.  A state of an older version without one of its fields is meant to be replaced by the default (2283-2285); the
exception is not the one caught, and the start fails. -/
theorem C109_missing_field_violated (c : Codec) (own : Config) (t v : Nat) (e : Bool) :
    step c own (down ⟨none, some ⟨some t, some (some v), some e, none⟩, []⟩ [(t, v)]) .start = .throws := by
  simp only [step, down, load_cfg]
  rfl

/-- **C109**.  A configuration that is written as JSON and read back is the same, with all its members. -/
theorem C109_config_round_trip (k : Config) : deConfig (serConfig k) = some k := deConfig_ser k

def own1 : Config := ⟨0, 0, false, [], [⟨1, 0, [7], [], false, 100⟩]⟩

/-- **C109 (violated)**.  A state that cannot be deserialized, such as that of another version of NuRaft, is replaced by the default
(2268-2270): the member forgets its vote and votes for another candidate in the same term. -/
theorem C109_undecodable_violated :
    ∃ s, run plain own1 (down ⟨none, none, [9]⟩ [(5, 1)])
      [.start, .save ⟨5, some 2, true, false, false⟩ (some 2)] = .ok s ∧ (5, 1) ∈ s.votes ∧ (5, 2) ∈ s.votes :=
  ⟨_, rfl, by decide, by decide⟩

/-- **C109 (violated)**.  The version before this one wrote the field "state" and knew no other.  After going back to it and
forward again the superblock has both; the binary one is read (2256), which is the older, and the vote of the version between is forgotten. -/
theorem C109_rollback_violated :
    ∃ s, run plain own1 (down ⟨none, some ⟨some 7, some (some 2), some true, some false⟩, plain.enc ⟨5, some 1, true, false, false⟩⟩ [(7, 2), (5, 1)])
      [.start, .save ⟨7, some 3, true, false, false⟩ (some 3)] = .ok s ∧ (7, 2) ∈ s.votes ∧ (7, 3) ∈ s.votes :=
  ⟨_, rfl, by decide, by decide⟩

/-! ## A case that meets the hypotheses: state of an older version, votes, a configuration, crashes in saves -/

def demo : List Op :=
  [.start, .save ⟨4, some 2, true, false, false⟩ (some 2), .config ⟨9, 3, false, [1], []⟩, .saveCrash ⟨5, some 1, true, false, true⟩ true, .start,
   .save ⟨5, some 1, true, true, true⟩ (some 1), .configCrash ⟨12, 9, false, [1], []⟩ false, .start, .saveCrash ⟨6, none, true, true, true⟩ false]

example : ∃ s, run plain own1 (down ⟨none, some ⟨some 4, some (some 2), some true, some false⟩, []⟩ [(4, 2)]) demo = .ok s ∧
    s.votes = [(5, 1), (4, 2), (4, 2)] ∧ OneVote s.votes ∧
    ∃ s' m, step plain own1 s .start = .ok s' ∧ s'.mem = some m ∧ m.st = ⟨5, some 1, true, true, true⟩ ∧ m.cfg = ⟨9, 3, false, [1], []⟩ := by
  have hc : Covers ⟨4, some 2, true, false, false⟩ [(4, 2)] := by intro x hx; rw [List.mem_singleton.1 hx]; exact Or.inr ⟨rfl, rfl⟩
  have h1 : OneVote [(4, 2)] := by intro x hx y hy _; rw [List.mem_singleton.1 hx, List.mem_singleton.1 hy]
  have hg : ∃ s, run plain own1 (down ⟨none, some ⟨some 4, some (some 2), some true, some false⟩, []⟩ [(4, 2)]) demo = .ok s ∧
      s.votes = [(5, 1), (4, 2), (4, 2)] ∧ s.mem = none := ⟨_, rfl, rfl, rfl⟩
  obtain ⟨s, hs, hv, hm⟩ := hg
  exact ⟨s, hs, hv, (C109_one_vote_partial plain_ok (st := ⟨4, some 2, true, false, false⟩) rfl rfl hc h1 demo).2 s hs,
    C109_saved_partial plain_ok (st := ⟨4, some 2, true, false, false⟩) rfl rfl hc h1 hs hm⟩

end HS.Vote
