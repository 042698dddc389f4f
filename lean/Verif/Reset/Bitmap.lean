import Verif.Reset.Props

/-!
# C117 for the allocators that keep a bitmap
-/
namespace HS.Reset

/-- The user holds back I/O and checkpoints on the chunk while it is reset, with no release waiting for a
checkpoint; the process does not crash before the first checkpoint after a reset; blocks are committed and
released once. -/
def okB (s : St) : Op → Prop
  | .ioGet => s.rs = .idle
  | .flushGet => s.rs = .idle
  | .rsReset => s.held = [] ∧ s.fl = .idle ∧ s.pend = [] ∧ s.flFree = []
  | .crash => s.recs ≠ []
  | .freeReq b => s.rs = .idle ∧ b ∈ (s.objs s.cur).mem ∧ b ∉ s.pend ∧ b ∉ s.flFree
  | .commit i b => b ∈ (s.objs i).mem ∧ b ∉ (s.objs i).disk ∧ (∀ l, (s.objs i).acc = some l → b ∉ l) ∧
      b ∉ s.pend ∧ b ∉ s.flFree
  | _ => True

def okBB (s : St) : Op → Bool
  | .ioGet => s.rs == .idle
  | .flushGet => s.rs == .idle
  | .rsReset => s.held == [] && s.fl == .idle && s.pend == [] && s.flFree == []
  | .crash => s.recs != []
  | .freeReq b => s.rs == .idle && (s.objs s.cur).mem.contains b && !s.pend.contains b && !s.flFree.contains b
  | .commit i b => (s.objs i).mem.contains b && !(s.objs i).disk.contains b &&
      !((s.objs i).acc.getD []).contains b && !s.pend.contains b && !s.flFree.contains b
  | _ => true

theorem okBB_okB {s : St} {op : Op} (h : okBB s op = true) : okB s op := by
  cases op <;> simp_all [okBB, okB]
  intro l hl
  have := h.1.1.2
  simpa [hl] using this

structure LiveB (s : St) (o : Obj) : Prop where
  sb : o.sb = true
  reg : s.reg = true
  cnone : o.cookie = none → s.recs = [] ∧ s.dur = [] ∧ o.dirty = true
  csome : ∀ c, o.cookie = some c → ∃ d, s.recs = [⟨c, d⟩] ∧ (∀ b ∈ d, b ∈ s.ever) ∧ (∀ b ∈ s.dur, b ∈ d) ∧
    (o.dirty = false → ∀ b ∈ s.com, b ∈ d)
  idle : (∀ i d u, s.fl ≠ .ser i d u) → o.acc = none
  ser : ∀ i d u, s.fl = .ser i d u → i = s.cur ∧ u = o.cookie.isSome ∧ o.dirty = true ∧ (∀ b ∈ d, b ∈ s.ever) ∧
    (∀ b ∈ s.snap, b ∈ d) ∧ ∃ l, o.acc = .some l ∧ l.Nodup ∧ (∀ b ∈ l, b ∉ o.disk ∧ b ∈ s.ever ∧ b ∈ o.mem) ∧
      (∀ b ∈ s.com, b ∈ s.snap ∨ b ∈ l)
  disk : ∀ b ∈ o.disk, b ∈ s.ever ∧ b ∈ o.mem
  com : ∀ b ∈ s.com, b ∈ o.disk ∨ ∃ l, o.acc = .some l ∧ b ∈ l
  rel : (s.pend ++ s.flFree).Nodup ∧ ∀ b ∈ s.pend ++ s.flFree, b ∈ o.mem ∧ b ∉ s.com

structure InvB (s : St) : Prop where
  kind : s.kind = .bitmap
  held : ∀ i ∈ s.held, i = s.cur
  wait : s.rs ≠ .idle → s.held = [] ∧ s.fl = .idle ∧ s.pend = [] ∧ s.flFree = [] ∧ s.recs = [] ∧ s.dur = []
  made : ∀ j, s.rs = .created j → s.objs j = fresh .bitmap ∧ s.reg = true
  got : ∀ i, s.fl = .got i → i = s.cur
  live : s.rs = .idle → LiveB s (s.objs s.cur)

theorem invB_init (total : Nat) : InvB (init .bitmap total) where
  kind := rfl
  held := by simp [init]
  wait := by simp [init]
  made := by simp [init]
  got := by simp [init]
  live := by
    intro _
    exact { sb := rfl, reg := rfl, cnone := by simp [init, fresh], csome := by simp [init, fresh],
            idle := by simp [init, fresh], ser := by simp [init], disk := by simp [init, fresh],
            com := by simp [init], rel := by simp [init] }

theorem quiet_of_held {s : St} (h : InvB s) {i : Nat} (hi : i ∈ s.held) : s.rs = .idle := by
  by_cases hr : s.rs = .idle
  · exact hr
  · have := (h.wait hr).1; rw [this] at hi; simp at hi

theorem quiet_of_fl {s : St} (h : InvB s) (hi : s.fl ≠ .idle) : s.rs = .idle := by
  by_cases hr : s.rs = .idle
  · exact hr
  · exact absurd (h.wait hr).2.1 hi

theorem invB_alloc {s s' : St} {i b : Nat} (h : InvB s) (hs : doAlloc s i b = .ok s') : InvB s' := by
  unfold doAlloc at hs
  split at hs
  · simp at hs
  split at hs
  · simp at hs
  split at hs
  · simp at hs
  split at hs
  · simp at hs
  split at hs
  · injection hs with hs
    rename_i hi' _ _ _ _
    have hi : i ∈ s.held := by simpa using hi'
    have hr := quiet_of_held h hi
    have hc := h.held i hi
    subst hc
    have l := h.live hr
    subst hs
    refine { kind := h.kind, held := h.held, wait := fun e => absurd hr e, made := by simp [hr], got := h.got, live := ?_ }
    intro _
    simp only [upd_same]
    refine { sb := l.sb, reg := l.reg, cnone := l.cnone, csome := l.csome, idle := l.idle, ser := ?_, disk := ?_,
             com := l.com, rel := ?_ }
    · intro i d u hf
      obtain ⟨h1, h2, h3, h4, h5, a, h6, h7, h8, h9⟩ := l.ser i d u hf
      exact ⟨h1, h2, h3, h4, h5, a, h6, h7, fun b hb => ⟨(h8 b hb).1, (h8 b hb).2.1, by simp [(h8 b hb).2.2]⟩, h9⟩
    · intro x hx; exact ⟨(l.disk x hx).1, by simp [(l.disk x hx).2]⟩
    · exact ⟨l.rel.1, fun x hx => ⟨by simp [(l.rel.2 x hx).1], (l.rel.2 x hx).2⟩⟩
  · simp at hs

theorem invB_commit {s s' : St} {i b : Nat} (h : InvB s) (ho : okB s (.commit i b))
    (hs : doCommit s i b = .ok s') : InvB s' := by
  unfold doCommit at hs
  split at hs
  · simp at hs
  split at hs
  · simp at hs
  rename_i hi' _
  have hi : i ∈ s.held := by simpa using hi'
  have hr := quiet_of_held h hi
  have hc := h.held i hi
  subst hc
  have l := h.live hr
  obtain ⟨o1, o2, o3, o4, o5⟩ := ho
  simp only [h.kind, if_true] at hs
  split at hs
  · rename_i a ha
    injection hs with hs
    subst hs
    have hser : ∃ i d u, s.fl = .ser i d u := by
      cases hf : s.fl with
      | ser i d u => exact ⟨i, d, u, rfl⟩
      | idle => have := l.idle (by simp [hf]); rw [this] at ha; simp at ha
      | got i => have := l.idle (by simp [hf]); rw [this] at ha; simp at ha
    refine { kind := rfl, held := h.held, wait := fun e => absurd hr e, made := by simp [hr], got := h.got, live := ?_ }
    intro _
    simp only [upd_same]
    obtain ⟨si, sd, su, hf⟩ := hser
    obtain ⟨h1, h2, h3, h4, h5, a', h6, h7, h8, h9⟩ := l.ser si sd su hf
    rw [ha] at h6
    injection h6 with h6
    subst h6
    refine { sb := l.sb, reg := l.reg, cnone := l.cnone, csome := ?_, idle := ?_, ser := ?_, disk := ?_,
             com := ?_, rel := ?_ }
    · intro c hc
      obtain ⟨d, e1, e2, e3, e4⟩ := l.csome c hc
      exact ⟨d, e1, fun x hx => by simp [e2 x hx], e3, by simp [h3]⟩
    · intro hx; exact absurd hf (hx _ _ _)
    · intro i d u hf'
      have hf'' : s.fl = .ser i d u := hf'
      rw [hf] at hf''
      injection hf'' with e1 e2 e3
      subst e1 e2 e3
      refine ⟨h1, h2, h3, fun x hx => by simp [h4 x hx], h5, b :: a, rfl, ?_, ?_, ?_⟩
      · simp [h7, o3 a ha]
      · intro x hx
        simp at hx
        rcases hx with rfl | hx
        · exact ⟨o2, by simp, o1⟩
        · exact ⟨(h8 x hx).1, by simp [(h8 x hx).2.1], (h8 x hx).2.2⟩
      · intro x hx
        simp at hx
        rcases hx with rfl | hx
        · simp
        · rcases h9 x hx with h | h
          · exact .inl h
          · simp [h]
    · intro x hx; exact ⟨by simp [(l.disk x hx).1], (l.disk x hx).2⟩
    · intro x hx
      simp at hx
      rcases hx with rfl | hx
      · exact .inr ⟨x :: a, rfl, by simp⟩
      · rcases l.com x hx with hd | ⟨a', e, hx'⟩
        · exact .inl hd
        · rw [ha] at e; injection e with e; subst e
          exact .inr ⟨b :: a, rfl, by simp [hx']⟩
    · refine ⟨l.rel.1, fun x hx => ⟨(l.rel.2 x hx).1, ?_⟩⟩
      have := (l.rel.2 x hx).2
      have hx' : x ∈ s.pend ∨ x ∈ s.flFree := by simpa using hx
      simp only [List.mem_cons, not_or]
      refine ⟨?_, this⟩
      rintro rfl
      rcases hx' with hx' | hx'
      · exact o4 hx'
      · exact o5 hx'
  · rename_i ha
    split at hs
    · simp at hs
    injection hs with hs
    subst hs
    have hns : ∀ i d u, s.fl ≠ .ser i d u := by
      intro i d u hf
      obtain ⟨_, _, _, _, _, a, h6, _⟩ := l.ser i d u hf
      rw [ha] at h6; simp at h6
    refine { kind := rfl, held := h.held, wait := fun e => absurd hr e, made := by simp [hr], got := h.got, live := ?_ }
    intro _
    simp only [upd_same]
    refine { sb := l.sb, reg := l.reg, cnone := ?_, csome := ?_, idle := fun _ => ha,
             ser := fun i d u hf => absurd hf (hns _ _ _), disk := ?_, com := ?_, rel := ?_ }
    · intro hc; exact ⟨(l.cnone hc).1, (l.cnone hc).2.1, rfl⟩
    · intro c hc
      obtain ⟨d, e1, e2, e3, e4⟩ := l.csome c hc
      exact ⟨d, e1, fun x hx => by simp [e2 x hx], e3, by simp⟩
    · intro x hx
      simp at hx
      rcases hx with rfl | hx
      · exact ⟨by simp, o1⟩
      · exact ⟨by simp [(l.disk x hx).1], (l.disk x hx).2⟩
    · intro x hx
      simp at hx
      rcases hx with rfl | hx
      · left; simp
      · rcases l.com x hx with hd | ⟨a', e, hx'⟩
        · left; simp [hd]
        · rw [ha] at e; simp at e
    · refine ⟨l.rel.1, fun x hx => ⟨(l.rel.2 x hx).1, ?_⟩⟩
      have := (l.rel.2 x hx).2
      have hx' : x ∈ s.pend ∨ x ∈ s.flFree := by simpa using hx
      simp only [List.mem_cons, not_or]
      refine ⟨?_, this⟩
      rintro rfl
      rcases hx' with hx' | hx'
      · exact o4 hx'
      · exact o5 hx'

theorem invB_freeReq {s s' : St} {b : Nat} (h : InvB s) (ho : okB s (.freeReq b))
    (hs : doFreeReq s b = .ok s') : InvB s' := by
  simp only [doFreeReq, h.kind] at hs
  injection hs with hs
  subst hs
  obtain ⟨hr, o1, o2, o3⟩ := ho
  have l := h.live hr
  refine { kind := rfl, held := h.held, wait := fun e => absurd hr e, made := by simp [hr], got := h.got, live := ?_ }
  intro _
  refine { sb := l.sb, reg := l.reg, cnone := ?_, csome := ?_, idle := l.idle, ser := ?_, disk := l.disk, com := ?_, rel := ?_ }
  · intro hc; have := l.cnone hc; exact ⟨this.1, by simp [this.2.1], this.2.2⟩
  · intro c hc
    obtain ⟨d, e1, e2, e3, e4⟩ := l.csome c hc
    refine ⟨d, e1, e2, ?_, ?_⟩
    · intro x hx; simp at hx; exact e3 x hx.1
    · intro hd x hx; simp at hx; exact e4 hd x hx.1
  · intro i d u hf
    obtain ⟨h1, h2, h3, h4, h5, a, h6, h7, h8, h9⟩ := l.ser i d u hf
    refine ⟨h1, h2, h3, h4, ?_, a, h6, h7, h8, ?_⟩
    · intro x hx; simp at hx; exact h5 x hx.1
    · intro x hx
      simp at hx
      rcases h9 x hx.1 with e | e
      · left; simp [e, hx.2]
      · exact .inr e
  · intro x hx; simp at hx; exact l.com x hx.1
  · refine ⟨?_, ?_⟩
    · have := l.rel.1
      simp only [List.cons_append, List.nodup_cons]
      exact ⟨by simp [o2, o3], this⟩
    · intro x hx
      simp only [List.cons_append, List.mem_cons] at hx
      rcases hx with rfl | hx
      · exact ⟨o1, by simp⟩
      · exact ⟨(l.rel.2 x hx).1, by simp [(l.rel.2 x hx).2]⟩

theorem invB_flushGet {s s' : St} (h : InvB s) (hr : s.rs = .idle)
    (hs : step s .flushGet = .ok s') : InvB s' := by
  simp only [step] at hs
  split at hs
  · rename_i hf
    injection hs with hs
    subst hs
    have l := h.live hr
    have ha := l.idle (by simp [hf.1])
    refine { kind := h.kind, held := h.held, wait := fun e => absurd hr e, made := by simp [hr], got := by intro i e; simp at e; exact e.symm, live := ?_ }
    intro _
    refine { sb := l.sb, reg := l.reg, cnone := l.cnone, csome := l.csome, idle := fun _ => ha, ser := by simp,
             disk := l.disk, com := l.com, rel := ?_ }
    have := l.rel
    simp [hf.2] at this
    simpa using this
  · simp at hs

theorem invB_flushRun {s s' : St} {bid : Nat} (h : InvB s) (hs : doFlushRun s bid = .ok s') : InvB s' := by
  unfold doFlushRun at hs
  split at hs
  · rename_i i hf
    have hc := h.got i hf
    have hr := quiet_of_fl h (by simp [hf])
    subst hc
    have l := h.live hr
    have ha := l.idle (by simp [hf])
    split at hs
    · rename_i hd
      injection hs with hs
      subst hs
      refine { kind := h.kind, held := h.held, wait := fun e => absurd hr e, made := by simp [flushed, hr], got := by simp [flushed], live := ?_ }
      intro _
      simp only [flushed, hr]
      refine { sb := l.sb, reg := l.reg, cnone := ?_, csome := ?_, idle := fun _ => ha, ser := by simp,
               disk := l.disk, com := l.com, rel := l.rel }
      · intro hc; have := (l.cnone hc).2.2; rw [hd] at this; simp at this
      · intro c hc
        obtain ⟨d, e1, e2, e3, e4⟩ := l.csome c hc
        exact ⟨d, e1, e2, by simpa using e4 hd, e4⟩
    · rename_i hd
      simp only [h.kind] at hs
      split at hs
      · simp at hs
      injection hs with hs
      subst hs
      refine { kind := rfl, held := h.held, wait := fun e => absurd hr e, made := by simp [hr], got := by simp, live := ?_ }
      intro _
      simp only [upd_same]
      refine { sb := l.sb, reg := l.reg, cnone := l.cnone, csome := l.csome, idle := ?_, ser := ?_,
               disk := l.disk, com := ?_, rel := l.rel }
      · intro hx; exact absurd rfl (hx _ _ _)
      · intro i d u hf'
        injection hf' with e1 e2 e3
        subst e1 e2 e3
        refine ⟨rfl, rfl, by simpa using hd, fun b hb => (l.disk b hb).1, ?_, [], rfl, by simp, by simp, fun b hb => .inl hb⟩
        intro b hb
        rcases l.com b hb with e | ⟨a, e, _⟩
        · exact e
        · rw [ha] at e; simp at e
      · intro b hb
        rcases l.com b hb with e | ⟨a, e, _⟩
        · exact .inl e
        · rw [ha] at e; simp at e
  · simp at hs

theorem invB_flushWrite {s s' : St} {bid : Nat} (h : InvB s) (hs : doFlushWrite s bid = .ok s') : InvB s' := by
  unfold doFlushWrite at hs
  split at hs
  · rename_i i d u hf
    have hr := quiet_of_fl h (by simp [hf])
    have l := h.live hr
    obtain ⟨h1, h2, h3, h4, h5, a, h6, h7, h8, h9⟩ := l.ser i d u hf
    subst h1
    have hany : ¬ (a.any (fun b => decide (b ∈ (s.objs s.cur).disk)) = true ∨ ¬ a.Nodup) := by
      simp only [List.any_eq_true, decide_eq_true_eq, not_or, Decidable.not_not]
      exact ⟨fun ⟨x, hx, hx'⟩ => (h8 x hx).1 hx', h7⟩
    have fin : ∀ (c : Nat) (s2 : St), s2.kind = .bitmap → s2.held = s.held → s2.cur = s.cur → s2.rs = s.rs →
        s2.reg = true → s2.recs = [⟨c, d⟩] → s2.ever = s.ever → s2.com = s.com → s2.snap = s.snap →
        s2.pend = s.pend → s2.flFree = s.flFree → s2.objs s.cur = { s.objs s.cur with cookie := some c } →
        (match release (s2.objs s.cur) with
          | none => Out.abort
          | some o => .ok (flushed { s2 with objs := upd s2.objs s.cur o } s.cur s2.snap)) = .ok s' → InvB s' := by
      intro c s2 e1 e2 e3 e4 e5 e6 e7 e8 e9 e10 e11 e12 hs
      have hrel : release (s2.objs s.cur) = some { s.objs s.cur with cookie := some c, disk := a ++ (s.objs s.cur).disk, acc := none, dirty := !a.isEmpty } := by
        rw [e12]
        simp only [release, h6]
        rw [if_neg hany]
      rw [hrel] at hs
      injection hs with hs
      subst hs
      refine { kind := e1, held := ?_, wait := ?_, made := ?_, got := by simp [flushed], live := ?_ }
      · simpa [flushed, e2, e3] using h.held
      · simp [flushed, e4, hr]
      · simp [flushed, e4, hr]
      · intro _
        simp only [flushed, e3, e4, hr, upd_same]
        refine { sb := l.sb, reg := e5, cnone := by simp, csome := ?_, idle := fun _ => rfl, ser := by simp,
                 disk := ?_, com := ?_, rel := ?_ }
        · intro c' hc'
          simp at hc'
          subst hc'
          refine ⟨d, e6, ?_, ?_, ?_⟩
          · simpa [e7] using h4
          · simpa [e9] using h5
          · intro hd b hb
            simp at hd
            subst hd
            rcases h9 b (by simpa [e8] using hb) with e | e
            · exact h5 b e
            · simp at e
        · intro b hb
          simp at hb
          simp only [e7]
          rcases hb with hb | hb
          · exact (h8 b hb).2
          · exact l.disk b hb
        · intro b hb
          left
          simp only [e8] at hb
          rcases l.com b hb with e | ⟨a', e, hx⟩
          · simp [e]
          · rw [h6] at e; injection e with e; subst e; simp [hx]
        · simpa [e8, e10, e11] using l.rel
    cases hk : (s.objs s.cur).cookie with
    | some c =>
      obtain ⟨d0, g1, _⟩ := l.csome c hk
      rw [hk] at h2
      subst h2
      simp only [updRec, hk, g1] at hs
      simp only [Option.isSome_some, if_true, List.any_cons, List.any_nil, beq_self_eq_true, Bool.or_false, List.map_cons, List.map_nil] at hs
      exact fin c { s with recs := [⟨c, d⟩] } h.kind rfl rfl rfl l.reg rfl rfl rfl rfl rfl rfl (by simp [← hk]) hs
    | none =>
      have hn := l.cnone hk
      rw [hk] at h2
      subst h2
      simp only [addRec, l.reg, hn.1] at hs
      simp only [Option.isSome_none, List.any_nil, Bool.false_eq_true, if_false, Bool.true_eq_false] at hs
      exact fin bid { s with reg := true, recs := [⟨bid, d⟩],
                              objs := upd s.objs s.cur { s.objs s.cur with cookie := some bid } }
        h.kind rfl rfl rfl rfl rfl rfl rfl rfl rfl rfl (by simp) hs
  · simp at hs

theorem invB_flushFree {s s' : St} (h : InvB s) (hs : doFlushFree s = .ok s') : InvB s' := by
  unfold doFlushFree at hs
  split at hs
  · rename_i b t hf hl
    have hr : s.rs = .idle := by
      by_cases hr : s.rs = .idle
      · exact hr
      · have := (h.wait hr).2.2.2.1; rw [hl] at this; simp at this
    have l := h.live hr
    have ha := l.idle (by simp [hf])
    split at hs
    · injection hs with hs
      subst hs
      have hrel := l.rel
      rw [hl] at hrel
      have hb := hrel.2 b (by simp)
      have hnd := hrel.1
      rw [List.nodup_append] at hnd
      obtain ⟨n1, n2, n3⟩ := hnd
      simp only [List.nodup_cons] at n2
      refine { kind := h.kind, held := h.held, wait := fun e => absurd hr e, made := by simp [hr], got := h.got, live := ?_ }
      intro _
      simp only [upd_same]
      refine { sb := l.sb, reg := l.reg, cnone := l.cnone, csome := l.csome, idle := fun _ => ha,
               ser := by simp [hf], disk := ?_, com := ?_, rel := ?_ }
      · intro x hx
        simp at hx
        exact ⟨(l.disk x hx.1).1, by simp [(l.disk x hx.1).2, hx.2]⟩
      · intro x hx
        rcases l.com x hx with e | ⟨a, e, _⟩
        · left
          have : x ≠ b := by rintro rfl; exact hb.2 hx
          simp [e, this]
        · rw [ha] at e; simp at e
      · refine ⟨?_, ?_⟩
        · rw [List.nodup_append]
          exact ⟨n1, n2.2, fun x hx y hy => n3 x hx y (by simp [hy])⟩
        · intro x hx
          simp at hx
          have hx1 := hrel.2 x (by simp; rcases hx with e | e <;> simp [e])
          have : x ≠ b := by
            rintro rfl
            rcases hx with e | e
            · exact n3 x e x (by simp) rfl
            · exact n2.1 e
          exact ⟨by simp [hx1.1, this], hx1.2⟩
    · simp at hs
  · simp at hs

theorem invB_crash {s : St} (h : InvB s) (ho : s.recs ≠ []) : InvB (restart s) := by
  have hr : s.rs = .idle := by
    by_cases hr : s.rs = .idle
    · exact hr
    · exact absurd (h.wait hr).2.2.2.2.1 ho
  have l := h.live hr
  cases hk : (s.objs s.cur).cookie with
  | none => exact absurd (l.cnone hk).1 ho
  | some c =>
    obtain ⟨d, g1, g2, g3, _⟩ := l.csome c hk
    have hrec : recovered s.kind s.recs = { mem := d, disk := d, acc := none, dirty := true, cookie := some c, sb := true } := by
      rw [h.kind, g1]; rfl
    refine { kind := h.kind, held := by simp [restart], wait := by simp [restart], made := by simp [restart],
             got := by simp [restart], live := ?_ }
    intro _
    simp only [restart, upd_same, hrec]
    refine { sb := rfl, reg := rfl, cnone := by simp, csome := ?_, idle := fun _ => rfl, ser := by simp, disk := ?_,
             com := ?_, rel := by simp }
    · intro c' hc'
      simp at hc'
      subst hc'
      exact ⟨d, g1, g2, g3, by simp⟩
    · intro b hb; exact ⟨g2 b hb, hb⟩
    · intro b hb; exact .inl (g3 b hb)

theorem invB_step {s s' : St} (op : Op) (h : InvB s) (ho : okB s op) (hs : step s op = .ok s') : InvB s' := by
  have lift : ∀ {s2 : St}, (s.rs = .idle → LiveB s (s.objs s.cur)) → s2.reg = s.reg → s2.recs = s.recs → s2.dur = s.dur →
      s2.ever = s.ever → s2.com = s.com → s2.snap = s.snap → s2.fl = s.fl → s2.cur = s.cur → s2.pend = s.pend →
      s2.flFree = s.flFree → s.rs = .idle → LiveB s2 (s.objs s.cur) := by
    intro s2 hl e1 e2 e3 e4 e5 e6 e7 e8 e9 e10 hr
    have l := hl hr
    exact { sb := l.sb, reg := by rw [e1]; exact l.reg, cnone := by rw [e2, e3]; exact l.cnone,
            csome := by rw [e2, e3, e4, e5]; exact l.csome, idle := by rw [e7]; exact l.idle,
            ser := by rw [e4, e5, e6, e7, e8]; exact l.ser, disk := by rw [e4]; exact l.disk,
            com := by rw [e5]; exact l.com, rel := by rw [e9, e10, e5]; exact l.rel }
  cases op with
  | ioGet =>
    simp only [step] at hs; injection hs with hs; subst hs
    refine { kind := h.kind, held := ?_, wait := fun e => absurd ho e, made := h.made, got := h.got,
             live := lift h.live rfl rfl rfl rfl rfl rfl rfl rfl rfl rfl }
    intro i hi
    simp at hi
    rcases hi with rfl | hi
    · rfl
    · exact h.held i hi
  | ioDrop i =>
    simp only [step] at hs; injection hs with hs; subst hs
    refine { kind := h.kind, held := fun i hi => h.held i (List.mem_of_mem_erase hi), wait := ?_, made := h.made, got := h.got,
             live := lift h.live rfl rfl rfl rfl rfl rfl rfl rfl rfl rfl }
    intro hr
    have := h.wait hr
    exact ⟨by simp [this.1], this.2⟩
  | alloc i b => exact invB_alloc h hs
  | commit i b => exact invB_commit h ho hs
  | freeReq b => exact invB_freeReq h ho hs
  | flushGet => exact invB_flushGet h ho hs
  | flushRun bid => exact invB_flushRun h hs
  | flushWrite bid => exact invB_flushWrite h hs
  | flushFree => exact invB_flushFree h hs
  | rsReset =>
    simp only [step, doReset] at hs
    split at hs
    · rename_i hr
      injection hs with hs
      subst hs
      obtain ⟨o1, o2, o3, o4⟩ := ho
      have l := h.live hr
      refine { kind := h.kind, held := h.held, wait := ?_, made := by simp, got := h.got, live := by simp }
      intro _
      refine ⟨o1, o2, o3, o4, ?_, rfl⟩
      cases hk : (s.objs s.cur).cookie with
      | none => simp [(l.cnone hk).1]
      | some c => obtain ⟨d, h1, _⟩ := l.csome c hk; simp [h1]
    · simp at hs
  | rsCreate =>
    simp only [step, doCreate] at hs
    split at hs
    · rename_i hr
      injection hs with hs
      subst hs
      have hw := h.wait (by simp [hr])
      refine { kind := h.kind, held := by simp [hw.1], wait := fun _ => hw, made := ?_, got := h.got, live := by simp }
      intro j hj
      simp at hj
      subst hj
      exact ⟨by simp [h.kind], rfl⟩
    · simp at hs
  | rsSet =>
    simp only [step, doSet] at hs
    split at hs
    · rename_i j hr
      injection hs with hs
      subst hs
      have hw := h.wait (by simp [hr])
      obtain ⟨m1, m2⟩ := h.made j hr
      refine { kind := h.kind, held := by simp [hw.1], wait := by simp, made := by simp, got := by simp [hw.2.1], live := ?_ }
      intro _
      simp only [m1]
      exact { sb := rfl, reg := m2, cnone := fun _ => ⟨hw.2.2.2.2.1, rfl, rfl⟩, csome := by simp [fresh], idle := fun _ => rfl,
              ser := by simp [hw.2.1], disk := by simp [fresh], com := by simp, rel := by simp [hw.2.2.1, hw.2.2.2.1] }
    · simp at hs
  | crash => simp only [step] at hs; injection hs with hs; subst hs; exact invB_crash h ho

theorem invB_reach {total : Nat} {s : St} (h : Reach .bitmap total okB s) : InvB s := by
  induction h with
  | base => exact invB_init total
  | step op _ ho hs ih => exact invB_step op ih ho hs

theorem recs_casesB {s : St} (h : InvB s) : (s.recs = [] ∧ s.dur = []) ∨
    (∃ c d, s.recs = [⟨c, d⟩] ∧ (∀ b ∈ d, b ∈ s.ever) ∧ (∀ b ∈ s.dur, b ∈ d)) := by
  by_cases hr : s.rs = .idle
  · have l := h.live hr
    cases hc : (s.objs s.cur).cookie with
    | none => have := l.cnone hc; exact .inl ⟨this.1, this.2.1⟩
    | some c => obtain ⟨d, h1, h2, h3, _⟩ := l.csome c hc; exact .inr ⟨c, d, h1, h2, h3⟩
  · have := h.wait hr; exact .inl ⟨this.2.2.2.2.1, this.2.2.2.2.2⟩

/-- C117, bitmap allocators, with I/O and checkpoints held back during a reset: a block that counts as used
after a crash and a restart was committed since the last reset that returned. -/
theorem C117_bitmap_freed_partial (total : Nat) (s : St) (h : Reach .bitmap total okB s) (b : Nat)
    (hb : usedAfter s b) : b ∈ s.ever := by
  have hi := invB_reach h
  unfold usedAfter at hb
  rw [hi.kind] at hb
  rcases recs_casesB hi with ⟨h1, _⟩ | ⟨c, d, h1, h2, _⟩
  · simp [h1, recovered, winner, fresh] at hb
  · simp [h1, recovered, winner] at hb
    exact h2 b hb

/-- C117, bitmap allocators, the same condition: a block committed since the last reset, before a checkpoint
that completed, and not released, is in use after a crash and a restart. -/
theorem C117_bitmap_kept_partial (total : Nat) (s : St) (h : Reach .bitmap total okB s) (b : Nat)
    (hb : b ∈ s.dur) : usedAfter s b := by
  have hi := invB_reach h
  unfold usedAfter
  rw [hi.kind]
  rcases recs_casesB hi with ⟨_, h1⟩ | ⟨c, d, h1, _, h2⟩
  · simp [h1] at hb
  · simp [h1, recovered, winner, h2 b hb]

/-- C117, bitmap allocators, the same condition: when the reset returns no block is in use. -/
theorem C117_bitmap_empty_partial (total : Nat) (s s' : St) (h : Reach .bitmap total okB s)
    (hs : step s .rsSet = .ok s') (b : Nat) : ¬ usedNow s' b ∧ ¬ usedAfter s' b := by
  have hi := invB_reach h
  have h' : Reach .bitmap total okB s' := .step .rsSet h trivial hs
  refine ⟨?_, ?_⟩
  · simp only [step, doSet] at hs
    split at hs
    · rename_i j hr
      injection hs with hs
      subst hs
      simp [usedNow, (hi.made j hr).1, fresh]
    · simp at hs
  · intro hb
    have hc := C117_bitmap_freed_partial total s' h' b hb
    simp only [step, doSet] at hs
    split at hs
    · injection hs with hs
      subst hs
      simp at hc
    · simp at hs

/-- C117, bitmap allocators, the same condition: an allocation does not give a block that was committed since
the last reset and neither released nor lost in a crash. -/
theorem C117_bitmap_distinct_partial (total : Nat) (s s' : St) (h : Reach .bitmap total okB s) (i b : Nat)
    (hs : step s (.alloc i b) = .ok s') : b ∉ s.com := by
  have hB := invB_reach h
  simp only [step, doAlloc] at hs
  split at hs
  · simp at hs
  rename_i hi'
  have hi : i ∈ s.held := by simpa using hi'
  have hr := quiet_of_held hB hi
  have := hB.held i hi
  subst this
  have l := hB.live hr
  split at hs
  · simp at hs
  split at hs
  · simp at hs
  split at hs
  · simp at hs
  split at hs
  · rename_i hg
    simp [canGive, hB.kind] at hg
    intro hb
    rcases l.com b hb with e | ⟨a, e, ha⟩
    · exact hg (l.disk b e).2
    · cases hf : s.fl with
      | ser i d u =>
        obtain ⟨_, _, _, _, _, a', h6, _, h8, _⟩ := l.ser i d u hf
        rw [e] at h6; injection h6 with h6; subst h6
        exact hg (h8 b ha).2.2
      | idle => rw [l.idle (by simp [hf])] at e; simp at e
      | got i => rw [l.idle (by simp [hf])] at e; simp at e
  · simp at hs

/-- C117, bitmap allocators, the same condition: no null pointer, no freed memory and no release assert. -/
theorem C117_bitmap_safe_partial (total : Nat) (s : St) (h : Reach .bitmap total okB s) (op : Op)
    (ho : okB s op) : step s op ≠ .ub ∧ step s op ≠ .abort := by
  have hB := invB_reach h
  cases op with
  | ioGet => simp [step]
  | ioDrop i => simp [step]
  | alloc i b =>
    simp only [step, doAlloc]
    split
    · simp
    rename_i hi
    have := hB.held i (by simpa using hi)
    subst this
    simp only [alive_cur]
    rw [if_neg (by simp)]
    split
    · simp
    split
    · simp
    split <;> simp
  | commit i b =>
    simp only [step, doCommit, hB.kind]
    split
    · simp
    rename_i hi
    have hi' : i ∈ s.held := by simpa using hi
    have hr := quiet_of_held hB hi'
    have := hB.held i hi'
    subst this
    have l := hB.live hr
    simp only [alive_cur]
    rw [if_neg (by simp)]
    split
    · simp
    · rw [if_neg (by simp [l.sb]), if_neg ho.2.1]
      simp
  | freeReq b => simp [step, doFreeReq, hB.kind]
  | flushGet => simp only [step]; split <;> simp
  | flushRun bid =>
    simp only [step, doFlushRun]
    split
    · rename_i i hf
      have hc := hB.got i hf
      have hr := quiet_of_fl hB (by simp [hf])
      subst hc
      have l := hB.live hr
      split
      · simp
      · simp [hB.kind, l.sb]
    · simp
  | flushWrite bid =>
    simp only [step, doFlushWrite]
    split
    · rename_i i d u hf
      have hr := quiet_of_fl hB (by simp [hf])
      have l := hB.live hr
      obtain ⟨h1, h2, h3, h4, h5, a, h6, h7, h8, h9⟩ := l.ser i d u hf
      subst h1
      have hany : ¬ (a.any (fun b => decide (b ∈ (s.objs s.cur).disk)) = true ∨ ¬ a.Nodup) := by
        simp only [List.any_eq_true, decide_eq_true_eq, not_or, Decidable.not_not]
        exact ⟨fun ⟨x, hx, hx'⟩ => (h8 x hx).1 hx', h7⟩
      have hrel : ∀ c, (release { s.objs s.cur with cookie := c }).isSome = true := by
        intro c
        simp only [release, h6]
        rw [if_neg hany]
        rfl
      cases hk : (s.objs s.cur).cookie with
      | some c =>
        obtain ⟨d0, g1, _⟩ := l.csome c hk
        rw [hk] at h2
        subst h2
        have := hrel (some c)
        rw [← hk] at this
        obtain ⟨o, ho⟩ := Option.isSome_iff_exists.mp this
        have ho' : release (s.objs s.cur) = some o := ho
        simp [updRec, hk, g1, ho']
      | none =>
        rw [hk] at h2
        subst h2
        obtain ⟨o, ho⟩ := Option.isSome_iff_exists.mp (hrel (some bid))
        simp [addRec, l.reg, (l.cnone hk).1, ho]
    · simp
  | flushFree =>
    simp only [step, doFlushFree]
    split
    · rename_i b t hf hl
      have hr : s.rs = .idle := by
        by_cases hr : s.rs = .idle
        · exact hr
        · have := (hB.wait hr).2.2.2.1; rw [hl] at this; simp at this
      have l := hB.live hr
      have hb := (l.rel.2 b (by simp [hl])).1
      simp [hb]
    · simp
  | rsReset => simp only [step, doReset]; split <;> simp
  | rsCreate => simp only [step, doCreate]; split <;> simp
  | rsSet => simp only [step, doSet]; split <;> simp
  | crash => simp [step]

end HS.Reset
