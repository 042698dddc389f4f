import Verif.Reset.Model

/-!
# C117: after a chunk is reset, only what was stored since counts
-/
namespace HS.Reset

theorem mem_hi {b : Nat} {l : List Nat} (h : b ∈ l) : b < hi l := by
  induction l with
  | nil => simp at h
  | cons a l ih => simp only [hi]; simp at h; rcases h with h | h
                   · omega
                   · have := ih h; omega

theorem hi_mem {b : Nat} {l : List Nat} (h : b < hi l) : ∃ c ∈ l, b ≤ c := by
  induction l with
  | nil => simp [hi] at h
  | cons a l ih =>
    simp only [hi] at h
    by_cases h1 : b < a + 1
    · exact ⟨a, by simp, by omega⟩
    · obtain ⟨c, hc, hb⟩ := ih (by omega)
      exact ⟨c, by simp [hc], hb⟩

@[simp] theorem upd_same (f : Nat → Obj) (i : Nat) (o : Obj) : upd f i o i = o := by simp [upd]
theorem upd_ne (f : Nat → Obj) {i k : Nat} (o : Obj) (h : k ≠ i) : upd f i o k = f k := by simp [upd, h]

theorem alive_cur (s : St) : alive s s.cur = true := by simp [alive]

/-! ## The append allocator -/

/-- What holds of the allocator object the chunk has, while no reset is in progress. -/
structure Live (s : St) (o : Obj) : Prop where
  sb : o.sb = true
  reg : s.reg = true
  none : o.cookie = none → s.recs = [] ∧ s.dur = [] ∧ (o.dirty = false → o.disk = [])
  some : ∀ c, o.cookie = some c → ∃ d, s.recs = [⟨c, d⟩] ∧ (∀ b ∈ d, b ∈ s.ever) ∧
    (∀ b ∈ s.dur, b < hi d) ∧ (o.dirty = false → o.disk = d)
  disk : ∀ b ∈ o.disk, b ∈ s.ever
  com : ∀ b ∈ s.com, b < hi o.disk

structure InvA (s : St) : Prop where
  kind : s.kind = .append
  cur : s.cur < s.nobj
  got : ∀ i, s.fl = .got i → i < s.nobj ∧ s.rs ≠ .created i
  ser : ∀ i d u, s.fl ≠ .ser i d u
  held : ∀ i ∈ s.held, i < s.nobj ∧ s.rs ≠ .created i
  live : s.rs = .idle → Live s (s.objs s.cur)
  dead : s.rs ≠ .idle → s.recs = [] ∧ s.dur = [] ∧ (s.objs s.cur).sb = false
  made : ∀ j, s.rs = .created j → j < s.nobj ∧ j ≠ s.cur ∧ s.objs j = fresh .append ∧ s.reg = true
  lists : s.pend = [] ∧ s.flFree = []
  others : ∀ i, i < s.nobj → i ≠ s.cur → s.rs ≠ .created i → (s.objs i).sb = false

theorem invA_init (total : Nat) : InvA (init .append total) where
  kind := rfl
  cur := by simp [init]
  got := by simp [init]
  ser := by simp [init]
  held := by simp [init]
  live := by
    intro _
    exact { sb := rfl, reg := rfl, none := by simp [init, fresh], some := by simp [init, fresh],
            disk := by simp [init, fresh], com := by simp [init] }
  dead := by simp [init]
  made := by simp [init]
  lists := by simp [init]
  others := by intro i h1 h2; simp [init] at h1 h2; omega

theorem recovered_live {s : St} (h : InvA s) : Live (restart s) (recovered .append s.recs) := by
  have key : (s.recs = [] ∧ s.dur = []) ∨ (∃ c d, s.recs = [⟨c, d⟩] ∧ (∀ b ∈ d, b ∈ s.ever) ∧ (∀ b ∈ s.dur, b < hi d)) := by
    by_cases hr : s.rs = .idle
    · have l := h.live hr
      cases hc : (s.objs s.cur).cookie with
      | none => have := l.none hc; exact .inl ⟨this.1, this.2.1⟩
      | some c => obtain ⟨d, h1, h2, h3, _⟩ := l.some c hc; exact .inr ⟨c, d, h1, h2, h3⟩
    · have := h.dead hr; exact .inl ⟨this.1, this.2.1⟩
  rcases key with ⟨h1, h2⟩ | ⟨c, d, h1, h2, h3⟩
  · rw [h1]
    refine { sb := rfl, reg := rfl, none := ?_, some := ?_, disk := ?_, com := ?_ } <;>
      simp [recovered, winner, fresh, restart, h1, h2]
  · rw [h1]
    refine { sb := rfl, reg := rfl, none := ?_, some := ?_, disk := ?_, com := ?_ }
    · simp [recovered, winner]
    · simp only [recovered, winner, restart, h1]
      intro c' hc'
      simp at hc'
      subst hc'
      exact ⟨d, rfl, h2, h3, fun _ => rfl⟩
    · simpa [recovered, winner, restart] using h2
    · simpa [recovered, winner, restart] using h3

theorem invA_restart {s : St} (h : InvA s) : InvA (restart s) where
  kind := h.kind
  cur := by simp [restart]
  got := by simp [restart]
  ser := by simp [restart]
  held := by simp [restart]
  live := by
    intro _
    have := recovered_live h
    simpa [restart, h.kind] using this
  dead := by simp [restart]
  made := by simp [restart]
  lists := by simp [restart]
  others := by intro i h1 h2; simp [restart] at h1 h2; omega

theorem invA_alloc {s s' : St} {i b : Nat} (h : InvA s) (hs : doAlloc s i b = .ok s') : InvA s' := by
  unfold doAlloc at hs
  split at hs
  · simp at hs
  split at hs
  · simp at hs
  split at hs
  · simp at hs
  split at hs
  · simp at hs
  split at hs
  · injection hs with hs
    subst hs
    rename_i hi' _ _ _ _
    have hi : i ∈ s.held := by simpa using hi'
    have hj := (h.held i hi).2
    refine { kind := h.kind, cur := h.cur, got := h.got, ser := h.ser, held := h.held, live := ?_, dead := ?_,
             made := ?_, others := ?_, lists := h.lists }
    · intro hr
      have l := h.live hr
      by_cases hc : s.cur = i
      · subst hc
        exact { sb := by simpa using l.sb, reg := l.reg, none := by simpa using l.none,
                some := by simpa using l.some, disk := by simpa using l.disk, com := by simpa using l.com }
      · simp only [upd_ne _ _ hc]
        exact { sb := l.sb, reg := l.reg, none := l.none, some := l.some, disk := l.disk, com := l.com }
    · intro hr
      have := h.dead hr
      refine ⟨this.1, this.2.1, ?_⟩
      by_cases hc : s.cur = i
      · subst hc; simpa using this.2.2
      · simpa [upd_ne _ _ hc] using this.2.2
    · intro j hr
      have := h.made j hr
      have hne : j ≠ i := by rintro rfl; exact hj hr
      simpa [upd_ne _ _ hne] using this
    · intro k h1 h2 h3
      have := h.others k h1 h2 h3
      by_cases hc : k = i
      · subst hc; simpa using this
      · simpa [upd_ne _ _ hc] using this
  · simp at hs

theorem invA_commit {s s' : St} {i b : Nat} (h : InvA s) (hs : doCommit s i b = .ok s') : InvA s' := by
  unfold doCommit at hs
  split at hs
  · simp at hs
  split at hs
  · simp at hs
  rename_i hi' _
  have hi : i ∈ s.held := by simpa using hi'
  have hj := (h.held i hi).2
  simp only [h.kind] at hs
  split at hs
  · rename_i hge
    injection hs with hs
    subst hs
    by_cases hc : i = s.cur
    · subst hc
      simp only [if_true]
      refine { kind := rfl, cur := h.cur, got := h.got, ser := h.ser, held := h.held, live := ?_,
               dead := h.dead, made := h.made, others := h.others, lists := h.lists }
      intro hr
      have l := h.live hr
      refine { sb := l.sb, reg := l.reg, none := l.none, some := ?_, disk := ?_, com := ?_ }
      · intro c hc
        obtain ⟨d, h1, h2, h3, h4⟩ := l.some c hc
        exact ⟨d, h1, fun b hb => by simp [h2 b hb], h3, h4⟩
      · intro b hb; simp [l.disk b hb]
      · intro x hx
        simp at hx
        rcases hx with rfl | hx
        · exact Nat.lt_of_succ_le hge
        · exact l.com x hx
    · simpa [hc] using h
  · injection hs with hs
    subst hs
    by_cases hc : i = s.cur
    · subst hc
      simp only [if_true]
      refine { kind := rfl, cur := h.cur, got := h.got, ser := h.ser, held := h.held, live := ?_, dead := ?_,
               made := ?_, others := ?_, lists := h.lists }
      · intro hr
        have l := h.live hr
        simp only [upd_same]
        refine { sb := l.sb, reg := l.reg, none := ?_, some := ?_, disk := ?_, com := ?_ }
        · intro hc; have := l.none hc; exact ⟨this.1, this.2.1, by simp⟩
        · intro c hc
          obtain ⟨d, h1, h2, h3, h4⟩ := l.some c hc
          exact ⟨d, h1, fun b hb => by simp [h2 b hb], h3, by simp⟩
        · intro x hx
          simp at hx
          rcases hx with rfl | hx
          · simp
          · simp [l.disk x hx]
        · intro x hx
          simp at hx
          simp only [HS.Reset.hi]
          rcases hx with rfl | hx
          · omega
          · have := l.com x hx; omega
      · intro hr
        have := h.dead hr
        exact ⟨this.1, this.2.1, by simpa using this.2.2⟩
      · intro j hr
        have := h.made j hr
        have hne : j ≠ s.cur := this.2.1
        simpa [upd_ne _ _ hne] using this
      · intro k h1 h2 h3
        have := h.others k h1 h2 h3
        simpa [upd_ne _ _ h2] using this
    · simp only [hc, if_false]
      have hc' : s.cur ≠ i := fun e => hc e.symm
      refine { kind := h.kind, cur := h.cur, got := h.got, ser := h.ser, held := h.held, live := ?_, dead := ?_,
               made := ?_, others := ?_, lists := h.lists }
      · intro hr
        have l := h.live hr
        simp only [upd_ne _ _ hc']
        exact { sb := l.sb, reg := l.reg, none := l.none, some := l.some, disk := l.disk, com := l.com }
      · intro hr
        have := h.dead hr
        refine ⟨this.1, this.2.1, ?_⟩
        simpa [upd_ne _ _ hc'] using this.2.2
      · intro j hr
        have := h.made j hr
        have hne : j ≠ i := by rintro rfl; exact hj hr
        simpa [upd_ne _ _ hne] using this
      · intro k h1 h2 h3
        have := h.others k h1 h2 h3
        by_cases hk : k = i
        · subst hk; simpa using this
        · simpa [upd_ne _ _ hk] using this

theorem invA_freeReq {s s' : St} {b : Nat} (h : InvA s) (hs : doFreeReq s b = .ok s') : InvA s' := by
  simp only [doFreeReq, h.kind] at hs
  injection hs with hs
  subst hs
  refine { kind := rfl, cur := h.cur, got := h.got, ser := h.ser, held := h.held, live := ?_, dead := ?_,
           made := ?_, others := ?_, lists := h.lists }
  · intro hr
    have l := h.live hr
    simp only [upd_same]
    refine { sb := l.sb, reg := l.reg, none := ?_, some := ?_, disk := l.disk, com := l.com }
    · intro hc; have := l.none hc; exact ⟨this.1, this.2.1, by simp⟩
    · intro c hc
      obtain ⟨d, h1, h2, h3, h4⟩ := l.some c hc
      exact ⟨d, h1, h2, h3, by simp⟩
  · intro hr
    have := h.dead hr
    exact ⟨this.1, this.2.1, by simpa using this.2.2⟩
  · intro j hr
    have := h.made j hr
    have hne : j ≠ s.cur := this.2.1
    simpa [upd_ne _ _ hne] using this
  · intro k h1 h2 h3
    have := h.others k h1 h2 h3
    simpa [upd_ne _ _ h2] using this

/-- A flush that has something to write: it is of the object the chunk has, and no reset is in progress. -/
theorem flush_cur {s : St} (h : InvA s) {i : Nat} (hf : s.fl = .got i) (hsb : (s.objs i).sb ≠ false) :
    i = s.cur ∧ s.rs = .idle := by
  have hg := h.got i hf
  have hc : i = s.cur := by
    by_cases hc : i = s.cur
    · exact hc
    · exact absurd (h.others i hg.1 hc hg.2) hsb
  refine ⟨hc, ?_⟩
  by_cases hr : s.rs = .idle
  · exact hr
  · have := (h.dead hr).2.2
    rw [← hc] at this
    exact absurd this hsb

theorem invA_flushRun {s s' : St} {bid : Nat} (h : InvA s) (hs : doFlushRun s bid = .ok s') : InvA s' := by
  unfold doFlushRun at hs
  split at hs
  · rename_i i hf
    split at hs
    · rename_i hd
      injection hs with hs
      subst hs
      refine { kind := h.kind, cur := h.cur, got := by simp [flushed], ser := by simp [flushed], held := h.held,
               live := ?_, dead := ?_, made := h.made, others := h.others, lists := h.lists }
      · intro hr
        have hr' : s.rs = .idle := hr
        have l := h.live hr'
        simp only [flushed, hr', and_true]
        by_cases hc : i = s.cur
        · subst hc
          refine { sb := l.sb, reg := l.reg, none := ?_, some := ?_, disk := l.disk, com := l.com }
          · intro hc
            have := l.none hc
            refine ⟨this.1, ?_, this.2.2⟩
            have hcom := l.com
            have hdisk := this.2.2 hd
            simp only [if_true]
            cases hl : s.com with
            | nil => rfl
            | cons a t => have := hcom a (by simp [hl]); rw [hdisk] at this; simp [HS.Reset.hi] at this
          · intro c hc
            obtain ⟨d, h1, h2, h3, h4⟩ := l.some c hc
            refine ⟨d, h1, h2, ?_, h4⟩
            simp only [if_true]
            intro b hb
            have := l.com b hb
            rwa [h4 hd] at this
        · simp only [hc, if_false]
          exact { sb := l.sb, reg := l.reg, none := l.none, some := l.some, disk := l.disk, com := l.com }
      · intro hr
        have hr' : s.rs ≠ .idle := hr
        simpa [flushed, hr'] using h.dead hr'
    · rename_i hd
      simp only [h.kind] at hs
      split at hs
      · simp at hs
      rename_i hsb
      obtain ⟨hc, hr⟩ := flush_cur h hf hsb
      subst hc
      have l := h.live hr
      cases hk : (s.objs s.cur).cookie with
      | some c =>
        obtain ⟨d, h1, h2, h3, h4⟩ := l.some c hk
        simp only [hk, updRec, upd_same, h1] at hs
        simp at hs
        subst hs
        refine { kind := rfl, cur := h.cur, got := by simp [flushed], ser := by simp [flushed], held := h.held,
                 live := ?_, dead := by simp [flushed, hr], made := by simp [flushed, hr], others := ?_, lists := h.lists }
        · intro _
          simp only [flushed, hr, upd_same]
          refine { sb := l.sb, reg := l.reg, none := by simp [hk], some := ?_, disk := l.disk, com := l.com }
          intro c' hc'
          simp [hk] at hc'
          subst hc'
          exact ⟨(s.objs s.cur).disk, rfl, l.disk, by simpa using l.com, fun _ => rfl⟩
        · intro k h1 h2 h3
          have h2' : k ≠ s.cur := h2
          have := h.others k h1 h2' h3
          simpa [flushed, upd_ne _ _ h2'] using this
      | none =>
        have hn := l.none hk
        simp only [hk, addRec, l.reg, hn.1] at hs
        simp at hs
        subst hs
        refine { kind := rfl, cur := h.cur, got := by simp [flushed], ser := by simp [flushed], held := h.held,
                 live := ?_, dead := by simp [flushed, hr], made := by simp [flushed, hr], others := ?_, lists := h.lists }
        · intro _
          simp only [flushed, hr, upd_same]
          refine { sb := l.sb, reg := rfl, none := by simp, some := ?_, disk := l.disk, com := l.com }
          intro c' hc'
          simp at hc'
          subst hc'
          exact ⟨(s.objs s.cur).disk, rfl, l.disk, by simpa using l.com, fun _ => rfl⟩
        · intro k h1 h2 h3
          have h2' : k ≠ s.cur := h2
          have := h.others k h1 h2' h3
          simpa [flushed, upd_ne _ _ h2'] using this
  · simp at hs

theorem invA_flushFree {s s' : St} (h : InvA s) (hs : doFlushFree s = .ok s') : InvA s' := by
  simp [doFlushFree, h.lists.2] at hs

theorem invA_reset {s s' : St} (h : InvA s) (hs : doReset s = .ok s') : InvA s' := by
  unfold doReset at hs
  split at hs
  · rename_i hr
    injection hs with hs
    subst hs
    have l := h.live hr
    refine { kind := h.kind, cur := h.cur, got := ?_, ser := h.ser, held := ?_, live := by simp, dead := ?_,
             made := by simp, others := ?_, lists := h.lists }
    · intro i hf; exact ⟨(h.got i hf).1, by simp⟩
    · intro i hf; exact ⟨(h.held i hf).1, by simp⟩
    · intro _
      refine ⟨?_, rfl, by simp [h.kind]⟩
      cases hk : (s.objs s.cur).cookie with
      | none => simp [(l.none hk).1]
      | some c => obtain ⟨d, h1, _⟩ := l.some c hk; simp [h1]
    · intro k h1 h2 h3
      have := h.others k h1 h2 (by simp [hr])
      simpa [upd_ne _ _ h2] using this
  · simp at hs

theorem invA_create {s s' : St} (h : InvA s) (hs : doCreate s = .ok s') : InvA s' := by
  unfold doCreate at hs
  split at hs
  · rename_i hr
    injection hs with hs
    subst hs
    have hd := h.dead (by simp [hr])
    have hcn : s.cur ≠ s.nobj := by have := h.cur; omega
    refine { kind := h.kind, cur := by have := h.cur; simp; omega, got := ?_, ser := h.ser, held := ?_, live := by simp,
             dead := ?_, made := ?_, others := ?_, lists := h.lists }
    · intro i hf; have := (h.got i hf).1; exact ⟨by simp; omega, by simp; omega⟩
    · intro i hf; have := (h.held i hf).1; exact ⟨by simp; omega, by simp; omega⟩
    · intro _; exact ⟨hd.1, hd.2.1, by simpa [upd_ne _ _ hcn] using hd.2.2⟩
    · intro j hj
      simp at hj
      subst hj
      exact ⟨by simp, fun e => hcn e.symm, by simp [h.kind], rfl⟩
    · intro k h1 h2 h3
      simp at h3
      have h1' : k < s.nobj + 1 := h1
      have hk : k ≠ s.nobj := by omega
      have := h.others k (by omega) h2 (by simp [hr])
      simpa [upd_ne _ _ hk] using this
  · simp at hs

theorem invA_set {s s' : St} (h : InvA s) (hs : doSet s = .ok s') : InvA s' := by
  unfold doSet at hs
  split at hs
  · rename_i j hr
    injection hs with hs
    subst hs
    obtain ⟨h1, h2, h3, h4⟩ := h.made j hr
    have hd := h.dead (by simp [hr])
    refine { kind := h.kind, cur := h1, got := ?_, ser := h.ser, held := ?_, live := ?_, dead := by simp,
             made := by simp, others := ?_, lists := h.lists }
    · intro i hf; exact ⟨(h.got i hf).1, by simp⟩
    · intro i hf; exact ⟨(h.held i hf).1, by simp⟩
    · intro _
      simp only [h3]
      exact { sb := rfl, reg := h4, none := fun _ => ⟨hd.1, rfl, fun _ => rfl⟩, some := by simp [fresh],
              disk := by simp [fresh], com := by simp }
    · intro k hk1 hk2 _
      by_cases hkc : k = s.cur
      · subst hkc; exact hd.2.2
      · exact h.others k hk1 hkc (by rw [hr]; intro e; injection e with e; exact hk2 e.symm)
  · simp at hs

theorem invA_step {s s' : St} (op : Op) (h : InvA s) (hs : step s op = .ok s') : InvA s' := by
  cases op with
  | ioGet =>
    simp only [step] at hs; injection hs with hs; subst hs
    refine { kind := h.kind, cur := h.cur, got := h.got, ser := h.ser, held := ?_,
             live := fun hr => let l := h.live hr; { sb := l.sb, reg := l.reg, none := l.none, some := l.some, disk := l.disk, com := l.com },
             dead := h.dead, made := h.made, others := h.others, lists := h.lists }
    intro i hi
    simp at hi
    rcases hi with rfl | hi
    · exact ⟨h.cur, fun e => (h.made _ e).2.1 rfl⟩
    · exact h.held i hi
  | ioDrop i =>
    simp only [step] at hs; injection hs with hs; subst hs
    exact { kind := h.kind, cur := h.cur, got := h.got, ser := h.ser, held := fun i hi => h.held i (List.mem_of_mem_erase hi),
            live := fun hr => let l := h.live hr; { sb := l.sb, reg := l.reg, none := l.none, some := l.some, disk := l.disk, com := l.com },
            dead := h.dead, made := h.made, others := h.others, lists := h.lists }
  | alloc i b => exact invA_alloc h hs
  | commit i b => exact invA_commit h hs
  | freeReq b => exact invA_freeReq h hs
  | flushGet =>
    simp only [step] at hs
    split at hs
    · injection hs with hs; subst hs
      refine { kind := h.kind, cur := h.cur, got := ?_, ser := by simp, held := h.held,
               live := fun hr => let l := h.live hr; { sb := l.sb, reg := l.reg, none := l.none, some := l.some, disk := l.disk, com := l.com },
               dead := h.dead, made := h.made, others := h.others, lists := ⟨rfl, h.lists.1⟩ }
      intro i hi
      simp at hi
      subst hi
      exact ⟨h.cur, fun e => (h.made _ e).2.1 rfl⟩
    · simp at hs
  | flushRun bid => exact invA_flushRun h hs
  | flushWrite bid =>
    simp only [step, doFlushWrite] at hs
    split at hs
    · rename_i hf; exact absurd hf (h.ser _ _ _)
    · simp at hs
  | flushFree => exact invA_flushFree h hs
  | rsReset => exact invA_reset h hs
  | rsCreate => exact invA_create h hs
  | rsSet => exact invA_set h hs
  | crash => simp only [step] at hs; injection hs with hs; subst hs; exact invA_restart h

/-- Any schedule. -/
def any (_ : St) (_ : Op) : Prop := True

theorem invA_reach {total : Nat} {ok : St → Op → Prop} {s : St} (h : Reach .append total ok s) : InvA s := by
  induction h with
  | base => exact invA_init total
  | step op _ _ hs ih => exact invA_step op ih hs

theorem recs_cases {s : St} (h : InvA s) : (s.recs = [] ∧ s.dur = []) ∨
    (∃ c d, s.recs = [⟨c, d⟩] ∧ (∀ b ∈ d, b ∈ s.ever) ∧ (∀ b ∈ s.dur, b < hi d)) := by
  by_cases hr : s.rs = .idle
  · have l := h.live hr
    cases hc : (s.objs s.cur).cookie with
    | none => have := l.none hc; exact .inl ⟨this.1, this.2.1⟩
    | some c => obtain ⟨d, h1, h2, h3, _⟩ := l.some c hc; exact .inr ⟨c, d, h1, h2, h3⟩
  · have := h.dead hr; exact .inl ⟨this.1, this.2.1⟩

/-- C117, append allocator, every schedule of resets, checkpoints, I/O and crashes: a block that counts as used
after a crash and a restart is not beyond the highest block committed since the last reset that returned. -/
theorem C117_append_freed (total : Nat) (s : St) (h : Reach .append total any s) (b : Nat)
    (hb : usedAfter s b) : ∃ c ∈ s.ever, b ≤ c := by
  have hi := invA_reach h
  unfold usedAfter at hb
  rw [hi.kind] at hb
  rcases recs_cases hi with ⟨h1, _⟩ | ⟨c, d, h1, h2, _⟩
  · simp [h1, recovered, winner, fresh] at hb
  · simp [h1, recovered, winner] at hb
    obtain ⟨x, hx, hbx⟩ := hi_mem hb
    exact ⟨x, h2 x hx, hbx⟩

/-- C117, append allocator, every schedule: a block committed since the last reset, before a checkpoint that
completed, is in use after a crash and a restart. -/
theorem C117_append_kept (total : Nat) (s : St) (h : Reach .append total any s) (b : Nat)
    (hb : b ∈ s.dur) : usedAfter s b := by
  have hi := invA_reach h
  unfold usedAfter
  rw [hi.kind]
  rcases recs_cases hi with ⟨_, h1⟩ | ⟨c, d, h1, _, h2⟩
  · simp [h1] at hb
  · simp [h1, recovered, winner, h2 b hb]

/-- C117, append allocator, every schedule: when the reset returns no block is in use, and none is after a
crash at that moment. -/
theorem C117_append_empty (total : Nat) (s s' : St) (h : Reach .append total any s)
    (hs : step s .rsSet = .ok s') (b : Nat) : ¬ usedNow s' b ∧ ¬ usedAfter s' b := by
  have hi := invA_reach h
  have h' : Reach .append total any s' := .step .rsSet h trivial hs
  refine ⟨?_, ?_⟩
  · simp only [step, doSet] at hs
    split at hs
    · rename_i j hr
      injection hs with hs
      subst hs
      simp [usedNow, (hi.made j hr).2.2.1, fresh]
    · simp at hs
  · intro hb
    obtain ⟨c, hc, _⟩ := C117_append_freed total s' h' b hb
    simp only [step, doSet] at hs
    split at hs
    · injection hs with hs
      subst hs
      simp at hc
    · simp at hs

/-! ### With the I/O of the chunk held back during a reset -/

/-- The user holds back I/O on the chunk while it is reset, and commits blocks it was given. -/
def okA (s : St) : Op → Prop
  | .ioGet => s.rs = .idle
  | .freeReq _ => s.rs = .idle
  | .rsReset => s.held = []
  | .commit i b => b ∈ (s.objs i).mem
  | _ => True

def okAB (s : St) : Op → Bool
  | .ioGet => s.rs == .idle
  | .freeReq _ => s.rs == .idle
  | .rsReset => s.held == []
  | .commit i b => (s.objs i).mem.contains b
  | _ => true

theorem okAB_okA {s : St} {op : Op} (h : okAB s op = true) : okA s op := by
  cases op <;> simp_all [okAB, okA]

structure InvC (s : St) : Prop where
  held : ∀ i ∈ s.held, i = s.cur
  heldq : s.rs ≠ .idle → s.held = []
  clean : ∀ i, (s.objs i).sb = false → (s.objs i).dirty = false
  full : ∀ i, ∀ b ∈ (s.objs i).mem, b < (s.objs i).mem.length
  com : s.rs = .idle → ∀ b ∈ s.com, b ∈ (s.objs s.cur).mem

theorem invC_init (total : Nat) : InvC (init .append total) where
  held := by simp [init]
  heldq := by simp [init]
  clean := by simp [init, fresh]
  full := by simp [init, fresh]
  com := by simp [init]

theorem invC_upd {f : Nat → Obj} {i : Nat} {o : Obj} {P : Obj → Prop} (h : ∀ k, P (f k)) (ho : P o) (k : Nat) :
    P (upd f i o k) := by
  by_cases hk : k = i
  · subst hk; simpa using ho
  · simpa [upd_ne _ _ hk] using h k

theorem full_cons {l : List Nat} (h : ∀ b ∈ l, b < l.length) : ∀ b ∈ l.length :: l, b < (l.length :: l).length := by
  intro b hb
  simp at hb ⊢
  rcases hb with rfl | hb
  · omega
  · have := h b hb; omega

/-- A step that changes the object `i` without changing what it has in use, and nothing in the user's record. -/
theorem invC_obj {s s' : St} (h : InvC s) (i : Nat) (o : Obj) (hm : o.mem = (s.objs i).mem)
    (hc : o.sb = false → o.dirty = false) (e1 : s'.held = s.held) (e2 : s'.cur = s.cur) (e3 : s'.rs = s.rs)
    (e4 : s'.com = s.com) (e5 : s'.objs = upd s.objs i o) : InvC s' where
  held := by rw [e1, e2]; exact h.held
  heldq := by rw [e1, e3]; exact h.heldq
  clean := by rw [e5]; exact invC_upd (P := fun o => o.sb = false → o.dirty = false) h.clean hc
  full := by
    rw [e5]
    exact invC_upd (P := fun o => ∀ b ∈ o.mem, b < o.mem.length) h.full (by rw [hm]; exact h.full i)
  com := by
    rw [e3, e4, e5, e2]
    intro hr b hb
    have := h.com hr b hb
    by_cases hk : s.cur = i
    · subst hk; simpa [hm] using this
    · simpa [upd_ne _ _ hk] using this

theorem invC_step {s s' : St} (op : Op) (hA : InvA s) (h : InvC s) (ho : okA s op)
    (hs : step s op = .ok s') : InvC s' := by
  cases op with
  | ioGet =>
    simp only [step] at hs; injection hs with hs; subst hs
    refine { held := ?_, heldq := fun hr => absurd ho hr, clean := h.clean, full := h.full, com := h.com }
    intro i hi
    simp at hi
    rcases hi with rfl | hi
    · rfl
    · exact h.held i hi
  | ioDrop i =>
    simp only [step] at hs; injection hs with hs; subst hs
    refine { held := fun i hi => h.held i (List.mem_of_mem_erase hi), heldq := ?_, clean := h.clean, full := h.full, com := h.com }
    intro hr
    have := h.heldq hr
    simp [this]
  | alloc i b =>
    simp only [step, doAlloc] at hs
    split at hs
    · simp at hs
    split at hs
    · simp at hs
    split at hs
    · simp at hs
    split at hs
    · simp at hs
    split at hs
    · rename_i hg
      injection hs with hs
      subst hs
      simp [canGive, hA.kind] at hg
      subst hg
      refine { held := h.held, heldq := h.heldq, clean := ?_, full := ?_, com := ?_ }
      · exact invC_upd (P := fun o => o.sb = false → o.dirty = false) h.clean (h.clean i)
      · exact invC_upd (P := fun o => ∀ b ∈ o.mem, b < o.mem.length) h.full (full_cons (h.full i))
      · intro hr b hb
        have := h.com hr b hb
        by_cases hk : s.cur = i
        · subst hk; simp [this]
        · simpa [upd_ne _ _ hk] using this
    · simp at hs
  | commit i b =>
    simp only [step, doCommit] at hs
    split at hs
    · simp at hs
    split at hs
    · simp at hs
    rename_i hi' _
    have hi : i ∈ s.held := by simpa using hi'
    have hc := h.held i hi
    subst hc
    have hr : s.rs = .idle := by
      by_cases hr : s.rs = .idle
      · exact hr
      · rw [h.heldq hr] at hi; simp at hi
    have l := hA.live hr
    have ho' : b ∈ (s.objs s.cur).mem := ho
    simp only [hA.kind, if_true] at hs
    split at hs
    · injection hs with hs
      subst hs
      refine { held := h.held, heldq := h.heldq, clean := h.clean, full := h.full, com := ?_ }
      intro hr x hx
      simp at hx
      rcases hx with rfl | hx
      · exact ho'
      · exact h.com hr x hx
    · injection hs with hs
      subst hs
      refine { held := h.held, heldq := h.heldq, clean := ?_, full := ?_, com := ?_ }
      · exact invC_upd (P := fun o => o.sb = false → o.dirty = false) h.clean (by simp [l.sb])
      · exact invC_upd (P := fun o => ∀ b ∈ o.mem, b < o.mem.length) h.full (h.full s.cur)
      · intro hr x hx
        simp at hx ⊢
        rcases hx with rfl | hx
        · exact ho'
        · exact h.com hr x hx
  | freeReq b =>
    simp only [step, doFreeReq, hA.kind] at hs
    injection hs with hs
    have l := hA.live ho
    subst hs
    exact invC_obj h s.cur { s.objs s.cur with dirty := true } rfl (by simp [l.sb]) rfl rfl rfl rfl rfl
  | flushGet =>
    simp only [step] at hs
    split at hs
    · injection hs with hs; subst hs
      exact { held := h.held, heldq := h.heldq, clean := h.clean, full := h.full, com := h.com }
    · simp at hs
  | flushRun bid =>
    simp only [step, doFlushRun] at hs
    split at hs
    · rename_i i hf
      split at hs
      · injection hs with hs; subst hs
        exact { held := h.held, heldq := h.heldq, clean := h.clean, full := h.full, com := h.com }
      · simp only [hA.kind] at hs
        split at hs
        · simp at hs
        rename_i hsb
        obtain ⟨hc, hr⟩ := flush_cur hA hf hsb
        subst hc
        have l := hA.live hr
        cases hk : (s.objs s.cur).cookie with
        | some c =>
          obtain ⟨d, h1, h2, h3, h4⟩ := l.some c hk
          simp only [hk, updRec, upd_same, h1] at hs
          simp at hs
          subst hs
          exact invC_obj h s.cur { s.objs s.cur with dirty := false } rfl (by simp) rfl rfl rfl rfl (by simp [flushed, hk])
        | none =>
          have hn := l.none hk
          simp only [hk, addRec, l.reg, hn.1] at hs
          simp at hs
          subst hs
          have h1 : InvC { s with objs := upd s.objs s.cur { s.objs s.cur with dirty := false } } :=
            invC_obj h s.cur { s.objs s.cur with dirty := false } rfl (by simp) rfl rfl rfl rfl rfl
          refine invC_obj h1 s.cur { s.objs s.cur with dirty := false, cookie := some bid } ?_ (by simp) rfl rfl rfl rfl ?_
          · simp
          · simp [flushed, hk]
    · simp at hs
  | flushWrite bid =>
    simp only [step, doFlushWrite] at hs
    split at hs
    · rename_i hf; exact absurd hf (hA.ser _ _ _)
    · simp at hs
  | flushFree => simp [step, doFlushFree, hA.lists.2] at hs
  | rsReset =>
    simp only [step, doReset] at hs
    split at hs
    · injection hs with hs
      subst hs
      have ho' : s.held = [] := ho
      refine { held := h.held, heldq := fun _ => ho', clean := ?_, full := ?_, com := by simp }
      · exact invC_upd (P := fun o => o.sb = false → o.dirty = false) h.clean (by simp [hA.kind])
      · refine invC_upd (P := fun o => ∀ b ∈ o.mem, b < o.mem.length) h.full ?_
        simpa [hA.kind] using h.full s.cur
    · simp at hs
  | rsCreate =>
    simp only [step, doCreate] at hs
    split at hs
    · rename_i hr
      injection hs with hs
      subst hs
      have hh := h.heldq (by simp [hr])
      refine { held := h.held, heldq := fun _ => hh, clean := ?_, full := ?_, com := by simp }
      · exact invC_upd (P := fun o => o.sb = false → o.dirty = false) h.clean (by simp [fresh])
      · exact invC_upd (P := fun o => ∀ b ∈ o.mem, b < o.mem.length) h.full (by simp [fresh])
    · simp at hs
  | rsSet =>
    simp only [step, doSet] at hs
    split at hs
    · rename_i hr
      injection hs with hs
      subst hs
      have hh := h.heldq (by simp [hr])
      exact { held := by simp [hh], heldq := by simp, clean := h.clean, full := h.full, com := by simp }
    · simp at hs
  | crash =>
    simp only [step] at hs; injection hs with hs; subst hs
    refine { held := by simp [restart], heldq := by simp [restart], clean := ?_, full := ?_, com := ?_ }
    · refine invC_upd (P := fun o => o.sb = false → o.dirty = false) h.clean ?_
      intro hsb
      have := (recovered_live hA).sb
      rw [hA.kind] at hsb
      rw [hsb] at this
      simp at this
    · refine invC_upd (P := fun o => ∀ b ∈ o.mem, b < o.mem.length) h.full ?_
      rw [hA.kind]
      unfold recovered
      cases winner s.recs <;> simp [fresh]
    · intro _ b hb
      have hb' : b ∈ s.dur := hb
      simp only [restart, upd_same, hA.kind]
      rcases recs_cases hA with ⟨_, h1⟩ | ⟨c, d, h1, _, h2⟩
      · simp [h1] at hb'
      · simp [h1, recovered, winner, h2 b hb']

theorem invC_reach {total : Nat} {s : St} (h : Reach .append total okA s) : InvC s := by
  induction h with
  | base => exact invC_init total
  | step op hr ho hs ih => exact invC_step op (invA_reach hr) ih ho hs

/-- C117, append allocator: no null pointer, no freed memory and no release assert, whenever the checkpoint
flushes, if the I/O of the chunk is held back during a reset. -/
theorem C117_append_safe_partial (total : Nat) (s : St) (h : Reach .append total okA s) (op : Op)
    (ho : okA s op) : step s op ≠ .ub ∧ step s op ≠ .abort := by
  have hA := invA_reach h
  have hC := invC_reach h
  cases op with
  | ioGet => simp [step]
  | ioDrop i => simp [step]
  | alloc i b =>
    simp only [step, doAlloc]
    split
    · simp
    rename_i hi
    have := hC.held i (by simpa using hi)
    subst this
    simp only [alive_cur]
    rw [if_neg (by simp)]
    split
    · simp
    split
    · simp
    split <;> simp
  | commit i b =>
    simp only [step, doCommit, hA.kind]
    split
    · simp
    rename_i hi
    have := hC.held i (by simpa using hi)
    subst this
    simp only [alive_cur]
    rw [if_neg (by simp)]
    split <;> simp
  | freeReq b => simp [step, doFreeReq, hA.kind]
  | flushGet => simp only [step]; split <;> simp
  | flushRun bid =>
    simp only [step, doFlushRun]
    split
    · rename_i i hf
      split
      · simp
      rename_i hd
      simp only [hA.kind]
      split
      · rename_i hsb; exact absurd (hC.clean i hsb) hd
      rename_i hsb
      obtain ⟨hc, hr⟩ := flush_cur hA hf hsb
      subst hc
      have l := hA.live hr
      cases hk : (s.objs s.cur).cookie with
      | some c =>
        obtain ⟨d, h1, _⟩ := l.some c hk
        simp [updRec, h1]
      | none => simp [addRec, l.reg, (l.none hk).1]
    · simp
  | flushWrite bid =>
    simp only [step, doFlushWrite]
    split
    · rename_i hf; exact absurd hf (hA.ser _ _ _)
    · simp
  | flushFree => simp [step, doFlushFree, hA.lists.2]
  | rsReset => simp only [step, doReset]; split <;> simp
  | rsCreate => simp only [step, doCreate]; split <;> simp
  | rsSet => simp only [step, doSet]; split <;> simp
  | crash => simp [step]

/-- C117, append allocator: under the same condition an allocation does not give a block that was committed
since the last reset and is not lost in a crash. -/
theorem C117_append_distinct_partial (total : Nat) (s s' : St) (h : Reach .append total okA s) (i b : Nat)
    (hs : step s (.alloc i b) = .ok s') : b ∉ s.com := by
  have hA := invA_reach h
  have hC := invC_reach h
  simp only [step, doAlloc] at hs
  split at hs
  · simp at hs
  rename_i hi'
  have hi : i ∈ s.held := by simpa using hi'
  have := hC.held i hi
  subst this
  have hr : s.rs = .idle := by
    by_cases hr : s.rs = .idle
    · exact hr
    · rw [hC.heldq hr] at hi; simp at hi
  split at hs
  · simp at hs
  split at hs
  · simp at hs
  split at hs
  · simp at hs
  split at hs
  · rename_i hg
    simp [canGive, hA.kind] at hg
    intro hb
    have := hC.full s.cur b (hC.com hr b hb)
    omega
  · simp at hs

end HS.Reset
