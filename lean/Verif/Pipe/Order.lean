import Verif.Pipe.Sound
/-! # What a step does to one call, to the records and to the disk -/
namespace HS.Pipe
variable {D : Type}

/-- What is found at start stays. -/
theorem recover_step {s s' : St D} (e : Ev D) (hs : s.step e = some s') : recover s.disk <+: recover s'.disk := by
  have on : ∀ {c : Nat} {f : Call D → Option (St D)}, s.on c f = some s' →
      (∀ x, f x = some s' → recover s.disk <+: recover s'.disk) → recover s.disk <+: recover s'.disk := by
    intro c f h1 h2
    obtain ⟨x, -, h3⟩ := on_some h1
    exact h2 x h3
  cases e <;> simp only [St.step] at hs
  case crash => cases hs; simp only [recover, restart_disk]; exact List.prefix_rfl
  all_goals (split at hs; (cases hs))
  case call =>
    split at hs
    · cases hs; simp
    · cases hs
  case callback =>
    simp only [St.callback] at hs
    split at hs
    · cases hs; simp
    · cases hs
  all_goals refine on hs (fun x h => ?_); clear hs
  case reserve => simp only [St.reserve] at h; split at h <;> cases h <;> simp [St.setPh]
  case count => simp only [St.count] at h; split at h <;> cases h; simp [St.setPh]
  case file => simp only [St.file] at h; split at h <;> cases h; simp [St.setPh]
  case fin => simp only [St.fin] at h; split at h <;> cases h; simp [St.setPh]
  case lock => simp only [St.getLock] at h; split at h <;> cases h <;> simp [St.setPh]
  case bound =>
    simp only [St.readBound] at h
    split at h
    · split at h <;> cases h <;> simp [St.setPh, St.finish]
    · cases h
  case prep =>
    simp only [St.prep] at h
    split at h
    · split at h
      · cases h; simp [St.setPh, St.finish]
      · split at h <;> cases h <;> simp [St.setPh, St.finish]
    · cases h
  case pay =>
    simp only [St.pay] at h
    split at h
    · split at h
      · split at h <;> cases h <;> simp [St.setPh, St.finish]
      · cases h; simp [St.setPh]
    · cases h
  case write =>
    simp only [St.write] at h
    split at h
    · split at h <;> cases h <;> exact recover_append _ _
    · cases h
  case complete => simp only [St.complete] at h; split at h <;> cases h; simp [St.setPh]

theorem recover_run {s s' : St D} (es : List (Ev D)) (hs : s.run es = some s') :
    recover s.disk <+: recover s'.disk := by
  induction es generalizing s with
  | nil => cases hs; exact List.prefix_refl _
  | cons e es ih =>
    simp only [St.run] at hs
    split at hs
    · rename_i s1 h1; exact (recover_step e h1).trans (ih hs)
    · cases hs

theorem durable_run {s s' : St D} (es : List (Ev D)) (hs : s.run es = some s') {c : Nat} (h : Durable s c) :
    Durable s' c := by
  obtain ⟨r, h1, h2⟩ := h
  exact ⟨r, (recover_run es hs).subset h1, h2⟩

theorem durable_step {s s' : St D} (e : Ev D) (hs : s.step e = some s') {c : Nat} (h : Durable s c) :
    Durable s' c := by
  obtain ⟨r, h1, h2⟩ := h
  exact ⟨r, (recover_step e hs).subset h1, h2⟩

/-- What one step that is not the end of the process does to a call. -/
inductive Was (s : St D) (a : Nat) (x' : Call D) : Prop
  | same (h : s.calls a = some x')
  | new (h : s.calls a = none) (hp : x'.ph = .called) (hi : x'.idx = none)
  | reserved (x : Call D) (h : s.calls a = some x) (hp : x.ph = .called) (hk : x.kind ≠ .flush)
      (hp' : x'.ph = .reserved) (hi : x'.idx = some s.next) (hd : x'.kind = x.kind ∧ x'.sz = x.sz ∧ x'.data = x.data)
  | moved (x : Call D) (h : s.calls a = some x) (hl : x.ph.live = true) (hp : x.ph.past = true ∨ x'.ph.past = false ∨
      x'.idx ≠ none ∨ x.kind = .flush) (hp' : x'.ph ≠ .called) (hl' : x'.ph ≠ .lost) (hi : x'.idx = x.idx)
      (hd : x'.kind = x.kind ∧ x'.sz = x.sz ∧ x'.data = x.data) (hr : ∀ b, x'.ph = .ret b → x.ph.past = true)

theorem was_set {s s' : St D} {c a : Nat} {x x' : Call D} {p : Ph D} (hc : s.calls c = some x)
    (hs : s'.calls = upd s.calls c (some { x with ph := p })) (ha : s'.calls a = some x')
    (hl : x.ph.live = true) (hp : x.ph.past = true ∨ p.past = false ∨ x.idx ≠ none ∨ x.kind = .flush)
    (hp' : p ≠ .called) (hl' : p ≠ .lost) (hr : ∀ b, p = .ret b → x.ph.past = true) : Was s a x' := by
  rw [hs] at ha
  rcases upd_some ha with ⟨rfl, rfl⟩ | ⟨-, h1⟩
  · exact .moved x hc hl hp hp' hl' rfl ⟨rfl, rfl, rfl⟩ hr
  · exact .same h1

theorem step_call {s s' : St D} (e : Ev D) (he : e.noCrash) (hs : s.step e = some s') {a : Nat} {x' : Call D}
    (ha : s'.calls a = some x') : Was s a x' := by
  cases e <;> simp only [St.step] at hs
  case crash => exact he.elim
  all_goals (split at hs; (cases hs))
  case call c k sz d _ =>
    split at hs
    · rename_i hc
      cases hs
      rcases upd_some ha with ⟨rfl, rfl⟩ | ⟨-, h1⟩
      · exact .new hc rfl rfl
      · exact .same h1
    · cases hs
  case callback =>
    simp only [St.callback] at hs
    split at hs
    · cases hs; exact .same ha
    · cases hs
  all_goals obtain ⟨x, hc, h⟩ := on_some hs; clear hs
  case reserve c _ =>
    simp only [St.reserve] at h
    split at h
    case h_3 => cases h
    all_goals
      rename_i hk hp
      cases h
      rcases upd_some ha with ⟨rfl, rfl⟩ | ⟨-, h1⟩
      · exact .reserved x hc hp (by rw [hk]; simp) rfl rfl ⟨rfl, rfl, rfl⟩
      · exact .same h1
  case count =>
    simp only [St.count] at h
    split at h <;> cases h
    rename_i hp
    exact was_set hc rfl ha (by rw [hp]; rfl) (by simp [Ph.past]) (by simp) (by simp) (by simp)
  case file =>
    simp only [St.file] at h
    split at h <;> cases h
    rename_i hp hi
    exact was_set hc rfl ha (by rw [hp]; rfl) (by simp [hi]) (by simp) (by simp) (by simp)
  case fin =>
    simp only [St.fin] at h
    split at h <;> cases h
    rename_i hp
    exact was_set hc rfl ha (by rw [hp]; rfl) (by simp [hp, Ph.past]) (by simp) (by simp) (by simp [hp, Ph.past])
  case lock =>
    simp only [St.getLock] at h
    split at h <;> cases h
    all_goals
      rename_i hl hk hp
      exact was_set hc rfl ha (by rw [hp]; rfl) (by simp [hp, hk, Ph.past]) (by simp) (by simp) (by simp)
  case bound =>
    simp only [St.readBound] at h
    split at h
    · rename_i hp
      split at h <;> cases h
      · exact was_set hc rfl ha (by rw [hp]; rfl) (by simp [hp, Ph.past]) (by simp) (by simp) (by simp [hp, Ph.past])
      · exact was_set hc rfl ha (by rw [hp]; rfl) (by simp [hp, Ph.past]) (by simp) (by simp) (by simp)
    · cases h
  case prep =>
    simp only [St.prep] at h
    split at h
    · rename_i hp
      split at h
      · cases h
        exact was_set hc rfl ha (by rw [hp]; rfl) (by simp [hp, Ph.past]) (by simp) (by simp) (by simp [hp, Ph.past])
      · split at h <;> cases h
        · exact was_set hc rfl ha (by rw [hp]; rfl) (by simp [hp, Ph.past]) (by simp) (by simp) (by simp [hp, Ph.past])
        · exact was_set hc rfl ha (by rw [hp]; rfl) (by simp [hp, Ph.past]) (by simp) (by simp) (by simp)
    · cases h
  case pay =>
    simp only [St.pay] at h
    split at h
    · rename_i hp
      split at h
      · split at h <;> cases h
        · exact was_set hc rfl ha (by rw [hp]; rfl) (by simp [hp, Ph.past]) (by simp) (by simp) (by simp [hp, Ph.past])
        · exact .same ha
      · cases h
        exact was_set hc rfl ha (by rw [hp]; rfl) (by simp [hp, Ph.past]) (by simp) (by simp) (by simp)
    · cases h
  case write =>
    simp only [St.write] at h
    split at h
    · rename_i hp
      split at h <;> cases h
      · exact was_set hc rfl ha (by rw [hp]; rfl) (by simp [hp, Ph.past]) (by simp) (by simp) (by simp)
      · exact was_set hc rfl ha (by rw [hp]; rfl) (by simp [hp, Ph.past]) (by simp) (by simp) (by simp [hp, Ph.past])
      · exact was_set hc rfl ha (by rw [hp]; rfl) (by simp [hp, Ph.past]) (by simp) (by simp) (by simp [hp, Ph.past])
    · cases h
  case complete =>
    simp only [St.complete] at h
    split at h <;> cases h
    rename_i hp
    exact was_set hc rfl ha (by rw [hp]; rfl) (by simp [hp, Ph.past]) (by simp) (by simp) (by simp)

/-- No step but the end of the process takes a call, a record or an index away. -/
structure Grew (s s' : St D) : Prop where
  next : s.next ≤ s'.next
  view : ∀ j r, s.view j = some r → s'.view j = some r
  calls : ∀ c, s.calls c ≠ none → s'.calls c ≠ none
  news : ∀ j r, s'.view j = some r → s.view j = some r ∨ ∃ x, s.calls r.call = some x ∧ x.ph = .counted

theorem grew_set {s s' : St D} {c : Nat} {x : Call D} (h1 : s'.next = s.next)
    (h2 : s'.last = s.last) (h3 : s'.tracker = s.tracker) (h4 : s'.flushed = s.flushed)
    (h5 : s'.calls = upd s.calls c (some x)) : Grew s s' := by
  have hv : ∀ j, s'.view j = s.view j := by intro j; simp only [St.view, h2, h3, h4]
  refine ⟨by omega, fun j r h => by rw [hv]; exact h, ?_, fun j r h => .inl (by rw [← hv]; exact h)⟩
  intro c' h; rw [h5]; simp only [upd]; split
  · simp
  · exact h

theorem grew_same {s s' : St D} (h1 : s'.next = s.next)
    (h2 : s'.last = s.last) (h3 : s'.tracker = s.tracker) (h4 : s'.flushed = s.flushed)
    (h5 : s'.calls = s.calls) : Grew s s' := by
  have hv : ∀ j, s'.view j = s.view j := by intro j; simp only [St.view, h2, h3, h4]
  exact ⟨by omega, fun j r h => by rw [hv]; exact h, fun c h => by rw [h5]; exact h,
    fun j r h => .inl (by rw [← hv]; exact h)⟩

theorem grew_step {s s' : St D} (hi : Inv s) (e : Ev D) (he : e.noCrash) (hs : s.step e = some s') : Grew s s' := by
  cases e <;> simp only [St.step] at hs
  case crash => exact he.elim
  all_goals (split at hs; (cases hs))
  case call c k sz d _ =>
    split at hs
    · cases hs; exact grew_set rfl rfl rfl rfl rfl
    · cases hs
  case callback =>
    simp only [St.callback] at hs
    split at hs
    · cases hs; exact grew_same rfl rfl rfl rfl rfl
    · cases hs
  all_goals obtain ⟨x, hc, h⟩ := on_some hs; clear hs
  case reserve c _ =>
    simp only [St.reserve] at h
    split at h
    case h_3 => cases h
    all_goals
      cases h
      refine ⟨Nat.le_succ _, fun j r h => h, ?_, fun j r h => .inl h⟩
      intro c' h
      simp only [St.setPh, upd]; split
      · simp
      · exact h
  case count => simp only [St.count] at h; split at h <;> cases h; exact grew_set rfl rfl rfl rfl rfl
  case file c _ =>
    simp only [St.file] at h
    split at h <;> cases h
    rename_i i hp hidx
    obtain ⟨i', e1, hi1, hi2, hi3⟩ := hi.half c x hc (by rw [hp]; rfl)
    rw [hidx] at e1; cases e1
    refine ⟨Nat.le_refl _, ?_, ?_, ?_⟩
    · intro j r h
      replace h : (if j < s.last then s.flushed[j]? else s.tracker j) = some r := h
      show (if j < s.last then s.flushed[j]? else upd s.tracker i (some ⟨c, x.sz, x.data⟩) j) = some r
      split
      · rename_i hj; rw [if_pos hj] at h; exact h
      · rename_i hj; rw [if_neg hj] at h
        rw [upd_other _ _ (by rintro rfl; rw [hi3] at h; cases h)]; exact h
    · intro c' h
      simp only [St.setPh, upd]; split
      · simp
      · exact h
    · intro j r h
      replace h : (if j < s.last then s.flushed[j]? else upd s.tracker i (some ⟨c, x.sz, x.data⟩) j) = some r := h
      show (if j < s.last then s.flushed[j]? else s.tracker j) = some r ∨ _
      split at h
      · rename_i hj; rw [if_pos hj]; exact .inl h
      · rename_i hj; rw [if_neg hj]
        rcases upd_some h with ⟨rfl, rfl⟩ | ⟨-, h⟩
        · exact .inr ⟨x, hc, hp⟩
        · exact .inl h
  case fin => simp only [St.fin] at h; split at h <;> cases h; exact grew_set rfl rfl rfl rfl rfl
  case lock => simp only [St.getLock] at h; split at h <;> cases h <;> exact grew_set rfl rfl rfl rfl rfl
  case bound =>
    simp only [St.readBound] at h
    split at h
    · split at h <;> cases h <;> exact grew_set rfl rfl rfl rfl rfl
    · cases h
  case prep =>
    simp only [St.prep] at h
    split at h
    · split at h
      · cases h; exact grew_set rfl rfl rfl rfl rfl
      · split at h <;> cases h <;> exact grew_set rfl rfl rfl rfl rfl
    · cases h
  case pay =>
    simp only [St.pay] at h
    split at h
    · split at h
      · split at h <;> cases h
        · exact grew_set rfl rfl rfl rfl rfl
        · exact grew_same rfl rfl rfl rfl rfl
      · cases h; exact grew_set rfl rfl rfl rfl rfl
    · cases h
  case write =>
    simp only [St.write] at h
    split at h
    · split at h <;> cases h <;> exact grew_set rfl rfl rfl rfl rfl
    · cases h
  case complete c _ =>
    simp only [St.complete] at h
    split at h <;> cases h
    rename_i n g hp
    obtain ⟨-, hg2⟩ := hi.grp c x g hc (by rw [hp]; rfl)
    have hlen := hi.len
    have hv : ∀ j, (if j < s.last + g.length then (s.flushed ++ g)[j]? else
        if j < s.last + g.length then none else s.tracker j) = s.view j := by
      intro j
      simp only [St.view]
      by_cases h1 : j < s.last
      · rw [if_pos (by omega), if_pos h1, List.getElem?_append_left (by omega)]
      · rw [if_neg h1]
        by_cases h2 : j < s.last + g.length
        · rw [if_pos h2, List.getElem?_append_right (by omega), hlen]
          have hk : j - s.last < g.length := by omega
          have e1 := List.getElem?_eq_getElem hk
          have e2 := hg2 _ _ e1
          rw [e1, ← e2]; congr 1; omega
        · rw [if_neg h2, if_neg h2]
    refine ⟨Nat.le_refl _, fun j r h => (hv j).trans h, ?_, fun j r h => .inl ((hv j).symm.trans h)⟩
    intro c' h
    simp only [St.setPh, upd]; split
    · simp
    · exact h

/-! ## Appends and their indices -/

/-- Which calls have an index. -/
def KindOk (s : St D) : Prop := ∀ c x, s.calls c = some x → (x.idx ≠ none → x.kind ≠ .flush) ∧
  (x.ph.past = true → x.ph ≠ .lost → x.kind ≠ .flush → x.idx ≠ none)

theorem kind_step {s s' : St D} (h : KindOk s) (e : Ev D) (hs : s.step e = some s') : KindOk s' := by
  by_cases he : e.noCrash
  · intro c x' hx
    cases step_call e he hs hx with
    | same h1 => exact h c x' h1
    | new _ hp hi => rw [hp, hi]; exact ⟨fun h => absurd rfl h, fun h => by cases h⟩
    | reserved x h1 hp hk hp' hi hd => rw [hp', hd.1]; exact ⟨fun _ => hk, fun h => by cases h⟩
    | moved x h1 hl hp hp' hl' hi hd hr =>
      obtain ⟨k1, k2⟩ := h c x h1
      rw [hi] at hp ⊢
      rw [hd.1]
      refine ⟨k1, fun e1 e2 e3 => ?_⟩
      rcases hp with hp | hp | hp | hp
      · exact k2 hp (by intro h; rw [h] at hl; cases hl) e3
      · rw [hp] at e1; cases e1
      · exact hp
      · exact absurd hp e3
  · cases e <;> simp [Ev.noCrash] at he
    cases hs
    intro c x hx
    simp only [St.restart, Option.map_eq_some_iff] at hx
    obtain ⟨y, hy, rfl⟩ := hx
    obtain ⟨k1, k2⟩ := h c y hy
    obtain ⟨f1, -, -, f4⟩ := cut_idx y
    rw [f1, f4]
    refine ⟨k1, fun _ e2 e3 => ?_⟩
    have : ∃ b, y.ph = .ret b := by
      simp only [Call.cut] at e2
      split at e2
      · rename_i b hb; exact ⟨b, hb⟩
      · exact absurd rfl e2
    obtain ⟨b, hb⟩ := this
    exact k2 (by rw [hb]; rfl) (by rw [hb]; simp) e3

theorem kind_run {s s' : St D} (h : KindOk s) (es : List (Ev D)) (hs : s.run es = some s') : KindOk s' := by
  induction es generalizing s with
  | nil => cases hs; exact h
  | cons e es ih =>
    simp only [St.run] at hs
    split at hs
    · rename_i s1 h1; exact ih (kind_step h e h1) hs
    · cases hs

/-- The record of a call that has come so far is there. -/
def Mine (s : St D) (a : Nat) : Prop := ∀ x i, s.calls a = some x → x.ph.past = true → x.idx = some i →
  i < s.next ∧ s.view i = some ⟨a, x.sz, x.data⟩

theorem mine_step {s s' : St D} (hi : Inv s) {a : Nat} (h : Mine s a) (e : Ev D) (he : e.noCrash)
    (hs : s.step e = some s') : Mine s' a := by
  intro x' i hx hp hidx
  have hg := grew_step hi e he hs
  have hi' := inv_step hi e hs
  by_cases hl : x'.ph.live = true
  · exact hi'.own a x' i hx hl hp hidx
  · cases step_call e he hs hx with
    | same h1 =>
      obtain ⟨e1, e2⟩ := h x' i h1 hp hidx
      exact ⟨Nat.lt_of_lt_of_le e1 hg.next, hg.view _ _ e2⟩
    | new _ hp' => rw [hp'] at hp; cases hp
    | reserved x _ _ _ hp' => rw [hp'] at hp; cases hp
    | moved x h1 hl1 _ hp' hl' hidx' hd hr =>
      have : ∃ b, x'.ph = .ret b := by
        revert hl hl'; cases x'.ph <;> simp [Ph.live]
      obtain ⟨b, hb⟩ := this
      obtain ⟨e1, e2⟩ := hi.own a x i h1 hl1 (hr b hb) (by rw [← hidx']; exact hidx)
      rw [hd.2.1, hd.2.2]
      exact ⟨Nat.lt_of_lt_of_le e1 hg.next, hg.view _ _ e2⟩

/-- The index of a call, if it has one, is at least `n`. -/
def After (s : St D) (b n : Nat) : Prop := n ≤ s.next ∧ ∀ x j, s.calls b = some x → x.idx = some j → n ≤ j

theorem after_step {s s' : St D} (hi : Inv s) {b n : Nat} (h : After s b n) (e : Ev D) (he : e.noCrash)
    (hs : s.step e = some s') : After s' b n := by
  have hg := (grew_step hi e he hs).next
  refine ⟨Nat.le_trans h.1 hg, ?_⟩
  intro x' j hx hj
  cases step_call e he hs hx with
  | same h1 => exact h.2 x' j h1 hj
  | new _ _ hi => rw [hi] at hj; cases hj
  | reserved x _ _ _ _ hi => rw [hi] at hj; cases hj; exact h.1
  | moved x h1 _ _ _ _ hidx' => exact h.2 x j h1 (by rw [← hidx']; exact hj)

theorem mine_run {s s' : St D} (hi : Inv s) {a : Nat} (h : Mine s a) (es : List (Ev D)) (he : ∀ e ∈ es, e.noCrash)
    (hs : s.run es = some s') : Mine s' a := by
  induction es generalizing s with
  | nil => cases hs; exact h
  | cons e es ih =>
    simp only [St.run] at hs
    split at hs
    · rename_i s1 h1
      exact ih (inv_step hi e h1) (mine_step hi h e (he e (by simp)) h1) (fun e' h2 => he e' (by simp [h2])) hs
    · cases hs

/-- The call will not come further and its record is nowhere. -/
def Gone (s : St D) (b : Nat) : Prop := (∃ x, s.calls b = some x ∧ x.ph.live = false) ∧
  ∀ i r, s.view i = some r → r.call ≠ b

theorem restart_view {s : St D} {k i : Nat} {r : Rec D} (hv : (s.restart k).view i = some r) :
    (recover s.disk)[i]? = some r := by
  replace hv : (if i < (recover s.disk).length then (recover s.disk)[i]? else none) = some r := hv
  split at hv
  · exact hv
  · cases hv

theorem gone_step {s s' : St D} (hi : Inv s) {b : Nat} (h : Gone s b) (e : Ev D) (hs : s.step e = some s') :
    Gone s' b := by
  obtain ⟨⟨x, h1, h2⟩, h3⟩ := h
  by_cases he : e.noCrash
  · have hg := grew_step hi e he hs
    refine ⟨?_, ?_⟩
    · cases hx : s'.calls b with
      | none => exact absurd hx (hg.calls b (by rw [h1]; simp))
      | some x' =>
        refine ⟨x', rfl, ?_⟩
        cases step_call e he hs hx with
        | same h4 => rw [h1] at h4; cases h4; exact h2
        | new h4 => rw [h1] at h4; cases h4
        | reserved y h4 hp => rw [h1] at h4; cases h4; rw [hp] at h2; cases h2
        | moved y h4 hl => rw [h1] at h4; cases h4; rw [hl] at h2; cases h2
    · intro i r hv hb
      rcases hg.news i r hv with h4 | ⟨y, h4, h5⟩
      · exact h3 i r h4 hb
      · rw [hb, h1] at h4; cases h4; rw [h5] at h2; cases h2
  · cases e <;> simp [Ev.noCrash] at he
    cases hs
    refine ⟨⟨x.cut, by simp [St.restart, h1], ?_⟩, ?_⟩
    · rcases cut_ph x with h4 | ⟨b, h4⟩ <;> rw [h4] <;> rfl
    · intro i r hv
      have hv' := restart_view hv
      exact h3 i r ((recovered hi).2 i r hv')

/-- A durable record has the index of its call. -/
theorem durable_idx {s : St D} (hi : Inv s) {b : Nat} (h : Durable s b) : ∃ j r x, (recover s.disk)[j]? = some r ∧
    r.call = b ∧ s.calls b = some x ∧ x.idx = some j := by
  obtain ⟨r, h1, rfl⟩ := h
  obtain ⟨j, hj, he⟩ := List.mem_iff_getElem.mp h1
  have h2 : (recover s.disk)[j]? = some r := by rw [← he]; exact List.getElem?_eq_getElem hj
  obtain ⟨x, e1, e2, -⟩ := view_call hi ((recovered hi).2 j r h2)
  exact ⟨j, r, x, h2, rfl, e1, e2⟩

theorem gone_run {s s' : St D} (hi : Inv s) {b : Nat} (h : Gone s b) (es : List (Ev D)) (hs : s.run es = some s') :
    ¬ Durable s' b := by
  induction es generalizing s with
  | nil =>
    cases hs
    intro hd
    obtain ⟨j, r, x, h1, h2, -⟩ := durable_idx hi hd
    exact h.2 j r ((recovered hi).2 j r h1) h2
  | cons e es ih =>
    simp only [St.run] at hs
    split at hs
    · rename_i s1 h1; exact ih (inv_step hi e h1) (gone_step hi h e h1) hs
    · cases hs

theorem before_durable {s : St D} (hi : Inv s) {a b n : Nat} (hm : Mine s a) {x : Call D} {i : Nat}
    (ha : s.calls a = some x) (hp : x.ph.past = true) (hidx : x.idx = some i) (hn : i < n) (hb : After s b n)
    (hd : Durable s b) : Durable s a := by
  obtain ⟨j, r, y, h1, h2, h3, h4⟩ := durable_idx hi hd
  have hj := hb.2 y j h3 h4
  have hlt : j < (recover s.disk).length := (List.getElem?_eq_some_iff.mp h1).1
  have h5 : (recover s.disk)[i]? = some ((recover s.disk)[i]'(by omega)) := List.getElem?_eq_getElem (by omega)
  have h6 := (recovered hi).2 i _ h5
  rw [(hm x i ha hp hidx).2] at h6
  injection h6 with h6
  exact ⟨(recover s.disk)[i]'(by omega), List.getElem_mem _, by rw [← h6]⟩

/-- If `b` is called after `a` has returned, it is not found without `a`, whatever happens. -/
theorem before_run {s s' : St D} (hi : Inv s) {a b n : Nat} (hm : Mine s a) {x : Call D} {bo : Bool} {i : Nat}
    (ha : s.calls a = some x) (hp : x.ph = .ret bo) (hidx : x.idx = some i) (hn : i < n) (hb : After s b n)
    (hbc : s.calls b ≠ none) (es : List (Ev D)) (hs : s.run es = some s') (hd : Durable s' b) : Durable s' a := by
  induction es generalizing s with
  | nil => cases hs; exact before_durable hi hm ha (by rw [hp]; rfl) hidx hn hb hd
  | cons e es ih =>
    simp only [St.run] at hs
    split at hs
    case h_2 => cases hs
    rename_i s1 h1
    by_cases he : e.noCrash
    · have hg := grew_step hi e he h1
      have ha' : s1.calls a = some x := by
        cases hx : s1.calls a with
        | none => exact absurd hx (hg.calls a (by rw [ha]; simp))
        | some x' =>
          cases step_call e he h1 hx with
          | same h4 => rw [ha] at h4; cases h4; rfl
          | new h4 => rw [ha] at h4; cases h4
          | reserved y h4 hp' => rw [ha] at h4; cases h4; rw [hp] at hp'; cases hp'
          | moved y h4 hl => rw [ha] at h4; cases h4; rw [hp] at hl; cases hl
      exact ih (inv_step hi e h1) (mine_step hi hm e he h1) ha' (after_step hi hb e he h1) (hg.calls b hbc) hs
    · cases e <;> simp [Ev.noCrash] at he
      by_cases hdb : Durable s b
      · exact durable_run es hs (durable_step _ h1 (before_durable hi hm ha (by rw [hp]; rfl) hidx hn hb hdb))
      · cases h1
        refine absurd hd (gone_run (inv_restart hi _) ⟨?_, ?_⟩ es hs)
        · cases hx : s.calls b with
          | none => exact absurd hx hbc
          | some y =>
            refine ⟨y.cut, by simp [St.restart, hx], ?_⟩
            rcases cut_ph y with h4 | ⟨b, h4⟩ <;> rw [h4] <;> rfl
        · intro j r hv hrb
          apply hdb
          have hv' := restart_view hv
          exact ⟨r, List.mem_of_getElem? hv', hrb⟩

/-- A call that has returned stays so. -/
theorem ret_run {s s' : St D} (hi : Inv s) {a : Nat} {x : Call D} {bo : Bool} (ha : s.calls a = some x)
    (hp : x.ph = .ret bo) (es : List (Ev D)) (he : ∀ e ∈ es, e.noCrash) (hs : s.run es = some s') : s'.calls a = some x := by
  induction es generalizing s with
  | nil => cases hs; exact ha
  | cons e es ih =>
    simp only [St.run] at hs
    split at hs
    case h_2 => cases hs
    rename_i s1 h1
    have hg := grew_step hi e (he e (by simp)) h1
    refine ih (inv_step hi e h1) ?_ (fun e' h2 => he e' (by simp [h2])) hs
    cases hx : s1.calls a with
    | none => exact absurd hx (hg.calls a (by rw [ha]; simp))
    | some x' =>
      cases step_call e (he e (by simp)) h1 hx with
      | same h4 => rw [ha] at h4; cases h4; rfl
      | new h4 => rw [ha] at h4; cases h4
      | reserved y h4 hp' => rw [ha] at h4; cases h4; rw [hp] at hp'; cases hp'
      | moved y h4 hl => rw [ha] at h4; cases h4; rw [hp] at hl; cases hl

end HS.Pipe
