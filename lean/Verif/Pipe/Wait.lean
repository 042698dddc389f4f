import Verif.Pipe.Order
/-! # Calls that flush: when they return -/
namespace HS.Pipe
variable {D : Type}

/-- What a step does to the bound that a call has read. -/
def BdOk (s : St D) (x x' : Call D) : Prop := ∀ n, x'.ph.bd = some n → x.ph.bd = some n ∨ n = s.next

/-- Why a call that flushes has returned. -/
def EndOk (s : St D) (e : Ev D) (f : Nat) (x x' : Call D) : Prop := ∀ b, x'.ph = .ret b → x.ph = .ret b ∨ s.next ≤ s.last ∨
  ∃ n, x.ph = .bound n ∧ (n ≤ s.last ∨
    (e = .prep f ∧ s.last < n ∧ contiguous s.tracker s.last (min (n - s.last + 4) s.lim) = []))

theorem flush_step {s s' : St D} (hi : Inv s) (hS : Sound s) (e : Ev D) (he : e.noCrash) (hn : e.noError)
    (hs : s.step e = some s') {f : Nat} {x x' : Call D} (hf : s.calls f = some x) (hk : x.kind ≠ .append)
    (hf' : s'.calls f = some x') : BdOk s x x' ∧ EndOk s e f x x' := by
  have same : s.calls f = some x' → BdOk s x x' ∧ EndOk s e f x x' := by
    intro h; rw [hf] at h; cases h
    exact ⟨fun n h => .inl h, fun b h => .inl h⟩
  have set : ∀ {c : Nat} {y : Call D} {p : Ph D}, s.calls c = some y → s'.calls = upd s.calls c (some { y with ph := p }) →
      (c = f → y = x → BdOk s x { x with ph := p } ∧ EndOk s e f x { x with ph := p }) → BdOk s x x' ∧ EndOk s e f x x' := by
    intro c y p h1 h2 h3
    rw [h2] at hf'
    rcases upd_some hf' with ⟨rfl, rfl⟩ | ⟨-, h4⟩
    · rw [hf] at h1; cases h1; exact h3 rfl rfl
    · exact same h4
  have alive := hS.alive
  cases e <;> simp only [St.step, alive, Bool.false_eq_true, if_false] at hs
  case crash => exact he.elim
  case call c k sz d =>
    split at hs
    · rename_i hc
      cases hs
      rcases upd_some hf' with ⟨rfl, rfl⟩ | ⟨-, h1⟩
      · rw [hf] at hc; cases hc
      · exact same h1
    · cases hs
  case callback =>
    simp only [St.callback] at hs
    split at hs
    · cases hs; exact same hf'
    · cases hs
  all_goals obtain ⟨y, hc, h⟩ := on_some hs; clear hs
  case reserve c =>
    simp only [St.reserve] at h
    split at h
    case h_3 => cases h
    all_goals
      cases h
      rcases upd_some hf' with ⟨rfl, rfl⟩ | ⟨-, h1⟩
      · exact ⟨fun n h => (by cases h), fun b h => (by cases h)⟩
      · exact same h1
  case count =>
    simp only [St.count] at h
    split at h <;> cases h
    exact set hc rfl (fun _ _ => ⟨fun n h => (by cases h), fun b h => (by cases h)⟩)
  case file =>
    simp only [St.file] at h
    split at h <;> cases h
    exact set hc rfl (fun _ _ => ⟨fun n h => (by cases h), fun b h => (by cases h)⟩)
  case fin =>
    simp only [St.fin] at h
    split at h <;> cases h
    rename_i h1 _
    exact set hc rfl (fun _ e => by subst e; exact absurd h1 hk)
  case lock =>
    simp only [St.getLock] at h
    split at h <;> cases h
    all_goals exact set hc rfl (fun _ _ => ⟨fun n h => (by cases h), fun b h => (by cases h)⟩)
  case bound =>
    simp only [St.readBound] at h
    split at h
    · rename_i hp
      split at h <;> cases h
      · rename_i h1
        exact set hc rfl (fun _ _ => ⟨fun n h => (by cases h), fun b h => .inr (.inl h1)⟩)
      · exact set hc rfl (fun _ _ => ⟨fun n h => (by cases h; exact .inr rfl), fun b h => (by cases h)⟩)
    · cases h
  case prep =>
    simp only [St.prep] at h
    split at h
    · rename_i n hp
      split at h
      · rename_i h1
        cases h
        exact set hc rfl (fun _ e => by subst e; exact ⟨fun n h => (by cases h), fun b h => .inr (.inr ⟨n, hp, .inl h1⟩)⟩)
      · rename_i h1
        split at h <;> cases h
        · rename_i h2
          exact set hc rfl (fun e1 e => by
            subst e; subst e1
            exact ⟨fun n h => (by cases h), fun b h => .inr (.inr ⟨n, hp, .inr ⟨rfl, by omega, h2⟩⟩)⟩)
        · exact set hc rfl (fun _ e => by subst e; exact ⟨fun n' h => (by cases h; left; rw [hp]; rfl), fun b h => (by cases h)⟩)
    · cases h
  case pay c =>
    simp only [St.pay] at h
    split at h
    · rename_i n g hp
      have ho := holder_of hi hc (by rw [hp]; rfl)
      rw [hp] at ho
      obtain ⟨cnt, k1, k2, k3, k4⟩ := hS.pay
      have hb := (bytes_le hi k1 (hi.grp c y g hc (by rw [hp]; rfl)).2).2
      rw [ho] at k4
      simp only [owed] at k4
      rw [if_neg (by rw [hb] at k4; push_cast at k4; omega)] at h
      cases h
      exact set hc rfl (fun _ e => by subst e; exact ⟨fun n' h => (by cases h; left; rw [hp]; rfl), fun b h => (by cases h)⟩)
    · cases h
  case write c w =>
    simp only [Ev.noError] at hn
    subst hn
    simp only [St.write] at h
    split at h
    · rename_i n g hp
      cases h
      exact set hc rfl (fun _ e => by subst e; exact ⟨fun n' h => (by cases h; left; rw [hp]; rfl), fun b h => (by cases h)⟩)
    · cases h
  case complete =>
    simp only [St.complete] at h
    split at h <;> cases h
    rename_i n g hp
    exact set hc rfl (fun _ e => by subst e; exact ⟨fun n' h => (by cases h; left; rw [hp]; rfl), fun b h => (by cases h)⟩)

theorem lim_step {s s' : St D} (e : Ev D) (hs : s.step e = some s') : s'.lim = s.lim := by
  cases e <;> simp only [St.step] at hs
  case crash => cases hs; rfl
  all_goals (split at hs; (cases hs))
  case call => split at hs <;> cases hs; rfl
  case callback => simp only [St.callback] at hs; split at hs <;> cases hs; rfl
  all_goals obtain ⟨y, hc, h⟩ := on_some hs; clear hs
  case reserve => simp only [St.reserve] at h; split at h <;> cases h <;> rfl
  case count => simp only [St.count] at h; split at h <;> cases h; rfl
  case file => simp only [St.file] at h; split at h <;> cases h; rfl
  case fin => simp only [St.fin] at h; split at h <;> cases h; rfl
  case lock => simp only [St.getLock] at h; split at h <;> cases h <;> rfl
  case bound =>
    simp only [St.readBound] at h
    split at h
    · split at h <;> cases h <;> rfl
    · cases h
  case prep =>
    simp only [St.prep] at h
    split at h
    · split at h
      · cases h; rfl
      · split at h <;> cases h <;> rfl
    · cases h
  case pay =>
    simp only [St.pay] at h
    split at h
    · split at h
      · split at h <;> cases h <;> rfl
      · cases h; rfl
    · cases h
  case write =>
    simp only [St.write] at h
    split at h
    · split at h <;> cases h <;> rfl
    · cases h
  case complete => simp only [St.complete] at h; split at h <;> cases h; rfl

theorem lim_run {s s' : St D} (es : List (Ev D)) (hs : s.run es = some s') : s'.lim = s.lim := by
  induction es generalizing s with
  | nil => cases hs; rfl
  | cons e es ih =>
    simp only [St.run] at hs
    split at hs
    · rename_i s1 h1; rw [ih hs, lim_step e h1]
    · cases hs

/-- The call `f` will flush the record of `a`. -/
structure Main (s : St D) (f a : Nat) (xa xf : Call D) (i : Nat) : Prop where
  ha : s.calls a = some xa
  hidx : xa.idx = some i
  lt : i < s.next
  mine : Mine s a
  hl : xa.ph ≠ .lost
  hpast : f ≠ a → ∃ b, xa.ph = .ret b
  hf : s.calls f = some xf
  live : xf.ph.live = true
  kind : xf.kind ≠ .append
  bd : ∀ n, xf.ph.bd = some n → i < n

/-- The record of `a` is found by a start, or `f` has not returned. -/
def Tr (s : St D) (f a : Nat) : Prop :=
  Durable s a ∨ (∃ x, s.calls f = some x ∧ x.ph = .lost) ∨
  (f = a ∧ ∃ x, s.calls f = some x ∧ x.ph = .called ∧ x.kind = .writeFlush) ∨
  ∃ xa xf i, Main s f a xa xf i

theorem durable_of_lt {s : St D} (hS : Sound s) {a i : Nat} {xa : Call D} (ha : s.calls a = some xa)
    (hp : xa.ph.past = true) (hidx : xa.idx = some i) (hm : Mine s a) (hlt : i < s.last) : Durable s a := by
  have h1 := (hm xa i ha hp hidx).2
  simp only [St.view] at h1
  rw [if_pos hlt] at h1
  exact ⟨_, hS.found.subset (List.mem_of_getElem? h1), rfl⟩

theorem tr_step {s s' : St D} (hi : Inv s) (hS : Sound s) (hlim : 0 < s.lim) {f a : Nat} (h : Tr s f a) (e : Ev D)
    (hn : e.noError) (hs : s.step e = some s')
    (hcl : e = .prep f → ∀ x i, s.calls a = some x → x.idx = some i →
      ∀ c' x' j, s.calls c' = some x' → x'.ph.half = true → x'.idx = some j → i ≤ j) : Tr s' f a := by
  rcases h with h | ⟨x, h1, h2⟩ | ⟨hfa, x, h1, h2, h3⟩ | ⟨xa, xf, i, h⟩
  · exact .inl (durable_step e hs h)
  · right; left
    by_cases he : e.noCrash
    · have hg := grew_step hi e he hs
      cases hx : s'.calls f with
      | none => exact absurd hx (hg.calls f (by rw [h1]; simp))
      | some x' =>
        refine ⟨x', rfl, ?_⟩
        cases step_call e he hs hx with
        | same h4 => rw [h1] at h4; cases h4; exact h2
        | new h4 => rw [h1] at h4; cases h4
        | reserved y h4 hp => rw [h1] at h4; cases h4; rw [hp] at h2; cases h2
        | moved y h4 hl => rw [h1] at h4; cases h4; rw [h2] at hl; cases hl
    · cases e <;> simp [Ev.noCrash] at he
      cases hs
      exact ⟨x.cut, by simp [St.restart, h1], by simp [Call.cut, h2]⟩
  · by_cases he : e.noCrash
    · have hg := grew_step hi e he hs
      cases hx : s'.calls f with
      | none => exact absurd hx (hg.calls f (by rw [h1]; simp))
      | some x' =>
        cases step_call e he hs hx with
        | same h4 => right; right; left; rw [h1] at h4; cases h4; exact ⟨hfa, x, hx, h2, h3⟩
        | new h4 => rw [h1] at h4; cases h4
        | reserved y h4 hp hk hp' hidx hd =>
          rw [h1] at h4; cases h4
          right; right; right
          subst hfa
          refine ⟨x', x', s.next, hx, hidx, ?_, ?_, by rw [hp']; simp, fun h => absurd rfl h, hx, by rw [hp']; rfl,
            by rw [hd.1, h3]; simp, by rw [hp']; simp [Ph.bd]⟩
          · obtain ⟨j, e1, -, e3, -⟩ := (inv_step hi e hs).half f x' hx (by rw [hp']; rfl)
            rw [hidx] at e1; cases e1; exact e3
          · intro y j e1 e2; rw [hx] at e1; cases e1; rw [hp'] at e2; cases e2
        | moved y h4 hl hp hp' hl' hidx hd hr =>
          rw [h1] at h4; cases h4
          rw [h2, h3] at hp
          have hfr := hi.fresh f x h1 h2
          rw [hidx, hfr] at hp
          rcases hp with hp | hp | hp | hp
          · cases hp
          · have : x'.ph.half = true := by revert hp hp'; cases x'.ph <;> simp [Ph.past, Ph.half]
            obtain ⟨j, e1, -⟩ := (inv_step hi e hs).half f x' hx this
            rw [hidx, hfr] at e1; cases e1
          · exact absurd rfl hp
          · cases hp
    · cases e <;> simp [Ev.noCrash] at he
      cases hs
      exact .inr (.inl ⟨x.cut, by simp [St.restart, h1], by simp [Call.cut, h2]⟩)
  · by_cases he : e.noCrash
    · have hg := grew_step hi e he hs
      have hm' := mine_step hi h.mine e he hs
      -- the call a
      have ha' : ∃ xa', s'.calls a = some xa' ∧ xa'.idx = some i ∧ xa'.ph ≠ .lost ∧ (f ≠ a → ∃ b, xa'.ph = .ret b) := by
        cases hx : s'.calls a with
        | none => exact absurd hx (hg.calls a (by rw [h.ha]; simp))
        | some x' =>
          refine ⟨x', rfl, ?_⟩
          cases step_call e he hs hx with
          | same h4 => rw [h.ha] at h4; cases h4; exact ⟨h.hidx, h.hl, h.hpast⟩
          | new h4 => rw [h.ha] at h4; cases h4
          | reserved y h4 hp =>
            rw [h.ha] at h4; cases h4
            have := hi.fresh a xa h.ha hp; rw [h.hidx] at this; cases this
          | moved y h4 hl _ _ hl' hidx' =>
            rw [h.ha] at h4; cases h4
            refine ⟨by rw [hidx']; exact h.hidx, hl', fun hne => ?_⟩
            obtain ⟨b, hb⟩ := h.hpast hne
            rw [hb] at hl; cases hl
      obtain ⟨xa', b1, b2, b3, b4⟩ := ha'
      cases hx : s'.calls f with
      | none => exact absurd hx (hg.calls f (by rw [h.hf]; simp))
      | some x' =>
        obtain ⟨hbd, hend⟩ := flush_step hi hS e he hn hs h.hf h.kind hx
        by_cases hlive : x'.ph.live = true
        · right; right; right
          refine ⟨xa', x', i, b1, b2, Nat.lt_of_lt_of_le h.lt hg.next, hm', b3, b4, hx, hlive, ?_, ?_⟩
          · cases step_call e he hs hx with
            | same h4 => rw [h.hf] at h4; cases h4; exact h.kind
            | new h4 => rw [h.hf] at h4; cases h4
            | reserved y h4 hp _ _ _ hd => rw [h.hf] at h4; cases h4; rw [hd.1]; exact h.kind
            | moved y h4 _ _ _ _ _ hd => rw [h.hf] at h4; cases h4; rw [hd.1]; exact h.kind
          · intro n hb
            rcases hbd n hb with h4 | h4
            · exact h.bd n h4
            · rw [h4]; exact h.lt
        · left
          have : ∃ b, x'.ph = .ret b := by
            have hnl : x'.ph ≠ .lost := by
              cases step_call e he hs hx with
              | same h4 => rw [h.hf] at h4; cases h4; intro hh; rw [hh] at hlive; have := h.live; rw [hh] at this; cases this
              | new h4 => rw [h.hf] at h4; cases h4
              | reserved y h4 hp _ hp' => rw [hp']; simp
              | moved y h4 _ _ _ hl' => exact hl'
            revert hlive hnl; cases x'.ph <;> simp [Ph.live]
          obtain ⟨b, hb⟩ := this
          have hfin : i < s.last → xa.ph.past = true → Durable s' a := fun e1 e2 =>
            durable_step e hs (durable_of_lt hS h.ha e2 h.hidx h.mine e1)
          -- the record of a is created when f flushes
          have hpast : xa.ph.past = true := by
            by_cases hne : f = a
            · have hxx : xf = xa := by have h1 := h.hf; rw [hne, h.ha] at h1; injection h1 with h1; exact h1.symm
              subst hxx
              rcases hend b hb with h4 | h4 | ⟨n, h4, -⟩
              · rw [h4]; rfl
              · have := h.lt; have := hi.le
                cases step_call e he hs hx with
                | same h5 => rw [h.hf] at h5; cases h5; rw [hb]; rfl
                | new h5 => rw [h.hf] at h5; cases h5
                | reserved y h5 hp _ hp' => rw [hp'] at hb; cases hb
                | moved y h5 _ _ _ _ _ _ hr => rw [h.hf] at h5; cases h5; exact hr b hb
              · rw [h4]; rfl
            · obtain ⟨b', hb'⟩ := h.hpast hne
              rw [hb']; rfl
          have hmine := h.mine xa i h.ha hpast h.hidx
          rcases hend b hb with h4 | h4 | ⟨n, h4, h5 | ⟨h5, h6, h7⟩⟩
          · have := h.live; rw [h4] at this; cases this
          · exact hfin (by have := h.lt; omega) hpast
          · exact hfin (by have := h.bd n (by rw [h4]; rfl); omega) hpast
          · refine hfin ?_ hpast
            have hnone : s.tracker s.last = none := by
              cases ht : s.tracker s.last with
              | none => rfl
              | some r =>
                obtain ⟨k, hk⟩ : ∃ k, min (n - s.last + 4) s.lim = k + 1 := ⟨min (n - s.last + 4) s.lim - 1, by omega⟩
                rw [hk] at h7; simp [contiguous, ht] at h7
            have hle := hi.bd f xf n h.hf (by rw [h4]; rfl)
            obtain ⟨c', y, e1, e2, e3⟩ := hi.cover s.last (Nat.le_refl _) (by omega) hnone
            have := hcl h5 xa i h.ha h.hidx c' y s.last e1 e2 e3
            rcases Nat.lt_or_ge i s.last with h8 | h8
            · exact h8
            · have h9 : i = s.last := by omega
              have h10 := hmine.2
              simp only [St.view] at h10
              rw [if_neg (by omega), h9, hnone] at h10; cases h10
    · cases e <;> simp [Ev.noCrash] at he
      cases hs
      right; left
      refine ⟨xf.cut, by simp [St.restart, h.hf], ?_⟩
      have := h.live
      simp only [Call.cut]
      split
      · rename_i b hb; rw [hb] at this; cases this
      · rfl

theorem tr_run {s s' : St D} (hi : Inv s) (hS : Sound s) (hlim : 0 < s.lim) {f a : Nat} (h : Tr s f a) (es : List (Ev D))
    (hn : ∀ e ∈ es, e.noError) (hcl : Clear f a s es) (hs : s.run es = some s') : Tr s' f a := by
  induction es generalizing s with
  | nil => cases hs; exact h
  | cons e es ih =>
    simp only [St.run] at hs
    split at hs
    · rename_i s1 h1
      exact ih (inv_step hi e h1) (sound_step hi hS e (hn e (by simp)) h1) (by rw [lim_step e h1]; exact hlim)
        (tr_step hi hS hlim h e (hn e (by simp)) h1 hcl.1) (fun e' h2 => hn e' (by simp [h2])) (hcl.2 s1 h1) hs
    · cases hs

theorem tr_returned {s : St D} {f a : Nat} (h : Tr s f a) (hr : Returned s f) : Durable s a := by
  obtain ⟨x, b, h1, h2⟩ := hr
  rcases h with h | ⟨y, h3, h4⟩ | ⟨-, y, h3, h4, -⟩ | ⟨xa, xf, i, h⟩
  · exact h
  · rw [h1] at h3; cases h3; rw [h2] at h4; cases h4
  · rw [h1] at h3; cases h3; rw [h2] at h4; cases h4
  · have := h.hf; rw [h1] at this; cases this; have := h.live; rw [h2] at this; cases this

/-! ## A flush alone -/

/-- Nobody has an index without its record. -/
def NoHalf (s : St D) : Prop := ∀ c x, s.calls c = some x → x.ph.half = false

theorem flushOf_calls {s s' : St D} {f : Nat} {e : Ev D} (he : e.flushOf f) (hs : s.step e = some s') :
    s'.calls = s.calls ∨ ∃ c, ∃ y : Call D, ∃ p, Ph.half p = false ∧ s'.calls = upd s.calls c (some { y with ph := p }) := by
  cases e <;> simp only [Ev.flushOf] at he <;> simp only [St.step] at hs
  all_goals (split at hs; (cases hs))
  all_goals obtain ⟨y, hc, h⟩ := on_some hs; clear hs
  case lock => simp only [St.getLock] at h; split at h <;> cases h <;> exact .inr ⟨_, _, _, rfl, rfl⟩
  case bound =>
    simp only [St.readBound] at h
    split at h
    · split at h <;> cases h
      · exact .inr ⟨_, _, .ret false, rfl, rfl⟩
      · exact .inr ⟨_, _, .bound _, rfl, rfl⟩
    · cases h
  case prep =>
    simp only [St.prep] at h
    split at h
    · split at h
      · cases h; exact .inr ⟨_, _, .ret true, rfl, rfl⟩
      · split at h <;> cases h
        · exact .inr ⟨_, _, .ret false, rfl, rfl⟩
        · exact .inr ⟨_, _, .got _ _, rfl, rfl⟩
    · cases h
  case pay =>
    simp only [St.pay] at h
    split at h
    · split at h
      · split at h <;> cases h
        · exact .inr ⟨_, _, .ret false, rfl, rfl⟩
        · exact .inl rfl
      · cases h; exact .inr ⟨_, _, .paid _ _, rfl, rfl⟩
    · cases h
  case write =>
    simp only [St.write] at h
    split at h
    · split at h <;> cases h
      · exact .inr ⟨_, _, .wrote _ _, rfl, rfl⟩
      · exact .inr ⟨_, _, .ret false, rfl, rfl⟩
      · exact .inr ⟨_, _, .ret false, rfl, rfl⟩
    · cases h
  case complete => simp only [St.complete] at h; split at h <;> cases h; exact .inr ⟨_, _, .bound _, rfl, rfl⟩

theorem noHalf_step {s s' : St D} (h : NoHalf s) {f : Nat} {e : Ev D} (he : e.flushOf f) (hs : s.step e = some s') :
    NoHalf s' := by
  intro c x hx
  rcases flushOf_calls he hs with h1 | ⟨c', y, p, h1, h2⟩
  · rw [h1] at hx; exact h c x hx
  · rw [h2] at hx
    rcases upd_some hx with ⟨-, rfl⟩ | ⟨-, h3⟩
    · exact h1
    · exact h c x h3

theorem run_cons {s s1 s' : St D} {e : Ev D} {es : List (Ev D)} (h1 : s.step e = some s1) (h2 : s1.run es = some s') :
    s.run (e :: es) = some s' := by simp [St.run, h1, h2]

/-- The loop of `flush`, alone. -/
theorem quiet_loop {f n : Nat} (k : Nat) : ∀ (s : St D) (x : Call D), s.next - s.last ≤ k → Inv s → Sound s → 0 < s.lim →
    NoHalf s → s.calls f = some x → x.ph = .bound n → n = s.next →
    ∃ es s', (∀ e ∈ es, e.flushOf f) ∧ s.run es = some s' ∧ Returned s' f ∧ s'.last = s'.next := by
  induction k with
  | zero =>
    intro s x hk hi hS hlim hh hf hp hn
    have hle := hi.le
    have h1 : s.step (.prep f) = some (s.finish f x true) := by
      simp only [St.step, hS.alive, Bool.false_eq_true, if_false, St.on, hf, St.prep, hp]
      rw [if_pos (by omega)]
    refine ⟨[.prep f], _, by simp [Ev.flushOf], run_cons h1 rfl, ⟨_, true, upd_same _ _ _, rfl⟩, ?_⟩
    show s.last = s.next; omega
  | succ k ih =>
    intro s x hk hi hS hlim hh hf hp hn
    have hle := hi.le
    by_cases hlt : s.next ≤ s.last
    · exact (by
        have h1 : s.step (.prep f) = some (s.finish f x true) := by
          simp only [St.step, hS.alive, Bool.false_eq_true, if_false, St.on, hf, St.prep, hp]
          rw [if_pos (by omega)]
        refine ⟨[.prep f], _, by simp [Ev.flushOf], run_cons h1 rfl, ⟨_, true, upd_same _ _ _, rfl⟩, ?_⟩
        show s.last = s.next; omega)
    · have htr : ∃ r, s.tracker s.last = some r := by
        cases ht : s.tracker s.last with
        | some r => exact ⟨r, rfl⟩
        | none =>
          obtain ⟨c', y, e1, e2, -⟩ := hi.cover s.last (Nat.le_refl _) (by omega) ht
          rw [hh c' y e1] at e2; cases e2
      obtain ⟨r, hr⟩ := htr
      obtain ⟨g, hg⟩ : ∃ g, contiguous s.tracker s.last (min (n - s.last + 4) s.lim) = r :: g := by
        obtain ⟨m, hm⟩ : ∃ m, min (n - s.last + 4) s.lim = m + 1 := ⟨min (n - s.last + 4) s.lim - 1, by omega⟩
        rw [hm]; exact ⟨_, by simp [contiguous, hr]; rfl⟩
      have st1 : ∃ s1, s.step (.prep f) = some s1 ∧ s1.calls f = some { x with ph := .got n (r :: g) } ∧
          s1.next = s.next ∧ s1.last = s.last ∧ s1.lim = s.lim := by
        refine ⟨s.setPh f x (.got n (r :: g)), ?_, upd_same _ _ _, rfl, rfl, rfl⟩
        simp only [St.step, hS.alive, Bool.false_eq_true, if_false, St.on, hf, St.prep, hp]
        rw [if_neg (by omega), hg]
      obtain ⟨s1, st1, f1, a1, b1, c1⟩ := st1
      have i1 := inv_step hi _ st1
      have S1 := sound_step hi hS _ (by simp [Ev.noError]) st1
      have n1 := noHalf_step hh (f := f) (by simp [Ev.flushOf]) st1
      have st2 : ∃ s2, s1.step (.pay f) = some s2 ∧ s2.calls f = some { x with ph := .paid n (r :: g) } ∧
          s2.next = s1.next ∧ s2.last = s1.last ∧ s2.lim = s1.lim := by
        have ho := holder_of i1 f1 rfl
        obtain ⟨cnt, k1, k2, k3, k4⟩ := S1.pay
        have hb := (bytes_le i1 k1 (i1.grp f _ (r :: g) f1 rfl).2).2
        rw [ho] at k4
        simp only [owed] at k4
        have hal := S1.alive
        simp only [St.step, hal, Bool.false_eq_true, if_false, St.on, f1, St.pay]
        rw [if_neg (by rw [hb] at k4; push_cast at k4; omega)]
        exact ⟨_, rfl, upd_same _ _ _, rfl, rfl, rfl⟩
      obtain ⟨s2, st2, f2, a2, b2, c2⟩ := st2
      have i2 := inv_step i1 _ st2
      have S2 := sound_step i1 S1 _ (by simp [Ev.noError]) st2
      have n2 := noHalf_step n1 (f := f) (by simp [Ev.flushOf]) st2
      have st3 : ∃ s3, s2.step (.write f .ok) = some s3 ∧ s3.calls f = some { x with ph := .wrote n (r :: g) } ∧
          s3.next = s2.next ∧ s3.last = s2.last ∧ s3.lim = s2.lim := by
        have hal := S2.alive
        simp only [St.step, hal, Bool.false_eq_true, if_false, St.on, f2, St.write]
        exact ⟨_, rfl, upd_same _ _ _, rfl, rfl, rfl⟩
      obtain ⟨s3, st3, f3, a3, b3, c3⟩ := st3
      have i3 := inv_step i2 _ st3
      have S3 := sound_step i2 S2 _ (by simp [Ev.noError]) st3
      have n3 := noHalf_step n2 (f := f) (by simp [Ev.flushOf]) st3
      have st4 : ∃ s4, s3.step (.complete f) = some s4 ∧ s4.calls f = some { x with ph := .bound n } ∧ s4.next = s3.next ∧
          s4.last = s3.last + (g.length + 1) ∧ s4.lim = s3.lim := by
        have hal := S3.alive
        simp only [St.step, hal, Bool.false_eq_true, if_false, St.on, f3, St.complete]
        exact ⟨_, rfl, upd_same _ _ _, rfl, rfl, rfl⟩
      obtain ⟨s4, st4, f4, a4, b4, c4⟩ := st4
      have i4 := inv_step i3 _ st4
      have S4 := sound_step i3 S3 _ (by simp [Ev.noError]) st4
      have n4 := noHalf_step n3 (f := f) (by simp [Ev.flushOf]) st4
      obtain ⟨es, s', h1, h2, h3, h4⟩ := ih s4 _ (by omega) i4 S4 (by omega) n4 f4 rfl (by omega)
      refine ⟨.prep f :: .pay f :: .write f .ok :: .complete f :: es, s', ?_, ?_, h3, h4⟩
      · intro e he
        simp only [List.mem_cons] at he
        rcases he with rfl | rfl | rfl | rfl | he
        · rfl
        · rfl
        · exact ⟨rfl, rfl⟩
        · rfl
        · exact h1 e he
      · exact run_cons st1 (run_cons st2 (run_cons st3 (run_cons st4 h2)))

end HS.Pipe
