import Verif.Repl.DataRestart
/-! Every step of a replicated device keeps the invariants, under the side conditions of `Fair`. -/
namespace HS.Repl.Data

/-- What the code does not make sure of, and the histories of `DataBugs` show that it must be so:

* `save`: data for a request that has not received any comes while the request is in the table;
* `err`: when a thread that has decided to fail a request does it, the data still has not come and
  the request is in the table;
* `reject`: the proposer's request has not been taken out of the table by `clear_chunk_req`;
* `gc`, `clear`: the request has no write under way, no entry in the log, and its block is not one
  that the listener holds;
* `rollback`: the block of the entry is not one that the listener holds;
* `free`: no request in the table names the block. -/
def Fair (s : St) : Op → Prop
  | .save r => ∀ q, s.reqs[r]? = some q → q.recv = false → s.kmap q.key = some r
  | .err r => ∀ q, s.reqs[r]? = some q → q.err = false → q.recv = false ∧ s.kmap q.key = some r
  | .reject r => ∀ q, s.reqs[r]? = some q → q.err = false → s.kmap q.key = some r
  | .gc r => ∀ q, s.reqs[r]? = some q → r ∉ s.fly ∧ q.lsn = none ∧ ∀ b, q.blk = some b → ∀ o, (o, b) ∉ s.app
  | .clear r => ∀ q, s.reqs[r]? = some q → r ∉ s.fly ∧ q.lsn = none ∧ ∀ b, q.blk = some b → ∀ o, (o, b) ∉ s.app
  | .rollback => ∀ e, s.log.getLast? = some e → ∀ o, (o, e.2) ∉ s.app
  | .free _ b => ∀ (r : Nat) (q : Req), s.reqs[r]? = some q → s.kmap q.key = some r → q.blk ≠ some b
  | _ => True

/-- The side conditions along a history. -/
def FairRun (s : St) : List Op → Prop
  | [] => True
  | op :: ops => Fair s op ∧ ∀ s', s.step op = .ok s' → FairRun s' ops

section
variable {rq : Nat → Option Req} {kmap : Key → Option Nat} {lmap : Nat → Option Nat} {log : List (Key × Nat)}
  {dur upto : Nat} {used : Nat → Bool} {disk : Nat → Option Nat} {fly : List Nat} {app : List (Nat × Nat)}

theorem InvC.unfly (h : InvC rq kmap lmap log dur upto used disk fly app) (r : Nat) :
    InvC rq kmap lmap log dur upto used disk (fly.erase r) app :=
  { h with flyok := fun r' hr => h.flyok r' (List.mem_of_mem_erase hr), nd := h.nd.erase r }

/-- A request leaves the table and stays as it is. -/
theorem InvC.leave (h : InvC rq kmap lmap log dur upto used disk fly app) {r : Nat} {q : Req}
    {lmap' : Nat → Option Nat} {log' : List (Key × Nat)} {dur' upto' : Nat} {used' : Nat → Bool}
    (hq : rq r = some q) (hk : kmap q.key = some r) (hf : r ∉ fly)
    (hu1 : ∀ c, q.blk ≠ some c → used' c = used c)
    (hu2 : ∀ c, q.blk = some c → (used' c = false ∧ ∀ o, (o, c) ∉ app) ∨ (used' c = used c ∧ ∃ o, (o, c) ∈ app))
    (hl1 : ∀ l r', lmap' l = some r' → lmap l = some r' ∧ upto' < l ∧ l ≤ log'.length ∧ log'[l - 1]? = log[l - 1]? ∧
      r' ≠ r ∧ (dur' < l → dur < l))
    (hl2 : ∀ l r', r' ≠ r → lmap l = some r' → lmap' l = some r')
    (hl3 : ∀ l, upto' < l → l ≤ log'.length → ∃ r', lmap' l = some r')
    (hd : dur' ≤ dur) (hd' : dur' ≤ log'.length) (hup : upto' ≤ dur') :
    InvC rq (upd kmap q.key none) lmap' log' dur' upto' used' disk fly app := by
  have := h.drop (v := false) hq hk hf hu1 hu2 (lmap' := lmap') (log' := log') (dur' := dur') (upto' := upto')
    (fun l r' hl => by
      obtain ⟨a, b, c, d, e, f⟩ := hl1 l r' hl
      exact ⟨a, b, c, d, fun x => absurd x e, f⟩) hl2 hl3 hd hd' hup
  have e : upd rq r (some { q with err := false || q.err }) = rq := by
    funext x
    simp only [upd, Bool.false_or]
    split
    · next h => subst h; exact hq.symm
    · rfl
  rwa [e] at this
end

theorem release_used (s : St) (q : Req) (c : Nat) :
    (s.release q).used c = if q.blk = some c then false else s.used c := by
  cases hb : q.blk with
  | none => simp [St.release, hb]
  | some b =>
    simp only [St.release, hb, upd]
    by_cases h : c = b
    · subst h; simp
    · have : ¬ b = c := fun e => h e.symm
      simp [h, this]

theorem inv_release {s : St} {q : Req}
    (h : InvC (fun i => s.reqs[i]?) s.kmap s.lmap s.log s.dur s.upto (fun c => if q.blk = some c then false else s.used c)
      s.disk s.fly s.app) : Inv (s.release q) := by
  have : (s.release q).used = fun c => if q.blk = some c then false else s.used c := funext (release_used s q)
  cases hb : q.blk with
  | none =>
    rw [hb] at h
    simp only [St.release, hb]
    simpa [Inv] using h
  | some b =>
    rw [hb] at h this
    simp only [St.release, hb] at this ⊢
    simp only [Inv]
    rw [this]
    exact h

/-- `handle_error` of a request in the table whose entry is not on disk. -/
theorem inv_handleError {s s' : St} (h : Inv s) {r : Nat} {q : Req} (hq : s.reqs[r]? = some q)
    (hk : s.kmap q.key = some r) (hf : r ∉ s.fly) (hw : q.written = false ∨ (q.lsn = none ∧ q.prop = true))
    (hs : s.handleError r = .ok s') : Inv s' := by
  obtain ⟨q0, g1, _, he⟩ := h.tab q.key r hk
  have : q0 = q := Option.some.inj (g1.symm.trans hq)
  subst this
  have hna : ∀ c, q0.blk = some c → ∀ o, (o, c) ∉ s.app := fun c hc o ho => by
    rcases hw with hw | ⟨hw, hp⟩
    · have := (h.share r q0 o c hq hk hc ho).2
      rw [hw] at this; cases this
    · exact h.ph r q0 c hq hk hp hw hc o ho
  have hd := h.drop (v := true) (lmap' := s.lmap) (log' := s.log) (dur' := s.dur) (upto' := s.upto)
    (used' := fun c => if q0.blk = some c then false else s.used c) hq hk hf
    (fun c hc => if_neg hc) (fun c hc => .inl ⟨if_pos hc, hna c hc⟩)
    (fun l r' hl => by
      obtain ⟨a, b, p, c, a1, a2, a3, a4, _⟩ := h.link l r' hl
      refine ⟨hl, a, b, rfl, fun e => ?_, id⟩
      subst e
      have : p = q0 := Option.some.inj (a1.symm.trans hq)
      subst this
      have hw' : p.written = false := by
        rcases hw with hw | ⟨hw, _⟩
        · exact hw
        · rw [a2] at hw; cases hw
      refine ⟨rfl, ?_, hw'⟩
      by_cases hc : l ≤ s.dur
      · have := (h.durw l r' p hc hl hq).1
        rw [hw'] at this; cases this
      · omega)
    (fun l r' _ hl => hl) h.linked (Nat.le_refl _) h.dle h.ule
  rw [Bool.true_or] at hd
  simp only [St.handleError, hq, he, Bool.false_eq_true, if_false] at hs
  split at hs
  · cases hs
  · cases hs
    refine inv_release (s := { s.setReq r (fun q => { q with err := true }) with kmap := upd s.kmap q0.key none }) ?_
    rw [reqs_setReq s r _ q0 hq]
    exact hd

theorem handleError_ne_fault {s : St} (h : Inv s) {r : Nat} {q : Req} (hq : s.reqs[r]? = some q)
    (hk : s.kmap q.key = some r) (hw : q.written = false ∨ q.lsn = none) :
    s.handleError r ≠ .fault := by
  obtain ⟨q0, g1, _, he⟩ := h.tab q.key r hk
  have : q0 = q := Option.some.inj (g1.symm.trans hq)
  subst this
  simp only [St.handleError, hq, he, Bool.false_eq_true, if_false]
  cases hl : q0.lsn with
  | none => simp [St.onDisk]
  | some l =>
    have hlm := h.tlsn r q0 l hq hk hl
    have hv : q0.vol = true := by
      rcases hw with hw | hw
      · by_cases hc : l ≤ s.dur
        · have := (h.durw l r q0 hc hlm hq).1
          rw [hw] at this; cases this
        · exact h.volq l r q0 (by omega) hlm hq
      · rw [hl] at hw; cases hw
    have hg : (s.setReq r (fun q => { q with err := true })).reqs[r]? = some { q0 with err := true } := by
      have := congrFun (reqs_setReq s r (fun q => { q with err := true }) q0 hq) r
      rw [upd_same] at this; exact this
    have hl' : (s.setReq r (fun q => { q with err := true })).lmap l = some r := hlm
    simp only [St.onDisk, hg, hl', hv]
    simp

theorem inv_alloc {s s' : St} (h : Inv s) {r : Nat} {q : Req} {b : Nat} {hint : Bool} (hq : s.reqs[r]? = some q)
    (hk : s.kmap q.key = some r) (hb : q.blk = none) (hs : s.alloc r q.key.obj b hint = .ok s') : Inv s' := by
  simp only [St.alloc] at hs
  cases hint with
  | true =>
    simp only [if_true] at hs
    by_cases hm : (q.key.obj, b) ∈ s.app
    · rw [if_pos hm] at hs; cases hs
      simp only [Inv]
      rw [reqs_setReq s r _ q hq]
      exact h.give (b := b) (q' := { q with blk := some b, recv := true, written := true, comm := true }) hq hk hb
        rfl rfl rfl rfl rfl rfl (.inr ⟨hm, rfl, rfl, rfl⟩)
    · rw [if_neg hm] at hs; cases hs
  | false =>
    simp only [Bool.false_eq_true, if_false] at hs
    cases hu : s.used b with
    | true => rw [hu] at hs; simp at hs
    | false =>
      rw [hu] at hs
      simp only [Bool.false_eq_true, if_false] at hs
      cases hs
      have := h.give (b := b) (q' := { q with blk := some b }) hq hk hb
        rfl rfl rfl rfl rfl rfl (.inl ⟨hu, rfl, rfl, rfl⟩)
      rw [← reqs_setReq s r (fun q => { q with blk := some b }) q hq] at this
      exact this

theorem new_none (s : St) : s.reqs[s.reqs.length]? = none := by simp

theorem inv_new {s : St} (h : Inv s) {k : Key} (hk : s.kmap k = none) :
    Inv { s with reqs := s.reqs ++ [Req.fresh k false], kmap := upd s.kmap k (some s.reqs.length) } := by
  simp only [Inv]
  rw [reqs_push]
  exact h.new (new_none s) hk

theorem inv_create {s s' : St} (h : Inv s) {k : Key} {b : Nat} {hint : Bool} (hs : s.create k b hint = .ok s') : Inv s' := by
  unfold St.create at hs
  cases hk : s.kmap k with
  | some r =>
    obtain ⟨q, h1, h2, _⟩ := h.tab k r hk
    have h1 : s.reqs[r]? = some q := h1
    simp only [hk, h1] at hs
    cases hb : q.blk with
    | some c => simp only [hb] at hs; cases hs; exact h
    | none =>
      simp only [hb] at hs
      subst h2
      exact inv_alloc h h1 hk hb hs
  | none =>
    simp only [hk] at hs
    have hn := inv_new h hk
    exact inv_alloc hn (q := Req.fresh k false) (by simp) (by simp [upd, Req.fresh]) rfl hs

theorem inv_createFail {s s' : St} (h : Inv s) {k : Key} (hs : s.createFail k = .ok s') : Inv s' := by
  unfold St.createFail at hs
  cases hk : s.kmap k with
  | some r => simp only [hk] at hs; cases hs; exact h
  | none => simp only [hk] at hs; cases hs; exact inv_new h hk

theorem upd_upd {α β : Type} [DecidableEq α] (f : α → β) (a : α) (x y : β) : upd (upd f a x) a y = upd f a y := by
  funext z; simp only [upd]; split <;> rfl

theorem upd_id {α β : Type} [DecidableEq α] (f : α → β) (a : α) (x : β) (h : f a = x) : upd f a x = f := by
  funext z; simp only [upd]; split
  · next e => subst e; exact h.symm
  · rfl

theorem push_setReq (s : St) (q : Req) (f : Req → Req) (m : Key → Option Nat) (u : Nat → Bool) (hr : Nat) (hl : hr = s.reqs.length) :
    (fun i => (St.setReq { s with reqs := s.reqs ++ [q], kmap := m, used := u } hr f).reqs[i]?)
      = upd (fun i => s.reqs[i]?) s.reqs.length (some (f q)) := by
  subst hl
  rw [reqs_setReq _ _ _ q (by simp)]
  simp only
  rw [reqs_push, upd_upd]

theorem inv_propose {s s' : St} (h : Inv s) {k : Key} {b : Nat} {hint : Bool} (hs : s.propose k b hint = .ok s') : Inv s' := by
  unfold St.propose at hs
  cases hk : s.kmap k with
  | some r => simp only [hk] at hs; cases hs
  | none =>
    simp only [hk, St.alloc] at hs
    cases hint with
    | true =>
      simp only [if_true] at hs
      by_cases hm : (k.obj, b) ∈ s.app
      · rw [if_pos hm] at hs
        simp only [Res.ok.injEq] at hs
        subst hs
        have hg := h.ghost (n := s.reqs.length)
          (q := { Req.fresh k true with blk := some b, recv := true, written := true, comm := true, err := true })
          (new_none s) (by simp [Req.fresh, hk]) (fun _ => ⟨.inl rfl, by simp⟩) rfl rfl
        have e1 : upd (upd s.kmap k (some s.reqs.length)) k none = s.kmap := by rw [upd_upd]; exact upd_id _ _ _ hk
        have e2 : (fun i => ((St.setReq (St.setReq { s with reqs := s.reqs ++ [Req.fresh k true], kmap := upd s.kmap k (some s.reqs.length) }
            s.reqs.length fun q => { q with blk := some b, recv := true, written := true, comm := true }) s.reqs.length
            fun q => { q with err := true }).reqs[i]?)) = upd (fun i => s.reqs[i]?) s.reqs.length
            (some { Req.fresh k true with blk := some b, recv := true, written := true, comm := true, err := true }) := by
          have g := push_setReq s (Req.fresh k true) (fun q => { q with blk := some b, recv := true, written := true, comm := true })
            (upd s.kmap k (some s.reqs.length)) s.used s.reqs.length rfl
          have g' := congrFun g s.reqs.length
          rw [upd_same] at g'
          rw [reqs_setReq _ s.reqs.length _ _ g', g, upd_upd]
        rw [← e2] at hg
        show InvC _ (upd (upd s.kmap k (some s.reqs.length)) k none) s.lmap s.log s.dur s.upto s.used s.disk s.fly s.app
        rw [e1]
        exact hg
      · rw [if_neg hm] at hs; cases hs
    | false =>
      simp only [Bool.false_eq_true, if_false] at hs
      cases hu : s.used b with
      | true => rw [hu] at hs; simp at hs
      | false =>
        rw [hu] at hs
        simp only [Bool.false_eq_true, if_false, Res.ok.injEq] at hs
        subst hs
        have hg := h.ghost (n := s.reqs.length) (q := { Req.fresh k true with blk := some b })
          (new_none s) (by simp [Req.fresh, hk]) (fun e => by cases e) rfl rfl
        have he := hg.enter (n := s.reqs.length) (q := { Req.fresh k true with blk := some b }) (b := b) upd_same hk rfl hu rfl rfl rfl
        have hf : s.reqs.length ∉ s.fly := fun hr => by
          obtain ⟨p, _, g1, _⟩ := h.flyok _ hr
          simp at g1
        have hst := he.start (r := s.reqs.length) (q := { Req.fresh k true with blk := some b }) (b := b) (v := false)
          upd_same upd_same rfl rfl (.inr rfl) hf
        rw [upd_upd] at hst
        have g := push_setReq s (Req.fresh k true) (fun q => { q with blk := some b })
            (upd s.kmap k (some s.reqs.length)) s.used s.reqs.length rfl
        simp only [Inv]
        rw [g]
        exact hst

theorem inv_save {s s' : St} (h : Inv s) {r : Nat} (hf : Fair s (.save r)) (hs : s.save r = .ok s') : Inv s' := by
  unfold St.save at hs
  cases hq : s.reqs[r]? with
  | none => simp only [hq] at hs; cases hs
  | some q =>
    simp only [hq] at hs
    by_cases hc : q.prop = true ∨ q.blk = none
    · rw [if_pos hc] at hs; cases hs
    · rw [if_neg hc] at hs
      cases hr : q.recv with
      | true => simp only [hr, if_true] at hs; cases hs; exact h
      | false =>
        simp only [hr, Bool.false_eq_true, if_false, Res.ok.injEq] at hs
        subst hs
        have hk := hf q hq hr
        have hp : q.prop = false := by
          cases hx : q.prop with
          | false => rfl
          | true => exact absurd (.inl hx) hc
        have hw : q.written = false := by
          cases hx : q.written with
          | false => rfl
          | true =>
            rcases (h.wr r q hq hx).1 with e | e
            · rw [hr] at e; cases e
            · rw [hp] at e; cases e
        have hfl : r ∉ s.fly := fun hm => by
          obtain ⟨p, _, g1, _, _, _, _, g⟩ := h.flyok r hm
          have : p = q := Option.some.inj (g1.symm.trans hq)
          subst this
          rcases g with e | e
          · rw [hr] at e; cases e
          · rw [hp] at e; cases e
        cases hb : q.blk with
        | none => exact absurd (.inr hb) hc
        | some b =>
          have := h.start (v := true) hq hk hw hb (.inl rfl) hfl
          simp only [Inv]
          rw [reqs_setReq s r _ q hq]
          exact this

theorem inv_wdone {s s' : St} (h : Inv s) {r : Nat} (hs : s.wdone r = .ok s') : Inv s' := by
  unfold St.wdone at hs
  cases hq : s.reqs[r]? with
  | none => simp only [hq] at hs; cases hs
  | some q =>
    simp only [hq] at hs
    cases hb : q.blk with
    | none => simp only [hb] at hs; cases hs
    | some b =>
      simp only [hb] at hs
      by_cases hf : r ∈ s.fly
      · rw [if_pos hf] at hs; cases hs
        simp only [Inv]
        rw [reqs_setReq s r _ q hq]
        exact h.done hq hb hf
      · rw [if_neg hf] at hs; cases hs

theorem inv_wfail {s s' : St} (h : Inv s) {r : Nat} (hs : s.wfail r = .ok s') : Inv s' := by
  unfold St.wfail at hs
  by_cases hf : r ∈ s.fly
  · rw [if_pos hf] at hs
    obtain ⟨q, b, h1, h2, h3, _⟩ := h.flyok r hf
    exact inv_handleError (s := { s with fly := s.fly.erase r }) (h.unfly r) h1 h2 (h.nd.not_mem_erase) (.inl h3) hs
  · rw [if_neg hf] at hs; cases hs

theorem handleError_err (s s' : St) {r : Nat} {q : Req} (hq : s.reqs[r]? = some q) (he : q.err = true)
    (hs : s.handleError r = .ok s') : s' = s := by
  simp only [St.handleError, hq, he, if_true] at hs
  cases hs; rfl

/-- What `Fair` says of a failing request that was not failed before. -/
theorem err_facts {s : St} (h : Inv s) {r : Nat} {q : Req} (hq : s.reqs[r]? = some q) (hp : q.prop = false)
    (hr : q.recv = false) : q.written = false ∧ r ∉ s.fly := by
  constructor
  · cases hx : q.written with
    | false => rfl
    | true =>
      rcases (h.wr r q hq hx).1 with e | e
      · rw [hr] at e; cases e
      · rw [hp] at e; cases e
  · intro hm
    obtain ⟨p, _, g1, _, _, _, _, g⟩ := h.flyok r hm
    have : p = q := Option.some.inj (g1.symm.trans hq)
    subst this
    rcases g with e | e
    · rw [hr] at e; cases e
    · rw [hp] at e; cases e

theorem inv_giveUp {s s' : St} (h : Inv s) {r : Nat} (hf : Fair s (.err r)) (hs : s.giveUp r = .ok s') : Inv s' := by
  unfold St.giveUp at hs
  cases hq : s.reqs[r]? with
  | none => simp only [hq] at hs; cases hs
  | some q =>
    simp only [hq] at hs
    by_cases hc : r ∈ s.doom ∧ q.prop = false
    · rw [if_pos hc] at hs
      have h' : Inv { s with doom := s.doom.erase r } := h
      cases he : q.err with
      | true => rw [handleError_err { s with doom := s.doom.erase r } _ hq he hs]; exact h'
      | false =>
        obtain ⟨hr, hk⟩ := hf q hq he
        obtain ⟨hw, hfl⟩ := err_facts h hq hc.2 hr
        exact inv_handleError h' hq hk hfl (.inl hw) hs
    · rw [if_neg hc] at hs; cases hs

theorem inv_reject {s s' : St} (h : Inv s) {r : Nat} (hf : Fair s (.reject r)) (hs : s.reject r = .ok s') : Inv s' := by
  unfold St.reject at hs
  cases hq : s.reqs[r]? with
  | none => simp only [hq] at hs; cases hs
  | some q =>
    simp only [hq] at hs
    by_cases hc : q.prop = true ∧ q.written = true ∧ q.lsn = none
    · rw [if_pos hc] at hs
      cases he : q.err with
      | true => rw [handleError_err _ _ hq he hs]; exact h
      | false =>
        have hfl : r ∉ s.fly := fun hm => by
          obtain ⟨p, _, g1, _, g3, _⟩ := h.flyok r hm
          have : p = q := Option.some.inj (g1.symm.trans hq)
          subst this
          rw [hc.2.1] at g3; cases g3
        exact inv_handleError h hq (hf q hq he) hfl (.inr ⟨hc.2.2, hc.1⟩) hs
    · rw [if_neg hc] at hs; cases hs

theorem lmap_len {s : St} (h : Inv s) {l : Nat} (hl : s.log.length < l) : s.lmap l = none := by
  cases hx : s.lmap l with
  | none => rfl
  | some r => have := (h.link l r hx).2.1; omega

theorem inv_append {s s' : St} (h : Inv s) {k : Key} (hs : s.append k = .ok s') : Inv s' := by
  unfold St.append at hs
  cases hk : s.kmap k with
  | none => simp only [hk] at hs; cases hs
  | some r =>
    obtain ⟨q, hq, h2, _⟩ := h.tab k r hk
    have hq : s.reqs[r]? = some q := hq
    simp only [hk, hq] at hs
    cases hb : q.blk with
    | none => simp only [hb] at hs; cases hs
    | some b =>
      simp only [hb] at hs
      split at hs
      · cases hs
      · next hc =>
        simp only [lmap_len h (Nat.lt_succ_self _), Option.isSome_none, Bool.false_eq_true, if_false, Res.ok.injEq] at hs
        subst hs
        subst h2
        have hl : q.lsn = none := Classical.byContradiction fun e => hc (.inr (.inl e))
        have hp : q.prop = true → q.written = true := fun e => by
          cases hx : q.written with
          | true => rfl
          | false => exact absurd (.inl ⟨e, hx⟩) hc
        simp only [Inv]
        rw [reqs_setReq s r _ q hq]
        exact h.appendEntry hq hk hb hl hp

theorem inv_flush {s s' : St} (h : Inv s) (hs : s.flush = .ok s') : Inv s' := by
  unfold St.flush at hs
  by_cases hd : s.dur < s.log.length
  · rw [if_pos hd] at hs
    have hu := h.ule
    obtain ⟨r, hr⟩ := h.linked (s.dur + 1) (by omega) (by omega)
    obtain ⟨_, _, q, b, hq, hl, _⟩ := h.link _ r hr
    have hq : s.reqs[r]? = some q := hq
    simp only [hr, hq] at hs
    by_cases hc : q.prop = true ∨ q.written = true
    · rw [if_pos hc] at hs; cases hs
      have hw : q.written = true := by
        rcases hc with hc | hc
        · exact h.lsnw r q _ hq hl hc
        · exact hc
      have he : q.err = false := by
        cases hx : q.err with
        | false => rfl
        | true => have := h.errw _ r q hr hq hx; rw [hw] at this; cases this
      have := h.mark (q' := { q with flushed := true, vol := q.err && q.vol }) (dur' := s.dur + 1) hq
        rfl rfl rfl rfl rfl rfl rfl (by omega) (by omega)
        (fun l r' p h1 h2 h3 h4 => by
          have : l = s.dur + 1 := by omega
          subst this
          rw [hr] at h3; cases h3
          have : p = q := Option.some.inj (h4.symm.trans hq)
          subst this
          exact ⟨hw, he⟩)
        (fun l h1 h2 => by
          obtain ⟨_, _, p, _, g1, g2, _⟩ := h.link l r h2
          have : p = q := Option.some.inj (g1.symm.trans hq)
          subst this
          have := Option.some.inj (g2.symm.trans hl)
          omega)
        (fun e => by rw [hl] at e; cases e)
      simp only [Inv]
      rw [reqs_setReq s r _ q hq]
      exact this
    · rw [if_neg hc] at hs; cases hs
  · rw [if_neg hd] at hs; cases hs

theorem inv_rollback {s s' : St} (h : Inv s) (hf : Fair s .rollback) (hs : s.rollback = .ok s') : Inv s' := by
  unfold St.rollback at hs
  by_cases hc : s.dur = s.log.length ∧ s.upto < s.log.length
  · rw [if_pos hc] at hs
    obtain ⟨r, hr⟩ := h.linked s.log.length hc.2 (Nat.le_refl _)
    obtain ⟨_, _, q, b, hq, hl, hb, hlog, hkk⟩ := h.link _ r hr
    have hq : s.reqs[r]? = some q := hq
    have hw := h.durw _ r q (by omega) hr hq
    have hk := hkk hw.2
    have hna : ∀ o, (o, b) ∉ s.app := hf (q.key, b) (by rw [List.getLast?_eq_getElem?]; exact hlog)
    have hfl : r ∉ s.fly := fun hm => by
      obtain ⟨p, _, g1, _, g3, _⟩ := h.flyok r hm
      have : p = q := Option.some.inj (g1.symm.trans hq)
      subst this
      rw [hw.1] at g3; cases g3
    simp only [hr, hq] at hs
    cases hs
    refine inv_release (s := { s with log := s.log.dropLast, dur := s.log.length - 1, lmap := upd s.lmap s.log.length none, kmap := upd s.kmap q.key none }) ?_
    refine h.leave (lmap' := upd s.lmap s.log.length none) (log' := s.log.dropLast) (dur' := s.log.length - 1) (upto' := s.upto)
      hq hk hfl (fun c hc => if_neg hc)
      (fun c hc => .inl ⟨if_pos hc, fun o ho => ?_⟩) (fun l r' hl' => ?_) (fun l r' hn hl' => ?_) (fun l h1 h2 => ?_)
      ?_ ?_ ?_
    · rw [hb] at hc; cases hc; exact hna o ho
    · rcases upd_some.1 hl' with ⟨_, e⟩ | ⟨hn, e⟩
      · cases e
      obtain ⟨a, b', p, c, a1, a2, _⟩ := h.link l r' e
      refine ⟨e, a, by simp; omega, ?_, fun e' => ?_, fun _ => by omega⟩
      · rw [List.getElem?_dropLast, if_pos (by omega)]
      · subst e'
        have : p = q := Option.some.inj (a1.symm.trans hq)
        subst this
        exact hn (Option.some.inj (a2.symm.trans hl))
    · rw [upd_other (fun e => ?_)]
      · exact hl'
      · subst e; rw [hr] at hl'; cases hl'; exact hn rfl
    · simp at h2
      obtain ⟨r', hr'⟩ := h.linked l h1 (by omega)
      exact ⟨r', by rw [upd_other (by omega)]; exact hr'⟩
    · omega
    · simp
    · show s.upto ≤ s.log.length - 1
      omega
  · rw [if_neg hc] at hs; cases hs

/-- What the next commit finds. -/
theorem commit_facts {s : St} (h : Inv s) (hc : s.upto + 1 ≤ s.dur) :
    ∃ r q b, s.lmap (s.upto + 1) = some r ∧ s.reqs[r]? = some q ∧ q.blk = some b ∧ q.lsn = some (s.upto + 1) ∧
      s.kmap q.key = some r ∧ q.written = true ∧ r ∉ s.fly ∧ s.log[s.upto]? = some (q.key, b) := by
  have hd := h.dle
  obtain ⟨r, hr⟩ := h.linked (s.upto + 1) (by omega) (by omega)
  obtain ⟨_, _, q, b, hq, hl, hb, hlog, hkk⟩ := h.link _ r hr
  have hw := h.durw _ r q hc hr hq
  refine ⟨r, q, b, hr, hq, hb, hl, hkk hw.2, hw.1, fun hm => ?_, hlog⟩
  obtain ⟨p, _, g1, _, g3, _⟩ := h.flyok r hm
  have : p = q := Option.some.inj (g1.symm.trans hq)
  subst this
  rw [hw.1] at g3; cases g3

theorem inv_commit {s s' : St} (h : Inv s) (hs : s.commit = .ok s') : Inv s' := by
  unfold St.commit at hs
  by_cases hc : s.upto + 1 ≤ s.dur
  · rw [if_pos hc] at hs
    obtain ⟨r, q, b, hr, hq, hb, hl, hk, hw, hfl, _⟩ := commit_facts h hc
    simp only [hr, hq, hb] at hs
    cases hs
    have hh := h.hold hq hk hw hb (by rw [hl]; simp)
    have hd := h.dle
    refine hh.leave (lmap' := upd s.lmap (s.upto + 1) none) (log' := s.log) (dur' := s.dur) (upto' := s.upto + 1) hq hk hfl (fun c _ => rfl) (fun c hc' => .inr ⟨rfl, q.key.obj, ?_⟩) (fun l r' hl' => ?_) (fun l r' hn hl' => ?_)
      (fun l h1 h2 => ?_) (Nat.le_refl _) h.dle hc
    · rw [hb] at hc'; cases hc'
      split
      · assumption
      · exact List.mem_cons_self
    · rcases upd_some.1 hl' with ⟨_, e⟩ | ⟨hn, e⟩
      · cases e
      obtain ⟨a, b', p, c, a1, a2, _⟩ := h.link l r' e
      refine ⟨e, by omega, b', rfl, fun e' => ?_, id⟩
      subst e'
      have : p = q := Option.some.inj (a1.symm.trans hq)
      subst this
      exact hn (Option.some.inj (a2.symm.trans hl))
    · rw [upd_other (fun e => ?_)]
      · exact hl'
      · subst e; rw [hr] at hl'; cases hl'; exact hn rfl
    · obtain ⟨r', hr'⟩ := h.linked l (by omega) h2
      exact ⟨r', by rw [upd_other (by omega)]; exact hr'⟩
  · rw [if_neg hc] at hs; cases hs

theorem inv_free {s s' : St} (h : Inv s) {o b : Nat} (hf : Fair s (.free o b)) (hs : s.free o b = .ok s') : Inv s' := by
  unfold St.free at hs
  by_cases hm : (o, b) ∈ s.app
  · rw [if_pos hm] at hs; cases hs
    exact InvC.free h hm hf
  · rw [if_neg hm] at hs; cases hs

/-- A request without an entry in the log leaves the table. -/
theorem inv_leave {s : St} (h : Inv s) {r : Nat} {q : Req} (hq : s.reqs[r]? = some q) (hk : s.kmap q.key = some r)
    (hf : r ∉ s.fly) (hl : q.lsn = none) (hna : ∀ b, q.blk = some b → ∀ o, (o, b) ∉ s.app) :
    Inv (St.release { s with kmap := upd s.kmap q.key none } q) := by
  refine inv_release (s := { s with kmap := upd s.kmap q.key none }) ?_
  refine h.leave hq hk hf (fun c hc => if_neg hc) (fun c hc => .inl ⟨if_pos hc, hna c hc⟩)
    (fun l r' hl' => ?_) (fun l r' _ hl' => hl') h.linked (Nat.le_refl _) h.dle h.ule
  obtain ⟨a, b', p, c, a1, a2, _⟩ := h.link l r' hl'
  refine ⟨hl', a, b', rfl, fun e' => ?_, id⟩
  subst e'
  have : p = q := Option.some.inj (a1.symm.trans hq)
  subst this
  rw [hl] at a2; cases a2

theorem inv_gc {s s' : St} (h : Inv s) {r : Nat} (hf : Fair s (.gc r)) (hs : s.gc r = .ok s') : Inv s' := by
  unfold St.gc at hs
  cases hq : s.reqs[r]? with
  | none => simp only [hq] at hs; cases hs
  | some q =>
    simp only [hq] at hs
    by_cases hc : s.kmap q.key = some r ∧ q.prop = false ∧ q.flushed = false
    · rw [if_pos hc] at hs; cases hs
      obtain ⟨f1, f2, f3⟩ := hf q hq
      exact inv_leave h hq hc.1 f1 f2 f3
    · rw [if_neg hc] at hs; cases hs

theorem inv_clear {s s' : St} (h : Inv s) {r : Nat} (hf : Fair s (.clear r)) (hs : s.clear r = .ok s') : Inv s' := by
  unfold St.clear at hs
  cases hq : s.reqs[r]? with
  | none => simp only [hq] at hs; cases hs
  | some q =>
    simp only [hq] at hs
    by_cases hc : s.kmap q.key = some r ∧ q.blk ≠ none
    · rw [if_pos hc] at hs; cases hs
      obtain ⟨f1, f2, f3⟩ := hf q hq
      exact inv_leave h hq hc.1 f1 f2 f3
    · rw [if_neg hc] at hs; cases hs

theorem inv_doomed {s s' : St} (h : Inv s) {r : Nat} (hs : s.doomed r = .ok s') : Inv s' := by
  unfold St.doomed at hs
  cases hq : s.reqs[r]? with
  | none => simp only [hq] at hs; cases hs
  | some q =>
    simp only [hq] at hs
    split at hs
    · cases hs
    · cases hs; exact h

/-- Every step keeps the invariants. -/
theorem inv_step {s s' : St} (h : Inv s) {op : Op} (hf : Fair s op) (hs : s.step op = .ok s') : Inv s' := by
  cases op with
  | create k b hint => exact inv_create h hs
  | createFail k => exact inv_createFail h hs
  | propose k b hint => exact inv_propose h hs
  | save r => exact inv_save h hf hs
  | wdone r => exact inv_wdone h hs
  | wfail r => exact inv_wfail h hs
  | doom r => exact inv_doomed h hs
  | err r => exact inv_giveUp h hf hs
  | reject r => exact inv_reject h hf hs
  | append k => exact inv_append h hs
  | flush => exact inv_flush h hs
  | rollback => exact inv_rollback h hf hs
  | commit => exact inv_commit h hs
  | free o b => exact inv_free h hf hs
  | gc r => exact inv_gc h hf hs
  | clear r => exact inv_clear h hf hs
  | restart => cases hs; exact inv_restart h

end HS.Repl.Data
