import Verif.Repl.Data
/-! Invariants of the requests of a replicated device. -/
namespace HS.Repl.Data

/-- What is true of every reachable state, said of its parts.  `rq r` is request `r`. -/
structure InvC (rq : Nat → Option Req) (kmap : Key → Option Nat) (lmap : Nat → Option Nat) (log : List (Key × Nat))
    (dur upto : Nat) (used : Nat → Bool) (disk : Nat → Option Nat) (fly : List Nat) (app : List (Nat × Nat)) : Prop where
  tab : ∀ k r, kmap k = some r → ∃ q, rq r = some q ∧ q.key = k ∧ q.err = false
  link : ∀ l r, lmap l = some r → upto < l ∧ l ≤ log.length ∧
    ∃ q b, rq r = some q ∧ q.lsn = some l ∧ q.blk = some b ∧ log[l - 1]? = some (q.key, b) ∧
      (q.err = false → kmap q.key = some r)
  linked : ∀ l, upto < l → l ≤ log.length → ∃ r, lmap l = some r
  durw : ∀ (l r : Nat) (q : Req), l ≤ dur → lmap l = some r → rq r = some q → q.written = true ∧ q.err = false
  volq : ∀ (l r : Nat) (q : Req), dur < l → lmap l = some r → rq r = some q → q.vol = true
  flyok : ∀ r, r ∈ fly → ∃ q b, rq r = some q ∧ kmap q.key = some r ∧ q.written = false ∧ q.blk = some b ∧
    (∀ o, (o, b) ∉ app) ∧ (q.recv = true ∨ q.prop = true)
  wr : ∀ (r : Nat) (q : Req), rq r = some q → q.written = true → (q.recv = true ∨ q.prop = true) ∧ q.blk ≠ none
  lsnw : ∀ (r : Nat) (q : Req) (l : Nat), rq r = some q → q.lsn = some l → q.prop = true → q.written = true
  data : ∀ (r : Nat) (q : Req) (b : Nat), rq r = some q → kmap q.key = some r → q.blk = some b → q.written = true →
    disk b = some q.key.obj
  alloc : ∀ (r : Nat) (q : Req) (b : Nat), rq r = some q → kmap q.key = some r → q.blk = some b → used b = true
  excl : ∀ (r : Nat) (q : Req) (r' : Nat) (q' : Req) (b : Nat), rq r = some q → kmap q.key = some r →
    rq r' = some q' → kmap q'.key = some r' → q.blk = some b → q'.blk = some b → (∀ o, (o, b) ∉ app) → r = r'
  appok : ∀ o b, (o, b) ∈ app → used b = true ∧ disk b = some o
  share : ∀ (r : Nat) (q : Req) (o b : Nat), rq r = some q → kmap q.key = some r → q.blk = some b → (o, b) ∈ app →
    (q.key.obj, b) ∈ app ∧ q.written = true
  leak : ∀ b, used b = true → (∃ o, (o, b) ∈ app) ∨
    ∃ r q, rq r = some q ∧ kmap q.key = some r ∧ q.blk = some b
  vol0 : ∀ (r : Nat) (q : Req), rq r = some q → q.lsn = none → q.vol = true
  tlsn : ∀ (r : Nat) (q : Req) (l : Nat), rq r = some q → kmap q.key = some r → q.lsn = some l → lmap l = some r
  pb : ∀ (r : Nat) (q : Req), rq r = some q → kmap q.key = some r → q.prop = true → q.blk ≠ none
  ph : ∀ (r : Nat) (q : Req) (b : Nat), rq r = some q → kmap q.key = some r → q.prop = true → q.lsn = none →
    q.blk = some b → ∀ o, (o, b) ∉ app
  errw : ∀ (l r : Nat) (q : Req), lmap l = some r → rq r = some q → q.err = true → q.written = false
  dle : dur ≤ log.length
  ule : upto ≤ dur
  nd : fly.Nodup

/-- What is true of every reachable state. -/
def Inv (s : St) : Prop :=
  InvC (fun i => s.reqs[i]?) s.kmap s.lmap s.log s.dur s.upto s.used s.disk s.fly s.app

theorem upd_apply {α β : Type} [DecidableEq α] (f : α → β) (a : α) (b : β) (x : α) :
    upd f a b x = if x = a then b else f x := rfl

theorem reqs_setReq (s : St) (r : Nat) (f : Req → Req) (q : Req) (h : s.reqs[r]? = some q) :
    (fun i => (s.setReq r f).reqs[i]?) = upd (fun i => s.reqs[i]?) r (some (f q)) := by
  funext i
  simp only [St.setReq, List.getElem?_modify, upd]
  by_cases h' : i = r
  · subst h'; simp [h]
  · have : ¬ r = i := fun e => h' e.symm
    simp [this, h']

theorem reqs_push (l : List Req) (q : Req) :
    (fun i => (l ++ [q])[i]?) = upd (fun i => l[i]?) l.length (some q) := by
  funext i
  simp only [upd]
  by_cases h : i = l.length
  · subst h; simp
  · rw [if_neg h]
    by_cases h' : i < l.length
    · rw [List.getElem?_append_left h']
    · rw [List.getElem?_eq_none (by simp; omega), List.getElem?_eq_none (by omega)]

theorem inv_init : Inv St.init := by
  constructor <;> simp [St.init]
  omega

theorem upd_some {α β : Type} [DecidableEq α] {f : α → Option β} {a x : α} {v : Option β} {p : β} :
    upd f a v x = some p ↔ (x = a ∧ v = some p) ∨ (x ≠ a ∧ f x = some p) := by
  simp only [upd]
  by_cases h : x = a <;> simp [h]

theorem upd_same {α β : Type} [DecidableEq α] {f : α → β} {a : α} {v : β} : upd f a v a = v := by simp [upd]

theorem upd_other {α β : Type} [DecidableEq α] {f : α → β} {a x : α} {v : β} (h : x ≠ a) : upd f a v x = f x := by
  simp [upd, h]

section
variable {rq : Nat → Option Req} {kmap : Key → Option Nat} {lmap : Nat → Option Nat} {log : List (Key × Nat)}
  {dur upto : Nat} {used : Nat → Bool} {disk : Nat → Option Nat} {fly : List Nat} {app : List (Nat × Nat)}

/-- A write of a request's data starts. -/
theorem InvC.start (h : InvC rq kmap lmap log dur upto used disk fly app) {r : Nat} {q : Req} {b : Nat} {v : Bool}
    (hq : rq r = some q) (hk : kmap q.key = some r) (hw : q.written = false) (hb : q.blk = some b)
    (hv : v = true ∨ q.prop = true) (hf : r ∉ fly) :
    InvC (upd rq r (some { q with recv := v })) kmap lmap log dur upto used disk (r :: fly) app where
  tab k r' hr := by
    obtain ⟨p, h1, h2, h3⟩ := h.tab k r' hr
    by_cases e : r' = r
    · subst e; rw [hq] at h1; cases h1; exact ⟨_, upd_same, h2, h3⟩
    · exact ⟨p, by rw [upd_other e]; exact h1, h2, h3⟩
  link l r' hl := by
    obtain ⟨h1, h2, p, c, h3, h4, h5, h6, h7⟩ := h.link l r' hl
    refine ⟨h1, h2, ?_⟩
    by_cases e : r' = r
    · subst e; rw [hq] at h3; cases h3; exact ⟨_, c, upd_same, h4, h5, h6, h7⟩
    · exact ⟨p, c, by rw [upd_other e]; exact h3, h4, h5, h6, h7⟩
  linked := h.linked
  durw l r' p h1 h2 h3 := by
    rcases upd_some.1 h3 with ⟨rfl, e⟩ | ⟨_, e⟩
    · cases e; exact h.durw l r' q h1 h2 hq
    · exact h.durw l r' p h1 h2 e
  volq l r' p h1 h2 h3 := by
    rcases upd_some.1 h3 with ⟨rfl, e⟩ | ⟨_, e⟩
    · cases e; exact h.volq l r' q h1 h2 hq
    · exact h.volq l r' p h1 h2 e
  flyok r' hr := by
    by_cases e : r' = r
    · subst e
      refine ⟨_, b, upd_same, hk, hw, hb, fun o ho => ?_, hv⟩
      have := (h.share r' q o b hq hk hb ho).2
      rw [hw] at this; cases this
    · have : r' ∈ fly := by simpa [e] using hr
      obtain ⟨p, c, h1, h2⟩ := h.flyok r' this
      exact ⟨p, c, by rw [upd_other e]; exact h1, h2⟩
  wr r' p h1 h2 := by
    rcases upd_some.1 h1 with ⟨rfl, e⟩ | ⟨_, e⟩
    · cases e; exact ⟨hv, by simp [hb]⟩
    · exact h.wr r' p e h2
  lsnw r' p l h1 h2 h3 := by
    rcases upd_some.1 h1 with ⟨rfl, e⟩ | ⟨_, e⟩
    · cases e; exact h.lsnw r' q l hq h2 h3
    · exact h.lsnw r' p l e h2 h3
  data r' p c h1 h2 h3 h4 := by
    rcases upd_some.1 h1 with ⟨rfl, e⟩ | ⟨_, e⟩
    · cases e; exact h.data r' q c hq h2 h3 h4
    · exact h.data r' p c e h2 h3 h4
  alloc r' p c h1 h2 h3 := by
    rcases upd_some.1 h1 with ⟨rfl, e⟩ | ⟨_, e⟩
    · cases e; exact h.alloc r' q c hq h2 h3
    · exact h.alloc r' p c e h2 h3
  excl r1 q1 r2 q2 c h1 h2 h3 h4 h5 h6 h7 := by
    rcases upd_some.1 h1 with ⟨rfl, e⟩ | ⟨_, e⟩ <;> rcases upd_some.1 h3 with ⟨e', e2⟩ | ⟨_, e2⟩
    · exact e'.symm
    · cases e; exact h.excl r1 q r2 q2 c hq h2 e2 h4 h5 h6 h7
    · cases e2; subst e'; exact h.excl r1 q1 r2 q c e h2 hq h4 h5 h6 h7
    · exact h.excl r1 q1 r2 q2 c e h2 e2 h4 h5 h6 h7
  appok := h.appok
  share r' p o c h1 h2 h3 h4 := by
    rcases upd_some.1 h1 with ⟨rfl, e⟩ | ⟨_, e⟩
    · cases e; exact h.share r' q o c hq h2 h3 h4
    · exact h.share r' p o c e h2 h3 h4
  leak c hc := by
    rcases h.leak c hc with hl | ⟨r', p, h1, h2, h3⟩
    · exact .inl hl
    · refine .inr ?_
      by_cases e : r' = r
      · subst e; rw [hq] at h1; cases h1; exact ⟨_, _, upd_same, h2, h3⟩
      · exact ⟨r', p, by rw [upd_other e]; exact h1, h2, h3⟩
  vol0 r' p h1 h2 := by
    rcases upd_some.1 h1 with ⟨rfl, e⟩ | ⟨_, e⟩
    · cases e; exact h.vol0 r' q hq h2
    · exact h.vol0 r' p e h2
  tlsn r' p l h1 h2 h3 := by
    rcases upd_some.1 h1 with ⟨rfl, e⟩ | ⟨_, e⟩
    · cases e; exact h.tlsn r' q l hq h2 h3
    · exact h.tlsn r' p l e h2 h3
  pb r' p h1 h2 h3 := by
    rcases upd_some.1 h1 with ⟨rfl, e⟩ | ⟨_, e⟩
    · cases e; exact h.pb r' q hq h2 h3
    · exact h.pb r' p e h2 h3
  ph r' p c h1 h2 h3 h4 h5 := by
    rcases upd_some.1 h1 with ⟨rfl, e⟩ | ⟨_, e⟩
    · cases e; exact h.ph r' q c hq h2 h3 h4 h5
    · exact h.ph r' p c e h2 h3 h4 h5
  errw l r' p h1 h2 h3 := by
    rcases upd_some.1 h2 with ⟨rfl, e⟩ | ⟨_, e⟩
    · cases e; exact hw
    · exact h.errw l r' p h1 e h3
  dle := h.dle
  ule := h.ule
  nd := List.nodup_cons.2 ⟨hf, h.nd⟩

/-- A request's fields change that no write and no block depends on. -/
theorem InvC.mark (h : InvC rq kmap lmap log dur upto used disk fly app) {r : Nat} {q q' : Req} {dur' : Nat}
    (hq : rq r = some q) (e1 : q'.key = q.key) (e2 : q'.blk = q.blk) (e3 : q'.prop = q.prop) (e4 : q'.recv = q.recv)
    (e5 : q'.written = q.written) (e6 : q'.err = q.err) (e7 : q'.lsn = q.lsn)
    (hd : dur ≤ dur') (hd' : dur' ≤ log.length)
    (hn : ∀ l r' p, dur < l → l ≤ dur' → lmap l = some r' → rq r' = some p → p.written = true ∧ p.err = false)
    (hv : ∀ l, dur' < l → lmap l = some r → q'.vol = true) (hv0 : q.lsn = none → q'.vol = true) :
    InvC (upd rq r (some q')) kmap lmap log dur' upto used disk fly app where
  tab k r' hr := by
    obtain ⟨p, h1, h2, h3⟩ := h.tab k r' hr
    by_cases e : r' = r
    · subst e; rw [hq] at h1; cases h1; exact ⟨_, upd_same, e1 ▸ h2, e6 ▸ h3⟩
    · exact ⟨p, by rw [upd_other e]; exact h1, h2, h3⟩
  link l r' hl := by
    obtain ⟨h1, h2, p, c, h3, h4, h5, h6, h7⟩ := h.link l r' hl
    refine ⟨h1, h2, ?_⟩
    by_cases e : r' = r
    · subst e; rw [hq] at h3; cases h3
      exact ⟨_, c, upd_same, e7 ▸ h4, e2 ▸ h5, e1 ▸ h6, by rw [e1, e6]; exact h7⟩
    · exact ⟨p, c, by rw [upd_other e]; exact h3, h4, h5, h6, h7⟩
  linked := h.linked
  durw l r' p h1 h2 h3 := by
    have key : ∀ p, rq r' = some p → p.written = true ∧ p.err = false := fun p hp => by
      by_cases hl : l ≤ dur
      · exact h.durw l r' p hl h2 hp
      · exact hn l r' p (by omega) h1 h2 hp
    rcases upd_some.1 h3 with ⟨rfl, e⟩ | ⟨_, e⟩
    · cases e; rw [e5, e6]; exact key q hq
    · exact key p e
  volq l r' p h1 h2 h3 := by
    rcases upd_some.1 h3 with ⟨rfl, e⟩ | ⟨_, e⟩
    · cases e; exact hv l h1 h2
    · exact h.volq l r' p (by omega) h2 e
  flyok r' hr := by
    obtain ⟨p, c, h1, h2, h3, h4, h5, h6⟩ := h.flyok r' hr
    by_cases e : r' = r
    · subst e; rw [hq] at h1; cases h1
      exact ⟨_, c, upd_same, by rw [e1]; exact h2, by rw [e5]; exact h3, by rw [e2]; exact h4, h5, by rw [e4, e3]; exact h6⟩
    · exact ⟨p, c, by rw [upd_other e]; exact h1, h2, h3, h4, h5, h6⟩
  wr r' p h1 h2 := by
    rcases upd_some.1 h1 with ⟨rfl, e⟩ | ⟨_, e⟩
    · cases e; rw [e4, e3, e2]; exact h.wr r' q hq (e5 ▸ h2)
    · exact h.wr r' p e h2
  lsnw r' p l h1 h2 h3 := by
    rcases upd_some.1 h1 with ⟨rfl, e⟩ | ⟨_, e⟩
    · cases e; rw [e5]; exact h.lsnw r' q l hq (e7 ▸ h2) (e3 ▸ h3)
    · exact h.lsnw r' p l e h2 h3
  data r' p c h1 h2 h3 h4 := by
    rcases upd_some.1 h1 with ⟨rfl, e⟩ | ⟨_, e⟩
    · cases e; rw [e1]; exact h.data r' q c hq (e1 ▸ h2) (e2 ▸ h3) (e5 ▸ h4)
    · exact h.data r' p c e h2 h3 h4
  alloc r' p c h1 h2 h3 := by
    rcases upd_some.1 h1 with ⟨rfl, e⟩ | ⟨_, e⟩
    · cases e; exact h.alloc r' q c hq (e1 ▸ h2) (e2 ▸ h3)
    · exact h.alloc r' p c e h2 h3
  excl r1 q1 r2 q2 c h1 h2 h3 h4 h5 h6 h7 := by
    rcases upd_some.1 h1 with ⟨rfl, e⟩ | ⟨_, e⟩ <;> rcases upd_some.1 h3 with ⟨e', ee⟩ | ⟨_, ee⟩
    · exact e'.symm
    · cases e; exact h.excl r1 q r2 q2 c hq (e1 ▸ h2) ee h4 (e2 ▸ h5) h6 h7
    · cases ee; subst e'; exact h.excl r1 q1 r2 q c e h2 hq (e1 ▸ h4) h5 (e2 ▸ h6) h7
    · exact h.excl r1 q1 r2 q2 c e h2 ee h4 h5 h6 h7
  appok := h.appok
  share r' p o c h1 h2 h3 h4 := by
    rcases upd_some.1 h1 with ⟨rfl, e⟩ | ⟨_, e⟩
    · cases e; rw [e1, e5]; exact h.share r' q o c hq (e1 ▸ h2) (e2 ▸ h3) h4
    · exact h.share r' p o c e h2 h3 h4
  leak c hc := by
    rcases h.leak c hc with hl | ⟨r', p, h1, h2, h3⟩
    · exact .inl hl
    · refine .inr ?_
      by_cases e : r' = r
      · subst e; rw [hq] at h1; cases h1; exact ⟨_, _, upd_same, by rw [e1]; exact h2, by rw [e2]; exact h3⟩
      · exact ⟨r', p, by rw [upd_other e]; exact h1, h2, h3⟩
  vol0 r' p h1 h2 := by
    rcases upd_some.1 h1 with ⟨rfl, e⟩ | ⟨_, e⟩
    · cases e; exact hv0 (e7 ▸ h2)
    · exact h.vol0 r' p e h2
  tlsn r' p l h1 h2 h3 := by
    rcases upd_some.1 h1 with ⟨rfl, e⟩ | ⟨_, e⟩
    · cases e; exact h.tlsn r' q l hq (e1 ▸ h2) (e7 ▸ h3)
    · exact h.tlsn r' p l e h2 h3
  pb r' p h1 h2 h3 := by
    rcases upd_some.1 h1 with ⟨rfl, e⟩ | ⟨_, e⟩
    · cases e; rw [e2]; exact h.pb r' q hq (e1 ▸ h2) (e3 ▸ h3)
    · exact h.pb r' p e h2 h3
  ph r' p c h1 h2 h3 h4 h5 := by
    rcases upd_some.1 h1 with ⟨rfl, e⟩ | ⟨_, e⟩
    · cases e; exact h.ph r' q c hq (e1 ▸ h2) (e3 ▸ h3) (e7 ▸ h4) (e2 ▸ h5)
    · exact h.ph r' p c e h2 h3 h4 h5
  errw l r' p h1 h2 h3 := by
    rcases upd_some.1 h2 with ⟨rfl, e⟩ | ⟨_, e⟩
    · cases e; rw [e5]; exact h.errw l r' q h1 hq (e6 ▸ h3)
    · exact h.errw l r' p h1 e h3
  dle := hd'
  ule := Nat.le_trans h.ule hd
  nd := h.nd

/-- A write completes. -/
theorem InvC.done (h : InvC rq kmap lmap log dur upto used disk fly app) {r : Nat} {q : Req} {b : Nat}
    (hq : rq r = some q) (hb : q.blk = some b) (hf : r ∈ fly) :
    InvC (upd rq r (some { q with written := true })) kmap lmap log dur upto used (upd disk b (some q.key.obj))
      (fly.erase r) app := by
  obtain ⟨q0, b0, f1, f2, f3, f4, f5, f6⟩ := h.flyok r hf
  rw [hq] at f1; cases f1
  rw [hb] at f4; cases f4
  refine
  { tab := fun k r' hr => ?_
    link := fun l r' hl => ?_
    linked := h.linked
    durw := fun l r' p h1 h2 h3 => ?_
    volq := fun l r' p h1 h2 h3 => ?_
    flyok := fun r' hr => ?_
    wr := fun r' p h1 h2 => ?_
    lsnw := fun r' p l h1 h2 h3 => ?_
    data := fun r' p c h1 h2 h3 h4 => ?_
    alloc := fun r' p c h1 h2 h3 => ?_
    excl := fun r1 q1 r2 q2 c h1 h2 h3 h4 h5 h6 h7 => ?_
    appok := fun o c hc => ?_
    share := fun r' p o c h1 h2 h3 h4 => ?_
    leak := fun c hc => ?_
    vol0 := fun r' p h1 h2 => ?_
    tlsn := fun r' p l h1 h2 h3 => ?_
    pb := fun r' p h1 h2 h3 => ?_
    ph := fun r' p c h1 h2 h3 h4 h5 => ?_
    errw := fun l r' p h1 h2 h3 => ?_
    dle := h.dle
    ule := h.ule
    nd := h.nd.erase r }
  · obtain ⟨p, h1, h2, h3⟩ := h.tab k r' hr
    by_cases e : r' = r
    · subst e; rw [hq] at h1; cases h1; exact ⟨_, upd_same, h2, h3⟩
    · exact ⟨p, by rw [upd_other e]; exact h1, h2, h3⟩
  · obtain ⟨h1, h2, p, c, h3, h4, h5, h6, h7⟩ := h.link l r' hl
    refine ⟨h1, h2, ?_⟩
    by_cases e : r' = r
    · subst e; rw [hq] at h3; cases h3; exact ⟨_, c, upd_same, h4, h5, h6, h7⟩
    · exact ⟨p, c, by rw [upd_other e]; exact h3, h4, h5, h6, h7⟩
  · rcases upd_some.1 h3 with ⟨rfl, e⟩ | ⟨_, e⟩
    · cases e; exact ⟨rfl, (h.durw l r' q h1 h2 hq).2⟩
    · exact h.durw l r' p h1 h2 e
  · rcases upd_some.1 h3 with ⟨rfl, e⟩ | ⟨_, e⟩
    · cases e; exact h.volq l r' q h1 h2 hq
    · exact h.volq l r' p h1 h2 e
  · have hne : r' ≠ r := fun e => by
      subst e; exact (h.nd.not_mem_erase hr)
    obtain ⟨p, c, h1, h2, h3, h4, h5, h6⟩ := h.flyok r' (List.mem_of_mem_erase hr)
    exact ⟨p, c, by rw [upd_other hne]; exact h1, h2, h3, h4, h5, h6⟩
  · rcases upd_some.1 h1 with ⟨rfl, e⟩ | ⟨_, e⟩
    · cases e; exact ⟨f6, by simp [hb]⟩
    · exact h.wr r' p e h2
  · rcases upd_some.1 h1 with ⟨rfl, e⟩ | ⟨_, e⟩
    · cases e; rfl
    · exact h.lsnw r' p l e h2 h3
  · rcases upd_some.1 h1 with ⟨rfl, e⟩ | ⟨hne, e⟩
    · cases e
      have : c = b := by simpa [hb] using h3.symm
      subst this; exact upd_same
    · by_cases hc : c = b
      · subst hc; exact absurd (h.excl r' p r q c e h2 hq f2 h3 hb f5) hne
      · rw [upd_other hc]; exact h.data r' p c e h2 h3 h4
  · rcases upd_some.1 h1 with ⟨rfl, e⟩ | ⟨_, e⟩
    · cases e; exact h.alloc r' q c hq h2 h3
    · exact h.alloc r' p c e h2 h3
  · rcases upd_some.1 h1 with ⟨rfl, e⟩ | ⟨_, e⟩ <;> rcases upd_some.1 h3 with ⟨e', e2⟩ | ⟨_, e2⟩
    · exact e'.symm
    · cases e; exact h.excl r1 q r2 q2 c hq h2 e2 h4 h5 h6 h7
    · cases e2; subst e'; exact h.excl r1 q1 r2 q c e h2 hq h4 h5 h6 h7
    · exact h.excl r1 q1 r2 q2 c e h2 e2 h4 h5 h6 h7
  · have : c ≠ b := fun e => by subst e; exact f5 o hc
    rw [upd_other this]; exact h.appok o c hc
  · rcases upd_some.1 h1 with ⟨rfl, e⟩ | ⟨_, e⟩
    · cases e; exact ⟨(h.share r' q o c hq h2 h3 h4).1, rfl⟩
    · exact h.share r' p o c e h2 h3 h4
  · rcases h.leak c hc with hl | ⟨r', p, h1, h2, h3⟩
    · exact .inl hl
    · refine .inr ?_
      by_cases e : r' = r
      · subst e; rw [hq] at h1; cases h1; exact ⟨_, _, upd_same, h2, h3⟩
      · exact ⟨r', p, by rw [upd_other e]; exact h1, h2, h3⟩
  · rcases upd_some.1 h1 with ⟨rfl, e⟩ | ⟨_, e⟩
    · cases e; exact h.vol0 r' q hq h2
    · exact h.vol0 r' p e h2
  · rcases upd_some.1 h1 with ⟨rfl, e⟩ | ⟨_, e⟩
    · cases e; exact h.tlsn r' q l hq h2 h3
    · exact h.tlsn r' p l e h2 h3
  · rcases upd_some.1 h1 with ⟨rfl, e⟩ | ⟨_, e⟩
    · cases e; exact h.pb r' q hq h2 h3
    · exact h.pb r' p e h2 h3
  · rcases upd_some.1 h1 with ⟨rfl, e⟩ | ⟨_, e⟩
    · cases e; exact h.ph r' q c hq h2 h3 h4 h5
    · exact h.ph r' p c e h2 h3 h4 h5
  · rcases upd_some.1 h2 with ⟨rfl, e⟩ | ⟨_, e⟩
    · cases e
      obtain ⟨p, g1, _, g3⟩ := h.tab q.key r' f2
      rw [hq] at g1; cases g1
      rw [g3] at h3; cases h3
    · exact h.errw l r' p h1 e h3

/-- A request leaves the table; its block is given back unless the listener holds it. -/
theorem InvC.drop (h : InvC rq kmap lmap log dur upto used disk fly app) {r : Nat} {q : Req} {v : Bool}
    {lmap' : Nat → Option Nat} {log' : List (Key × Nat)} {dur' upto' : Nat} {used' : Nat → Bool}
    (hq : rq r = some q) (hk : kmap q.key = some r) (hf : r ∉ fly)
    (hu1 : ∀ c, q.blk ≠ some c → used' c = used c)
    (hu2 : ∀ c, q.blk = some c → (used' c = false ∧ ∀ o, (o, c) ∉ app) ∨ (used' c = used c ∧ ∃ o, (o, c) ∈ app))
    (hl1 : ∀ l r', lmap' l = some r' → lmap l = some r' ∧ upto' < l ∧ l ≤ log'.length ∧ log'[l - 1]? = log[l - 1]? ∧
      (r' = r → v = true ∧ dur' < l ∧ q.written = false) ∧ (dur' < l → dur < l))
    (hl2 : ∀ l r', r' ≠ r → lmap l = some r' → lmap' l = some r')
    (hl3 : ∀ l, upto' < l → l ≤ log'.length → ∃ r', lmap' l = some r')
    (hd : dur' ≤ dur) (hd' : dur' ≤ log'.length) (hup : upto' ≤ dur') :
    InvC (upd rq r (some { q with err := v || q.err })) (upd kmap q.key none) lmap' log' dur' upto' used' disk fly app := by
  have hne : ∀ r' p, rq r' = some p → kmap p.key = some r' → r' ≠ r → p.key ≠ q.key := fun r' p _ h2 hn e => by
    rw [e, hk] at h2; cases h2; exact hn rfl
  have hmem : ∀ r' p, upd rq r (some { q with err := v || q.err }) r' = some p → upd kmap q.key none p.key = some r' →
      r' ≠ r ∧ rq r' = some p ∧ kmap p.key = some r' := fun r' p h1 h2 => by
    rcases upd_some.1 h2 with ⟨_, e⟩ | ⟨hn, e⟩
    · cases e
    rcases upd_some.1 h1 with ⟨rfl, e'⟩ | ⟨hn', e'⟩
    · cases e'; exact absurd rfl hn
    · exact ⟨hn', e', e⟩
  have hback : ∀ r' p, r' ≠ r → rq r' = some p → kmap p.key = some r' →
      upd rq r (some { q with err := v || q.err }) r' = some p ∧ upd kmap q.key none p.key = some r' := fun r' p hn h1 h2 =>
    ⟨by rw [upd_other hn]; exact h1, by rw [upd_other (hne r' p h1 h2 hn)]; exact h2⟩
  refine
  { tab := fun k r' hr => ?_
    link := fun l r' hl => ?_
    linked := hl3
    durw := fun l r' p h1 h2 h3 => ?_
    volq := fun l r' p h1 h2 h3 => ?_
    flyok := fun r' hr => ?_
    wr := fun r' p h1 h2 => ?_
    lsnw := fun r' p l h1 h2 h3 => ?_
    data := fun r' p c h1 h2 h3 h4 => ?_
    alloc := fun r' p c h1 h2 h3 => ?_
    excl := fun r1 q1 r2 q2 c h1 h2 h3 h4 h5 h6 h7 => ?_
    appok := fun o c hc => ?_
    share := fun r' p o c h1 h2 h3 h4 => ?_
    leak := fun c hc => ?_
    vol0 := fun r' p h1 h2 => ?_
    tlsn := fun r' p l h1 h2 h3 => ?_
    pb := fun r' p h1 h2 h3 => ?_
    ph := fun r' p c h1 h2 h3 h4 h5 => ?_
    errw := fun l r' p h1 h2 h3 => ?_
    dle := hd'
    ule := hup
    nd := h.nd }
  · rcases upd_some.1 hr with ⟨_, e⟩ | ⟨hn, e⟩
    · cases e
    · obtain ⟨p, h1, h2, h3⟩ := h.tab k r' e
      have hn' : r' ≠ r := fun e' => by
        subst e'; rw [hq] at h1; cases h1; exact hn h2.symm
      exact ⟨p, by rw [upd_other hn']; exact h1, h2, h3⟩
  · obtain ⟨g1, g2, g3, g4, g5, _⟩ := hl1 l r' hl
    obtain ⟨h1, h2, p, c, h3, h4, h5, h6, h7⟩ := h.link l r' g1
    refine ⟨g2, g3, ?_⟩
    by_cases e : r' = r
    · subst e; rw [hq] at h3; cases h3
      refine ⟨_, c, upd_same, h4, h5, g4 ▸ h6, fun he => ?_⟩
      simp [(g5 rfl).1] at he
    · exact ⟨p, c, by rw [upd_other e]; exact h3, h4, h5, g4 ▸ h6,
        fun he => (hback r' p e h3 (h7 he)).2⟩
  · obtain ⟨g1, g2, g3, g4, g5, _⟩ := hl1 l r' h2
    rcases upd_some.1 h3 with ⟨rfl, e⟩ | ⟨_, e⟩
    · have := (g5 rfl).2.1; omega
    · exact h.durw l r' p (by omega) g1 e
  · obtain ⟨g1, g2, g3, g4, g5, g6⟩ := hl1 l r' h2
    rcases upd_some.1 h3 with ⟨rfl, e⟩ | ⟨_, e⟩
    · cases e; exact h.volq l r' q (g6 h1) g1 hq
    · exact h.volq l r' p (g6 h1) g1 e
  · have hn : r' ≠ r := fun e => hf (e ▸ hr)
    obtain ⟨p, c, h1, h2, h3⟩ := h.flyok r' hr
    have := hback r' p hn h1 h2
    exact ⟨p, c, this.1, this.2, h3⟩
  · rcases upd_some.1 h1 with ⟨rfl, e⟩ | ⟨_, e⟩
    · cases e; exact h.wr r' q hq h2
    · exact h.wr r' p e h2
  · rcases upd_some.1 h1 with ⟨rfl, e⟩ | ⟨_, e⟩
    · cases e; exact h.lsnw r' q l hq h2 h3
    · exact h.lsnw r' p l e h2 h3
  · obtain ⟨_, a, b⟩ := hmem r' p h1 h2
    exact h.data r' p c a b h3 h4
  · obtain ⟨hn, a, b⟩ := hmem r' p h1 h2
    have hus := h.alloc r' p c a b h3
    by_cases hc : q.blk = some c
    · rcases hu2 c hc with ⟨_, hna⟩ | ⟨e, _⟩
      · exact absurd (h.excl r' p r q c a b hq hk h3 hc hna) hn
      · rw [e]; exact hus
    · rw [hu1 c hc]; exact hus
  · obtain ⟨_, a1, b1⟩ := hmem r1 q1 h1 h2
    obtain ⟨_, a2, b2⟩ := hmem r2 q2 h3 h4
    exact h.excl r1 q1 r2 q2 c a1 b1 a2 b2 h5 h6 h7
  · refine ⟨?_, (h.appok o c hc).2⟩
    by_cases hcb : q.blk = some c
    · rcases hu2 c hcb with ⟨_, hna⟩ | ⟨e, _⟩
      · exact absurd hc (hna o)
      · rw [e]; exact (h.appok o c hc).1
    · rw [hu1 c hcb]; exact (h.appok o c hc).1
  · obtain ⟨_, a, b⟩ := hmem r' p h1 h2
    exact h.share r' p o c a b h3 h4
  · by_cases hcb : q.blk = some c
    · rcases hu2 c hcb with ⟨e, _⟩ | ⟨_, o, ho⟩
      · rw [e] at hc; cases hc
      · exact .inl ⟨o, ho⟩
    · rw [hu1 c hcb] at hc
      rcases h.leak c hc with hl | ⟨r', p, h1, h2, h3⟩
      · exact .inl hl
      · refine .inr ⟨r', p, ?_⟩
        have hn : r' ≠ r := fun e => by
          subst e; rw [hq] at h1; cases h1; exact hcb h3
        have := hback r' p hn h1 h2
        exact ⟨this.1, this.2, h3⟩
  · rcases upd_some.1 h1 with ⟨rfl, e⟩ | ⟨_, e⟩
    · cases e; exact h.vol0 r' q hq h2
    · exact h.vol0 r' p e h2
  · obtain ⟨hn, a, b⟩ := hmem r' p h1 h2
    exact hl2 l r' hn (h.tlsn r' p l a b h3)
  · obtain ⟨_, a, b⟩ := hmem r' p h1 h2
    exact h.pb r' p a b h3
  · obtain ⟨_, a, b⟩ := hmem r' p h1 h2
    exact h.ph r' p c a b h3 h4 h5
  · obtain ⟨g1, _, _, _, g5, _⟩ := hl1 l r' h1
    rcases upd_some.1 h2 with ⟨rfl, e⟩ | ⟨_, e⟩
    · cases e; exact (g5 rfl).2.2
    · exact h.errw l r' p g1 e h3

/-- The listener is told of a request that is on the member's disk. -/
theorem InvC.hold (h : InvC rq kmap lmap log dur upto used disk fly app) {r : Nat} {q : Req} {b : Nat}
    (hq : rq r = some q) (hk : kmap q.key = some r) (hw : q.written = true) (hb : q.blk = some b) (hl : q.lsn ≠ none) :
    InvC rq kmap lmap log dur upto used disk fly
      (if (q.key.obj, b) ∈ app then app else (q.key.obj, b) :: app) := by
  by_cases hm : (q.key.obj, b) ∈ app
  · rw [if_pos hm]; exact h
  · rw [if_neg hm]
    have hna : ∀ o, (o, b) ∉ app := fun o ho => hm (h.share r q o b hq hk hb ho).1
    have hcons : ∀ o c, (o, c) ∈ ((q.key.obj, b) :: app : List (Nat × Nat)) → (o = q.key.obj ∧ c = b) ∨ (o, c) ∈ app := by
      intro o c hc
      rcases List.mem_cons.1 hc with e | e
      · cases e; exact .inl ⟨rfl, rfl⟩
      · exact .inr e
    exact
    { tab := h.tab
      link := h.link
      linked := h.linked
      durw := h.durw
      volq := h.volq
      flyok := fun r' hr => by
        obtain ⟨p, c, h1, h2, h3, h4, h5, h6⟩ := h.flyok r' hr
        refine ⟨p, c, h1, h2, h3, h4, fun o ho => ?_, h6⟩
        rcases hcons o c ho with ⟨_, rfl⟩ | e
        · have := h.excl r q r' p c hq hk h1 h2 hb h4 hna
          subst this; rw [hq] at h1; cases h1; rw [hw] at h3; cases h3
        · exact h5 o e
      wr := h.wr
      lsnw := h.lsnw
      data := h.data
      alloc := h.alloc
      excl := fun r1 q1 r2 q2 c h1 h2 h3 h4 h5 h6 h7 =>
        h.excl r1 q1 r2 q2 c h1 h2 h3 h4 h5 h6 (fun o ho => h7 o (List.mem_cons_of_mem _ ho))
      appok := fun o c hc => by
        rcases hcons o c hc with ⟨rfl, rfl⟩ | e
        · exact ⟨h.alloc r q c hq hk hb, h.data r q c hq hk hb hw⟩
        · exact h.appok o c e
      share := fun r' p o c h1 h2 h3 h4 => by
        rcases hcons o c h4 with ⟨rfl, rfl⟩ | e
        · have := h.excl r q r' p c hq hk h1 h2 hb h3 hna
          subst this; rw [hq] at h1; cases h1
          exact ⟨List.mem_cons_self, hw⟩
        · have := h.share r' p o c h1 h2 h3 e
          exact ⟨List.mem_cons_of_mem _ this.1, this.2⟩
      leak := fun c hc => by
        rcases h.leak c hc with ⟨o, ho⟩ | e
        · exact .inl ⟨o, List.mem_cons_of_mem _ ho⟩
        · exact .inr e
      vol0 := h.vol0
      tlsn := h.tlsn
      pb := h.pb
      ph := fun r' p c h1 h2 h3 h4 h5 o ho => by
        rcases hcons o c ho with ⟨rfl, rfl⟩ | e
        · have := h.excl r q r' p c hq hk h1 h2 hb h5 hna
          subst this; rw [hq] at h1; cases h1; exact hl h4
        · exact h.ph r' p c h1 h2 h3 h4 h5 o e
      errw := h.errw
      dle := h.dle
      ule := h.ule
      nd := h.nd }

/-- The user frees a block. -/
theorem InvC.free (h : InvC rq kmap lmap log dur upto used disk fly app) {o b : Nat} (hm : (o, b) ∈ app)
    (hn : ∀ (r : Nat) (q : Req), rq r = some q → kmap q.key = some r → q.blk ≠ some b) :
    InvC rq kmap lmap log dur upto (upd used b false) disk fly (app.filter (fun p => decide (p ≠ (o, b)))) := by
  have hin : ∀ o' c, (o', c) ∈ app.filter (fun p => decide (p ≠ (o, b))) → (o', c) ∈ app ∧ c ≠ b := fun o' c hc => by
    obtain ⟨h1, h2⟩ := List.mem_filter.1 hc
    refine ⟨h1, fun e => ?_⟩
    subst e
    have a1 := (h.appok o' c h1).2
    have a2 := (h.appok o c hm).2
    rw [a1] at a2; cases a2
    simp at h2
  have hout : ∀ o' c, (o', c) ∈ app → c ≠ b → (o', c) ∈ app.filter (fun p => decide (p ≠ (o, b))) := fun o' c h1 h2 =>
    List.mem_filter.2 ⟨h1, by simp [h2]⟩
  exact
  { tab := h.tab
    link := h.link
    linked := h.linked
    durw := h.durw
    volq := h.volq
    flyok := fun r' hr => by
      obtain ⟨p, c, h1, h2, h3, h4, h5, h6⟩ := h.flyok r' hr
      exact ⟨p, c, h1, h2, h3, h4, fun o' ho => h5 o' (hin o' c ho).1, h6⟩
    wr := h.wr
    lsnw := h.lsnw
    data := h.data
    alloc := fun r q c h1 h2 h3 => by
      have : c ≠ b := fun e => hn r q h1 h2 (e ▸ h3)
      rw [upd_other this]; exact h.alloc r q c h1 h2 h3
    excl := fun r1 q1 r2 q2 c h1 h2 h3 h4 h5 h6 h7 => by
      have : c ≠ b := fun e => hn r1 q1 h1 h2 (e ▸ h5)
      exact h.excl r1 q1 r2 q2 c h1 h2 h3 h4 h5 h6 (fun o' ho => h7 o' (hout o' c ho this))
    appok := fun o' c hc => by
      have := hin o' c hc
      rw [upd_other this.2]; exact h.appok o' c this.1
    share := fun r q o' c h1 h2 h3 h4 => by
      have := hin o' c h4
      have g := h.share r q o' c h1 h2 h3 this.1
      exact ⟨hout _ c g.1 this.2, g.2⟩
    leak := fun c hc => by
      have hcb : c ≠ b := fun e => by rw [e, upd_same] at hc; cases hc
      rw [upd_other hcb] at hc
      rcases h.leak c hc with ⟨o', ho⟩ | e
      · exact .inl ⟨o', hout o' c ho hcb⟩
      · exact .inr e
    vol0 := h.vol0
    tlsn := h.tlsn
    pb := h.pb
    ph := fun r' p c h1 h2 h3 h4 h5 o' ho => h.ph r' p c h1 h2 h3 h4 h5 o' (hin o' c ho).1
    errw := h.errw
    dle := h.dle
    ule := h.ule
    nd := h.nd }

/-- A new request. -/
theorem InvC.new (h : InvC rq kmap lmap log dur upto used disk fly app) {n : Nat} {k : Key}
    (hn : rq n = none) (hk : kmap k = none) :
    InvC (upd rq n (some (Req.fresh k false))) (upd kmap k (some n)) lmap log dur upto used disk fly app := by
  have hmem : ∀ r' p, upd rq n (some (Req.fresh k false)) r' = some p → upd kmap k (some n) p.key = some r' →
      (r' = n ∧ p = Req.fresh k false) ∨ (rq r' = some p ∧ kmap p.key = some r') := fun r' p h1 h2 => by
    rcases upd_some.1 h1 with ⟨rfl, e⟩ | ⟨hn', e⟩
    · cases e; exact .inl ⟨rfl, rfl⟩
    · refine .inr ⟨e, ?_⟩
      rcases upd_some.1 h2 with ⟨_, e'⟩ | ⟨_, e'⟩
      · cases e'; exact absurd rfl hn'
      · exact e'
  have hback : ∀ r' p, rq r' = some p → upd rq n (some (Req.fresh k false)) r' = some p := fun r' p h1 => by
    have : r' ≠ n := fun e => by subst e; rw [hn] at h1; cases h1
    rw [upd_other this]; exact h1
  have hkb : ∀ k' r', kmap k' = some r' → upd kmap k (some n) k' = some r' := fun k' r' h1 => by
    have : k' ≠ k := fun e => by subst e; rw [hk] at h1; cases h1
    rw [upd_other this]; exact h1
  exact
  { tab := fun k' r' hr => by
      rcases upd_some.1 hr with ⟨rfl, e⟩ | ⟨_, e⟩
      · cases e; exact ⟨_, upd_same, rfl, rfl⟩
      · obtain ⟨p, h1, h2⟩ := h.tab k' r' e
        exact ⟨p, hback r' p h1, h2⟩
    link := fun l r' hl => by
      obtain ⟨h1, h2, p, c, h3, h4, h5, h6, h7⟩ := h.link l r' hl
      exact ⟨h1, h2, p, c, hback r' p h3, h4, h5, h6, fun he => hkb _ _ (h7 he)⟩
    linked := h.linked
    durw := fun l r' p h1 h2 h3 => by
      obtain ⟨_, _, p', _, g, _⟩ := h.link l r' h2
      have := hback r' p' g; rw [h3] at this; cases this
      exact h.durw l r' p h1 h2 g
    volq := fun l r' p h1 h2 h3 => by
      obtain ⟨_, _, p', _, g, _⟩ := h.link l r' h2
      have := hback r' p' g; rw [h3] at this; cases this
      exact h.volq l r' p h1 h2 g
    flyok := fun r' hr => by
      obtain ⟨p, c, h1, h2, h3⟩ := h.flyok r' hr
      exact ⟨p, c, hback r' p h1, hkb _ _ h2, h3⟩
    wr := fun r' p h1 h2 => by
      rcases upd_some.1 h1 with ⟨rfl, e⟩ | ⟨_, e⟩
      · cases e; cases h2
      · exact h.wr r' p e h2
    lsnw := fun r' p l h1 h2 h3 => by
      rcases upd_some.1 h1 with ⟨rfl, e⟩ | ⟨_, e⟩
      · cases e; cases h2
      · exact h.lsnw r' p l e h2 h3
    data := fun r' p c h1 h2 h3 h4 => by
      rcases hmem r' p h1 h2 with ⟨rfl, rfl⟩ | ⟨a, b⟩
      · cases h3
      · exact h.data r' p c a b h3 h4
    alloc := fun r' p c h1 h2 h3 => by
      rcases hmem r' p h1 h2 with ⟨rfl, rfl⟩ | ⟨a, b⟩
      · cases h3
      · exact h.alloc r' p c a b h3
    excl := fun r1 q1 r2 q2 c h1 h2 h3 h4 h5 h6 h7 => by
      rcases hmem r1 q1 h1 h2 with ⟨rfl, rfl⟩ | ⟨a, b⟩
      · cases h5
      · rcases hmem r2 q2 h3 h4 with ⟨rfl, rfl⟩ | ⟨a2, b2⟩
        · cases h6
        · exact h.excl r1 q1 r2 q2 c a b a2 b2 h5 h6 h7
    appok := h.appok
    share := fun r' p o c h1 h2 h3 h4 => by
      rcases hmem r' p h1 h2 with ⟨rfl, rfl⟩ | ⟨a, b⟩
      · cases h3
      · exact h.share r' p o c a b h3 h4
    leak := fun c hc => by
      rcases h.leak c hc with hl | ⟨r', p, h1, h2, h3⟩
      · exact .inl hl
      · exact .inr ⟨r', p, hback r' p h1, hkb _ _ h2, h3⟩
    vol0 := fun r' p h1 h2 => by
      rcases upd_some.1 h1 with ⟨rfl, e⟩ | ⟨_, e⟩
      · cases e; rfl
      · exact h.vol0 r' p e h2
    tlsn := fun r' p l h1 h2 h3 => by
      rcases hmem r' p h1 h2 with ⟨rfl, rfl⟩ | ⟨a, b⟩
      · cases h3
      · exact h.tlsn r' p l a b h3
    pb := fun r' p h1 h2 h3 => by
      rcases hmem r' p h1 h2 with ⟨rfl, rfl⟩ | ⟨a, b⟩
      · cases h3
      · exact h.pb r' p a b h3
    ph := fun r' p c h1 h2 h3 h4 h5 => by
      rcases hmem r' p h1 h2 with ⟨rfl, rfl⟩ | ⟨a, b⟩
      · cases h3
      · exact h.ph r' p c a b h3 h4 h5
    errw := fun l r' p g1 g2 g3 => by
      obtain ⟨_, _, p', _, g, _⟩ := h.link l r' g1
      have := hback r' p' g; rw [g2] at this; cases this
      exact h.errw l r' p g1 g g3
    dle := h.dle
    ule := h.ule
    nd := h.nd }

/-- A request of the table without a block gets one: a free one, or one that holds its object
already. -/
theorem InvC.give (h : InvC rq kmap lmap log dur upto used disk fly app) {r : Nat} {q q' : Req} {b : Nat}
    {used' : Nat → Bool} (hq : rq r = some q) (hk : kmap q.key = some r) (hb : q.blk = none)
    (e1 : q'.key = q.key) (e2 : q'.blk = some b) (e3 : q'.prop = q.prop) (e4 : q'.err = q.err) (e5 : q'.lsn = q.lsn)
    (e6 : q'.vol = q.vol)
    (hc : (used b = false ∧ used' = upd used b true ∧ q'.written = q.written ∧ q'.recv = q.recv) ∨
      ((q.key.obj, b) ∈ app ∧ used' = used ∧ q'.written = true ∧ q'.recv = true)) :
    InvC (upd rq r (some q')) kmap lmap log dur upto used' disk fly app := by
  have hw : q.written = false := by
    cases hx : q.written with
    | false => rfl
    | true => exact absurd hb (h.wr r q hq hx).2
  have hnl : ∀ l, lmap l ≠ some r := fun l hl => by
    obtain ⟨_, _, p, c, h3, _, h5, _⟩ := h.link l r hl
    rw [hq] at h3; cases h3; rw [hb] at h5; cases h5
  have hnf : r ∉ fly := fun hr => by
    obtain ⟨p, c, h1, _, _, h4, _⟩ := h.flyok r hr
    rw [hq] at h1; cases h1; rw [hb] at h4; cases h4
  have hmono : ∀ c, used c = true → used' c = true := fun c hc' => by
    rcases hc with ⟨_, e, _⟩ | ⟨_, e, _⟩
    · rw [e]; simp only [upd]; split
      · rfl
      · exact hc'
    · rw [e]; exact hc'
  have hub : used' b = true := by
    rcases hc with ⟨_, e, _⟩ | ⟨g, e, _⟩
    · rw [e]; exact upd_same
    · rw [e]; exact (h.appok _ b g).1
  have hmem : ∀ r' p, upd rq r (some q') r' = some p → kmap p.key = some r' →
      (r' = r ∧ p = q') ∨ (r' ≠ r ∧ rq r' = some p ∧ kmap p.key = some r') := fun r' p h1 h2 => by
    rcases upd_some.1 h1 with ⟨rfl, e⟩ | ⟨hn', e⟩
    · cases e; exact .inl ⟨rfl, rfl⟩
    · exact .inr ⟨hn', e, h2⟩
  have hnew : used b = false → ∀ r' p, rq r' = some p → kmap p.key = some r' → p.blk ≠ some b := fun hu r' p h1 h2 h3 => by
    have := h.alloc r' p b h1 h2 h3
    rw [hu] at this; cases this
  exact
  { tab := fun k' r' hr => by
      obtain ⟨p, h1, h2, h3⟩ := h.tab k' r' hr
      by_cases e : r' = r
      · subst e; rw [hq] at h1; cases h1; exact ⟨_, upd_same, e1 ▸ h2, e4 ▸ h3⟩
      · exact ⟨p, by rw [upd_other e]; exact h1, h2, h3⟩
    link := fun l r' hl => by
      obtain ⟨h1, h2, p, c, h3, h4⟩ := h.link l r' hl
      have e : r' ≠ r := fun e => hnl l (e ▸ hl)
      exact ⟨h1, h2, p, c, by rw [upd_other e]; exact h3, h4⟩
    linked := h.linked
    durw := fun l r' p h1 h2 h3 => by
      have e : r' ≠ r := fun e => hnl l (e ▸ h2)
      rw [upd_other e] at h3
      exact h.durw l r' p h1 h2 h3
    volq := fun l r' p h1 h2 h3 => by
      have e : r' ≠ r := fun e => hnl l (e ▸ h2)
      rw [upd_other e] at h3
      exact h.volq l r' p h1 h2 h3
    flyok := fun r' hr => by
      have e : r' ≠ r := fun e => hnf (e ▸ hr)
      obtain ⟨p, c, h1, h2⟩ := h.flyok r' hr
      exact ⟨p, c, by rw [upd_other e]; exact h1, h2⟩
    wr := fun r' p h1 h2 => by
      rcases upd_some.1 h1 with ⟨rfl, e⟩ | ⟨_, e⟩
      · cases e
        refine ⟨?_, by simp [e2]⟩
        rcases hc with ⟨_, _, g, _⟩ | ⟨_, _, _, g⟩
        · rw [g, hw] at h2; cases h2
        · exact .inl g
      · exact h.wr r' p e h2
    lsnw := fun r' p l h1 h2 h3 => by
      rcases upd_some.1 h1 with ⟨rfl, e⟩ | ⟨_, e⟩
      · cases e
        rcases hc with ⟨_, _, g, _⟩ | ⟨_, _, g, _⟩
        · rw [g]; exact h.lsnw r' q l hq (e5 ▸ h2) (e3 ▸ h3)
        · exact g
      · exact h.lsnw r' p l e h2 h3
    data := fun r' p c h1 h2 h3 h4 => by
      rcases hmem r' p h1 h2 with ⟨rfl, rfl⟩ | ⟨_, a, b'⟩
      · rcases hc with ⟨_, _, g, _⟩ | ⟨g, _⟩
        · rw [g, hw] at h4; cases h4
        · rw [e2] at h3; cases h3; rw [e1]; exact (h.appok _ _ g).2
      · exact h.data r' p c a b' h3 h4
    alloc := fun r' p c h1 h2 h3 => by
      rcases hmem r' p h1 h2 with ⟨rfl, rfl⟩ | ⟨_, a, b'⟩
      · rw [e2] at h3; cases h3; exact hub
      · exact hmono c (h.alloc r' p c a b' h3)
    excl := fun r1 q1 r2 q2 c h1 h2 h3 h4 h5 h6 h7 => by
      have hx : ∀ r' p, rq r' = some p → kmap p.key = some r' → p.blk = some c → b = c → False := fun r' p g1 g2 g3 g4 => by
        subst g4
        rcases hc with ⟨g, _⟩ | ⟨g, _⟩
        · exact hnew g r' p g1 g2 g3
        · exact h7 _ g
      rcases hmem r1 q1 h1 h2 with ⟨rfl, rfl⟩ | ⟨n1, a, b'⟩ <;> rcases hmem r2 q2 h3 h4 with ⟨rfl, rfl⟩ | ⟨n2, a2, b2⟩
      · rfl
      · rw [e2] at h5; exact absurd (Option.some.inj h5) (hx r2 q2 a2 b2 h6)
      · rw [e2] at h6; exact absurd (Option.some.inj h6) (hx r1 q1 a b' h5)
      · exact h.excl r1 q1 r2 q2 c a b' a2 b2 h5 h6 h7
    appok := fun o c hm => ⟨hmono c (h.appok o c hm).1, (h.appok o c hm).2⟩
    share := fun r' p o c h1 h2 h3 h4 => by
      rcases hmem r' p h1 h2 with ⟨rfl, rfl⟩ | ⟨_, a, b'⟩
      · rw [e2] at h3; cases h3
        rcases hc with ⟨g, _⟩ | ⟨g, _, g', _⟩
        · have := (h.appok o b h4).1; rw [g] at this; cases this
        · exact ⟨e1 ▸ g, g'⟩
      · exact h.share r' p o c a b' h3 h4
    leak := fun c hcu => by
      by_cases hcb : c = b
      · subst hcb; exact .inr ⟨r, q', upd_same, by rw [e1]; exact hk, e2⟩
      · have : used c = true := by
          rcases hc with ⟨_, e, _⟩ | ⟨_, e, _⟩
          · rw [e, upd_other hcb] at hcu; exact hcu
          · rw [e] at hcu; exact hcu
        rcases h.leak c this with hl | ⟨r', p, h1, h2, h3⟩
        · exact .inl hl
        · have e : r' ≠ r := fun e => by subst e; rw [hq] at h1; cases h1; rw [hb] at h3; cases h3
          exact .inr ⟨r', p, by rw [upd_other e]; exact h1, h2, h3⟩
    vol0 := fun r' p h1 h2 => by
      rcases upd_some.1 h1 with ⟨rfl, e⟩ | ⟨_, e⟩
      · cases e; rw [e6]; exact h.vol0 r' q hq (e5 ▸ h2)
      · exact h.vol0 r' p e h2
    tlsn := fun r' p l h1 h2 h3 => by
      rcases hmem r' p h1 h2 with ⟨rfl, rfl⟩ | ⟨_, a, b'⟩
      · exact h.tlsn r' q l hq hk (e5 ▸ h3)
      · exact h.tlsn r' p l a b' h3
    pb := fun r' p h1 h2 h3 => by
      rcases hmem r' p h1 h2 with ⟨rfl, rfl⟩ | ⟨_, a, b'⟩
      · simp [e2]
      · exact h.pb r' p a b' h3
    ph := fun r' p c h1 h2 h3 h4 h5 => by
      rcases hmem r' p h1 h2 with ⟨rfl, rfl⟩ | ⟨_, a, b'⟩
      · exact absurd hb (h.pb r' q hq hk (e3 ▸ h3))
      · exact h.ph r' p c a b' h3 h4 h5
    errw := fun l r' p g1 g2 g3 => by
      have e : r' ≠ r := fun e => hnl l (e ▸ g1)
      rw [upd_other e] at g2
      exact h.errw l r' p g1 g2 g3
    dle := h.dle
    ule := h.ule
    nd := h.nd }

/-- An entry is appended. -/
theorem InvC.appendEntry (h : InvC rq kmap lmap log dur upto used disk fly app) {r : Nat} {q : Req} {b : Nat}
    (hq : rq r = some q) (hk : kmap q.key = some r) (hb : q.blk = some b) (hl : q.lsn = none)
    (hp : q.prop = true → q.written = true) :
    InvC (upd rq r (some { q with lsn := some (log.length + 1) })) kmap (upd lmap (log.length + 1) (some r))
      (log ++ [(q.key, b)]) dur upto used disk fly app := by
  have hdl := h.dle
  have hul := h.ule
  have hnl : ∀ l, lmap l ≠ some r := fun l hl' => by
    obtain ⟨_, _, p, c, h3, h4, _⟩ := h.link l r hl'
    rw [hq] at h3; cases h3; rw [hl] at h4; cases h4
  have hmem : ∀ r' p, upd rq r (some { q with lsn := some (log.length + 1) }) r' = some p → kmap p.key = some r' →
      (r' = r ∧ p = { q with lsn := some (log.length + 1) }) ∨ (r' ≠ r ∧ rq r' = some p ∧ kmap p.key = some r') := fun r' p h1 h2 => by
    rcases upd_some.1 h1 with ⟨rfl, e⟩ | ⟨hn', e⟩
    · cases e; exact .inl ⟨rfl, rfl⟩
    · exact .inr ⟨hn', e, h2⟩
  exact
  { tab := fun k' r' hr => by
      obtain ⟨p, h1, h2, h3⟩ := h.tab k' r' hr
      by_cases e : r' = r
      · subst e; rw [hq] at h1; cases h1; exact ⟨_, upd_same, h2, h3⟩
      · exact ⟨p, by rw [upd_other e]; exact h1, h2, h3⟩
    link := fun l r' hl' => by
      rcases upd_some.1 hl' with ⟨rfl, e⟩ | ⟨_, e⟩
      · cases e
        refine ⟨by omega, by simp, _, b, upd_same, rfl, hb, by simp, fun _ => hk⟩
      · obtain ⟨h1, h2, p, c, h3, h4, h5, h6, h7⟩ := h.link l r' e
        have en : r' ≠ r := fun e' => hnl l (e' ▸ e)
        refine ⟨h1, by simp; omega, p, c, by rw [upd_other en]; exact h3, h4, h5, ?_, h7⟩
        rw [List.getElem?_append_left (by omega)]; exact h6
    linked := fun l h1 h2 => by
      by_cases e : l = log.length + 1
      · subst e; exact ⟨r, upd_same⟩
      · rw [upd_other e]; exact h.linked l h1 (by simp at h2; omega)
    durw := fun l r' p h1 h2 h3 => by
      have e : l ≠ log.length + 1 := by omega
      rw [upd_other e] at h2
      have en : r' ≠ r := fun e' => hnl l (e' ▸ h2)
      rw [upd_other en] at h3
      exact h.durw l r' p h1 h2 h3
    volq := fun l r' p h1 h2 h3 => by
      rcases upd_some.1 h3 with ⟨rfl, e⟩ | ⟨hn, e⟩
      · cases e; exact h.vol0 r' q hq hl
      · rcases upd_some.1 h2 with ⟨_, e'⟩ | ⟨_, e'⟩
        · cases e'; exact absurd rfl hn
        · exact h.volq l r' p h1 e' e
    flyok := fun r' hr => by
      obtain ⟨p, c, h1, h2, h3⟩ := h.flyok r' hr
      by_cases e : r' = r
      · subst e; rw [hq] at h1; cases h1; exact ⟨_, c, upd_same, h2, h3⟩
      · exact ⟨p, c, by rw [upd_other e]; exact h1, h2, h3⟩
    wr := fun r' p h1 h2 => by
      rcases upd_some.1 h1 with ⟨rfl, e⟩ | ⟨_, e⟩
      · cases e; exact h.wr r' q hq h2
      · exact h.wr r' p e h2
    lsnw := fun r' p l h1 h2 h3 => by
      rcases upd_some.1 h1 with ⟨rfl, e⟩ | ⟨_, e⟩
      · cases e; exact hp h3
      · exact h.lsnw r' p l e h2 h3
    data := fun r' p c h1 h2 h3 h4 => by
      rcases hmem r' p h1 h2 with ⟨rfl, rfl⟩ | ⟨_, a, b'⟩
      · exact h.data r' q c hq hk h3 h4
      · exact h.data r' p c a b' h3 h4
    alloc := fun r' p c h1 h2 h3 => by
      rcases hmem r' p h1 h2 with ⟨rfl, rfl⟩ | ⟨_, a, b'⟩
      · exact h.alloc r' q c hq hk h3
      · exact h.alloc r' p c a b' h3
    excl := fun r1 q1 r2 q2 c h1 h2 h3 h4 h5 h6 h7 => by
      rcases hmem r1 q1 h1 h2 with ⟨rfl, rfl⟩ | ⟨n1, a, b'⟩ <;> rcases hmem r2 q2 h3 h4 with ⟨rfl, rfl⟩ | ⟨n2, a2, b2⟩
      · rfl
      · exact h.excl r1 q r2 q2 c hq hk a2 b2 h5 h6 h7
      · exact h.excl r1 q1 r2 q c a b' hq hk h5 h6 h7
      · exact h.excl r1 q1 r2 q2 c a b' a2 b2 h5 h6 h7
    appok := h.appok
    share := fun r' p o c h1 h2 h3 h4 => by
      rcases hmem r' p h1 h2 with ⟨rfl, rfl⟩ | ⟨_, a, b'⟩
      · exact h.share r' q o c hq hk h3 h4
      · exact h.share r' p o c a b' h3 h4
    leak := fun c hcu => by
      rcases h.leak c hcu with hl' | ⟨r', p, h1, h2, h3⟩
      · exact .inl hl'
      · by_cases e : r' = r
        · subst e; rw [hq] at h1; cases h1; exact .inr ⟨r', _, upd_same, h2, h3⟩
        · exact .inr ⟨r', p, by rw [upd_other e]; exact h1, h2, h3⟩
    vol0 := fun r' p h1 h2 => by
      rcases upd_some.1 h1 with ⟨rfl, e⟩ | ⟨_, e⟩
      · cases e; cases h2
      · exact h.vol0 r' p e h2
    tlsn := fun r' p l h1 h2 h3 => by
      rcases hmem r' p h1 h2 with ⟨rfl, rfl⟩ | ⟨_, a, b'⟩
      · cases h3; exact upd_same
      · have := h.tlsn r' p l a b' h3
        have e : l ≠ log.length + 1 := by have := (h.link l r' this).2.1; omega
        rw [upd_other e]; exact this
    pb := fun r' p h1 h2 h3 => by
      rcases hmem r' p h1 h2 with ⟨rfl, rfl⟩ | ⟨_, a, b'⟩
      · simp [hb]
      · exact h.pb r' p a b' h3
    ph := fun r' p c h1 h2 h3 h4 h5 => by
      rcases hmem r' p h1 h2 with ⟨rfl, rfl⟩ | ⟨_, a, b'⟩
      · cases h4
      · exact h.ph r' p c a b' h3 h4 h5
    errw := fun l r' p g1 g2 g3 => by
      rcases upd_some.1 g2 with ⟨rfl, e⟩ | ⟨hn, e⟩
      · cases e
        obtain ⟨p, a1, _, a3⟩ := h.tab q.key r' hk
        rw [hq] at a1; cases a1
        rw [a3] at g3; cases g3
      · rcases upd_some.1 g1 with ⟨_, e'⟩ | ⟨_, e'⟩
        · cases e'; exact absurd rfl hn
        · exact h.errw l r' p e' e g3
    dle := by simp; omega
    ule := h.ule
    nd := h.nd }

/-- A request object that is not in the table. -/
theorem InvC.ghost (h : InvC rq kmap lmap log dur upto used disk fly app) {n : Nat} {q : Req}
    (hn : rq n = none) (hk : kmap q.key ≠ some n) (h1 : q.written = true → (q.recv = true ∨ q.prop = true) ∧ q.blk ≠ none)
    (h2 : q.lsn = none) (h3 : q.vol = true) :
    InvC (upd rq n (some q)) kmap lmap log dur upto used disk fly app := by
  have hmem : ∀ r' p, upd rq n (some q) r' = some p → kmap p.key = some r' → rq r' = some p := fun r' p g1 g2 => by
    rcases upd_some.1 g1 with ⟨rfl, e⟩ | ⟨hn', e⟩
    · cases e; exact absurd g2 hk
    · exact e
  have hback : ∀ r' p, rq r' = some p → upd rq n (some q) r' = some p := fun r' p h1 => by
    have : r' ≠ n := fun e => by subst e; rw [hn] at h1; cases h1
    rw [upd_other this]; exact h1
  exact
  { tab := fun k' r' hr => by
      obtain ⟨p, g1, g2⟩ := h.tab k' r' hr
      exact ⟨p, hback r' p g1, g2⟩
    link := fun l r' hl => by
      obtain ⟨g1, g2, p, c, g3, g4⟩ := h.link l r' hl
      exact ⟨g1, g2, p, c, hback r' p g3, g4⟩
    linked := h.linked
    durw := fun l r' p g1 g2 g3 => by
      obtain ⟨_, _, p', _, g, _⟩ := h.link l r' g2
      have := hback r' p' g; rw [g3] at this; cases this
      exact h.durw l r' p g1 g2 g
    volq := fun l r' p g1 g2 g3 => by
      obtain ⟨_, _, p', _, g, _⟩ := h.link l r' g2
      have := hback r' p' g; rw [g3] at this; cases this
      exact h.volq l r' p g1 g2 g
    flyok := fun r' hr => by
      obtain ⟨p, c, g1, g2⟩ := h.flyok r' hr
      exact ⟨p, c, hback r' p g1, g2⟩
    wr := fun r' p g1 g2 => by
      rcases upd_some.1 g1 with ⟨rfl, e⟩ | ⟨_, e⟩
      · cases e; exact h1 g2
      · exact h.wr r' p e g2
    lsnw := fun r' p l g1 g2 g3 => by
      rcases upd_some.1 g1 with ⟨rfl, e⟩ | ⟨_, e⟩
      · cases e; rw [h2] at g2; cases g2
      · exact h.lsnw r' p l e g2 g3
    data := fun r' p c g1 g2 => h.data r' p c (hmem r' p g1 g2) g2
    alloc := fun r' p c g1 g2 => h.alloc r' p c (hmem r' p g1 g2) g2
    excl := fun r1 q1 r2 q2 c g1 g2 g3 g4 => h.excl r1 q1 r2 q2 c (hmem r1 q1 g1 g2) g2 (hmem r2 q2 g3 g4) g4
    appok := h.appok
    share := fun r' p o c g1 g2 => h.share r' p o c (hmem r' p g1 g2) g2
    leak := fun c hc => by
      rcases h.leak c hc with hl | ⟨r', p, g1, g2⟩
      · exact .inl hl
      · exact .inr ⟨r', p, hback r' p g1, g2⟩
    vol0 := fun r' p g1 g2 => by
      rcases upd_some.1 g1 with ⟨rfl, e⟩ | ⟨_, e⟩
      · cases e; exact h3
      · exact h.vol0 r' p e g2
    tlsn := fun r' p l g1 g2 => h.tlsn r' p l (hmem r' p g1 g2) g2
    pb := fun r' p g1 g2 => h.pb r' p (hmem r' p g1 g2) g2
    ph := fun r' p c g1 g2 => h.ph r' p c (hmem r' p g1 g2) g2
    errw := fun l r' p g1 g2 g3 => by
      obtain ⟨_, _, p', _, g, _⟩ := h.link l r' g1
      have := hback r' p' g; rw [g2] at this; cases this
      exact h.errw l r' p g1 g g3
    dle := h.dle
    ule := h.ule
    nd := h.nd }

/-- A new request with a new block enters the table. -/
theorem InvC.enter (h : InvC rq kmap lmap log dur upto used disk fly app) {n : Nat} {q : Req} {b : Nat}
    (hq : rq n = some q) (hk : kmap q.key = none) (hb : q.blk = some b) (hu : used b = false) (hw : q.written = false)
    (hl : q.lsn = none) (he : q.err = false) :
    InvC rq (upd kmap q.key (some n)) lmap log dur upto (upd used b true) disk fly app := by
  have hmem : ∀ r' p, rq r' = some p → upd kmap q.key (some n) p.key = some r' →
      (r' = n ∧ p = q) ∨ kmap p.key = some r' := fun r' p g1 g2 => by
    rcases upd_some.1 g2 with ⟨_, e⟩ | ⟨_, e⟩
    · cases e; rw [hq] at g1; cases g1; exact .inl ⟨rfl, rfl⟩
    · exact .inr e
  have hkb : ∀ k' r', kmap k' = some r' → upd kmap q.key (some n) k' = some r' := fun k' r' h1 => by
    have : k' ≠ q.key := fun e => by subst e; rw [hk] at h1; cases h1
    rw [upd_other this]; exact h1
  have hna : ∀ o, (o, b) ∉ app := fun o ho => by
    have := (h.appok o b ho).1; rw [hu] at this; cases this
  have hnb : ∀ r' p, rq r' = some p → kmap p.key = some r' → p.blk ≠ some b := fun r' p g1 g2 g3 => by
    have := h.alloc r' p b g1 g2 g3; rw [hu] at this; cases this
  have hmono : ∀ c, used c = true → upd used b true c = true := fun c hc' => by
    simp only [upd]; split
    · rfl
    · exact hc'
  exact
  { tab := fun k' r' hr => by
      rcases upd_some.1 hr with ⟨rfl, e⟩ | ⟨_, e⟩
      · cases e; exact ⟨_, hq, rfl, he⟩
      · exact h.tab k' r' e
    link := fun l r' hl => by
      obtain ⟨g1, g2, p, c, g3, g4, g5, g6, g7⟩ := h.link l r' hl
      exact ⟨g1, g2, p, c, g3, g4, g5, g6, fun e => hkb _ _ (g7 e)⟩
    linked := h.linked
    durw := h.durw
    volq := h.volq
    flyok := fun r' hr => by
      obtain ⟨p, c, g1, g2, g3⟩ := h.flyok r' hr
      exact ⟨p, c, g1, hkb _ _ g2, g3⟩
    wr := h.wr
    lsnw := h.lsnw
    data := fun r' p c g1 g2 g3 g4 => by
      rcases hmem r' p g1 g2 with ⟨rfl, rfl⟩ | g
      · rw [hw] at g4; cases g4
      · exact h.data r' p c g1 g g3 g4
    alloc := fun r' p c g1 g2 g3 => by
      rcases hmem r' p g1 g2 with ⟨rfl, rfl⟩ | g
      · rw [hb] at g3; cases g3; exact upd_same
      · exact hmono c (h.alloc r' p c g1 g g3)
    excl := fun r1 q1 r2 q2 c g1 g2 g3 g4 g5 g6 g7 => by
      rcases hmem r1 q1 g1 g2 with ⟨rfl, rfl⟩ | a1 <;> rcases hmem r2 q2 g3 g4 with ⟨rfl, rfl⟩ | a2
      · rfl
      · rw [hb] at g5; cases g5; exact absurd g6 (hnb r2 q2 g3 a2)
      · rw [hb] at g6; cases g6; exact absurd g5 (hnb r1 q1 g1 a1)
      · exact h.excl r1 q1 r2 q2 c g1 a1 g3 a2 g5 g6 g7
    appok := fun o c hc => ⟨hmono c (h.appok o c hc).1, (h.appok o c hc).2⟩
    share := fun r' p o c g1 g2 g3 g4 => by
      rcases hmem r' p g1 g2 with ⟨rfl, rfl⟩ | g
      · rw [hb] at g3; cases g3; exact absurd g4 (hna o)
      · exact h.share r' p o c g1 g g3 g4
    leak := fun c hc => by
      by_cases hcb : c = b
      · subst hcb; exact .inr ⟨n, q, hq, upd_same, hb⟩
      · rw [upd_other hcb] at hc
        rcases h.leak c hc with hl | ⟨r', p, g1, g2, g3⟩
        · exact .inl hl
        · exact .inr ⟨r', p, g1, hkb _ _ g2, g3⟩
    vol0 := h.vol0
    tlsn := fun r' p l g1 g2 g3 => by
      rcases hmem r' p g1 g2 with ⟨rfl, rfl⟩ | g
      · rw [hl] at g3; cases g3
      · exact h.tlsn r' p l g1 g g3
    pb := fun r' p g1 g2 g3 => by
      rcases hmem r' p g1 g2 with ⟨rfl, rfl⟩ | g
      · simp [hb]
      · exact h.pb r' p g1 g g3
    ph := fun r' p c g1 g2 g3 g4 g5 => by
      rcases hmem r' p g1 g2 with ⟨rfl, rfl⟩ | g
      · rw [hb] at g5; cases g5; exact hna
      · exact h.ph r' p c g1 g g3 g4 g5
    errw := h.errw
    dle := h.dle
    ule := h.ule
    nd := h.nd }
end
end HS.Repl.Data
