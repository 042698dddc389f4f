import Verif.Pipe.Inv
/-! # Histories in which no write to the disk fails -/
namespace HS.Pipe
variable {D : Type}

/-! ## Sums of sizes -/

/-- The sum of `k` values of `f` from `lo` on. -/
def S (f : Nat → Nat) : Nat → Nat → Nat
  | _, 0 => 0
  | lo, k + 1 => f lo + S f (lo + 1) k

theorem S_split (f : Nat → Nat) (lo a b : Nat) : S f lo (a + b) = S f lo a + S f (lo + a) b := by
  induction a generalizing lo with
  | zero => simp [S]
  | succ a ih =>
    rw [show a + 1 + b = (a + b) + 1 by omega]
    simp only [S]
    rw [ih (lo + 1), show lo + 1 + a = lo + (a + 1) by omega]; omega

theorem S_congr (f g : Nat → Nat) (lo k : Nat) (h : ∀ i, lo ≤ i → i < lo + k → f i = g i) : S f lo k = S g lo k := by
  induction k generalizing lo with
  | zero => rfl
  | succ k ih =>
    simp only [S]
    rw [h lo (by omega) (by omega), ih (lo + 1) (fun i h1 h2 => h i (by omega) (by omega))]

theorem S_upd (f : Nat → Nat) (lo k i v : Nat) (h1 : lo ≤ i) (h2 : i < lo + k) (h3 : f i = 0) :
    S (upd f i v) lo k = S f lo k + v := by
  obtain ⟨a, rfl⟩ : ∃ a, i = lo + a := ⟨i - lo, by omega⟩
  obtain ⟨b, rfl⟩ : ∃ b, k = a + (b + 1) := ⟨k - a - 1, by omega⟩
  rw [S_split, S_split f, S_congr (upd f (lo + a) v) f lo a (fun j h4 h5 => by simp only [upd]; rw [if_neg (by omega)])]
  show S f lo a + (upd f (lo + a) v (lo + a) + S (upd f (lo + a) v) (lo + a + 1) b) = S f lo a + (f (lo + a) + S f (lo + a + 1) b) + v
  rw [S_congr (upd f (lo + a) v) f (lo + a + 1) b (fun j h4 h5 => by simp only [upd]; rw [if_neg (by omega)]), upd_same, h3]
  omega

theorem S_group (f : Nat → Nat) (lo : Nat) (g : List (Rec D)) (h : ∀ k r, g[k]? = some r → f (lo + k) = r.sz) :
    S f lo g.length = bytes g := by
  induction g generalizing lo with
  | nil => rfl
  | cons a t ih =>
    simp only [List.length_cons, S, bytes, List.map_cons, List.sum_cons]
    rw [show f lo = a.sz from h 0 a rfl]
    rw [ih (lo + 1) (fun k r h1 => by rw [← h (k + 1) r h1]; congr 1; omega)]
    rfl

/-! ## The invariant -/

/-- The phase of the call that has the lock. -/
def holder (s : St D) : Option (Ph D) := (s.lock.bind s.calls).map Call.ph

/-- The bytes that are subtracted from the count of pending bytes, while the records are pending. -/
def owed : Option (Ph D) → Nat
  | some (.paid _ g) | some (.wrote _ g) => bytes g
  | _ => 0

/-- The group that is written and not completed. -/
def tailOf (ch last : Nat) : Option (Ph D) → List (Option (Grp D))
  | some (.wrote _ g) => [some ⟨ch, last, g⟩]
  | _ => []

/-- What each index adds to the count of pending bytes. -/
structure Cnt (s : St D) (cnt : Nat → Nat) : Prop where
  trk : ∀ i r, s.tracker i = some r → cnt i = r.sz
  counted : ∀ c x i, s.calls c = some x → x.ph = .counted → x.idx = some i → cnt i = x.sz
  reserved : ∀ c x i, s.calls c = some x → x.ph = .reserved → x.idx = some i → cnt i = 0
  bal : s.pend + owed (holder s) = S cnt s.last (s.next - s.last)

/-- What holds in histories without failed writes. -/
structure Sound (s : St D) : Prop where
  alive : s.dead = false
  disk : ∃ d, Whole d ∧ s.chain = d.length ∧ recover d = s.flushed ∧ s.disk = d ++ tailOf s.chain s.last (holder s)
  cb : ∀ c, c ∈ s.acked ++ s.queue → ∃ r ∈ s.flushed, r.call = c
  pay : ∃ cnt, Cnt s cnt

theorem sound_init (lim : Nat) (fc : Bool) : Sound (St.init lim fc : St D) := by
  refine ⟨rfl, ⟨[], rfl, rfl, rfl, rfl⟩, by simp [St.init], ⟨fun _ => 0, ?_, ?_, ?_, ?_⟩⟩ <;> simp [St.init, holder, owed, S]

theorem holder_of {s : St D} (h : Inv s) {c : Nat} {x : Call D} (hc : s.calls c = some x)
    (hf : x.ph.flushing = true) : holder s = some x.ph := by
  simp [holder, h.lock c x hc hf, hc]

theorem not_holder {s : St D} (h : Inv s) {c : Nat} {x : Call D} (hc : s.calls c = some x)
    (hf : x.ph.flushing = false) (v : Option (Call D)) : (s.lock.bind (upd s.calls c v)) = s.lock.bind s.calls := by
  cases hl : s.lock with
  | none => rfl
  | some c0 =>
    obtain ⟨y, h1, h2⟩ := h.held c0 hl
    simp only [Option.bind_some]
    rw [upd_other]
    rintro rfl; rw [hc] at h1; cases h1; rw [hf] at h2; cases h2

/-- A call comes further, its index stays, nothing else changes but the lock and the count. -/
theorem sound_move {s : St D} (hs : Sound s) {c : Nat} {x : Call D} (p : Ph D)
    (l : Option Nat) (q : Int) (d' : List (Option (Grp D)))
    (hnc : p ≠ .counted) (hnr : p ≠ .reserved)
    (hq : q + owed (holder { s with calls := upd s.calls c (some { x with ph := p }), lock := l, pend := q, disk := d' }) =
      s.pend + owed (holder s))
    (hd : d' = s.disk ++ tailOf s.chain s.last (holder { s with calls := upd s.calls c (some { x with ph := p }), lock := l, pend := q, disk := d' }))
    (ho : tailOf s.chain s.last (holder s) = []) :
    Sound { s with calls := upd s.calls c (some { x with ph := p }), lock := l, pend := q, disk := d' } := by
  refine ⟨hs.alive, ?_, hs.cb, ?_⟩
  · obtain ⟨d, h1, h2, h3, h4⟩ := hs.disk
    refine ⟨d, h1, h2, h3, ?_⟩
    rw [ho, List.append_nil] at h4
    rw [h4] at hd
    exact hd
  · obtain ⟨cnt, h1, h2, h3, h4⟩ := hs.pay
    refine ⟨cnt, h1, ?_, ?_, by rw [← h4]; exact hq⟩
    · intro c' y i k1 k2 k3
      rcases upd_some k1 with ⟨-, rfl⟩ | ⟨-, k1⟩
      · exact absurd k2 hnc
      · exact h2 c' y i k1 k2 k3
    · intro c' y i k1 k2 k3
      rcases upd_some k1 with ⟨-, rfl⟩ | ⟨-, k1⟩
      · exact absurd k2 hnr
      · exact h3 c' y i k1 k2 k3

/-- The same for a call that does not flush and does not start to. -/
theorem sound_idle {s : St D} (hi : Inv s) (hs : Sound s) {c : Nat} {x : Call D} (hc : s.calls c = some x) (p : Ph D)
    (hf : x.ph.flushing = false) (hnc : p ≠ .counted) (hnr : p ≠ .reserved) :
    Sound { s with calls := upd s.calls c (some { x with ph := p }) } := by
  refine ⟨hs.alive, ?_, hs.cb, ?_⟩
  · obtain ⟨d, h1, h2, h3, h4⟩ := hs.disk
    refine ⟨d, h1, h2, h3, ?_⟩
    simp only [holder, not_holder hi hc hf]; exact h4
  · obtain ⟨cnt, h1, h2, h3, h4⟩ := hs.pay
    refine ⟨cnt, h1, ?_, ?_, by simp only [holder, not_holder hi hc hf]; exact h4⟩
    · intro c' y i k1 k2 k3
      rcases upd_some k1 with ⟨-, rfl⟩ | ⟨-, k1⟩
      · exact absurd k2 hnc
      · exact h2 c' y i k1 k2 k3
    · intro c' y i k1 k2 k3
      rcases upd_some k1 with ⟨-, rfl⟩ | ⟨-, k1⟩
      · exact absurd k2 hnr
      · exact h3 c' y i k1 k2 k3

theorem bytes_le {s : St D} (hi : Inv s) {cnt : Nat → Nat} (hcnt : ∀ i r, s.tracker i = some r → cnt i = r.sz)
    {g : List (Rec D)} (hg : ∀ k r, g[k]? = some r → s.tracker (s.last + k) = some r) :
    s.last + g.length ≤ s.next ∧
    S cnt s.last (s.next - s.last) = bytes g + S cnt (s.last + g.length) (s.next - (s.last + g.length)) := by
  have hup : s.last + g.length ≤ s.next := by
    by_cases h0 : g.length = 0
    · have := hi.le; omega
    · have h1 : g.length - 1 < g.length := by omega
      have := (hi.trk _ _ (hg (g.length - 1) _ (List.getElem?_eq_getElem h1))).2.1
      omega
  refine ⟨hup, ?_⟩
  rw [show s.next - s.last = g.length + (s.next - (s.last + g.length)) by omega, S_split]
  rw [S_group cnt s.last g (fun k r h => hcnt _ _ (hg k r h))]

theorem sound_step {s s' : St D} (hi : Inv s) (h : Sound s) (e : Ev D) (he : e.noError) (hs : s.step e = some s') :
    Sound s' := by
  have hdead := h.alive
  cases e with
  | crash =>
    cases hs
    obtain ⟨hr1, -⟩ := recovered hi
    obtain ⟨d, h1, h2, h3, h4⟩ := h.disk
    have hpre : s.flushed <+: recover s.disk := by
      rw [h4, ← h3]
      unfold tailOf
      split
      · exact recover_append _ _
      · simp
    have hw : Whole s.disk := by
      rw [h4]
      unfold tailOf
      split
      · unfold Whole; rw [accepted_ok d 0 _ h1 (by simp [h2])]; simp only [List.length_append, show (accepted 0 d).length = d.length from h1]; rfl
      · simpa using h1
    have hst : strayNext s.disk = false := by
      unfold strayNext
      rw [hw, List.getElem?_eq_none (Nat.le_refl _)]
    refine ⟨by simp [St.restart, hr1, hst], ⟨(accepted 0 s.disk).map some, ?_, ?_, ?_, ?_⟩, ?_, ⟨fun _ => 0, ?_, ?_, ?_, ?_⟩⟩
    · simp [Whole, accepted_map]
    · simp [St.restart]
    · simp [recover, accepted_map, St.restart]
    · simp [St.restart, holder, tailOf, hr1, hst]
    · intro c hc
      simp only [St.restart, List.append_nil] at hc
      obtain ⟨r, h5, h6⟩ := h.cb c (List.mem_append_left _ hc)
      exact ⟨r, hpre.subset h5, h6⟩
    · intro i r h5; cases h5
    · intro c x i h5 h6
      simp only [St.restart, Option.map_eq_some_iff] at h5
      obtain ⟨y, -, rfl⟩ := h5
      rcases cut_ph y with h7 | ⟨b, h7⟩ <;> rw [h7] at h6 <;> cases h6
    · intro c x i h5 h6 _; rfl
    · simp [St.restart, holder, owed, S]
  | call c k sz d =>
    simp only [St.step, hdead] at hs
    simp only [Bool.false_eq_true, if_false] at hs
    split at hs
    case h_2 => cases hs
    rename_i hc
    cases hs
    have hh : ∀ v, s.lock.bind (upd s.calls c v) = s.lock.bind s.calls := by
      intro v
      cases hl : s.lock with
      | none => rfl
      | some c0 =>
        obtain ⟨y, h1, h2⟩ := hi.held c0 hl
        simp only [Option.bind_some]
        rw [upd_other]
        rintro rfl; rw [hc] at h1; cases h1
    obtain ⟨d, h1, h2, h3, h4⟩ := h.disk
    obtain ⟨cnt, k1, k2, k3, k4⟩ := h.pay
    refine ⟨rfl, ⟨d, h1, h2, h3, by simp only [holder, hh]; exact h4⟩, h.cb,
      ⟨cnt, k1, ?_, ?_, by simp only [holder, hh]; exact k4⟩⟩
    · intro c' y i e1 e2 e3
      rcases upd_some e1 with ⟨-, rfl⟩ | ⟨-, e1⟩
      · cases e2
      · exact k2 c' y i e1 e2 e3
    · intro c' y i e1 e2 e3
      rcases upd_some e1 with ⟨-, rfl⟩ | ⟨-, e1⟩
      · cases e2
      · exact k3 c' y i e1 e2 e3
  | callback i =>
    simp only [St.step, hdead, Bool.false_eq_true, if_false, St.callback] at hs
    split at hs
    case h_2 => cases hs
    rename_i c hq
    cases hs
    refine ⟨rfl, h.disk, ?_, h.pay.imp fun cnt k => ⟨k.1, k.2, k.3, k.4⟩⟩
    intro c' h1
    apply h.cb
    simp only [List.mem_append, List.mem_singleton] at h1 ⊢
    rcases h1 with (h1 | h1) | h1
    · exact .inl h1
    · subst h1; exact .inr (List.mem_of_getElem? hq)
    · exact .inr (List.mem_of_mem_eraseIdx h1)
  | reserve c =>
    simp only [St.step, hdead, Bool.false_eq_true, if_false] at hs
    obtain ⟨x, hc, hs⟩ := on_some hs
    have key : x.ph = .called → s' = { s.setPh c { x with idx := some s.next } .reserved with next := s.next + 1 } →
        Sound s' := by
      intro hp he
      subst he
      obtain ⟨d, h1, h2, h3, h4⟩ := h.disk
      obtain ⟨cnt, k1, k2, k3, k4⟩ := h.pay
      have hf : x.ph.flushing = false := by rw [hp]; rfl
      have hle := hi.le
      have hold : holder { s.setPh c { x with idx := some s.next } .reserved with next := s.next + 1 } = holder s := by
        simp only [holder, St.setPh, not_holder hi hc hf]
      refine ⟨h.alive, ⟨d, h1, h2, h3, by rw [hold]; exact h4⟩, h.cb, ⟨upd cnt s.next 0, ?_, ?_, ?_, ?_⟩⟩
      · intro i r e1
        have := (hi.trk i r e1).2.1
        rw [upd_other _ _ (by omega)]; exact k1 i r e1
      · intro c' y i e1 e2 e3
        rcases upd_some e1 with ⟨-, rfl⟩ | ⟨-, e1⟩
        · cases e2
        · obtain ⟨j, f1, -, f3, -⟩ := hi.half c' y e1 (by rw [e2]; rfl)
          rw [e3] at f1; cases f1
          rw [upd_other _ _ (by omega)]; exact k2 c' y i e1 e2 e3
      · intro c' y i e1 e2 e3
        rcases upd_some e1 with ⟨-, rfl⟩ | ⟨-, e1⟩
        · simp only [] at e3; cases e3; exact upd_same _ _ _
        · by_cases hin : i = s.next
          · rw [hin]; exact upd_same _ _ _
          · rw [upd_other _ _ hin]; exact k3 c' y i e1 e2 e3
      · rw [hold]
        show s.pend + _ = (S (upd cnt s.next 0) s.last (s.next + 1 - s.last) : Nat)
        rw [show s.next + 1 - s.last = (s.next - s.last) + 1 by omega, S_split,
          S_congr (upd cnt s.next 0) cnt s.last (s.next - s.last) (fun i e1 e2 => upd_other _ _ (by omega))]
        simp only [S]
        rw [show s.last + (s.next - s.last) = s.next by omega, upd_same]
        simp [k4]
    simp only [St.reserve] at hs
    split at hs
    · rename_i hp; cases hs; exact key hp rfl
    · rename_i hp; cases hs; exact key hp rfl
    · cases hs
  | count c =>
    simp only [St.step, hdead, Bool.false_eq_true, if_false] at hs
    obtain ⟨x, hc, hs⟩ := on_some hs
    simp only [St.count] at hs
    split at hs
    case h_2 => cases hs
    rename_i hp
    cases hs
    obtain ⟨d, h1, h2, h3, h4⟩ := h.disk
    obtain ⟨cnt, k1, k2, k3, k4⟩ := h.pay
    have hf : x.ph.flushing = false := by rw [hp]; rfl
    obtain ⟨i, hi0, hi1, hi2, hi3⟩ := hi.half c x hc (by rw [hp]; rfl)
    have hold : holder { s.setPh c x .counted with pend := s.pend + x.sz } = holder s := by
      simp only [holder, St.setPh, not_holder hi hc hf]
    refine ⟨h.alive, ⟨d, h1, h2, h3, by rw [hold]; exact h4⟩, h.cb, ⟨upd cnt i x.sz, ?_, ?_, ?_, ?_⟩⟩
    · intro j r e1
      rw [upd_other _ _ (by rintro rfl; exact absurd (hi3.symm.trans e1) (by simp))]; exact k1 j r e1
    · intro c' y j e1 e2 e3
      rcases upd_some e1 with ⟨-, rfl⟩ | ⟨hne, e1⟩
      · simp only [] at e3; rw [hi0] at e3; cases e3; exact upd_same _ _ _
      · rw [upd_other _ _ ?_]
        · exact k2 c' y j e1 e2 e3
        · rintro rfl; exact hne (hi.uniq c' c y x e1 hc (by rw [e2]; rfl) (by rw [hp]; rfl) (by rw [e3, hi0]))
    · intro c' y j e1 e2 e3
      rcases upd_some e1 with ⟨-, rfl⟩ | ⟨hne, e1⟩
      · cases e2
      · rw [upd_other _ _ ?_]
        · exact k3 c' y j e1 e2 e3
        · rintro rfl; exact hne (hi.uniq c' c y x e1 hc (by rw [e2]; rfl) (by rw [hp]; rfl) (by rw [e3, hi0]))
    · rw [hold]
      show s.pend + x.sz + _ = (S (upd cnt i x.sz) s.last (s.next - s.last) : Nat)
      rw [S_upd _ _ _ _ _ hi1 (by omega) (k3 c x i hc hp hi0)]
      push_cast
      omega
  | file c =>
    simp only [St.step, hdead, Bool.false_eq_true, if_false] at hs
    obtain ⟨x, hc, hs⟩ := on_some hs
    simp only [St.file] at hs
    split at hs
    case h_2 => cases hs
    rename_i i hp hidx
    cases hs
    obtain ⟨d, h1, h2, h3, h4⟩ := h.disk
    obtain ⟨cnt, k1, k2, k3, k4⟩ := h.pay
    have hf : x.ph.flushing = false := by rw [hp]; rfl
    have hold : holder { s.setPh c x .filed with tracker := upd s.tracker i (some ⟨c, x.sz, x.data⟩) } = holder s := by
      simp only [holder, St.setPh, not_holder hi hc hf]
    refine ⟨h.alive, ⟨d, h1, h2, h3, by rw [hold]; exact h4⟩, h.cb, ⟨cnt, ?_, ?_, ?_, by rw [hold]; exact k4⟩⟩
    · intro j r e1
      rcases upd_some e1 with ⟨rfl, rfl⟩ | ⟨-, e1⟩
      · exact k2 c x j hc hp hidx
      · exact k1 j r e1
    · intro c' y j e1 e2 e3
      rcases upd_some e1 with ⟨-, rfl⟩ | ⟨hne, e1⟩
      · cases e2
      · exact k2 c' y j e1 e2 e3
    · intro c' y j e1 e2 e3
      rcases upd_some e1 with ⟨-, rfl⟩ | ⟨hne, e1⟩
      · cases e2
      · exact k3 c' y j e1 e2 e3
  | fin c =>
    simp only [St.step, hdead, Bool.false_eq_true, if_false] at hs
    obtain ⟨x, hc, hs⟩ := on_some hs
    simp only [St.fin] at hs
    split at hs
    case h_2 => cases hs
    rename_i hp
    cases hs
    exact sound_idle hi h hc _ (by rw [hp]; rfl) (by simp) (by simp)
  | lock c =>
    simp only [St.step, hdead, Bool.false_eq_true, if_false] at hs
    obtain ⟨x, hc, hs⟩ := on_some hs
    simp only [St.getLock] at hs
    split at hs
    case h_4 => cases hs
    all_goals
      rename_i hl hk hp
      cases hs
      exact sound_move h (c := c) (x := x) .locked (some c) s.pend s.disk (by simp) (by simp)
        (by simp [holder, hl, upd, owed]) (by simp [holder, upd, tailOf]) (by simp [holder, hl, tailOf])
  | bound c =>
    simp only [St.step, hdead, Bool.false_eq_true, if_false] at hs
    obtain ⟨x, hc, hs⟩ := on_some hs
    simp only [St.readBound] at hs
    split at hs
    case h_2 => cases hs
    rename_i hp
    have ho := holder_of hi hc (by rw [hp]; rfl)
    rw [hp] at ho
    have hl := hi.lock c x hc (by rw [hp]; rfl)
    split at hs
    · cases hs
      exact sound_move h (c := c) (x := x) (.ret false) none s.pend s.disk (by simp) (by simp)
        (by rw [ho]; simp [holder, owed]) (by simp [holder, tailOf]) (by simp [ho, tailOf])
    · cases hs
      exact sound_move h (c := c) (x := x) (.bound s.next) s.lock s.pend s.disk (by simp) (by simp)
        (by rw [ho]; simp [holder, hl, upd, owed]) (by simp [holder, hl, upd, tailOf]) (by simp [ho, tailOf])
  | prep c =>
    simp only [St.step, hdead, Bool.false_eq_true, if_false] at hs
    obtain ⟨x, hc, hs⟩ := on_some hs
    simp only [St.prep] at hs
    split at hs
    case h_2 => cases hs
    rename_i n hp
    have ho := holder_of hi hc (by rw [hp]; rfl)
    rw [hp] at ho
    have hl := hi.lock c x hc (by rw [hp]; rfl)
    split at hs
    · cases hs
      exact sound_move h (c := c) (x := x) (.ret true) none s.pend s.disk (by simp) (by simp)
        (by rw [ho]; simp [holder, owed]) (by simp [holder, tailOf]) (by simp [ho, tailOf])
    · split at hs
      · cases hs
        exact sound_move h (c := c) (x := x) (.ret false) none s.pend s.disk (by simp) (by simp)
          (by rw [ho]; simp [holder, owed]) (by simp [holder, tailOf]) (by simp [ho, tailOf])
      · cases hs
        exact sound_move h (c := c) (x := x) (.got n _) s.lock s.pend s.disk (by simp) (by simp)
          (by rw [ho]; simp [holder, hl, upd, owed]) (by simp [holder, hl, upd, tailOf]) (by simp [ho, tailOf])
  | pay c =>
    simp only [St.step, hdead, Bool.false_eq_true, if_false] at hs
    obtain ⟨x, hc, hs⟩ := on_some hs
    simp only [St.pay] at hs
    split at hs
    case h_2 => cases hs
    rename_i n g hp
    have ho := holder_of hi hc (by rw [hp]; rfl)
    rw [hp] at ho
    have hl := hi.lock c x hc (by rw [hp]; rfl)
    obtain ⟨cnt, k1, k2, k3, k4⟩ := h.pay
    have hb := (bytes_le hi k1 (hi.grp c x g hc (by rw [hp]; rfl)).2).2
    rw [ho] at k4
    simp only [owed] at k4
    rw [if_neg (by rw [hb] at k4; push_cast at k4; omega)] at hs
    cases hs
    exact sound_move h (c := c) (x := x) (.paid n g) s.lock _ s.disk (by simp) (by simp)
      (by rw [ho]; simp [holder, hl, upd, owed]) (by simp [holder, hl, upd, tailOf]) (by simp [ho, tailOf])
  | write c w =>
    simp only [Ev.noError] at he
    subst he
    simp only [St.step, hdead, Bool.false_eq_true, if_false] at hs
    obtain ⟨x, hc, hs⟩ := on_some hs
    simp only [St.write] at hs
    split at hs
    case h_2 => cases hs
    rename_i n g hp
    have ho := holder_of hi hc (by rw [hp]; rfl)
    rw [hp] at ho
    have hl := hi.lock c x hc (by rw [hp]; rfl)
    cases hs
    exact sound_move h (c := c) (x := x) (.wrote n g) s.lock s.pend _ (by simp) (by simp)
      (by rw [ho]; simp [holder, hl, upd, owed]) (by simp [holder, hl, upd, tailOf]) (by simp [ho, tailOf])
  | complete c =>
    simp only [St.step, hdead, Bool.false_eq_true, if_false] at hs
    obtain ⟨x, hc, hs⟩ := on_some hs
    simp only [St.complete] at hs
    split at hs
    case h_2 => cases hs
    rename_i n g hp
    have ho := holder_of hi hc (by rw [hp]; rfl)
    rw [hp] at ho
    have hl := hi.lock c x hc (by rw [hp]; rfl)
    obtain ⟨cnt, k1, k2, k3, k4⟩ := h.pay
    obtain ⟨d, h1, h2, h3, h4⟩ := h.disk
    have hb := (bytes_le hi k1 (hi.grp c x g hc (by rw [hp]; rfl)).2).2
    rw [ho] at k4 h4
    simp only [owed] at k4
    simp only [tailOf] at h4
    cases hs
    have hac := accepted_ok d 0 ⟨s.chain, s.last, g⟩ h1 (by simp [h2])
    refine ⟨h.alive, ⟨s.disk, ?_, rfl, ?_, ?_⟩, ?_, ⟨cnt, ?_, ?_, ?_, ?_⟩⟩
    · simp only [Whole]; rw [h4, hac]; simp; exact h1
    · rw [h4]; simp only [recover, hac, allRecs_append, St.setPh]
      rw [← h3]; simp [recover, allRecs]
    · simp [St.setPh, holder, hl, upd, tailOf]
    · intro c' hc'
      simp only [St.setPh] at hc' ⊢
      rw [← List.append_assoc, List.mem_append] at hc'
      rcases hc' with hc' | hc'
      · obtain ⟨r, e1, e2⟩ := h.cb c' hc'
        exact ⟨r, List.mem_append_left _ e1, e2⟩
      · obtain ⟨r, e1, e2⟩ := List.mem_map.mp hc'
        exact ⟨r, List.mem_append_right _ e1, e2⟩
    · intro i r e1
      simp only [St.setPh] at e1
      split at e1
      · cases e1
      · exact k1 i r e1
    · intro c' y j e1 e2 e3
      rcases upd_some e1 with ⟨-, rfl⟩ | ⟨hne, e1⟩
      · cases e2
      · exact k2 c' y j e1 e2 e3
    · intro c' y j e1 e2 e3
      rcases upd_some e1 with ⟨-, rfl⟩ | ⟨hne, e1⟩
      · cases e2
      · exact k3 c' y j e1 e2 e3
    · simp [St.setPh, holder, hl, upd, owed]
      rw [hb] at k4; push_cast at k4; omega

theorem sound_run {s s' : St D} (hi : Inv s) (h : Sound s) (es : List (Ev D)) (he : ∀ e ∈ es, e.noError)
    (hs : s.run es = some s') : Sound s' := by
  induction es generalizing s with
  | nil => cases hs; exact h
  | cons e es ih =>
    simp only [St.run] at hs
    split at hs
    · rename_i s1 h1
      exact ih (inv_step hi e h1) (sound_step hi h e (he e (by simp)) h1) (fun e' h2 => he e' (by simp [h2])) hs
    · cases hs

/-- What a start would find, if no write has failed. -/
theorem Sound.found {s : St D} (h : Sound s) : s.flushed <+: recover s.disk := by
  obtain ⟨d, h1, h2, h3, h4⟩ := h.disk
  rw [h4, ← h3]
  unfold tailOf
  split
  · exact recover_append _ _
  · simp

end HS.Pipe
