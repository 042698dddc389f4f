import Verif.Lock.Order

/-
The calls of the log service wait in an order.
-/
namespace HS.Lock

/-- The order. -/
def rank : Res → Nat
  | .svcCnt => 4
  | .devMap => 5
  | .devCnt _ => 6
  | .storeCnt _ _ => 7
  | .flush _ => 8
  | .cbCnt _ => 9
  | .storeMap _ => 10
  | .metaMtx _ => 11
  | .metaSvc => 14
  | .flushThr => 15
  | .stream _ => 16

/-- `D` : the devices whose set of stores no call changes; the locks of these are only taken shared. -/
def free (D : Nat → Bool) : Res → Bool
  | .storeMap d => D d
  | _ => false

variable {D : Nat → Bool}

abbrev B (D : Nat → Bool) (b : Nat) (h : List (Res × Hold)) : Prop := Below rank (free D) b h
abbrev O (D : Nat → Bool) (h : List (Res × Hold)) (p : Prog) : Prop := Ok rank (free D) h p

/-- A piece of a call that may be run when everything held comes before `b`, and that lets go of all it
takes. -/
def Good (D : Nat → Bool) (b : Nat) (f : Prog → Prog) : Prop :=
  ∀ h k, B D b h → O D h k → O D h (f k)

theorem below_cons {b : Nat} {h : List (Res × Hold)} {r : Res} {x : Hold} (hh : B D b h)
    (hr : free D r = false → rank r < b) : B D b ((r, x) :: h) := by
  intro y hy hf
  rcases List.mem_cons.mp hy with rfl | hy
  · exact hr hf
  · exact hh y hy hf

theorem below_mono {a b : Nat} {h : List (Res × Hold)} (hab : a ≤ b) (hh : B D a h) : B D b h :=
  fun x hx hf => Nat.lt_of_lt_of_le (hh x hx hf) hab

theorem Good.mono {a b : Nat} {f : Prog → Prog} (hab : a ≤ b) (hf : Good D b f) : Good D a f :=
  fun h k hh hk => hf h k (below_mono hab hh) hk

theorem Good.comp {b : Nat} {f g : Prog → Prog} (hf : Good D b f) (hg : Good D b g) :
    Good D b (fun k => f (g k)) :=
  fun h k hh hk => hf h _ hh (hg h k hh hk)

theorem Good.id {b : Nat} : Good D b (fun k => k) := fun _ _ _ hk => hk

theorem Good.choice {b : Nat} {f g : Prog → Prog} (hf : Good D b f) (hg : Good D b g) :
    Good D b (fun k => .choice (f k) (g k)) :=
  fun h k hh hk => ⟨hf h k hh hk, hg h k hh hk⟩

theorem Good.foldr {α : Type} {b : Nat} {f : α → Prog → Prog} (l : List α)
    (hf : ∀ a ∈ l, Good D b (f a)) : Good D b (fun k => l.foldr f k) := by
  induction l with
  | nil => exact Good.id
  | cons a l ih =>
    intro h k hh hk
    exact hf a (by simp) h _ hh (ih (fun a' ha' => hf a' (by simp [ha'])) h k hh hk)

theorem Good.counted {b : Nat} {f : Prog → Prog} {r : Res} (hf : Good D b f) (hr : rank r < b)
    (hfr : free D r = false) : Good D b (counted r f) := by
  intro h k hh hk
  refine ⟨hk, hfr, hf _ _ (below_cons hh fun _ => hr) ⟨by simp, ?_⟩⟩
  simpa using hk

/-- An exclusive lock around something. -/
theorem Good.locked {a b : Nat} {f : Prog → Prog} {r : Res} (hf : Good D a f) (hb : b ≤ rank r)
    (ha : rank r < a) (hfr : free D r = false) :
    Good D b (fun k => .lock r (f (.unlock r k))) := by
  intro h k hh hk
  refine ⟨hfr, below_mono hb hh, hf _ _ (below_cons (below_mono (by omega) hh) fun _ => ha)
    ⟨by simp, ?_⟩⟩
  simpa using hk

theorem Good.drain {b : Nat} {r : Res} (hb : b ≤ rank r) : Good D b (fun k => .drain r k) :=
  fun _ _ hh hk => ⟨below_mono hb hh, hk⟩

theorem good_metaWrite : Good D 14 metaWrite :=
  Good.locked (f := fun k => k) (a := 15) Good.id (by decide) (by decide) rfl

theorem good_markAll (d : Nat) (recs : List Nat) : Good D 16 (markAll d recs) :=
  Good.foldr recs fun _ _ => Good.locked (f := fun k => k) (a := 17) Good.id
    (by simp [rank]) (by simp [rank]) rfl

variable {c : Cfg} {cb : Cb}

theorem good_callbacks (hcb : ∀ x, Good D 16 (cb x)) (d : Nat) (recs : List Nat) :
    Good D 16 (callbacks c cb d recs) := by
  refine Good.foldr recs fun x _ => ?_
  intro h k hh hk
  cases hs : c.sync with
  | true =>
    show O D h (.enter (.cbCnt d) (cb x (.leave (.cbCnt d) k)))
    refine ⟨rfl, hcb x _ _ (below_cons hh (by simp [rank])) ⟨by simp, ?_⟩⟩
    simpa using hk
  | false =>
    show O D h (.spawn (.cbCnt d) (cb x (.leave (.cbCnt d) .done)) k)
    refine ⟨rfl, hcb x _ _ (below_cons (by intro y hy; simp at hy) (by simp [rank])) ⟨by simp, ?_⟩, hk⟩
    simp [Ok]

theorem good_flushBody (hcb : ∀ x, Good D 16 (cb x)) (d : Nat) (recs : List Nat) :
    Good D 16 (flushBody c cb d recs) :=
  (good_markAll d recs).comp (good_callbacks hcb d recs)

theorem good_flushUnderGuard (hcb : ∀ x, Good D 16 (cb x)) (d : Nat) (recs : List Nat) :
    Good D 8 (flushUnderGuard c cb d recs) :=
  Good.locked (good_flushBody hcb d recs) (by simp [rank]) (by simp [rank]) rfl

theorem good_flushIfNecessary (hcb : ∀ x, Good D 16 (cb x)) (d : Nat) (recs : List Nat) :
    Good D 16 (flushIfNecessary c cb d recs) := by
  intro h k hh hk
  refine ⟨hk, rfl, ⟨by simp, by simpa using hk⟩, rfl, ⟨by simp, ?_⟩, ⟨by simp, by simpa using hk⟩⟩
  have : List.erase ((Res.flush d, Hold.ex) :: (Res.devCnt d, Hold.cnt) :: h) (Res.devCnt d, Hold.cnt) =
      (Res.flush d, Hold.ex) :: h := by simp
  rw [this]
  exact good_flushBody hcb d recs _ _ (below_cons hh (by simp [rank])) ⟨by simp, by simpa using hk⟩

theorem good_devAppend (hcb : ∀ x, Good D 16 (cb x)) (d : Nat) (inl : Bool) (recs : List Nat) :
    Good D 16 (devAppend c cb d inl recs) := by
  refine Good.counted ?_ (by simp [rank]) rfl
  intro h k hh hk
  refine ⟨fun _ => below_mono (by simp [rank]) hh, by simp, ?_⟩
  rw [List.erase_cons_head]
  cases inl
  · exact hk
  · exact good_flushIfNecessary hcb d recs _ _ hh hk

theorem good_writeAsync (hcb : ∀ x, Good D 16 (cb x)) (d s : Nat) (inl : Bool) (recs : List Nat) :
    Good D 16 (writeAsync c cb d s inl recs) :=
  Good.counted (Good.counted (good_devAppend hcb d inl recs) (by simp [rank]) rfl) (by simp [rank]) rfl

theorem good_devRead (d : Nat) : Good D 8 (devRead d) := by
  intro h k hh hk
  refine ⟨hk, rfl, rfl, below_cons hh (by simp [rank]), by simp, ?_⟩
  have : List.erase ((Res.flush d, Hold.ex) :: (Res.devCnt d, Hold.cnt) :: h) (Res.devCnt d, Hold.cnt) =
      (Res.flush d, Hold.ex) :: h := by simp
  rw [this]
  exact ⟨by simp, by simpa using hk⟩

theorem good_devTruncate (d : Nat) : Good D 8 (devTruncate d) := by
  intro h k hh hk
  have h1 : B D 8 ((Res.devCnt d, Hold.cnt) :: h) := below_cons hh (by simp [rank])
  have h2 : B D 9 ((Res.flush d, Hold.ex) :: (Res.devCnt d, Hold.cnt) :: h) :=
    below_cons (below_mono (by omega) h1) (by simp [rank])
  have h3 : B D 11 ((Res.storeMap d, Hold.sh) :: (Res.flush d, Hold.ex) :: (Res.devCnt d, Hold.cnt) :: h) :=
    below_cons (below_mono (by omega) h2) (by simp [rank])
  refine ⟨hk, rfl, rfl, h1, fun _ => below_mono (by simp [rank]) h2, rfl, h3, ?_⟩
  refine good_metaWrite _ _ (below_cons (below_mono (by omega) h3) (by simp [rank])) ?_
  simp [Ok, List.erase_cons]
  exact hk

theorem good_devRollback (d : Nat) : Good D 11 (devRollback d) := by
  intro h k hh hk
  have h1 : B D 11 ((Res.devCnt d, Hold.cnt) :: h) := below_cons hh (by simp [rank])
  refine ⟨hk, rfl, rfl, h1, ?_⟩
  refine good_metaWrite _ _ (below_cons (below_mono (by omega) h1) (by simp [rank])) ?_
  simp [Ok, List.erase_cons]
  exact hk

theorem good_times {b : Nat} {f : Prog → Prog} (hf : Good D b f) (n : Nat) : Good D b (times n f) := by
  induction n with
  | zero => exact Good.id
  | succ n ih =>
    intro h k hh hk
    exact hf h _ hh (ih h k hh hk)

theorem good_dumpStore (d s n : Nat) : Good D 8 (dumpStore d s n) :=
  Good.counted (good_times ((good_devRead d).comp (good_devRead d)) n) (by simp [rank]) rfl

theorem good_waitFlushThread : Good D 15 waitFlushThread :=
  Good.locked (f := fun k => k) (a := 16) Good.id (by decide) (by decide) rfl

/-- A shared lock of a map that is not changed, around something. -/
theorem Good.sharedFree {b : Nat} {f : Prog → Prog} {d : Nat} (hf : Good D b f) (hd : D d = true) :
    Good D b (fun k => .lockS (.storeMap d) (f (.unlockS (.storeMap d) k))) := by
  intro h k hh hk
  have hfr : free D (.storeMap d) = true := hd
  refine ⟨fun hc => by simp [hfr] at hc, hf _ _ (below_cons hh fun hc => by simp [hfr] at hc) ⟨by simp, ?_⟩⟩
  simpa using hk

theorem good_devStop (hcb : ∀ x, Good D 16 (cb x)) {d : Nat} (hd : D d = true) (stores recs : List Nat) :
    Good D 6 (devStop c cb d stores recs) := by
  have hw : Good D 8 (fun k => .lock (.flush d) (.drain (.cbCnt d) (.unlock (.flush d) k))) :=
    Good.locked (f := fun k => .drain (.cbCnt d) k) (a := 9) (Good.drain (by simp [rank]))
      (by simp [rank]) (by simp [rank]) rfl
  have hst : Good D 7 (fun k => stores.foldr (fun s k => .drain (.storeCnt d s) k) k) :=
    Good.foldr stores fun s _ => Good.drain (by simp [rank])
  have hin : Good D 7 (fun k => stores.foldr (fun s k => .drain (.storeCnt d s) k)
      (flushUnderGuard c cb d recs (.lock (.flush d) (.drain (.cbCnt d) (.unlock (.flush d)
        (devTruncate d (.choice (waitFlushThread k) k))))))) :=
    hst.comp (Good.mono (by omega) ((good_flushUnderGuard hcb d recs).comp (hw.comp
      ((good_devTruncate d).comp (Good.choice (good_waitFlushThread.mono (by omega)) Good.id)))))
  have hall := (Good.sharedFree hin hd)
  exact (Good.drain (b := 6) (r := .devCnt d) (by simp [rank])).comp
    ((hw.mono (by omega)).comp (hall.mono (by omega)))

theorem good_devStart {d : Nat} (hd : D d = false) : Good D 10 (devStart d) := by
  have hl : Good D 10 (fun k => .lock (.storeMap d) (.unlock (.storeMap d) k)) :=
    Good.locked (f := fun k => k) (a := 11) Good.id (by simp [rank]) (by simp [rank]) hd
  have hm : Good D 10 metaWrite := good_metaWrite.mono (by omega)
  exact hm.comp (hm.comp (Good.choice ((good_waitFlushThread.mono (by omega)).comp (hl.comp hl)) (hl.comp hl)))

/-- The calls in question. -/
def Fits (D : Nat → Bool) (call : Call) : Prop :=
  (∀ d, call.changes d → D d = false) ∧ ∀ d, call.sweeps d → D d = true

theorem good_append (hcb : ∀ x, Good D 16 (cb x)) (d s : Nat) (inl : Bool) (recs : List Nat) :
    Good D 16 (fun k => Call.prog c cb k (.append d s inl recs)) :=
  Good.counted (good_writeAsync hcb d s inl recs) (by simp [rank]) rfl

theorem good_call (hcb : ∀ x, Good D 16 (cb x)) {call : Call} (hc : Fits D call) :
    Good D 4 (fun k => call.prog c cb k) := by
  obtain ⟨hch, hsw⟩ := hc
  cases call with
  | append d s inl recs => exact (good_append hcb d s inl recs).mono (by omega)
  | writeAndFlush d s inl recs recs' =>
    exact (Good.counted (b := 8) (((good_writeAsync hcb d s inl recs).mono (by omega)).comp
      (good_flushUnderGuard hcb d recs')) (by simp [rank]) rfl).mono (by omega)
  | read d s first =>
    cases first with
    | none =>
      have h : Good D 8 (fun k => .choice k (devRead d k)) := Good.choice Good.id (good_devRead d)
      exact (Good.counted (r := .storeCnt d s) h (by simp [rank]) rfl).mono (by omega)
    | some recs =>
      have h : Good D 8 (fun k => flushUnderGuard c cb d recs (.choice k (devRead d k))) :=
        (good_flushUnderGuard hcb d recs).comp (Good.choice Good.id (good_devRead d))
      exact (Good.counted (r := .storeCnt d s) h (by simp [rank]) rfl).mono (by omega)
  | flush d s recs =>
    exact (Good.counted (b := 8) (good_flushUnderGuard hcb d recs) (by simp [rank]) rfl).mono (by omega)
  | truncate d s inMem recs =>
    have h : Good D 8 (fun k => .choice k (counted (.storeCnt d s) (flushUnderGuard c cb d recs)
        (if inMem then k else devTruncate d k))) := by
      refine Good.choice Good.id ?_
      refine Good.comp (Good.counted (r := .storeCnt d s) (good_flushUnderGuard hcb d recs)
        (by simp [rank]) rfl) ?_
      cases inMem
      · exact good_devTruncate d
      · exact Good.id
    exact (Good.counted (r := .storeCnt d s) h (by simp [rank]) rfl).mono (by omega)
  | rollback d s rounds =>
    have h1 : Good D 8 (fun k => rounds.foldr (fun recs k =>
        .lock (.flush d) (.unlock (.flush d) (flushUnderGuard c cb d recs k))) k) :=
      Good.foldr rounds fun recs _ => Good.comp (f := fun k => .lock (.flush d) (.unlock (.flush d) k))
        (Good.locked (f := fun k => k) (a := 9) Good.id (by simp [rank]) (by simp [rank]) rfl)
        (good_flushUnderGuard hcb d recs)
    have h2 : Good D 8 (fun k => .lock (.flush d) (devRollback d (.unlock (.flush d) k))) :=
      Good.locked (a := 11) (good_devRollback d) (by simp [rank]) (by simp [rank]) rfl
    exact (Good.counted (r := .storeCnt d s) (Good.choice Good.id (h1.comp h2)) (by simp [rank]) rfl).mono
      (by omega)
  | foreach d s n =>
    exact (Good.counted (b := 8) (good_times (good_devRead d) n) (by simp [rank]) rfl).mono (by omega)
  | dump d s n =>
    exact (Good.counted (b := 8) (good_dumpStore d s n) (by simp [rank]) rfl).mono (by omega)
  | flushTask d recs =>
    exact (Good.locked (b := 15) (r := .flushThr) (good_flushIfNecessary hcb d recs) (by simp [rank])
      (by simp [rank]) rfl).mono (by omega)
  | createDev d =>
    intro h k hh hk
    have h1 : B D 5 ((Res.svcCnt, Hold.cnt) :: h) := below_cons (below_mono (by omega) hh) (by simp [rank])
    have h2 : B D 6 ((Res.devMap, Hold.ex) :: (Res.svcCnt, Hold.cnt) :: h) :=
      below_cons (below_mono (by omega) h1) (by simp [rank])
    refine ⟨hk, rfl, rfl, h1, ?_⟩
    refine good_metaWrite _ _ (below_mono (by omega) h2) (good_devStart (hch d rfl) _ _
      (below_mono (by omega) h2) ?_)
    simp [Ok, List.erase_cons]
    exact hk
  | openDev =>
    exact Good.locked (r := .devMap) (f := fun k => k) (a := 6) Good.id (by decide) (by decide) rfl
  | getDev =>
    intro h k hh hk
    exact ⟨fun _ => below_mono (by simp [rank]) hh, by simp, by simpa using hk⟩
  | getAllDevs =>
    intro h k hh hk
    have h1 : B D 5 ((Res.svcCnt, Hold.cnt) :: h) := below_cons (below_mono (by omega) hh) (by simp [rank])
    refine ⟨hk, rfl, fun _ => h1, ?_⟩
    simp [Ok, List.erase_cons]
    exact hk
  | destroyDev d stores recs =>
    intro h k hh hk
    have h1 : B D 5 ((Res.svcCnt, Hold.cnt) :: h) := below_cons (below_mono (by omega) hh) (by simp [rank])
    have h2 : B D 6 ((Res.devMap, Hold.ex) :: (Res.svcCnt, Hold.cnt) :: h) :=
      below_cons (below_mono (by omega) h1) (by simp [rank])
    refine ⟨hk, rfl, rfl, h1, ?_⟩
    refine good_devStop hcb (hsw d rfl) stores recs _ _ h2 (good_metaWrite _ _ (below_mono (by omega) h2)
      (good_metaWrite _ _ (below_mono (by omega) h2) ?_))
    simp [Ok, List.erase_cons]
    exact hk
  | createStore d =>
    intro h k hh hk
    have h1 : B D 5 ((Res.svcCnt, Hold.cnt) :: h) := below_cons (below_mono (by omega) hh) (by simp [rank])
    have h2 : B D 6 ((Res.devMap, Hold.ex) :: (Res.svcCnt, Hold.cnt) :: h) :=
      below_cons (below_mono (by omega) h1) (by simp [rank])
    refine ⟨hk, rfl, rfl, h1, ?_⟩
    refine Good.counted (b := 10) (r := .devCnt d) ?_ (by simp [rank]) rfl _ _ (below_mono (by omega) h2) ?_
    · exact Good.comp (f := fun k => .lock (.metaMtx d) (metaWrite (.unlock (.metaMtx d) k)))
        (Good.locked (a := 12) (good_metaWrite.mono (by omega)) (by simp [rank]) (by simp [rank]) rfl)
        (Good.locked (f := fun k => k) (a := 11) Good.id (by simp [rank]) (by simp [rank]) (hch d rfl))
    · simp [Ok, List.erase_cons]
      exact hk
  | openStore d =>
    intro h k hh hk
    have h2 : B D 6 ((Res.devMap, Hold.sh) :: h) :=
      below_cons (below_mono (by omega) hh) (by simp [rank])
    refine ⟨fun _ => below_mono (by simp [rank]) hh, hch d rfl, below_mono (by simp [rank]) h2, ?_⟩
    simp [Ok]
    exact hk
  | removeStore d =>
    intro h k hh hk
    have h1 : B D 5 ((Res.svcCnt, Hold.cnt) :: h) := below_cons (below_mono (by omega) hh) (by simp [rank])
    have h2 : B D 6 ((Res.devMap, Hold.ex) :: (Res.svcCnt, Hold.cnt) :: h) :=
      below_cons (below_mono (by omega) h1) (by simp [rank])
    refine ⟨hk, rfl, rfl, h1, ?_⟩
    refine Good.counted (b := 10) (r := .devCnt d) ?_ (by simp [rank]) rfl _ _ (below_mono (by omega) h2) ?_
    · exact Good.comp (f := fun k => .lock (.storeMap d) (.unlock (.storeMap d) k))
        (Good.locked (f := fun k => k) (a := 11) Good.id (by simp [rank]) (by simp [rank]) (hch d rfl))
        (Good.choice Good.id
          (Good.locked (f := fun k => k) (a := 12) Good.id (by simp [rank]) (by simp [rank]) rfl))
    · simp [Ok, List.erase_cons]
      exact hk
  | truncateAll ds =>
    intro h k hh hk
    have h1 : B D 5 ((Res.svcCnt, Hold.cnt) :: h) := below_cons (below_mono (by omega) hh) (by simp [rank])
    have h2 : B D 8 ((Res.devMap, Hold.sh) :: (Res.svcCnt, Hold.cnt) :: h) :=
      below_cons (below_mono (by omega) h1) (by simp [rank])
    refine ⟨hk, rfl, fun _ => h1, ?_⟩
    refine Good.foldr ds (fun d _ => good_devTruncate d) _ _ h2 ?_
    simp [Ok, List.erase_cons]
    exact hk
  | flushAll ds =>
    exact (Good.counted (b := 8) (Good.foldr ds fun p _ => good_flushUnderGuard hcb p.1 p.2)
      (by simp [rank]) rfl).mono (by omega)
  | dumpAll ds =>
    have h : Good D 8 (fun k => ds.foldr (fun p k => .lockS (.storeMap p.1)
        (p.2.foldr (fun q k => dumpStore p.1 q.1 q.2 k) (.unlockS (.storeMap p.1) k))) k) :=
      Good.foldr ds fun p hp =>
        Good.sharedFree (f := fun k => p.2.foldr (fun q k => dumpStore p.1 q.1 q.2 k) k)
          (Good.foldr p.2 fun q _ => good_dumpStore p.1 q.1 q.2) (hsw p.1 ⟨p, hp, rfl⟩)
    exact (Good.counted (r := .svcCnt) h (by simp [rank]) rfl).mono (by omega)
  | status ds =>
    have h : Good D 8 (fun k => ds.foldr (fun p k => .lockS (.storeMap p.1)
        (p.2.foldr (fun s k => counted (.storeCnt p.1 s) (fun k => k) k) (.unlockS (.storeMap p.1) k))) k) := by
      refine Good.foldr ds fun p hp => ?_
      intro h k hh hk
      refine ⟨fun _ => below_mono (by simp [rank]) hh, ?_⟩
      exact Good.foldr (b := 11) p.2 (fun s _ => Good.counted (r := .storeCnt p.1 s) (b := 11) Good.id
        (by simp [rank]) rfl) _ _
        (below_cons (below_mono (by omega) hh) (by simp [rank])) ⟨by simp, by simpa using hk⟩
    exact (Good.counted (r := .svcCnt) h (by simp [rank]) rfl).mono (by omega)
  | stop ds =>
    exact (Good.drain (r := .svcCnt) (by simp [rank])).comp
      ((Good.foldr ds fun p hp => good_devStop hcb (hsw p.1 ⟨p, hp, rfl⟩) p.2.1 p.2.2).mono (by omega))

theorem good_progs (hcb : ∀ x, Good D 16 (cb x)) {cs : List Call} (hc : ∀ call ∈ cs, Fits D call) :
    Good D 4 (progs c cb cs) :=
  Good.foldr cs fun call h => good_call hcb (hc call h)

theorem good_cbProg {u : Nat → List Call} (hu : ∀ x, ∀ call ∈ u x, call.onlyAppends) :
    ∀ (n : Nat) (x : Nat), Good D 16 (cbProg c u n x)
  | 0, _ => Good.id
  | n + 1, x => by
    refine Good.foldr (u x) fun call hc => ?_
    have := hu x call hc
    cases call with
    | append d s inl recs => exact good_append (good_cbProg hu n) d s inl recs
    | _ => exact this.elim

theorem start_ok {c : Cfg} {u : Nat → List Call} {n : Nat} {calls : List (List Call)}
    (hu : ∀ x, ∀ call ∈ u x, call.onlyAppends) (hc : ∀ cs ∈ calls, ∀ call ∈ cs, Fits D call) :
    SOk rank (free D) (start c u n calls) := by
  intro t ht
  obtain ⟨cs, hcs, rfl⟩ := List.mem_map.mp ht
  refine ⟨?_, by simp, by simp⟩
  exact good_progs (good_cbProg hu n) (hc cs hcs) [] .done (by intro x hx; simp at hx) rfl

end HS.Lock
