import Verif.Member.Tasks

/-! # Membership: one member is replaced by another -/

namespace HS.Member

/-! ## The members after a log -/

theorem members_append (ms : List Srv) (l1 l2 : List Entry) : members ms (l1 ++ l2) = members (members ms l1) l2 := by
  simp [members, List.foldl_append]

theorem members_take_succ {ms : List Srv} {l : List Entry} {k : Nat} {e : Entry} (h : l[k]? = some e) :
    members ms (l.take (k + 1)) = memberStep (members ms (l.take k)) e := by
  rw [List.take_succ, h, members_append]
  rfl

theorem ids_learn (ms : List Srv) (id : RId) (f : Bool) : ids (memberStep ms (.learn id f)) = ids ms := by
  simp only [ids, memberStep, List.map_map]
  apply List.map_congr_left
  intro v _
  simp only [Function.comp]
  split <;> rfl

theorem mem_ids {ms : List Srv} {i : RId} : i ∈ ids ms ↔ ∃ v ∈ ms, v.id = i := by simp [ids]

theorem mem_ids_rem {ms : List Srv} {i id : RId} : i ∈ ids (memberStep ms (.rem id)) ↔ i ∈ ids ms ∧ i ≠ id := by
  simp only [mem_ids, memberStep, List.mem_filter, bne_iff_ne, ne_eq]
  constructor
  · rintro ⟨v, ⟨h1, h2⟩, rfl⟩; exact ⟨⟨v, h1, rfl⟩, h2⟩
  · rintro ⟨⟨v, h1, rfl⟩, h2⟩; exact ⟨v, ⟨h1, h2⟩, rfl⟩

theorem mem_ids_add {ms : List Srv} {i : RId} {w : Srv} : i ∈ ids (memberStep ms (.add w)) ↔ i ∈ ids ms ∨ i = w.id := by
  simp only [mem_ids, memberStep, List.mem_append, List.mem_singleton]
  constructor
  · rintro ⟨v, h1 | rfl, rfl⟩
    · exact Or.inl ⟨v, h1, rfl⟩
    · exact Or.inr rfl
  · rintro (⟨v, h1, rfl⟩ | rfl)
    · exact ⟨v, Or.inl h1, rfl⟩
    · exact ⟨w, Or.inr rfl, rfl⟩

theorem getSrv_some {ms : List Srv} {i : RId} {v : Srv} (h : getSrv ms i = some v) : v ∈ ms ∧ v.id = i := by
  have h1 := List.mem_of_find?_eq_some h
  have h2 := List.find?_some h
  simp only [decide_eq_true_eq] at h2
  exact ⟨h1, h2⟩

theorem getSrv_none {ms : List Srv} {i : RId} : getSrv ms i = none ↔ i ∉ ids ms := by
  simp only [getSrv, List.find?_eq_none, decide_eq_true_eq, mem_ids, not_exists, not_and]

theorem getSrv_isSome {ms : List Srv} {i : RId} : (getSrv ms i).isSome = true ↔ i ∈ ids ms := by
  rw [← Decidable.not_not (p := i ∈ ids ms), ← getSrv_none]
  cases getSrv ms i <;> simp

/-- The entries a replacement of `out` by `inn` puts into the log; `p` is the priority of `out`. -/
def OneEntry (out inn : RId) (p : Nat) : Entry → Prop
  | .add v => v = ⟨inn, false, p⟩
  | .rem i => i = out
  | .learn i f => i = out ∧ f = true
  | .start _ o i => o = out ∧ i = inn
  | .complete _ o i => o = out ∧ i = inn
  | .clean _ => True
  | .removed _ => False
  | .app => False

/-- The members while `out` is replaced by `inn`. -/
structure Shape (ms0 : List Srv) (out inn : RId) (p : Nat) (ms : List Srv) : Prop where
  keep : ∀ v ∈ ms0, v.id ≠ out → v ∈ ms
  only : ∀ v ∈ ms, (v ∈ ms0 ∧ v.id ≠ out) ∨ (v.id = out ∧ v.prio = p) ∨ v = ⟨inn, false, p⟩
  nodup : (ids ms).Nodup

theorem shape_step {ms0 ms : List Srv} {out inn : RId} {p : Nat} {e : Entry} (h : Shape ms0 out inn p ms) (he : OneEntry out inn p e)
    (hne : out ≠ inn) (hadd : ∀ v, e = .add v → v.id ∉ ids ms) : Shape ms0 out inn p (memberStep ms e) := by
  cases e with
  | add v =>
    have hv : v = ⟨inn, false, p⟩ := he
    refine ⟨fun w hw hwo => List.mem_append_left _ (h.keep w hw hwo), fun w hw => ?_, ?_⟩
    · rcases List.mem_append.1 hw with hw | hw
      · exact h.only w hw
      · rw [List.mem_singleton.1 hw]; exact Or.inr (Or.inr hv)
    · have := hadd v rfl
      simp only [ids, memberStep, List.map_append, List.map_cons, List.map_nil]
      rw [List.nodup_append]
      refine ⟨h.nodup, by simp, fun a ha b hb => ?_⟩
      rw [List.mem_singleton.1 hb]
      exact fun hc => this (hc ▸ ha)
  | rem i =>
    have hi : i = out := he
    subst hi
    refine ⟨fun w hw hwo => ?_, fun w hw => ?_, ?_⟩
    · simp only [memberStep, List.mem_filter, bne_iff_ne]; exact ⟨h.keep w hw hwo, hwo⟩
    · simp only [memberStep, List.mem_filter] at hw; exact h.only w hw.1
    · exact List.Nodup.sublist (List.Sublist.map _ List.filter_sublist) h.nodup
  | learn i f =>
    obtain ⟨rfl, rfl⟩ := he
    refine ⟨fun w hw hwo => ?_, fun w hw => ?_, ?_⟩
    · simp only [memberStep, List.mem_map]
      exact ⟨w, h.keep w hw hwo, by rw [if_neg hwo]⟩
    · simp only [memberStep, List.mem_map] at hw
      obtain ⟨v, hv, rfl⟩ := hw
      split
      · next hvo =>
        right; left
        rcases h.only v hv with hx | hx | hx
        · exact absurd hvo hx.2
        · exact hx
        · rw [hx] at hvo; exact absurd hvo.symm hne
      · exact h.only v hv
    · rw [ids_learn]; exact h.nodup
  | _ => exact h

/-! ## Calls and runs -/

/-- The calls of a replacement of `out` by `inn`: replacing, cleaning up, and what the reaper calls. -/
def OneCall (out inn : RId) : Call → Prop
  | .replace _ o i _ => o = out ∧ i = inn
  | .complete _ o i _ => o = out ∧ i = inn
  | .clean _ _ => True
  | _ => False

def Call.isComplete : Call → Bool
  | .complete _ _ _ _ => true
  | _ => false

def Call.isReplace : Call → Bool
  | .replace _ _ _ _ => true
  | _ => false

/-- Has a replacement looked up the member that leaves? -/
def Pc.pastCfg : Pc → Bool
  | .safe | .flipLead | .flipGet | .flipCmd | .flipVerify | .init | .propose | .addLead | .addCmd => true
  | _ => false

/-- Has a completion seen that the member is gone? -/
def Pc.pastRem : Pc → Bool
  | .init | .propose => true
  | _ => false

theorem advance_pastCfg {me : RId} {ms : List Srv} {sb : TaskSb} {r : Run} {a : Ans} {pc : Pc} {e : Eff}
    (h : advance me ms sb r a = some (pc, e)) {t : Bytes} {o i : RId} {q : Nat} (hc : r.call = .replace t o i q) (hp : pc.pastCfg = true) :
    (r.pc.pastCfg = true ∧ (r.after pc e).prio = r.prio) ∨ ∃ v, getSrv ms o = some v ∧ e = .prio v.prio := by
  obtain ⟨n, c, p, pr, si⟩ := r
  simp only at hc
  subst hc
  cases p <;> simp only [advance, flipArgs, remArg, proposal, afterFlip, afterRem, afterPropose, flipChecks, remChecks, reduceCtorEq, if_true,
    if_false, Bool.false_eq_true, beforeSetQ, afterSetQ] at h <;> repeat' split at h
  all_goals first
    | (cases h; done)
    | (simp only [Option.some.injEq, Prod.mk.injEq] at h
       obtain ⟨rfl, rfl⟩ := h
       first
         | (simp only [Pc.pastCfg, Bool.false_eq_true] at hp; done)
         | exact Or.inl ⟨rfl, rfl⟩
         | exact Or.inr ⟨_, by assumption, rfl⟩
         | (refine Or.inl ⟨rfl, ?_⟩
            simp only [ifEff, Run.after]; split <;> first | rfl | (next hx => split at hx <;> cases hx)))

theorem advance_pastRem {me : RId} {ms : List Srv} {sb : TaskSb} {r : Run} {a : Ans} {pc : Pc} {e : Eff}
    (h : advance me ms sb r a = some (pc, e)) {t : Bytes} {o i : RId} {q : Nat} (hc : r.call = .complete t o i q) (hp : pc.pastRem = true) :
    r.pc.pastRem = true ∨ getSrv ms o = none := by
  obtain ⟨n, c, p, pr, si⟩ := r
  simp only at hc
  subst hc
  cases p <;> simp only [advance, flipArgs, remArg, proposal, afterFlip, afterRem, afterPropose, flipChecks, remChecks, reduceCtorEq, if_true,
    if_false, Bool.false_eq_true, beforeSetQ, afterSetQ] at h <;> repeat' split at h
  all_goals first
    | (cases h; done)
    | (simp only [Option.some.injEq, Prod.mk.injEq] at h
       obtain ⟨rfl, rfl⟩ := h
       first
         | (simp only [Pc.pastRem, Bool.false_eq_true] at hp; done)
         | exact Or.inl rfl
         | exact Or.inr (by simp_all))

theorem advance_propose {me : RId} {ms : List Srv} {sb : TaskSb} {r : Run} {a : Ans} {pc : Pc} {h' : Bytes} {o i : RId}
    (h : advance me ms sb r a = some (pc, .append (.complete h' o i))) : r.pc = .propose ∧ r.call.isComplete = true := by
  obtain ⟨n, c, p, pr, si⟩ := r
  cases p
  all_goals
    rcases c with ⟨t, o, i, q⟩ | ⟨t, o, i, q⟩ | ⟨m, q, _ | _⟩ | ⟨m, f, q, _ | _⟩ | ⟨t, q⟩ <;>
      simp only [advance, flipArgs, remArg, proposal, afterFlip, afterRem, afterPropose, flipChecks, remChecks, reduceCtorEq, if_true, if_false,
        Bool.false_eq_true] at h <;>
      repeat' split at h
  all_goals first
    | (cases h; done)
    | (simp only [Option.some.injEq, Prod.mk.injEq, reduceCtorEq, and_false] at h; done)
    | (simp only [ifEff, Option.some.injEq, Prod.mk.injEq] at h
       have h := h.2
       split at h <;> cases h <;> exact ⟨rfl, rfl⟩)

/-! ## The invariant -/

structure One (ms0 : List Srv) (out inn : RId) (p : Nat) (s : St) : Prop where
  idx : Idx s
  init : s.init = ms0
  calls : CallsInv (OneCall out inn) (OneEntry out inn p) s
  pconf : ∀ e ∈ s.pend, e.isConf = true
  adds : ∀ k v, s.log[k]? = some (.add v) → v.id ∉ ids (members ms0 (s.log.take k))
  sb : ∀ n, (s.nodes n).sb.rout = 0 ∨ ((s.nodes n).sb.rout = out ∧ (s.nodes n).sb.rin = inn)
  prio : ∀ c r, s.runs c = some r → r.call.isReplace = true → r.pc.pastCfg = true → r.prio = p
  inAt : ((∃ c r, s.runs c = some r ∧ r.call.isComplete = true) ∨ .rem out ∈ s.pend) → inn ∈ ids (members ms0 (s.log.take s.committed))
  rem : ∀ k, s.log[k]? = some (.rem out) → inn ∈ ids (members ms0 (s.log.take k))
  gone : ∀ c r, s.runs c = some r → r.call.isComplete = true → r.pc.pastRem = true → out ∉ ids (members ms0 (s.log.take s.committed))
  comp : ∀ k h o i, s.log[k]? = some (.complete h o i) → out ∉ ids (members ms0 (s.log.take k))

section
variable {ms0 : List Srv} {out inn : RId} {p : Nat}

theorem stays {l : List Entry} (hl : ∀ e ∈ l, OneEntry out inn p e) (hne : out ≠ inn) {ms : List Srv} (h : inn ∈ ids ms) :
    inn ∈ ids (members ms l) := by
  induction l generalizing ms with
  | nil => exact h
  | cons e l ih =>
    refine ih (fun d hd => hl d (List.mem_cons_of_mem _ hd)) (ms := memberStep ms e) ?_
    have he := hl e (List.mem_cons_self ..)
    cases e with
    | add v => exact mem_ids_add.2 (Or.inl h)
    | rem i => exact mem_ids_rem.2 ⟨h, fun hc => hne (by rw [hc]; exact he.symm)⟩
    | learn i f => rw [ids_learn]; exact h
    | _ => exact h

theorem stays_gone {l : List Entry} (hl : ∀ e ∈ l, OneEntry out inn p e) (hne : out ≠ inn) {ms : List Srv} (h : out ∉ ids ms) :
    out ∉ ids (members ms l) := by
  induction l generalizing ms with
  | nil => exact h
  | cons e l ih =>
    refine ih (fun d hd => hl d (List.mem_cons_of_mem _ hd)) (ms := memberStep ms e) ?_
    have he := hl e (List.mem_cons_self ..)
    cases e with
    | add v =>
      have hv : v = ⟨inn, false, p⟩ := he
      rw [mem_ids_add, hv]
      exact fun hc => hc.elim h hne
    | rem i => exact fun hc => h (mem_ids_rem.1 hc).1
    | learn i f => rw [ids_learn]; exact h
    | _ => exact h

theorem members_take_le {l : List Entry} {j k : Nat} (h : j ≤ k) :
    members ms0 (l.take k) = members (members ms0 (l.take j)) ((l.take k).drop j) := by
  rw [← members_append]
  congr 1
  have : l.take j = (l.take k).take j := by rw [List.take_take, Nat.min_eq_left h]
  rw [this, List.take_append_drop]

theorem stays_take {l : List Entry} (hl : ∀ e ∈ l, OneEntry out inn p e) (hne : out ≠ inn) {j k : Nat} (h : j ≤ k)
    (hj : inn ∈ ids (members ms0 (l.take j))) : inn ∈ ids (members ms0 (l.take k)) := by
  rw [members_take_le h]
  exact stays (fun e he => hl e (List.mem_of_mem_take (List.mem_of_mem_drop he))) hne hj

theorem stays_gone_take {l : List Entry} (hl : ∀ e ∈ l, OneEntry out inn p e) (hne : out ≠ inn) {j k : Nat} (h : j ≤ k)
    (hj : out ∉ ids (members ms0 (l.take j))) : out ∉ ids (members ms0 (l.take k)) := by
  rw [members_take_le h]
  exact stays_gone (fun e he => hl e (List.mem_of_mem_take (List.mem_of_mem_drop he))) hne hj

/-- The members after any beginning of the log. -/
theorem shape_take {l : List Entry} (hl : ∀ e ∈ l, OneEntry out inn p e) (hne : out ≠ inn)
    (hadd : ∀ k v, l[k]? = some (.add v) → v.id ∉ ids (members ms0 (l.take k))) (h0 : Shape ms0 out inn p ms0) :
    ∀ k, Shape ms0 out inn p (members ms0 (l.take k)) := by
  intro k
  induction k with
  | zero => simpa [members] using h0
  | succ k ih =>
    cases he : l[k]? with
    | none =>
      rw [List.getElem?_eq_none_iff] at he
      have : l.take (k + 1) = l.take k := by rw [List.take_of_length_le (by omega), List.take_of_length_le he]
      rw [this]; exact ih
    | some e =>
      rw [members_take_succ he]
      exact shape_step ih (hl e (List.mem_of_getElem? he)) hne fun v hv => hadd k v (hv ▸ he)

/-- One of the two is there. -/
theorem either_take {l : List Entry} (hl : ∀ e ∈ l, OneEntry out inn p e) (hne : out ≠ inn)
    (hrem : ∀ k, l[k]? = some (.rem out) → inn ∈ ids (members ms0 (l.take k))) (h0 : out ∈ ids ms0) :
    ∀ k, out ∈ ids (members ms0 (l.take k)) ∨ inn ∈ ids (members ms0 (l.take k)) := by
  intro k
  induction k with
  | zero => left; simpa [members] using h0
  | succ k ih =>
    cases he : l[k]? with
    | none =>
      rw [List.getElem?_eq_none_iff] at he
      have : l.take (k + 1) = l.take k := by rw [List.take_of_length_le (by omega), List.take_of_length_le he]
      rw [this]; exact ih
    | some e =>
      have hE := hl e (List.mem_of_getElem? he)
      rw [members_take_succ he]
      cases e with
      | add v => exact ih.imp (fun h => mem_ids_add.2 (Or.inl h)) fun h => mem_ids_add.2 (Or.inl h)
      | rem i =>
        have hi : i = out := hE
        subst hi
        exact Or.inr (mem_ids_rem.2 ⟨hrem k he, fun hc => hne hc.symm⟩)
      | learn i f => rw [ids_learn]; exact ih
      | _ => exact ih

/-- Appending an entry. -/
theorem getElem?_append_one {l : List Entry} {e x : Entry} {k : Nat} (h : (l ++ [e])[k]? = some x) :
    (l[k]? = some x ∧ k < l.length) ∨ (k = l.length ∧ x = e) := by
  by_cases hk : k < l.length
  · rw [List.getElem?_append_left hk] at h; exact Or.inl ⟨h, hk⟩
  · rw [List.getElem?_append_right (by omega)] at h
    have hz : k - l.length = 0 := by
      rcases Nat.eq_zero_or_pos (k - l.length) with h0 | h0
      · exact h0
      · rw [List.getElem?_eq_none_iff.2 (by simp; omega)] at h; cases h
    rw [hz] at h
    simp only [List.getElem?_cons_zero, Option.some.injEq] at h
    exact Or.inr ⟨by omega, h.symm⟩

/-- What is said about the log, if an entry is appended. -/
theorem one_append {s : St} (h : One ms0 out inn p s) {e : Entry}
    (hac : s.accepts e = true) (hrem : e = .rem out → inn ∈ ids (members ms0 s.log))
    (hcomp : ∀ h' o i, e = .complete h' o i → out ∉ ids (members ms0 s.log)) :
    (∀ k v, (s.log ++ [e])[k]? = some (.add v) → v.id ∉ ids (members ms0 ((s.log ++ [e]).take k))) ∧
    (∀ k, (s.log ++ [e])[k]? = some (.rem out) → inn ∈ ids (members ms0 ((s.log ++ [e]).take k))) ∧
    (∀ k h o i, (s.log ++ [e])[k]? = some (.complete h o i) → out ∉ ids (members ms0 ((s.log ++ [e]).take k))) := by
  refine ⟨fun k v hk => ?_, fun k hk => ?_, fun k h' o i hk => ?_⟩
  · rcases getElem?_append_one hk with ⟨hk, hl⟩ | ⟨rfl, rfl⟩
    · rw [take_append_of_le (by omega)]; exact h.adds k v hk
    · rw [take_append_of_le (Nat.le_refl _), List.take_length]
      simp only [St.accepts, h.init, Bool.and_eq_true, Option.isNone_iff_eq_none] at hac
      exact getSrv_none.1 hac.2
  · rcases getElem?_append_one hk with ⟨hk, hl⟩ | ⟨rfl, rfl⟩
    · rw [take_append_of_le (by omega)]; exact h.rem k hk
    · rw [take_append_of_le (Nat.le_refl _), List.take_length]; exact hrem rfl
  · rcases getElem?_append_one hk with ⟨hk, hl⟩ | ⟨rfl, rfl⟩
    · rw [take_append_of_le (by omega)]; exact h.comp k h' o i hk
    · rw [take_append_of_le (Nat.le_refl _), List.take_length]; exact hcomp h' o i rfl

theorem yields_one : Yields (OneCall out inn) (fun e => OneEntry out inn p e ∨ ∃ v, e = .add v) := by
  refine ⟨fun c m f hc h => ?_, fun c sb pad e hc h => ?_, fun _ _ _ _ _ _ => Or.inr ⟨_, rfl⟩, fun c m hc h => ?_⟩
  · cases c <;> simp only [flipArgs, Option.some.injEq, Prod.mk.injEq, reduceCtorEq] at h
    · obtain ⟨rfl, rfl⟩ := h; exact Or.inl ⟨hc.1, rfl⟩
    · exact absurd hc (by simp [OneCall])
  · cases c <;> simp only [proposal, Option.some.injEq, reduceCtorEq] at h <;> subst h
    · exact Or.inl hc
    · exact Or.inl hc
    · exact absurd hc (by simp [OneCall])
    · exact Or.inl trivial
  · cases c <;> simp only [remArg, Option.some.injEq, reduceCtorEq] at h
    · subst h; exact Or.inl hc.1
    · exact absurd hc (by simp [OneCall])

theorem sb_commit {sb : TaskSb} (h : sb.rout = 0 ∨ (sb.rout = out ∧ sb.rin = inn)) {e : Entry} (he : OneEntry out inn p e) :
    (commitSb sb e).rout = 0 ∨ ((commitSb sb e).rout = out ∧ (commitSb sb e).rin = inn) := by
  cases e with
  | start hd o i => exact Or.inr he
  | complete hd o i =>
    simp only [commitSb]; split
    · exact h
    · exact Or.inl rfl
  | clean hd =>
    simp only [commitSb]; split
    · exact h
    · split
      · exact h
      · exact Or.inl rfl
  | _ => exact h

/-- The acts of a history in which `out` is replaced by `inn`. -/
def OneAct (out inn : RId) : Act → Prop
  | .call _ _ k => OneCall out inn k
  | _ => True

/-- Nothing about the log changes. -/
theorem one_same {s s' : St} (h : One ms0 out inn p s) (hi : Idx s') (h1 : s'.init = s.init) (h2 : s'.log = s.log) (h3 : s'.committed = s.committed)
    (h4 : ∀ e ∈ s'.pend, e ∈ s.pend) (h5 : ∀ n, (s'.nodes n).sb = (s.nodes n).sb)
    (hr : ∀ c r, s'.runs c = some r → ∃ r', s.runs c = some r' ∧ r.call = r'.call ∧ r.prio = r'.prio ∧
      (r.pc = r'.pc ∨ (r.pc.pastCfg = false ∧ r.pc.pastRem = false))) : One ms0 out inn p s' := by
  refine ⟨hi, h1.trans h.init, ⟨fun c r hc => ?_, fun e he => h.calls.log e (h2 ▸ he), fun e he => h.calls.pend e (h4 e he)⟩,
    fun e he => h.pconf e (h4 e he), ?_, fun n => by rw [h5]; exact h.sb n, fun c r hc => ?_, ?_, ?_, fun c r hc => ?_, ?_⟩
  · obtain ⟨r', h6, h7, _⟩ := hr c r hc
    rw [h7]; exact h.calls.runs c r' h6
  · rw [h2]; exact h.adds
  · obtain ⟨r', h6, h7, h8, h9⟩ := hr c r hc
    rw [h7, h8]
    intro ha hb
    rcases h9 with h9 | h9
    · exact h.prio c r' h6 ha (h9 ▸ hb)
    · rw [h9.1] at hb; cases hb
  · rw [h2, h3]
    rintro (⟨c, r, hc, hk⟩ | hk)
    · obtain ⟨r', h6, h7, _⟩ := hr c r hc
      exact h.inAt (Or.inl ⟨c, r', h6, h7 ▸ hk⟩)
    · exact h.inAt (Or.inr (h4 _ hk))
  · rw [h2]; exact h.rem
  · obtain ⟨r', h6, h7, h8, h9⟩ := hr c r hc
    rw [h7, h2, h3]
    intro ha hb
    rcases h9 with h9 | h9
    · exact h.gone c r' h6 ha (h9 ▸ hb)
    · rw [h9.2] at hb; cases hb
  · rw [h2]; exact h.comp

theorem same_runs {s : St} : ∀ c r, s.runs c = some r → ∃ r', s.runs c = some r' ∧ r.call = r'.call ∧ r.prio = r'.prio ∧
    (r.pc = r'.pc ∨ (r.pc.pastCfg = false ∧ r.pc.pastRem = false)) := fun _ r h => ⟨r, h, rfl, rfl, Or.inl rfl⟩

/-- A new call. -/
theorem one_new {s : St} (h : One ms0 out inn p s) {c : Nat} {n : RId} {k : Call} {z : Nat} (hk : OneCall out inn k)
    (hin : k.isComplete = true → inn ∈ ids (members ms0 (s.log.take s.committed))) :
    One ms0 out inn p { s with runs := upd s.runs c (some ⟨n, k, .entry, 0, z⟩) } := by
  refine ⟨⟨h.idx.app, h.idx.high, h.idx.comm⟩, h.init, ⟨fun d r hd => ?_, h.calls.log, h.calls.pend⟩, h.pconf, h.adds, h.sb, fun d r hd => ?_, ?_, h.rem,
    fun d r hd => ?_, h.comp⟩
  · simp only [upd] at hd
    split at hd
    · cases hd; exact hk
    · exact h.calls.runs d r hd
  · simp only [upd] at hd
    split at hd
    · cases hd; intro _ hp; cases hp
    · exact h.prio d r hd
  · rintro (⟨d, r, hd, hc⟩ | hp)
    · simp only [upd] at hd
      split at hd
      · cases hd; exact hin hc
      · exact h.inAt (Or.inl ⟨d, r, hd, hc⟩)
    · exact h.inAt (Or.inr hp)
  · simp only [upd] at hd
    split at hd
    · cases hd; intro _ hp; cases hp
    · exact h.gone d r hd

theorem one_step (hne : out ≠ inn) (hout : out ≠ 0) (h0 : Shape ms0 out inn p ms0) {s s' : St} {a : Act} (hq : OneAct out inn a)
    (h : One ms0 out inn p s) (hs : step s a = some s') : One ms0 out inn p s' := by
  have hi := idx_step h.idx hs
  have hcom : ∀ n, (s.nodes n).high ≤ s.committed := h.idx.high
  cases a with
  | call c n k =>
    simp only [step] at hs
    split at hs
    · next hc =>
      cases hs
      refine one_new h hq fun hk => ?_
      cases k <;> simp_all [Call.isComplete, Call.offered]
    · cases hs
  | reap c n b f g =>
    simp only [step] at hs
    split at hs
    · next hc =>
      cases hs
      simp only [St.due, Bool.and_eq_true, decide_eq_true_eq] at hc
      obtain ⟨_, ⟨⟨⟨⟨_, h1⟩, h2⟩, h3⟩, _⟩⟩ := hc
      have hsb : (s.nodes n).sb.rout = out ∧ (s.nodes n).sb.rin = inn := by
        rcases h.sb n with hx | hx
        · simp only [hx] at h2; simp at h2
        · exact hx
      refine one_new h hsb fun _ => ?_
      simp only [List.any_eq_true] at h3
      obtain ⟨v, hv, hvi⟩ := h3
      simp only [Bool.and_eq_true, decide_eq_true_eq] at hvi
      refine stays_take h.calls.log hne (hcom n) ?_
      rw [← h.init]
      exact mem_ids.2 ⟨v, hv, by rw [hvi.2]; exact hsb.2⟩
    · cases hs
  | step c a =>
    obtain ⟨r, pc, e, s1, hr, ha, he, rfl⟩ := step_call hs
    have hC := h.calls.runs c r hr
    obtain ⟨e1, e2, e3, e4, e5, e6, x, e7⟩ := effect_idx he
    have hconf : ∀ n, s.conf n = members ms0 (s.log.take (s.nodes n).high) := fun n => by rw [St.conf, h.init]
    have hpr : ∀ v, getSrv (s.conf r.node) out = some v → v.prio = p := by
      intro v hv
      rw [hconf] at hv
      obtain ⟨h1, h2⟩ := getSrv_some hv
      rcases (shape_take h.calls.log hne h.adds h0 _).only v h1 with h3 | h3 | h3
      · exact absurd h2 h3.2
      · exact h3.2
      · rw [h3]
    -- the entry that is appended or submitted
    have hyE : ∀ y, e = .append y → OneEntry out inn p y := by
      rintro y rfl
      rcases advance_append ha with ⟨m, f, h1, rfl⟩ | h1
      · rcases (yields_one (p := p)).learn _ m f hC h1 with h2 | ⟨v, h2⟩
        · exact h2
        · cases h2
      · rcases (yields_one (p := p)).prop _ _ _ _ hC h1 with h2 | ⟨v, rfl⟩
        · exact h2
        · cases hcl : r.call <;> rw [hcl] at h1 <;> simp [proposal] at h1
    have hyS : ∀ y, e = .submit y → OneEntry out inn p y := by
      rintro y rfl
      rcases advance_submit ha with ⟨t, o, i, q, h1, h2, rfl⟩ | ⟨m, h1, _, rfl⟩
      · have hp' := h.prio c r hr (by rw [h1]; rfl) (by rw [h2]; rfl)
        rw [h1] at hC
        show Srv.mk _ _ _ = _
        rw [hp', hC.2]
      · rcases (yields_one (p := p)).rem _ m hC h1 with h2 | ⟨v, h2⟩
        · exact h2
        · cases h2
    -- what is said about the log
    have hlog : (∀ y ∈ s1.log, OneEntry out inn p y) ∧ (∀ y ∈ s1.pend, OneEntry out inn p y) ∧
        (∀ k v, s1.log[k]? = some (.add v) → v.id ∉ ids (members ms0 (s1.log.take k))) ∧
        (∀ k, s1.log[k]? = some (.rem out) → inn ∈ ids (members ms0 (s1.log.take k))) ∧
        (∀ k h o i, s1.log[k]? = some (.complete h o i) → out ∉ ids (members ms0 (s1.log.take k))) ∧
        (.rem out ∈ s1.pend → inn ∈ ids (members ms0 (s.log.take s.committed))) ∧ (∀ y ∈ s1.pend, y.isConf = true) := by
      rcases effect_cases he with ⟨rfl, _⟩ | ⟨_, _, rfl⟩ | ⟨y, rfl, _, hac, rfl⟩ | ⟨y, rfl, _, rfl⟩
      · exact ⟨h.calls.log, h.calls.pend, h.adds, h.rem, h.comp, fun hp => h.inAt (Or.inr hp), h.pconf⟩
      · exact ⟨h.calls.log, h.calls.pend, h.adds, h.rem, h.comp, fun hp => h.inAt (Or.inr hp), h.pconf⟩
      · have hA1 : y = .rem out → inn ∈ ids (members ms0 s.log) := by
          intro hy
          subst hy
          rcases advance_append ha with ⟨m, f, _, h2⟩ | h2
          · cases h2
          · cases hcl : r.call <;> rw [hcl] at h2 <;> simp [proposal] at h2
        have hA2 : ∀ h' o i, y = .complete h' o i → out ∉ ids (members ms0 s.log) := by
          intro h' o i hy
          subst hy
          obtain ⟨h1, h2⟩ := advance_propose ha
          have := stays_gone_take h.calls.log hne h.idx.comm (h.gone c r hr h2 (by rw [h1]; rfl))
          rwa [List.take_length] at this
        obtain ⟨h1, h2, h3⟩ := one_append h hac hA1 hA2
        refine ⟨fun z hz => ?_, h.calls.pend, h1, h2, h3, fun hp => h.inAt (Or.inr hp), h.pconf⟩
        simp only [List.mem_append, List.mem_singleton] at hz
        rcases hz with hz | rfl
        · exact h.calls.log z hz
        · exact hyE z rfl
      · refine ⟨h.calls.log, fun z hz => ?_, h.adds, h.rem, h.comp, fun hp => ?_, fun z hz => ?_⟩
        · simp only [List.mem_append, List.mem_singleton] at hz
          rcases hz with hz | rfl
          · exact h.calls.pend z hz
          · exact hyS z rfl
        · simp only [List.mem_append, List.mem_singleton] at hp
          rcases hp with hp | rfl
          · exact h.inAt (Or.inr hp)
          · refine h.inAt (Or.inl ⟨c, r, hr, ?_⟩)
            rcases advance_submit ha with ⟨t, o, i, q, _, _, h3⟩ | ⟨m, h1, _, _⟩
            · cases h3
            · cases hcl : r.call <;> rw [hcl] at h1 hC <;> simp_all [remArg, OneCall, Call.isComplete]
        · simp only [List.mem_append, List.mem_singleton] at hz
          rcases hz with hz | rfl
          · exact h.pconf z hz
          · rcases advance_submit ha with ⟨t, o, i, q, _, _, rfl⟩ | ⟨m, _, _, rfl⟩ <;> rfl
    obtain ⟨g1, g2, g3, g4, g5, g6, g7⟩ := hlog
    have htake : s1.log.take s1.committed = s.log.take s.committed := by
      rw [e5, e7]; exact take_append_of_le h.idx.comm
    refine ⟨hi, e6.trans h.init, ⟨fun d r' hd => ?_, g1, g2⟩, g7, g3, fun n => by simp only [e3]; exact h.sb n, fun d r' hd => ?_, ?_, g4,
      fun d r' hd => ?_, g5⟩
    · simp only [upd, effect_runs he] at hd
      split at hd
      · cases hd; rw [after_call]; exact hC
      · exact h.calls.runs d r' hd
    · simp only [upd, effect_runs he] at hd
      split at hd
      · cases hd
        rw [after_call, after_pc]
        intro h1 h2
        cases hcl : r.call <;> rw [hcl] at h1 <;> simp only [Call.isReplace, Bool.false_eq_true] at h1
        next t o i q =>
        rcases advance_pastCfg ha hcl h2 with ⟨h3, h4⟩ | ⟨v, h3, rfl⟩
        · rw [h4]; exact h.prio c r hr (by rw [hcl]; rfl) h3
        · rw [hcl] at hC
          rw [hC.1] at h3
          exact hpr v h3
      · exact h.prio d r' hd
    · show _ → inn ∈ ids (members ms0 (s1.log.take s1.committed))
      rw [htake]
      rintro (⟨d, r', hd, hk⟩ | hk)
      · simp only [upd, effect_runs he] at hd
        split at hd
        · cases hd; rw [after_call] at hk; exact h.inAt (Or.inl ⟨c, r, hr, hk⟩)
        · exact h.inAt (Or.inl ⟨d, r', hd, hk⟩)
      · exact g6 hk
    · show _ → _ → out ∉ ids (members ms0 (s1.log.take s1.committed))
      rw [htake]
      simp only [upd, effect_runs he] at hd
      split at hd
      · cases hd
        rw [after_call, after_pc]
        intro h1 h2
        cases hcl : r.call <;> rw [hcl] at h1 <;> simp only [Call.isComplete, Bool.false_eq_true] at h1
        next t o i q =>
        rcases advance_pastRem ha hcl h2 with h3 | h3
        · exact h.gone c r hr (by rw [hcl]; rfl) h3
        · rw [hcl] at hC
          rw [hC.1, hconf] at h3
          exact stays_gone_take h.calls.log hne (hcom _) (getSrv_none.1 h3)
      · exact h.gone d r' hd
  | append i =>
    simp only [step] at hs
    split at hs
    · cases hs
    · next e he =>
      split at hs
      · next hc =>
        cases hs
        have hep : e ∈ s.pend := List.mem_of_getElem? he
        have hA1 : e = .rem out → inn ∈ ids (members ms0 s.log) := by
          intro hy
          subst hy
          have := stays_take h.calls.log hne h.idx.comm (h.inAt (Or.inr hep))
          rwa [List.take_length] at this
        have hA2 : ∀ h' o i, e = .complete h' o i → out ∉ ids (members ms0 s.log) := by
          intro h' o i hy
          have := h.pconf e hep
          rw [hy] at this; cases this
        obtain ⟨h1, h2, h3⟩ := one_append h hc.2 hA1 hA2
        have ht : (s.log ++ [e]).take s.committed = s.log.take s.committed := take_append_of_le h.idx.comm
        refine ⟨hi, h.init, ⟨h.calls.runs, fun z hz => ?_, fun z hz => h.calls.pend z (List.mem_of_mem_eraseIdx hz)⟩,
          fun z hz => h.pconf z (List.mem_of_mem_eraseIdx hz), h1, h.sb, h.prio, ?_, h2, ?_, h3⟩
        · simp only [List.mem_append, List.mem_singleton] at hz
          rcases hz with hz | rfl
          · exact h.calls.log z hz
          · exact h.calls.pend z hep
        · simp only [ht]
          exact fun hx => h.inAt (hx.imp id fun hp => List.mem_of_mem_eraseIdx hp)
        · simp only [ht]; exact h.gone
      · cases hs
  | commit =>
    simp only [step] at hs
    split at hs
    · cases hs
      refine ⟨hi, h.init, ⟨h.calls.runs, h.calls.log, h.calls.pend⟩, h.pconf, h.adds, h.sb, h.prio, fun hx => ?_, h.rem, fun c r hc h1 h2 => ?_, h.comp⟩
      · exact stays_take h.calls.log hne (Nat.le_succ _) (h.inAt hx)
      · exact stays_gone_take h.calls.log hne (Nat.le_succ _) (h.gone c r hc h1 h2)
    · cases hs
  | apply n =>
    simp only [step] at hs
    split at hs
    · split at hs
      · cases hs
      · next e he =>
        cases hs
        refine ⟨hi, h.init, ⟨h.calls.runs, h.calls.log, h.calls.pend⟩, h.pconf, h.adds, fun m => ?_, h.prio, h.inAt, h.rem, h.gone, h.comp⟩
        simp only [upd]
        by_cases hm : m = n
        · simp only [hm, if_true]
          by_cases hsn : (s.nodes n).applied < (s.nodes n).snap
          · simp only [hsn, if_true]; exact h.sb n
          · simp only [hsn, if_false]; exact sb_commit (h.sb n) (h.calls.log e (List.mem_of_getElem? he))
        · simp only [hm, if_false]; exact h.sb m
    · cases hs
  | elect l k =>
    simp only [step] at hs
    split at hs
    · next hc =>
      cases hs
      have ht : ∀ j ≤ k, (s.log.take k).take j = s.log.take j := fun j hj => by rw [List.take_take, Nat.min_eq_left hj]
      have hg : ∀ j y, (s.log.take k)[j]? = some y → j < k ∧ s.log[j]? = some y := by
        intro j y hy
        rw [List.getElem?_take] at hy
        split at hy
        · next hlt => exact ⟨hlt, hy⟩
        · cases hy
      refine ⟨hi, h.init, ⟨h.calls.runs, fun e he => h.calls.log e (List.mem_of_mem_take he), fun e he => (by cases he)⟩,
        fun e he => (by cases he), fun j v hj => ?_, h.sb, h.prio, fun hx => ?_, fun j hj => ?_, fun c r hr h1 h2 => ?_, fun j h' o i hj => ?_⟩
      · obtain ⟨h1, h2⟩ := hg j _ hj
        simp only [ht j (Nat.le_of_lt h1)]; exact h.adds j v h2
      · simp only [ht _ hc.1]
        rcases hx with hx | hx
        · exact h.inAt (Or.inl hx)
        · cases hx
      · obtain ⟨h1, h2⟩ := hg j _ hj
        simp only [ht j (Nat.le_of_lt h1)]; exact h.rem j h2
      · simp only [ht _ hc.1]; exact h.gone c r hr h1 h2
      · obtain ⟨h1, h2⟩ := hg j _ hj
        simp only [ht j (Nat.le_of_lt h1)]; exact h.comp j h' o i h2
    · cases hs
  | resign =>
    simp only [step] at hs
    cases hs
    exact one_same h hi rfl rfl rfl (fun e he => (by cases he)) (fun _ => rfl) same_runs
  | restart n k =>
    simp only [step] at hs
    split at hs
    · cases hs
      refine one_same h hi rfl rfl rfl (fun e he => he) (fun m => ?_) fun c r hc => ?_
      · simp only [upd]; split
        · next hm => rw [hm]
        · rfl
      · simp only [Option.map_eq_some_iff] at hc
        obtain ⟨r', h1, h2⟩ := hc
        refine ⟨r', h1, ?_⟩
        rw [← h2]
        split
        · split
          · exact ⟨rfl, rfl, Or.inl rfl⟩
          · exact ⟨rfl, rfl, Or.inr ⟨rfl, rfl⟩⟩
        · exact ⟨rfl, rfl, Or.inl rfl⟩
    · cases hs
  | snapshot n k =>
    simp only [step] at hs
    split at hs
    · cases hs
      refine one_same h hi rfl rfl rfl (fun e he => he) (fun m => ?_) same_runs
      simp only [upd]; split
      · next hm => rw [hm]
      · rfl
    · cases hs

end
end HS.Member
