import Verif.Index.Link
import Mathlib.Data.List.Nodup
import Mathlib.Tactic.ByContra
/-! Invariants of the links. -/
namespace HS.Index.Link

theorem Over.trans {lvl pos : Nat → Nat} {a b c : Nat} (h1 : Over lvl pos a b)
    (h2 : Over lvl pos b c) : Over lvl pos a c := by
  unfold Over at *
  omega

/-- How many buffers of a list are linked to `u`. -/
def cnt (buf : Nat → B) (L : List Nat) (u : Nat) : Nat := L.countP (fun b => (buf b).up = some u)

/-- The invariant.  `pend`: linked, but not yet on the list.  `raw`: new, not yet linked. -/
structure Inv (lvl pos : Nat → Nat) (s : St) (pend raw : List Nat) : Prop where
  nd : (s.list ++ pend).Nodup
  dirty : ∀ b, (s.buf b).dirty = true ↔ b ∈ s.list
  up : ∀ b u, (s.buf b).up = some u →
    b ∈ s.list ++ pend ∧ u ∈ s.list ∧ (s.buf u).new = false ∧ Over lvl pos u b
  wait : ∀ u, (s.buf u).wait = (cnt s.buf (s.list ++ pend) u : Int)
  new : ∀ b, (s.buf b).new = true → b ∉ raw → (s.buf b).up ≠ none

theorem inv_init (lvl pos : Nat → Nat) : Inv lvl pos St.init [] [] := by
  constructor <;> simp [St.init, B.idle, cnt]

theorem not_target {lvl pos : Nat → Nat} {s : St} {pend raw : List Nat} (h : Inv lvl pos s pend raw)
    {n : Nat} (h0 : (s.buf n).wait = 0) : ∀ b, (s.buf b).up ≠ some n := by
  intro b hb
  have hm := (h.up b n hb).1
  have hw := h.wait n
  rw [h0] at hw
  have : 0 < cnt s.buf (s.list ++ pend) n := by
    unfold cnt
    rw [List.countP_pos_iff]
    exact ⟨b, hm, by simp [hb]⟩
  omega

theorem cnt_congr {b1 b2 : Nat → B} {L : List Nat} {u : Nat}
    (h : ∀ b ∈ L, (b1 b).up = (b2 b).up) : cnt b1 L u = cnt b2 L u := by
  unfold cnt
  apply List.countP_congr
  intro b hb
  rw [h b hb]

theorem inv_alloc {lvl pos : Nat → Nat} {s : St} {pend raw : List Nat} (h : Inv lvl pos s pend raw)
    {n : Nat} (hn : s.buf n = B.idle) : Inv lvl pos (s.alloc n) pend (n :: raw) := by
  have ht := not_target h (n := n) (by rw [hn]; rfl)
  have hup : ∀ b, ((s.alloc n).buf b).up = (s.buf b).up := by
    intro b; by_cases e : b = n <;> simp [St.alloc, St.set, e]
  have hd : ∀ b, ((s.alloc n).buf b).dirty = (s.buf b).dirty := by
    intro b; by_cases e : b = n <;> simp [St.alloc, St.set, e]
  have hw : ∀ b, ((s.alloc n).buf b).wait = (s.buf b).wait := by
    intro b; by_cases e : b = n <;> simp [St.alloc, St.set, e]
  have hnew : ∀ b, b ≠ n → ((s.alloc n).buf b).new = (s.buf b).new := by
    intro b e; simp [St.alloc, St.set, e]
  obtain ⟨nd, dirty, up, wait, new⟩ := h
  refine ⟨nd, fun b => by rw [hd]; exact dirty b, ?_, ?_, ?_⟩
  · intro b u hb
    rw [hup] at hb
    obtain ⟨a1, a2, a3, a4⟩ := up b u hb
    refine ⟨a1, a2, ?_, a4⟩
    have : u ≠ n := by rintro rfl; exact ht b hb
    rw [hnew u this]; exact a3
  · intro u
    rw [hw, wait u]
    exact congrArg _ (cnt_congr (fun b _ => (hup b).symm))
  · intro b hb hr
    simp only [List.mem_cons, not_or] at hr
    rw [hup]
    rw [hnew b hr.1] at hb
    exact new b hb hr.2

/-- What a write leaves alone. -/
theorem write_frame (s : St) (b : Nat) :
    (∀ x, ((s.write b).buf x).new = (s.buf x).new ∧ ((s.write b).buf x).up = (s.buf x).up ∧
      ((s.write b).buf x).wait = (s.buf x).wait) ∧ (∀ x ∈ s.list, x ∈ (s.write b).list) ∧
    (∀ x, x ≠ b → (s.write b).buf x = s.buf x) ∧
    (∀ x ∈ (s.write b).list, x ∈ s.list ∨ x = b) := by
  unfold St.write
  by_cases e : (s.buf b).dirty = true
  · rw [if_pos e]; exact ⟨fun x => ⟨rfl, rfl, rfl⟩, fun x hx => hx, fun _ _ => rfl, fun x hx => Or.inl hx⟩
  · rw [if_neg e]
    refine ⟨fun x => ?_, fun x hx => List.mem_append_left _ hx, fun x hx => by simp [St.set, hx],
      fun x hx => ?_⟩
    · by_cases e : x = b <;> simp [St.set, e]
    · rcases List.mem_append.1 (show x ∈ s.list ++ [b] from hx) with h | h
      · exact Or.inl h
      · exact Or.inr (List.mem_singleton.1 h)

theorem inv_write {lvl pos : Nat → Nat} {s : St} {pend raw : List Nat} (h : Inv lvl pos s pend raw)
    (b : Nat) : Inv lvl pos (s.write b) (pend.erase b) raw ∧ b ∈ (s.write b).list := by
  have hf := (write_frame s b).1
  obtain ⟨nd, dirty, up, wait, new⟩ := h
  by_cases e : (s.buf b).dirty = true
  · have hb := (dirty b).1 e
    have he : s.write b = s := by unfold St.write; rw [if_pos e]
    have hp : b ∉ pend := fun hp => (List.nodup_append.1 nd).2.2 b hb b hp rfl
    rw [he, List.erase_of_not_mem hp]
    exact ⟨⟨nd, dirty, up, wait, new⟩, hb⟩
  · have hb : b ∉ s.list := fun hb => e ((dirty b).2 hb)
    have hl : (s.write b).list = s.list ++ [b] := by unfold St.write; rw [if_neg e]
    have hpn := (List.nodup_append.1 nd).2.1
    have hnd' : (s.list ++ [b] ++ pend.erase b).Nodup := by
      rw [List.append_assoc, List.singleton_append, List.nodup_middle]
      refine List.nodup_cons.2 ⟨?_, ?_⟩
      · simp only [List.mem_append, not_or]
        refine ⟨hb, ?_⟩
        rw [List.Nodup.mem_erase_iff hpn]; simp
      · refine List.nodup_append.2 ⟨(List.nodup_append.1 nd).1, hpn.erase b, ?_⟩
        intro x hx y hy
        exact (List.nodup_append.1 nd).2.2 x hx y (List.mem_of_mem_erase hy)
    have hcnt : ∀ u, cnt (s.write b).buf (s.list ++ [b] ++ pend.erase b) u =
        cnt s.buf (s.list ++ pend) u := by
      intro u
      rw [cnt_congr (b2 := s.buf) (fun x _ => (hf x).2.1)]
      unfold cnt
      by_cases hp : b ∈ pend
      · apply List.Perm.countP_eq
        rw [List.append_assoc]
        exact List.Perm.append_left _ (List.perm_cons_erase hp).symm
      · rw [List.erase_of_not_mem hp, List.countP_append, List.countP_append, List.countP_append]
        have : (s.buf b).up = none := by
          rcases hu : (s.buf b).up with _ | v
          · rfl
          · have := (up b v hu).1
            rcases List.mem_append.1 this with h | h
            · exact absurd h hb
            · exact absurd h hp
        simp [this]
    refine ⟨⟨?_, ?_, ?_, ?_, ?_⟩, by rw [hl]; simp⟩
    · rw [hl]; exact hnd'
    · intro x
      rw [hl]
      by_cases ex : x = b
      · subst ex
        unfold St.write
        rw [if_neg e]
        simp [St.set]
      · rw [(write_frame s b).2.2.1 x ex, dirty x]
        simp [ex]
    · intro x u hx
      rw [(hf x).2.1] at hx
      obtain ⟨a1, a2, a3, a4⟩ := up x u hx
      refine ⟨?_, ?_, by rw [(hf u).1]; exact a3, a4⟩
      · rw [hl]
        rcases List.mem_append.1 a1 with h | h
        · simp [h]
        · by_cases ex : x = b
          · simp [ex]
          · have : x ∈ pend.erase b := (List.mem_erase_of_ne ex).2 h
            simp [this]
      · rw [hl]; simp [a2]
    · intro u
      rw [(hf u).2.2, wait u, hl, hcnt u]
    · intro x hx hr
      rw [(hf x).2.1]
      rw [(hf x).1] at hx
      exact new x hx hr

theorem inv_pend {lvl pos : Nat → Nat} {s : St} {pend raw : List Nat} (h : Inv lvl pos s pend raw)
    {b : Nat} (hb : b ∉ s.list) (hp : b ∉ pend) : Inv lvl pos s (b :: pend) raw := by
  obtain ⟨nd, dirty, up, wait, new⟩ := h
  have hn : (s.buf b).up = none := by
    rcases hu : (s.buf b).up with _ | v
    · rfl
    · rcases List.mem_append.1 (up b v hu).1 with h | h
      · exact absurd h hb
      · exact absurd h hp
  refine ⟨?_, dirty, ?_, ?_, new⟩
  · rw [List.nodup_middle]
    refine List.nodup_cons.2 ⟨?_, nd⟩
    simp [hb, hp]
  · intro x u hx
    obtain ⟨a1, a2⟩ := up x u hx
    refine ⟨?_, a2⟩
    rcases List.mem_append.1 a1 with h | h
    · simp [h]
    · simp [h]
  · intro u
    rw [wait u]
    unfold cnt
    rw [List.countP_append, List.countP_append, List.countP_cons]
    simp [hn]

/-- `attach` to a buffer on the list. -/
theorem inv_attach {lvl pos : Nat → Nat} {s : St} {pend raw : List Nat} (h : Inv lvl pos s pend raw)
    {real down : Nat} (hu : (s.buf down).up = none) (hr : real ∈ s.list)
    (hrn : (s.buf real).new = false) (hd : down ∈ s.list ++ pend) (ho : Over lvl pos real down) :
    Inv lvl pos (s.attach real down) pend (raw.erase down) ∧ (s.attach real down).list = s.list ∧
    (∀ x, ((s.attach real down).buf x).new = (s.buf x).new) ∧
    (∀ x, x ≠ down → ((s.attach real down).buf x).up = (s.buf x).up) ∧
    ((s.attach real down).buf down).up = some real := by
  have hne : real ≠ down := by
    rintro rfl; unfold Over at ho; omega
  have hnew : ∀ x, ((s.attach real down).buf x).new = (s.buf x).new := by
    intro x
    unfold St.attach St.set
    by_cases e1 : x = real <;> by_cases e2 : x = down <;> simp_all
  have hdir : ∀ x, ((s.attach real down).buf x).dirty = (s.buf x).dirty := by
    intro x
    unfold St.attach St.set
    by_cases e1 : x = real <;> by_cases e2 : x = down <;> simp_all
  have hup : ∀ x, x ≠ down → ((s.attach real down).buf x).up = (s.buf x).up := by
    intro x e2
    unfold St.attach St.set
    by_cases e1 : x = real <;> simp_all
  have hupd : ((s.attach real down).buf down).up = some real := by
    unfold St.attach St.set
    have : down ≠ real := fun e => hne e.symm
    simp [this]
  have hw : ∀ x, ((s.attach real down).buf x).wait =
      (s.buf x).wait + (if x = real then 1 else 0) := by
    intro x
    unfold St.attach St.set
    by_cases e1 : x = real <;> by_cases e2 : x = down <;> simp_all
  obtain ⟨nd, dirty, up, wait, new⟩ := h
  refine ⟨⟨nd, fun b => by rw [hdir]; exact dirty b, ?_, ?_, ?_⟩, rfl, hnew, hup, hupd⟩
  · intro b u hb
    by_cases e : b = down
    · subst e
      rw [hupd] at hb
      obtain rfl := Option.some.inj hb
      exact ⟨hd, hr, by rw [hnew]; exact hrn, ho⟩
    · rw [hup b e] at hb
      obtain ⟨a1, a2, a3, a4⟩ := up b u hb
      exact ⟨a1, a2, by rw [hnew]; exact a3, a4⟩
  · intro u
    rw [hw, wait u]
    have key : ∀ L : List Nat, L.Nodup → cnt (s.attach real down).buf L u =
        cnt s.buf L u + (if down ∈ L ∧ u = real then 1 else 0) := by
      intro L
      induction L with
      | nil => intro _; simp [cnt]
      | cons a L ih =>
        intro hn
        obtain ⟨h1, h2⟩ := List.nodup_cons.1 hn
        have ih' := ih h2
        unfold cnt at ih' ⊢
        rw [List.countP_cons, List.countP_cons, ih']
        by_cases ea : a = down
        · subst ea
          have eu : (s.buf a).up ≠ some u := by rw [hu]; simp
          by_cases e : u = real
          · subst e; simp [hupd, h1, hu]
          · have e' : real ≠ u := fun x => e x.symm
            simp [hupd, e, e', hu]
        · rw [hup a ea]
          have : down ∈ a :: L ↔ down ∈ L := by
            simp only [List.mem_cons]
            constructor
            · rintro (x | x)
              · exact absurd x.symm ea
              · exact x
            · exact Or.inr
          simp only [this]
          omega
    have hL : ((s.attach real down).list ++ pend) = s.list ++ pend := rfl
    rw [hL, key _ nd]
    by_cases e : u = real
    · simp only [e, hd, and_self, if_true]; push_cast; rfl
    · simp [e]
  · intro b hb hnr
    by_cases e : b = down
    · subst e; rw [hupd]; simp
    · rw [hup b e]
      rw [hnew] at hb
      refine new b hb (fun hr => hnr ?_)
      exact (List.mem_erase_of_ne e).2 hr

/-- Dropping a link. -/
theorem inv_detach {lvl pos : Nat → Nat} {s : St} {pend raw : List Nat} (h : Inv lvl pos s pend raw)
    {real down u : Nat} (hu : (s.buf down).up = some u) :
    ∃ s1 : St, Inv lvl pos s1 pend (down :: raw) ∧ (s1.buf down).up = none ∧ s1.list = s.list ∧
      (∀ x, (s1.buf x).new = (s.buf x).new) ∧ (∀ x, x ≠ down → (s1.buf x).up = (s.buf x).up) ∧
      (s.release u).attach real down = s1.attach real down := by
  obtain ⟨a1, a2, a3, a4⟩ := h.up down u hu
  have hne : u ≠ down := by
    rintro rfl; unfold Over at a4; omega
  refine ⟨(s.release u).set down { (s.release u).buf down with up := none }, ?_, ?_, rfl, ?_, ?_, ?_⟩
  · have hnew : ∀ x, (((s.release u).set down { (s.release u).buf down with up := none }).buf x).new =
        (s.buf x).new := by
      intro x
      unfold St.release St.set
      by_cases e1 : x = u <;> by_cases e2 : x = down <;> simp_all
    have hdir : ∀ x, (((s.release u).set down { (s.release u).buf down with up := none }).buf x).dirty =
        (s.buf x).dirty := by
      intro x
      unfold St.release St.set
      by_cases e1 : x = u <;> by_cases e2 : x = down <;> simp_all
    have hup : ∀ x, x ≠ down →
        (((s.release u).set down { (s.release u).buf down with up := none }).buf x).up =
        (s.buf x).up := by
      intro x e2
      unfold St.release St.set
      by_cases e1 : x = u <;> simp_all
    have hupd : (((s.release u).set down { (s.release u).buf down with up := none }).buf down).up =
        none := by
      unfold St.set; simp
    have hw : ∀ x, (((s.release u).set down { (s.release u).buf down with up := none }).buf x).wait =
        (s.buf x).wait - (if x = u then 1 else 0) := by
      intro x
      unfold St.release St.set
      by_cases e1 : x = u <;> by_cases e2 : x = down <;> simp_all
    obtain ⟨nd, dirty, up, wait, new⟩ := h
    refine ⟨nd, fun b => by rw [hdir]; exact dirty b, ?_, ?_, ?_⟩
    · intro b v hb
      by_cases e : b = down
      · subst e; rw [hupd] at hb; cases hb
      · rw [hup b e] at hb
        obtain ⟨c1, c2, c3, c4⟩ := up b v hb
        exact ⟨c1, c2, by rw [hnew]; exact c3, c4⟩
    · intro v
      rw [hw, wait v]
      have key : ∀ L : List Nat, L.Nodup → (cnt s.buf L v : Int) =
          cnt ((s.release u).set down { (s.release u).buf down with up := none }).buf L v +
            (if down ∈ L ∧ v = u then 1 else 0) := by
        intro L
        induction L with
        | nil => intro _; simp [cnt]
        | cons a L ih =>
          intro hn
          obtain ⟨h1, h2⟩ := List.nodup_cons.1 hn
          have ih' := ih h2
          unfold cnt at ih' ⊢
          rw [List.countP_cons, List.countP_cons]
          push_cast
          rw [ih']
          by_cases ea : a = down
          · subst ea
            by_cases e : v = u
            · subst e; simp [hupd, h1, hu]
            · have e' : u ≠ v := fun x => e x.symm
              simp [hupd, e, e', hu]
          · rw [hup a ea]
            have : down ∈ a :: L ↔ down ∈ L := by
              simp only [List.mem_cons]
              constructor
              · rintro (x | x)
                · exact absurd x.symm ea
                · exact x
              · exact Or.inr
            simp only [this]
            omega
      have hL : (((s.release u).set down { (s.release u).buf down with up := none }).list ++ pend) =
          s.list ++ pend := rfl
      rw [hL, key _ nd]
      by_cases e : v = u
      · simp [e, a1]
      · simp [e]
    · intro b hb hnr
      simp only [List.mem_cons, not_or] at hnr
      rw [hup b hnr.1]
      rw [hnew] at hb
      exact new b hb hnr.2
  · unfold St.set; simp
  · intro x
    unfold St.release St.set
    by_cases e1 : x = u <;> by_cases e2 : x = down <;> simp_all
  · intro x e2
    unfold St.release St.set
    by_cases e1 : x = u <;> simp_all
  · have hext : ∀ a b : St, a.buf = b.buf → a.list = b.list → a = b := by
      intro a b h1 h2; cases a; cases b; simp_all
    refine hext _ _ ?_ rfl
    funext x
    unfold St.attach St.set
    by_cases e1 : x = real <;> by_cases e2 : x = down <;> by_cases e3 : real = down <;> simp_all

/-- `link_buf`. -/
theorem inv_link {lvl pos : Nat → Nat} {s : St} {pend raw : List Nat} (h : Inv lvl pos s pend raw)
    {upb down : Nat} (sib : Bool) (hu : upb ∈ s.list) (hur : upb ∉ raw)
    (hd : down ∈ s.list ++ pend) (ho : Over lvl pos upb down) :
    ∃ s', s.link upb down sib = some s' ∧ Inv lvl pos s' pend (raw.erase down) ∧ s'.list = s.list ∧
      (∀ x, (s'.buf x).new = (s.buf x).new) := by
  -- the buffer that is waited for
  obtain ⟨real, hreal, hrl, hrn, hro⟩ : ∃ real,
      (if (s.buf upb).new then (s.buf upb).up else some upb) = some real ∧ real ∈ s.list ∧
      (s.buf real).new = false ∧ Over lvl pos real down := by
    by_cases e : (s.buf upb).new = true
    · rcases hx : (s.buf upb).up with _ | v
      · exact absurd hx (h.new upb e hur)
      · obtain ⟨a1, a2, a3, a4⟩ := h.up upb v hx
        exact ⟨v, by rw [if_pos e], a2, a3, a4.trans ho⟩
    · exact ⟨upb, by rw [if_neg e], hu, by simpa using e, ho⟩
  unfold St.link
  rw [hreal]
  simp only []
  rcases hx : (s.buf down).up with _ | u
  · simp only []
    obtain ⟨i, l, n, -, -⟩ := inv_attach h hx hrl hrn hd hro
    exact ⟨_, rfl, i, l, n⟩
  · simp only []
    by_cases hc : sib = false ∨ u = real
    · rw [if_pos hc]
      refine ⟨s, rfl, ?_, rfl, fun _ => rfl⟩
      obtain ⟨nd, dirty, up, wait, new⟩ := h
      refine ⟨nd, dirty, up, wait, ?_⟩
      intro b hb hnr
      by_cases e : b = down
      · subst e; rw [hx]; simp
      · exact new b hb (fun hr => hnr ((List.mem_erase_of_ne e).2 hr))
    · rw [if_neg hc]
      obtain ⟨s1, i1, u1, l1, n1, -, e1⟩ := inv_detach h (real := real) hx
      rw [e1]
      obtain ⟨i, l, n, -, -⟩ := inv_attach i1 u1 (by rw [l1]; exact hrl) (by rw [n1]; exact hrn)
        (by rw [l1]; exact hd) hro
      refine ⟨_, rfl, ?_, by rw [l, l1], fun x => by rw [n, n1]⟩
      simp only [List.erase_cons_head] at i
      obtain ⟨nd, dirty, up, wait, new⟩ := i
      refine ⟨nd, dirty, up, wait, ?_⟩
      intro b hb hnr
      by_cases e : b = down
      · subst e
        have : ((s1.attach real b).buf b).up = some real := by
          unfold St.attach St.set
          have : real ≠ b := by rintro rfl; unfold Over at hro; omega
          have : b ≠ real := fun e => this e.symm
          simp [this]
        rw [this]; simp
      · exact new b hb (fun hr => hnr ((List.mem_erase_of_ne e).2 hr))

theorem inv_linkNew {lvl pos : Nat → Nat} {c : Nat} : ∀ (news : List Nat) (s : St) (pend : List Nat),
    news.Nodup → c ∉ news → Inv lvl pos s pend news → c ∈ s.list → (∀ n ∈ news, n ∈ s.list) →
    (∀ n ∈ news, Over lvl pos c n) →
    ∃ s', s.linkNew c news = some s' ∧ Inv lvl pos s' pend [] ∧ s'.list = s.list := by
  intro news
  induction news with
  | nil => intro s pend _ _ h _ _ _; exact ⟨s, rfl, h, rfl⟩
  | cons n ns ih =>
    intro s pend hnd hc h hcl hnl ho
    obtain ⟨h1, h2⟩ := List.nodup_cons.1 hnd
    obtain ⟨s1, e1, i1, l1, n1⟩ := inv_link h true hcl hc
      (List.mem_append_left _ (hnl n List.mem_cons_self)) (ho n List.mem_cons_self)
    simp only [List.erase_cons_head] at i1
    obtain ⟨s2, e2, i2, l2⟩ := ih s1 pend h2 (fun x => hc (List.mem_cons_of_mem _ x)) i1
      (by rw [l1]; exact hcl) (fun x hx => by rw [l1]; exact hnl x (List.mem_cons_of_mem _ hx))
      (fun x hx => ho x (List.mem_cons_of_mem _ hx))
    exact ⟨s2, by rw [St.linkNew, e1]; exact e2, i2, by rw [l2, l1]⟩

theorem inv_linkFreed {lvl pos : Nat → Nat} {c : Nat} : ∀ (freed : List Nat) (s : St) (pend : List Nat),
    Inv lvl pos s pend [] → c ∈ s.list → (∀ f ∈ freed, Over lvl pos c f) →
    ∃ s', s.linkFreed c freed = some s' ∧ Inv lvl pos s' pend [] ∧ s'.list = s.list := by
  intro freed
  induction freed with
  | nil => intro s pend h _ _; exact ⟨s, rfl, h, rfl⟩
  | cons f fs ih =>
    intro s pend h hcl ho
    rw [St.linkFreed]
    by_cases hw : (s.buf f).wait ≠ 0
    · rw [if_pos hw]
      -- somebody waits for `f`, so it is on the list
      have hfl : f ∈ s.list := by
        rw [h.wait f] at hw
        have : 0 < cnt s.buf (s.list ++ pend) f := by
          rcases Nat.eq_zero_or_pos (cnt s.buf (s.list ++ pend) f) with e | e
          · rw [e] at hw; exact absurd rfl hw
          · exact e
        unfold cnt at this
        rw [List.countP_pos_iff] at this
        obtain ⟨b, -, hb⟩ := this
        exact (h.up b f (by simpa using hb)).2.1
      obtain ⟨s1, e1, i1, l1, n1⟩ := inv_link h true hcl (by simp) (List.mem_append_left _ hfl)
        (ho f List.mem_cons_self)
      simp only [List.erase_nil] at i1
      obtain ⟨s2, e2, i2, l2⟩ := ih s1 pend i1 (by rw [l1]; exact hcl)
        (fun x hx => ho x (List.mem_cons_of_mem _ hx))
      exact ⟨s2, by rw [e1]; exact e2, i2, by rw [l2, l1]⟩
    · rw [if_neg hw]
      exact ih s pend h hcl (fun x hx => ho x (List.mem_cons_of_mem _ hx))

theorem inv_writes {lvl pos : Nat → Nat} : ∀ (bs : List Nat) (s : St) (pend raw : List Nat),
    Inv lvl pos s pend raw → ∃ pend', Inv lvl pos (s.writes bs) pend' raw ∧
      (∀ x ∈ pend', x ∈ pend) ∧ (∀ x ∈ bs, x ∈ (s.writes bs).list) ∧
      (∀ x ∈ s.list, x ∈ (s.writes bs).list) := by
  intro bs
  induction bs with
  | nil => intro s pend raw h; exact ⟨pend, h, fun _ hx => hx, by simp, fun _ hx => hx⟩
  | cons b bs ih =>
    intro s pend raw h
    obtain ⟨i1, m1⟩ := inv_write h b
    obtain ⟨p2, i2, a2, b2, c2⟩ := ih (s.write b) _ raw i1
    refine ⟨p2, i2, fun x hx => List.mem_of_mem_erase (a2 x hx), ?_, ?_⟩
    · intro x hx
      rcases List.mem_cons.1 hx with rfl | hx
      · exact c2 x m1
      · exact b2 x hx
    · intro x hx; exact c2 x ((write_frame s b).2.1 x hx)

/-- A whole transaction. -/
theorem inv_transact {lvl pos : Nat → Nat} {s : St} {pend : List Nat} {p c : Nat}
    {news freed : List Nat} (h : Inv lvl pos s pend news) (hp : ∀ x ∈ pend, x = p)
    (hnd : news.Nodup) (hcn : c ∉ news) (hpn : p ∉ news) (hpc : Over lvl pos p c)
    (hn : ∀ n ∈ news, Over lvl pos c n) (hf : ∀ f ∈ freed, Over lvl pos c f) :
    ∃ s', s.transact p c news freed = some s' ∧ Inv lvl pos s' [] [] := by
  obtain ⟨p1, i1, a1, b1, -⟩ := inv_writes news s pend news h
  obtain ⟨i2, m2⟩ := inv_write i1 c
  obtain ⟨i3, m3⟩ := inv_write i2 p
  have f2 := (write_frame (s.writes news) c).2.1
  have f3 := (write_frame ((s.writes news).write c) p).2.1
  -- everything pending has been written
  have hpend : ((p1.erase c).erase p) = [] := by
    rw [List.eq_nil_iff_forall_not_mem]
    intro x hx
    have hx1 : x ∈ p1 := List.mem_of_mem_erase (List.mem_of_mem_erase hx)
    obtain rfl := hp x (a1 x hx1)
    have hnd2 : (p1.erase c).Nodup := by
      have := (List.nodup_append.1 i1.nd).2.1
      exact this.erase c
    rw [List.Nodup.mem_erase_iff hnd2] at hx
    exact hx.1 rfl
  rw [hpend] at i3
  obtain ⟨s4, e4, i4, l4, -⟩ := inv_link i3 false m3 hpn
    (List.mem_append_left _ (f3 c m2)) hpc
  have hne : news.erase c = news := List.erase_of_not_mem hcn
  rw [hne] at i4
  obtain ⟨s5, e5, i5, l5⟩ := inv_linkNew news s4 [] hnd hcn i4 (by rw [l4]; exact f3 c m2)
    (fun n hx => by rw [l4]; exact f3 n (f2 n (b1 n hx))) hn
  obtain ⟨s6, e6, i6, l6⟩ := inv_linkFreed freed s5 [] i5 (by rw [l5, l4]; exact f3 c m2) hf
  refine ⟨s6, ?_, i6⟩
  unfold St.transact
  simp only [e4, Option.bind_some, e5, e6]

theorem inv_allocs {lvl pos : Nat → Nat} : ∀ (ns : List Nat) (s : St) (pend raw : List Nat),
    Inv lvl pos s pend raw → ns.Nodup → (∀ n ∈ ns, s.buf n = B.idle) →
    ∃ raw', Inv lvl pos (s.allocs ns) pend raw' ∧ (∀ x ∈ raw', x ∈ raw ∨ x ∈ ns) ∧
      (∀ x, x ∉ ns → (s.allocs ns).buf x = s.buf x) := by
  intro ns
  induction ns with
  | nil => intro s pend raw h _ _; exact ⟨raw, h, fun x hx => Or.inl hx, fun _ _ => rfl⟩
  | cons n ns ih =>
    intro s pend raw h hnd hi
    obtain ⟨h1, h2⟩ := List.nodup_cons.1 hnd
    have i1 := inv_alloc h (hi n List.mem_cons_self)
    obtain ⟨r2, i2, a2, b2⟩ := ih (s.alloc n) pend (n :: raw) i1 h2 (fun x hx => by
      have : x ≠ n := by rintro rfl; exact h1 hx
      have e : (s.alloc n).buf x = s.buf x := by simp [St.alloc, St.set, this]
      rw [e]; exact hi x (List.mem_cons_of_mem _ hx))
    refine ⟨r2, i2, ?_, ?_⟩
    · intro x hx
      rcases a2 x hx with h | h
      · rcases List.mem_cons.1 h with rfl | h
        · exact Or.inr List.mem_cons_self
        · exact Or.inl h
      · exact Or.inr (List.mem_cons_of_mem _ h)
    · intro x hx
      simp only [List.mem_cons, not_or] at hx
      rw [St.allocs, b2 x hx.2]
      simp [St.alloc, St.set, hx.1]

theorem inv_raw {lvl pos : Nat → Nat} {s : St} {pend raw raw' : List Nat}
    (h : Inv lvl pos s pend raw) (hr : ∀ x ∈ raw, x ∈ raw') : Inv lvl pos s pend raw' := by
  obtain ⟨nd, dirty, up, wait, new⟩ := h
  exact ⟨nd, dirty, up, wait, fun b hb hn => new b hb (fun hx => hn (hr b hx))⟩

/-- `on_root_changed` for a root that is on the list, or will be. -/
theorem inv_rootChanged {lvl pos : Nat → Nat} {s : St} {pend raw : List Nat} {m r : Nat}
    (h : Inv lvl pos s pend raw) (hm : m ∉ pend) (hmr : m ∉ raw) (ho : Over lvl pos m r)
    (hr : r ∈ s.list ++ pend) :
    ∃ s', s.rootChanged m r = some s' ∧ Inv lvl pos s' pend (raw.erase r) ∧ m ∈ s'.list ∧
      (∀ x, (s'.buf x).new = (s.buf x).new) ∧ (∀ x ∈ s'.list, x ∈ s.list ∨ x = m) := by
  obtain ⟨i1, m1⟩ := inv_write h m
  rw [List.erase_of_not_mem hm] at i1
  have f1 := write_frame s m
  have hr' : r ∈ (s.write m).list ++ pend := by
    rcases List.mem_append.1 hr with h | h
    · exact List.mem_append_left _ (f1.2.1 r h)
    · exact List.mem_append_right _ h
  obtain ⟨s2, e2, i2, l2, n2⟩ := inv_link i1 false m1 hmr hr' ho
  exact ⟨s2, e2, i2, by rw [l2]; exact m1, fun x => by rw [n2, (f1.1 x).1],
    fun x hx => f1.2.2.2 x (by rw [← l2]; exact hx)⟩

theorem inv_step {lvl pos : Nat → Nat} {s : St} {op : Op} (h : Inv lvl pos s [] [])
    (hok : op.Ok lvl pos s) : ∃ s', s.step op = some s' ∧ Inv lvl pos s' [] [] := by
  cases op with
  | write b =>
    exact ⟨_, rfl, by simpa using (inv_write h b).1⟩
  | split p c n =>
    obtain ⟨h1, h2, h3, h4, h5, h6⟩ := hok
    have i1 := inv_alloc h h4
    refine inv_transact i1 (by simp) (by simp) ?_ ?_ (Or.inl h1) ?_ (by simp)
    · simpa using fun e => h6 e.symm
    · simpa using fun e => h5 e.symm
    · intro x hx
      rw [List.mem_singleton.1 hx]
      exact Or.inr ⟨h2, h3⟩
  | merge p l news freed =>
    obtain ⟨h1, h2, h3, h4⟩ := hok
    obtain ⟨raw', i1, a1, -⟩ := inv_allocs news s [] [] h h2 (fun n hn => (h3 n hn).2.2)
    have i2 := inv_raw i1 (raw' := news) (fun x hx => by
      rcases a1 x hx with h | h
      · cases h
      · exact h)
    refine inv_transact i2 (by simp) h2 ?_ ?_ (Or.inl h1) ?_ ?_
    · intro hl; have := (h3 l hl).2.1; omega
    · intro hp; have := (h3 p hp).1; omega
    · intro n hn; exact Or.inr ⟨(h3 n hn).1, (h3 n hn).2.1⟩
    · intro f hf; exact Or.inr ⟨(h4 f hf).1, (h4 f hf).2.1⟩
  | create m r =>
    obtain ⟨h1, h2, h3⟩ := hok
    have hmr : m ≠ r := by rintro rfl; omega
    have i1 := inv_alloc h h2
    obtain ⟨i2, m2⟩ := inv_write i1 r
    simp only [List.erase_nil] at i2
    obtain ⟨s3, e3, i3, -⟩ := inv_rootChanged (m := m) (r := r) i2 (by simp)
      (by simpa using hmr) (Or.inl h1) (List.mem_append_left _ m2)
    exact ⟨s3, e3, by simpa using i3⟩
  | rootSplit m r c n =>
    obtain ⟨h1, h2, h3, h4, h5, h6, h7⟩ := hok
    have hmr : m ≠ r := by rintro rfl; omega
    have i1 := inv_alloc h h5
    have hrl : r ∉ (s.alloc r).list := by
      intro hx
      have := (h.dirty r).2 hx
      rw [h5] at this; cases this
    have i1' := inv_pend i1 hrl (by simp)
    obtain ⟨s2, e2, i2, m2, n2, l2⟩ := inv_rootChanged (m := m) (r := r) i1' (by simpa using hmr)
      (by simpa using hmr) (Or.inl h1) (by simp)
    simp only [List.erase_cons_head] at i2
    -- the new right sibling is still untouched
    have hnm : n ≠ m := by rintro rfl; omega
    have hnr : n ≠ r := by rintro rfl; omega
    have hnl : n ∉ s2.list := by
      intro hx
      rcases l2 n hx with hx | hx
      · have := (h.dirty n).2 hx
        rw [h6] at this; cases this
      · exact hnm hx
    have hidle : s2.buf n = B.idle := by
      have e : (s.alloc r).rootChanged m r = some s2 := e2
      have b0 : (s.alloc r).buf n = B.idle := by simp [St.alloc, St.set, hnr, h6]
      have b1 : ((s.alloc r).write m).buf n = B.idle := by
        rw [(write_frame (s.alloc r) m).2.2.1 n hnm, b0]
      have hmnew : (((s.alloc r).write m).buf m).new = false := by
        rw [((write_frame (s.alloc r) m).1 m).1]
        simp [St.alloc, St.set, hmr, h7]
      have brup : (((s.alloc r).write m).buf r).up = none := by
        rw [((write_frame (s.alloc r) m).1 r).2.1]
        simp [St.alloc, St.set, h5, B.idle]
      unfold St.rootChanged St.link at e
      simp only [hmnew, Bool.false_eq_true, if_false, brup, Option.some.injEq] at e
      rw [← e]
      unfold St.attach St.set
      simp [hnm, hnr, b1]
    have i3 := inv_alloc i2 hidle
    obtain ⟨s4, e4, i4⟩ := inv_transact (p := r) (c := c) (freed := []) i3 (by simp) (by simp)
      (by simp; rintro rfl; omega) (by simpa using fun e => hnr e.symm) (Or.inl h2)
      (by intro x hx; rw [List.mem_singleton.1 hx]; exact Or.inr ⟨h3, h4⟩) (by simp)
    refine ⟨s4, ?_, i4⟩
    show ((s.alloc r).rootChanged m r).bind _ = _
    rw [e2]; exact e4
  | collapse m c =>
    obtain ⟨h1, h3⟩ := hok
    obtain ⟨i2, m2⟩ := inv_write h c
    simp only [List.erase_nil] at i2
    obtain ⟨s3, e3, i3, -⟩ := inv_rootChanged (m := m) (r := c) i2 (by simp) (by simp) (Or.inl h1)
      (List.mem_append_left _ m2)
    exact ⟨s3, e3, by simpa using i3⟩
  | rootSplitFail m r c => exact hok.elim

theorem inv_run {lvl pos : Nat → Nat} : ∀ (ops : List Op) (s : St), Inv lvl pos s [] [] →
    Ok lvl pos s ops → ∃ s', s.run ops = some s' ∧ Inv lvl pos s' [] [] := by
  intro ops
  induction ops with
  | nil => intro s h _; exact ⟨s, rfl, h⟩
  | cons op ops ih =>
    intro s h hok
    obtain ⟨s1, e1, i1⟩ := inv_step h hok.1
    obtain ⟨s2, e2, i2⟩ := ih s1 i1 (hok.2 s1 e1)
    exact ⟨s2, by rw [St.run, e1]; exact e2, i2⟩

/-- The invariant gives what the flush needs. -/
theorem linked_of_inv {lvl pos : Nat → Nat} {s : St} (h : Inv lvl pos s [] []) :
    Flush.Linked s.flushBuf s.list := by
  obtain ⟨nd, dirty, up, wait, new⟩ := h
  simp only [List.append_nil] at nd up wait
  -- a bound on the positions
  obtain ⟨M, hM⟩ : ∃ M, ∀ b ∈ s.list, pos b ≤ M := by
    clear nd dirty up wait
    induction s.list with
    | nil => exact ⟨0, by simp⟩
    | cons a l ih =>
      obtain ⟨M, hM⟩ := ih
      refine ⟨max M (pos a), ?_⟩
      intro b hb
      rcases List.mem_cons.1 hb with rfl | hb
      · exact Nat.le_max_right _ _
      · exact Nat.le_trans (hM b hb) (Nat.le_max_left _ _)
  refine ⟨nd, ?_, ?_, ?_, fun b => lvl b * (M + 1) + (M - pos b), ?_⟩
  · intro b hb
    have := (dirty b).2 hb
    simp [St.flushBuf, this]
  · intro b hb u hu
    exact (up b u hu).2.1
  · intro u hu
    show (s.buf u).wait = _
    rw [wait u]
    unfold cnt
    rw [List.countP_eq_length_filter]
    rfl
  · intro b hb u hu
    obtain ⟨-, a2, -, a4⟩ := up b u hu
    have hb' := hM b hb
    have hu' := hM u a2
    rcases a4 with e | ⟨e1, e2⟩
    · have : (lvl b + 1) * (M + 1) ≤ lvl u * (M + 1) := Nat.mul_le_mul_right _ e
      have h2 : (lvl b + 1) * (M + 1) = lvl b * (M + 1) + (M + 1) := Nat.succ_mul _ _
      show lvl b * (M + 1) + (M - pos b) < lvl u * (M + 1) + (M - pos u)
      omega
    · show lvl b * (M + 1) + (M - pos b) < lvl u * (M + 1) + (M - pos u)
      rw [e1]; omega

end HS.Index.Link
