import Verif.Proofs.AssocConcMove
/-! The associated tree under concurrency: every call acts at one moment. -/
namespace Willow.AssocConc
open Willow

variable {V A : Type}

/-! ### Returning -/

/-- Calls differ in nothing but whether they have returned. -/
theorem Inv.congr {s s' : St V A} (hi : Inv s) (hs : s' = { s with threads := s'.threads })
    (h1 : ∀ (u : Nat) (x : Thread V A), s'.threads[u]? = some x → ∃ y : Thread V A, s.threads[u]? = some y ∧ y.call = x.call ∧ y.phase = x.phase)
    (h2 : ∀ (u : Nat) (y : Thread V A), s.threads[u]? = some y → ∃ x : Thread V A, s'.threads[u]? = some x ∧ y.call = x.call ∧ y.phase = x.phase)
    (hsum : ∀ i, (s'.threads.map fun th => th.phase.touched.count i).sum = (s.threads.map fun th => th.phase.touched.count i).sum) : Inv s' := by
  generalize hl : s'.threads = l at hs h1 h2 hsum
  subst hs
  have em : ∀ {x y : Thread V A}, y.call = x.call → y.phase = x.phase → ∀ {id}, x.Making id → y.Making id := by
    rintro x y e1 e2 id ⟨h, e⟩; exact ⟨h, e2.trans e⟩
  have ew : ∀ {x y : Thread V A}, y.call = x.call → y.phase = x.phase → ∀ {id todo}, x.Wiping id todo → y.Wiping id todo := by
    rintro x y e1 e2 id todo ⟨⟨c, e⟩, h⟩; exact ⟨⟨c, e1.trans e⟩, e2.trans h⟩
  have ek : ∀ {x y : Thread V A}, y.call = x.call → y.phase = x.phase → ∀ {id}, x.Marking id → y.Marking id := by
    rintro x y e1 e2 id ⟨⟨c, e⟩, h⟩; refine ⟨⟨c, e1.trans e⟩, ?_⟩; rw [e2]; exact h
  refine ⟨?_, ⟨?_, ?_, hi.locks.idx, ?_, ?_, hi.locks.stale⟩, ⟨?_, hi.cont.nod, hi.cont.itm, ?_, ⟨hi.cont.des.1, ?_⟩, ?_, ?_⟩, ?_⟩
  · intro u x hx
    obtain ⟨y, hy, e1, e2⟩ := h1 u x hx
    rw [← e1, ← e2]; exact hi.creates u y hy
  · intro i u
    refine (hi.locks.own i u).trans ⟨?_, ?_⟩
    · rintro ⟨y, hy, h⟩; obtain ⟨x, hx, e1, e2⟩ := h2 u y hy; exact ⟨x, hx, e2 ▸ h⟩
    · rintro ⟨x, hx, h⟩; obtain ⟨y, hy, e1, e2⟩ := h1 u x hx; exact ⟨y, hy, e2 ▸ h⟩
  · intro i; exact (hi.locks.cre i).trans (hsum i).symm
  · intro u x hx i h
    obtain ⟨y, hy, e1, e2⟩ := h1 u x hx
    exact hi.locks.tch u y hy i (e2 ▸ h)
  · intro u x hx i h
    obtain ⟨y, hy, e1, e2⟩ := h1 u x hx
    exact hi.locks.knw u y hy i (e2 ▸ h)
  · intro p n id hn
    refine (hi.cont.mem p n id hn).trans (or_congr ?_ ?_)
    · refine exists_congr fun it => and_congr_right fun _ => and_congr_right fun _ => and_congr_right fun _ => ?_
      constructor
      · intro h u x todo hx hw
        obtain ⟨y, hy, e1, e2⟩ := h1 u x hx
        exact h u y todo hy (ew e1 e2 hw)
      · intro h u y todo hy hw
        obtain ⟨x, hx, e1, e2⟩ := h2 u y hy
        exact h u x todo hx (ew e1.symm e2.symm hw)
    · constructor
      · rintro ⟨u, y, hy, hm, h⟩
        obtain ⟨x, hx, e1, e2⟩ := h2 u y hy
        exact ⟨u, x, hx, em e1.symm e2.symm hm, e1 ▸ h⟩
      · rintro ⟨u, x, hx, hm, h⟩
        obtain ⟨y, hy, e1, e2⟩ := h1 u x hx
        exact ⟨u, y, hy, em e1 e2 hm, by rw [e1]; exact h⟩
  · intro u x id hx hm
    obtain ⟨y, hy, e1, e2⟩ := h1 u x hx
    obtain ⟨k1, k2, k3⟩ := hi.cont.mak u y id hy (em e1 e2 hm)
    refine ⟨k1, k2, ?_⟩
    intro v x' hx' hm'
    obtain ⟨y', hy', e1', e2'⟩ := h1 v x' hx'
    exact k3 v y' hy' (em e1' e2' hm')
  · intro id
    refine (hi.cont.des.2 id).trans ⟨?_, ?_⟩
    · rintro ⟨u, y, hy, h⟩; obtain ⟨x, hx, e1, e2⟩ := h2 u y hy; exact ⟨u, x, hx, ek e1.symm e2.symm h⟩
    · rintro ⟨u, x, hx, h⟩; obtain ⟨y, hy, e1, e2⟩ := h1 u x hx; exact ⟨u, y, hy, ek e1 e2 h⟩
  · intro u v x x' id hx hx' hm hm'
    obtain ⟨y, hy, e1, e2⟩ := h1 u x hx
    obtain ⟨y', hy', e1', e2'⟩ := h1 v x' hx'
    exact hi.cont.one u v y y' id hy hy' (ek e1 e2 hm) (ek e1' e2' hm')
  · intro u x id todo hx hw
    obtain ⟨y, hy, e1, e2⟩ := h1 u x hx
    exact hi.cont.wip u y id todo hy (ew e1 e2 hw)
  · intro u x hx
    obtain ⟨y, hy, e1, e2⟩ := h1 u x hx
    have f : Frame s { s with threads := l } u := by
      refine ⟨Nat.le_refl _, fun _ _ => rfl, fun _ _ _ _ => rfl, fun _ h => h, fun _ _ h => Or.inl h, ?_⟩
      intro id v x' hx' hm
      obtain ⟨y', hy', e1', e2'⟩ := h1 v x' hx'
      exact Or.inr ⟨y', hy', em e1' e2' hm, by rw [e1']⟩
    rw [← e1, ← e2]
    exact f.phaseOk (hi.locks.knw u y hy) (fun _ _ => rfl) (hi.phs u y hy)

theorem Inv.ret {s : St V A} (hi : Inv s) {t : Nat} {th : Thread V A} (ht : s.threads[t]? = some th) :
    Inv { s with threads := s.threads.set t { th with returned := true } } := by
  refine hi.congr rfl ?_ ?_ ?_
  · intro u x hx
    rcases set_cases ht hx with ⟨e, e'⟩ | ⟨_, hx⟩
    · subst e; subst e'; exact ⟨th, ht, rfl, rfl⟩
    · exact ⟨x, hx, rfl, rfl⟩
  · intro u y hy
    by_cases hu : u = t
    · subst hu; rw [ht] at hy; cases hy; exact ⟨_, set_self ht _, rfl, rfl⟩
    · exact ⟨y, set_other ht _ hu hy, rfl, rfl⟩
  · intro i
    have := sum_set (fun th : Thread V A => th.phase.touched.count i) ht { th with returned := true }
    simp only at this ⊢
    omega

theorem Inv.run [DecidableEq V] [Inhabited V] {blocks : (Nat → Option (Item V A)) → Nat → Nat → Bool} {evs : List (Event V A)} {s : St V A} (h : Run blocks St.init evs s)
    (hc : ∀ c, Event.call c ∈ evs → c.creates = true) : Inv s := by
  generalize h0 : (St.init : St V A) = s0 at h
  induction h with
  | nil => subst h0; exact Inv.init
  | @step s' s'' evs e h' hstep ih =>
    have hi := ih (fun c h => hc c (List.mem_append_left _ h))
    cases hstep with
    | call c hok => exact hi.call c (hc c (by simp)) hok
    | go t pick th ht hn => exact hi.move ht (next_move hi ht hn)
    | ret t th r kept ht hr hp => exact hi.ret ht

/-! ### What a call is worth -/

/-- Nothing of this item has been removed from the index yet. -/
def St.Whole (s : St V A) (id : Nat) (kvs : KVs V) : Prop :=
  ∀ (u : Nat) (x : Thread V A) (todo : KVs V), s.threads[u]? = some x → x.Wiping id todo → todo = kvs

/-- What a call is going to return. -/
def Settled (p : Pend V A) (r : Res A) : Prop := p.res = some r ∨ (p.res = none ∧ p.missed = true ∧ r = .nothing)

/-- What is known about a call from where it is. -/
def PPhase (s : St V A) (m : AMap V A) (c : Call V A) (p : Pend V A) : Phase V A → Prop
  | .query _ acc => p.res = none ∧ p.marked = false ∧ ∀ kvs, c = .find kvs → p.missed = true ∨ ∃ e, m.live kvs = some e ∧ ∀ l, acc = some l → e.id ∈ l
  | .lookup ids => p.res = none ∧ p.marked = false ∧ ∀ kvs, c = .find kvs → p.missed = true ∨ ∃ e, m.live kvs = some e ∧ e.id ∈ ids
  | .touch _ _ | .lock _ _ _ | .mark => p.res = none ∧ p.marked = false
  | .make _ _ => p.res = none ∧ p.marked = false ∧ m.stored c.kvs = none
  | .unlock _ r => p.res = some r ∧ p.marked = false
  | .dfind todo nodes => p.res = none ∧ p.marked = false ∧
      (p.missed = true ∨ ∃ e, m.stored c.kvs = some e ∧ ∃ before, c.kvs = before ++ todo ∧ nodes.map some = before.map s.index)
  | .dlock todo held got => p.res = none ∧ p.marked = false ∧
      (p.missed = true ∨ ∃ e, m.stored c.kvs = some e ∧ (held ++ todo).map some = c.kvs.map s.index ∧ ∀ l, got = some l → e.id ∈ l)
  | .dunlock _ _ r | .clean _ r | .done r _ => p.marked = false ∧ Settled p r
  | .seize => p.res = none ∧ p.marked = true
  | .wipe todo => p.marked = true ∧ ∀ id can, c = .destroy id can → ∃ it, s.item id = some it ∧ can it.val = true ∧
      ((todo = it.kvs ∧ p.res = none) ∨ (todo ≠ it.kvs ∧ p.res = some (.removed id)))

structure PRel (s : St V A) (m : AMap V A) (th : Thread V A) (p : Pend V A) : Prop where
  call : p.call = th.call
  ret : p.returned = th.returned
  phase : PPhase s m th.call p th.phase

structure Rel (s : St V A) (m : AMap V A) : Prop where
  len : m.calls.length = s.threads.length
  stored : ∀ kvs id a, m.stored kvs = some ⟨id, a⟩ ↔ s.item id = some ⟨kvs, a⟩ ∧ s.Whole id kvs
  closing : m.closing = s.destroying
  used : ∀ id ∈ m.used, id ∈ s.used ∧ ∀ (u : Nat) (x : Thread V A), s.threads[u]? = some x → ¬ x.Making id
  pend : ∀ (t : Nat) (th : Thread V A), s.threads[t]? = some th → ∃ p, m.calls[t]? = some p ∧ PRel s m th p

/-- What other calls notice of a step. -/
structure Later (m m' : AMap V A) (p p' : Pend V A) : Prop where
  call : p'.call = p.call
  res : p'.res = p.res
  marked : p'.marked = p.marked
  ret : p'.returned = p.returned
  missed : p.missed = true → p'.missed = true
  find : ∀ kvs, p.call = .find kvs → p'.missed = true ∨ ∀ e, m.live kvs = some e → m'.live kvs = some e
  del : ∀ kvs can, p.call = .delete kvs can → p'.missed = true ∨ ∀ e, m.stored kvs = some e → m'.stored kvs = some e

theorem Later.refl (m : AMap V A) (p : Pend V A) : Later m m p p :=
  ⟨rfl, rfl, rfl, rfl, id, fun _ _ => Or.inr fun _ h => h, fun _ _ _ => Or.inr fun _ h => h⟩

theorem live_stored {m : AMap V A} {kvs : KVs V} {e : Entry A} (h : m.live kvs = some e) : m.stored kvs = some e ∧ e.id ∉ m.closing := by
  unfold AMap.live at h
  split at h
  next e' he =>
    split at h
    · cases h
    next hc => cases h; exact ⟨he, hc⟩
  · cases h

theorem stored_live {m : AMap V A} {kvs : KVs V} {e : Entry A} (h : m.stored kvs = some e) (hc : e.id ∉ m.closing) : m.live kvs = some e := by
  unfold AMap.live; rw [h]; exact if_neg hc

/-- The call, after the map has changed. -/
def Pend.see (m : AMap V A) (p : Pend V A) : Pend V A := { p with missed := p.missed || m.misses p.call }

theorem see_get (m : AMap V A) (u : Nat) : m.see.calls[u]? = (m.calls[u]?).map (Pend.see m) := by
  unfold AMap.see
  rw [List.getElem?_map]
  rfl

theorem Later.see {m m₁ : AMap V A} (hc : ∀ kvs e e', m.stored kvs = some e → m₁.stored kvs = some e' → e = e') (p : Pend V A) :
    Later m m₁.see p (p.see m₁) := by
  refine ⟨rfl, rfl, rfl, rfl, ?_, ?_, ?_⟩
  · intro h; simp [Pend.see, h]
  · intro kvs hcall
    cases hl : m₁.live kvs with
    | none => left; simp [Pend.see, AMap.misses, hcall, hl]
    | some e' =>
      right; intro e he
      have := hc kvs e e' (live_stored he).1 (live_stored hl).1
      subst this; exact hl
  · intro kvs can hcall
    cases hl : m₁.stored kvs with
    | none => left; simp [Pend.see, AMap.misses, hcall, hl]
    | some e' =>
      right; intro e he
      have := hc kvs e e' he hl
      subst this; exact hl

theorem Rel.content {s : St V A} {m : AMap V A} (hi : Inv s) (hr : Rel s m) {kvs : KVs V} {e : Entry A} (h : m.stored kvs = some e) {p : GoString × V} (hp : p ∈ kvs) :
    e.id ∈ s.content p kvs.length := by
  obtain ⟨id, a⟩ := e
  obtain ⟨h1, h2⟩ := (hr.stored kvs id a).1 h
  refine (hi.cont.mem p _ id (List.length_pos_of_mem hp)).2 (Or.inl ⟨⟨kvs, a⟩, h1, hp, rfl, ?_⟩)
  intro u x todo hu hw
  rw [h2 u x todo hu hw]; exact hp

theorem Rel.indexed {s : St V A} {m : AMap V A} (hi : Inv s) (hr : Rel s m) {kvs : KVs V} {e : Entry A} (h : m.stored kvs = some e) {p : GoString × V} (hp : p ∈ kvs) :
    ∃ i, s.index p = some i ∧ e.id ∈ (s.node i).at kvs.length := by
  have := hr.content hi h hp
  cases hx : s.index p with
  | none => rw [content_none hx] at this; cases this
  | some i => rw [content_some hx] at this; exact ⟨i, rfl, this⟩

/-- Other calls. -/
theorem PRel.later {s s' : St V A} {m m' : AMap V A} {p p' : Pend V A} {th : Thread V A} (h : PRel s m th p) (hl : Later m m' p p')
    (hfit : Fits th.call th.phase)
    (hmk : ∀ id, th.Making id → m'.stored th.call.kvs = none)
    (hix : ∀ kvs e, m'.stored kvs = some e → ∀ q ∈ kvs, ∀ i, s.index q = some i → s'.index q = some i)
    (hit : ∀ id todo, th.Wiping id todo → s'.item id = s.item id) : PRel s' m' th p' := by
  refine ⟨hl.call.trans h.call, hl.ret.trans h.ret, ?_⟩
  have hp := h.phase
  have hcall := h.call
  cases hph : th.phase with
  | query todo acc =>
    rw [hph] at hp
    obtain ⟨h1, h2, h3⟩ := hp
    refine ⟨hl.res.trans h1, hl.marked.trans h2, ?_⟩
    intro kvs hc
    rcases h3 kvs hc with h3 | ⟨e, h3, h4⟩
    · exact Or.inl (hl.missed h3)
    · rcases hl.find kvs (hcall.trans hc) with h5 | h5
      · exact Or.inl h5
      · exact Or.inr ⟨e, h5 e h3, h4⟩
  | lookup ids =>
    rw [hph] at hp
    obtain ⟨h1, h2, h3⟩ := hp
    refine ⟨hl.res.trans h1, hl.marked.trans h2, ?_⟩
    intro kvs hc
    rcases h3 kvs hc with h3 | ⟨e, h3, h4⟩
    · exact Or.inl (hl.missed h3)
    · rcases hl.find kvs (hcall.trans hc) with h5 | h5
      · exact Or.inl h5
      · exact Or.inr ⟨e, h5 e h3, h4⟩
  | touch todo nodes => rw [hph] at hp; exact ⟨hl.res.trans hp.1, hl.marked.trans hp.2⟩
  | lock todo held got => rw [hph] at hp; exact ⟨hl.res.trans hp.1, hl.marked.trans hp.2⟩
  | mark => rw [hph] at hp; exact ⟨hl.res.trans hp.1, hl.marked.trans hp.2⟩
  | seize => rw [hph] at hp; exact ⟨hl.res.trans hp.1, hl.marked.trans hp.2⟩
  | unlock held r => rw [hph] at hp; exact ⟨hl.res.trans hp.1, hl.marked.trans hp.2⟩
  | make held id => rw [hph] at hp; exact ⟨hl.res.trans hp.1, hl.marked.trans hp.2.1, hmk id ⟨held, hph⟩⟩
  | dfind todo nodes =>
    rw [hph] at hp hfit
    obtain ⟨h1, h2, h3⟩ := hp
    refine ⟨hl.res.trans h1, hl.marked.trans h2, ?_⟩
    rcases h3 with h3 | ⟨e, h3, b, h4, h5⟩
    · exact Or.inl (hl.missed h3)
    · have hd : ∃ kvs can, th.call = .delete kvs can := by
        cases hc : th.call <;> rw [hc] at hfit <;> first | exact ⟨_, _, rfl⟩ | exact hfit.elim
      obtain ⟨kvs, can, hd⟩ := hd
      rcases hl.del kvs can (hcall.trans hd) with h6 | h6
      · exact Or.inl h6
      · have hk : th.call.kvs = kvs := by rw [hd]; rfl
        have h7 := h6 e (by rw [← hk]; exact h3)
        refine Or.inr ⟨e, by rw [hk]; exact h7, b, h4, ?_⟩
        rw [h5]
        refine List.map_congr_left fun q hq => ?_
        have hqm : s.index q ∈ b.map s.index := List.mem_map.2 ⟨q, hq, rfl⟩
        rw [← h5] at hqm
        obtain ⟨i, _, hi'⟩ := List.mem_map.1 hqm
        rw [← hi', hix kvs e h7 q (by rw [← hk, h4]; exact List.mem_append_left _ hq) i hi'.symm]
  | dlock todo held got =>
    rw [hph] at hp hfit
    obtain ⟨h1, h2, h3⟩ := hp
    refine ⟨hl.res.trans h1, hl.marked.trans h2, ?_⟩
    rcases h3 with h3 | ⟨e, h3, h5, h8⟩
    · exact Or.inl (hl.missed h3)
    · have hd : ∃ kvs can, th.call = .delete kvs can := by
        cases hc : th.call <;> rw [hc] at hfit <;> first | exact ⟨_, _, rfl⟩ | exact hfit.elim
      obtain ⟨kvs, can, hd⟩ := hd
      rcases hl.del kvs can (hcall.trans hd) with h6 | h6
      · exact Or.inl h6
      · have hk : th.call.kvs = kvs := by rw [hd]; rfl
        have h7 := h6 e (by rw [← hk]; exact h3)
        refine Or.inr ⟨e, by rw [hk]; exact h7, ?_, h8⟩
        rw [h5]
        refine List.map_congr_left fun q hq => ?_
        have hqm : s.index q ∈ th.call.kvs.map s.index := List.mem_map.2 ⟨q, hq, rfl⟩
        rw [← h5] at hqm
        obtain ⟨i, _, hi'⟩ := List.mem_map.1 hqm
        rw [← hi', hix kvs e h7 q (by rw [← hk]; exact hq) i hi'.symm]
  | dunlock held stop r =>
    rw [hph] at hp
    refine ⟨hl.marked.trans hp.1, ?_⟩
    rcases hp.2 with h' | ⟨h1, h2, h3⟩
    · exact Or.inl (hl.res.trans h')
    · exact Or.inr ⟨hl.res.trans h1, hl.missed h2, h3⟩
  | clean todo r =>
    rw [hph] at hp
    refine ⟨hl.marked.trans hp.1, ?_⟩
    rcases hp.2 with h' | ⟨h1, h2, h3⟩
    · exact Or.inl (hl.res.trans h')
    · exact Or.inr ⟨hl.res.trans h1, hl.missed h2, h3⟩
  | done r kept =>
    rw [hph] at hp
    refine ⟨hl.marked.trans hp.1, ?_⟩
    rcases hp.2 with h' | ⟨h1, h2, h3⟩
    · exact Or.inl (hl.res.trans h')
    · exact Or.inr ⟨hl.res.trans h1, hl.missed h2, h3⟩
  | wipe todo =>
    rw [hph] at hp
    refine ⟨hl.marked.trans hp.1, ?_⟩
    intro id can hc
    rw [hit id todo ⟨⟨can, hc⟩, hph⟩, hl.res]
    exact hp.2 id can hc

theorem Rel.build {s s' : St V A} {m m' : AMap V A} (hi : Inv s) (hi' : Inv s') (hr : Rel s m) {t : Nat} {th : Thread V A} {p' : Phase V A} (ht : s.threads[t]? = some th)
    (hth : s'.threads = s.threads.set t { th with phase := p' })
    (hlen : m'.calls.length = m.calls.length)
    (hstored : ∀ kvs id a, m'.stored kvs = some ⟨id, a⟩ ↔ s'.item id = some ⟨kvs, a⟩ ∧ s'.Whole id kvs)
    (hclosing : m'.closing = s'.destroying)
    (hused : ∀ id ∈ m'.used, id ∈ s'.used ∧ ∀ (u : Nat) (x : Thread V A), s'.threads[u]? = some x → ¬ x.Making id)
    (hself : ∃ p, m'.calls[t]? = some p ∧ PRel s' m' { th with phase := p' } p)
    (hother : ∀ u p, u ≠ t → m.calls[u]? = some p → ∃ q, m'.calls[u]? = some q ∧ Later m m' p q)
    (hmk : ∀ (u : Nat) (x : Thread V A) id, u ≠ t → s.threads[u]? = some x → x.Making id → m.stored x.call.kvs = none → m'.stored x.call.kvs = none)
    (hix : ∀ q i, s.index q = some i → s'.index q = some i ∨ s'.index q = none)
    (hit : ∀ (u : Nat) (x : Thread V A) id todo, u ≠ t → s.threads[u]? = some x → x.Wiping id todo → s'.item id = s.item id) : Rel s' m' := by
  have hr0 : Rel { s' with threads := s'.threads } m' → Rel s' m' := id
  have hidx : ∀ kvs e, m'.stored kvs = some e → ∀ q ∈ kvs, ∀ i, s.index q = some i → s'.index q = some i := by
    intro kvs e he q hq i hx
    rcases hix q i hx with h | h
    · exact h
    · exfalso
      obtain ⟨id, a⟩ := e
      obtain ⟨h1, h2⟩ := (hstored kvs id a).1 he
      have : id ∈ s'.content q kvs.length := by
        refine (hi'.cont.mem q _ id (List.length_pos_of_mem hq)).2 (Or.inl ⟨⟨kvs, a⟩, h1, hq, rfl, ?_⟩)
        intro u x todo hu hw
        rw [h2 u x todo hu hw]; exact hq
      rw [content_none h] at this; cases this
  refine ⟨?_, hstored, hclosing, hused, ?_⟩
  · rw [hlen, hr.len, hth, List.length_set]
  · intro u x hu
    rw [hth] at hu
    rcases set_cases ht hu with ⟨e, e'⟩ | ⟨hut, hu⟩
    · subst e; subst e'; exact hself
    · obtain ⟨p, hp, hpr⟩ := hr.pend u x hu
      obtain ⟨q, hq, hl⟩ := hother u p hut hp
      refine ⟨q, hq, hpr.later hl (hi.creates u x hu).2.2 ?_ hidx (fun id todo hw => hit u x id todo hut hu hw)⟩
      intro id hm
      obtain ⟨held, hm'⟩ := hm
      have hpp := hpr.phase
      rw [hm'] at hpp
      exact hmk u x id hut hu ⟨held, hm'⟩ hpp.2.2

/-- Steps the map does not notice. -/
theorem Rel.quiet {s s' : St V A} {m : AMap V A} (hi : Inv s) (hi' : Inv s') (hr : Rel s m) {t : Nat} {th : Thread V A} {p' : Phase V A} {p : Pend V A} (ht : s.threads[t]? = some th)
    (hth : s'.threads = s.threads.set t { th with phase := p' })
    (hitem : s'.item = s.item) (hdes : s'.destroying = s.destroying) (hused : ∀ id ∈ s.used, id ∈ s'.used)
    (hix : ∀ q i, s.index q = some i → s'.index q = some i ∨ s'.index q = none)
    (hmk : ∀ id, ({ th with phase := p' } : Thread V A).Making id → id ∉ s.used)
    (hwh : ∀ id kvs, (∃ a, s.item id = some ⟨kvs, a⟩) → (s'.Whole id kvs ↔ s.Whole id kvs))
    (hp : m.calls[t]? = some p) (hself : PPhase s' m th.call p p') : Rel s' m := by
  refine hr.build hi hi' ht hth rfl ?_ (hr.closing.trans hdes.symm) ?_ ?_ (fun u p _ h => ⟨p, h, Later.refl m p⟩) (fun _ _ _ _ _ _ h => h) hix (fun _ _ _ _ _ _ _ => by rw [hitem])
  · intro kvs id a
    rw [hitem, hr.stored]
    exact and_congr_right fun h => (hwh id kvs ⟨a, h⟩).symm
  · intro id hid
    obtain ⟨h1, h2⟩ := hr.used id hid
    refine ⟨hused id h1, ?_⟩
    intro u x hu hm
    rw [hth] at hu
    rcases set_cases ht hu with ⟨_, e⟩ | ⟨_, hu⟩
    · subst e; exact hmk id hm h1
    · exact h2 u x hu hm
  · obtain ⟨q, hq, hpr⟩ := hr.pend t th ht
    rw [hp] at hq; cases hq
    exact ⟨p, hp, hpr.call, hpr.ret, hself⟩

theorem whole_quiet {s s' : St V A} {t : Nat} {th : Thread V A} {p' : Phase V A} (ht : s.threads[t]? = some th)
    (hth : s'.threads = s.threads.set t { th with phase := p' }) (q : ∀ id todo, ¬ th.Wiping id todo) (q' : ∀ id todo, ¬ ({ th with phase := p' } : Thread V A).Wiping id todo) (id : Nat) (kvs : KVs V) :
    s'.Whole id kvs ↔ s.Whole id kvs := by
  unfold St.Whole
  rw [hth]
  constructor
  · intro h u x todo hu hw
    have hut : u ≠ t := by intro e; subst e; rw [ht] at hu; cases hu; exact q _ _ hw
    exact h u x todo (set_other ht _ hut hu) hw
  · intro h u x todo hu hw
    rcases set_cases ht hu with ⟨_, e⟩ | ⟨_, hu⟩
    · subst e; exact absurd hw (q' _ _)
    · exact h u x todo hu hw

/-! ### Steps of the map -/

theorem Later.trans {m m' m'' : AMap V A} {p p' p'' : Pend V A} (h : Later m m' p p') (h' : Later m' m'' p' p'') : Later m m'' p p'' := by
  refine ⟨h'.call.trans h.call, h'.res.trans h.res, h'.marked.trans h.marked, h'.ret.trans h.ret, fun x => h'.missed (h.missed x), ?_, ?_⟩
  · intro kvs hc
    rcases h.find kvs hc with h1 | h1
    · exact Or.inl (h'.missed h1)
    · rcases h'.find kvs (h.call.trans hc) with h2 | h2
      · exact Or.inl h2
      · exact Or.inr fun e he => h2 e (h1 e he)
  · intro kvs can hc
    rcases h.del kvs can hc with h1 | h1
    · exact Or.inl (h'.missed h1)
    · rcases h'.del kvs can (h.call.trans hc) with h2 | h2
      · exact Or.inl h2
      · exact Or.inr fun e he => h2 e (h1 e he)

/-- The map has changed, and call `t` has. -/
structure Upd (m m' : AMap V A) (t : Nat) (p q : Pend V A) : Prop where
  len : m'.calls.length = m.calls.length
  self : m'.calls[t]? = some q
  call : q.call = p.call
  ret : q.returned = p.returned
  other : ∀ u x, u ≠ t → m.calls[u]? = some x → ∃ y, m'.calls[u]? = some y ∧ Later m m' x y

theorem Upd.trans {m m' m'' : AMap V A} {t : Nat} {p q r : Pend V A} (h : Upd m m' t p q) (h' : Upd m' m'' t q r) : Upd m m'' t p r := by
  refine ⟨h'.len.trans h.len, h'.self, h'.call.trans h.call, h'.ret.trans h.ret, ?_⟩
  intro u x hu hx
  obtain ⟨y, hy, l1⟩ := h.other u x hu hx
  obtain ⟨z, hz, l2⟩ := h'.other u y hu hy
  exact ⟨z, hz, l1.trans l2⟩

theorem pset_get {l : List (Pend V A)} {t : Nat} {p : Pend V A} (h : l[t]? = some p) (y : Pend V A) (u : Nat) : (l.set t y)[u]? = if u = t then some y else l[u]? := set_get h y u

theorem upd_see {m m₁ : AMap V A} {t : Nat} {p q : Pend V A} (hp : m.calls[t]? = some p) (hc : q.call = p.call) (hr : q.returned = p.returned)
    (hcompat : ∀ kvs e e', m.stored kvs = some e → m₁.stored kvs = some e' → e = e') :
    Upd m { m₁ with calls := m.calls.set t q }.see t p (q.see { m₁ with calls := m.calls.set t q }) := by
  refine ⟨?_, ?_, hc, hr, ?_⟩
  · unfold AMap.see; simp
  · rw [see_get]; simp only; rw [pset_get hp, if_pos rfl]; rfl
  · intro u x hu hx
    refine ⟨x.see { m₁ with calls := m.calls.set t q }, ?_, Later.see (m₁ := { m₁ with calls := m.calls.set t q }) hcompat x⟩
    rw [see_get]; simp only; rw [pset_get hp, if_neg hu, hx]; rfl

/-- The tree and the map after a step of both. -/
theorem Rel.upd {s s' : St V A} {m m' : AMap V A} (hi : Inv s) (hi' : Inv s') (hr : Rel s m) {t : Nat} {th : Thread V A} {p' : Phase V A} {p q : Pend V A} (ht : s.threads[t]? = some th)
    (hth : s'.threads = s.threads.set t { th with phase := p' }) (hp : m.calls[t]? = some p) (hu : Upd m m' t p q)
    (hstored : ∀ kvs id a, m'.stored kvs = some ⟨id, a⟩ ↔ s'.item id = some ⟨kvs, a⟩ ∧ s'.Whole id kvs)
    (hclosing : m'.closing = s'.destroying)
    (hused : ∀ id ∈ m'.used, id ∈ s'.used ∧ ∀ (u : Nat) (x : Thread V A), s'.threads[u]? = some x → ¬ x.Making id)
    (hself : PPhase s' m' th.call q p')
    (hmk : ∀ (u : Nat) (x : Thread V A) id, u ≠ t → s.threads[u]? = some x → x.Making id → m.stored x.call.kvs = none → m'.stored x.call.kvs = none)
    (hix : ∀ q i, s.index q = some i → s'.index q = some i ∨ s'.index q = none)
    (hit : ∀ (u : Nat) (x : Thread V A) id todo, u ≠ t → s.threads[u]? = some x → x.Wiping id todo → s'.item id = s.item id) : Rel s' m' := by
  refine hr.build hi hi' ht hth hu.len hstored hclosing hused ?_ hu.other hmk hix hit
  obtain ⟨p0, hp0, hpr⟩ := hr.pend t th ht
  rw [hp] at hp0; cases hp0
  exact ⟨q, hu.self, hu.call.trans hpr.call, hu.ret.trans hpr.ret, hself⟩

/-- A call acts without changing the map. -/
theorem Rel.actSame [DecidableEq V] {s s' : St V A} {m : AMap V A} (hi : Inv s) (hi' : Inv s') (hr : Rel s m) {t : Nat} {th : Thread V A} {p' : Phase V A} {p : Pend V A} {r : Res A}
    (ht : s.threads[t]? = some th) (hth : s'.threads = s.threads.set t { th with phase := p' })
    (hitem : s'.item = s.item) (hdes : s'.destroying = s.destroying) (hused : s'.used = s.used) (hindex : s'.index = s.index)
    (q : th.phase.loud = false) (q' : p'.loud = false)
    (hp : m.calls[t]? = some p) (hres : p.res = none) (hact : AMap.Act m p.call p.marked m r)
    (hself : ∀ (m' : AMap V A) (x : Pend V A), x.res = some r → x.marked = p.marked → PPhase s' m' th.call x p') : ∃ m', AMap.Run m [] m' ∧ Rel s' m' := by
  refine ⟨_, .step (e := none) .nil (.act t p hp hres hact), ?_⟩
  refine hr.upd hi hi' ht hth hp (upd_see hp rfl rfl (fun kvs e e' h h' => by rw [h] at h'; cases h'; rfl)) ?_ (hr.closing.trans hdes.symm) ?_ (hself _ _ rfl rfl)
    (fun _ _ _ _ _ _ h => h) (fun q i h => Or.inl (by rw [hindex]; exact h)) (fun _ _ _ _ _ _ _ => by rw [hitem])
  · intro kvs id a
    rw [hitem]
    refine Iff.trans (hr.stored kvs id a) (and_congr_right fun _ => ?_)
    exact (whole_quiet ht hth (Thread.quiet_wiping q) (Thread.quiet_wiping q') id kvs).symm
  · intro id hid
    obtain ⟨h1, h2⟩ := hr.used id hid
    refine ⟨by rw [hused]; exact h1, ?_⟩
    intro u x hu hm
    rw [hth] at hu
    rcases set_cases ht hu with ⟨_, e⟩ | ⟨_, hu⟩
    · subst e; exact Thread.quiet_making q' _ hm
    · exact h2 u x hu hm

/-- The item a call has found in all its nodes is the one the map has. -/
theorem Rel.locked {s : St V A} {m : AMap V A} (hi : Inv s) (hr : Rel s m) {t : Nat} {th : Thread V A} {held : List Nat} {id : Nat} (ht : s.threads[t]? = some th)
    (h : th.phase = .lock [] held (some [id]) ∨ th.phase = .dlock [] held (some [id])) :
    ∃ a, s.item id = some ⟨th.call.kvs, a⟩ ∧ m.stored th.call.kvs = some ⟨id, a⟩ := by
  obtain ⟨_, ⟨kvs, a⟩, h1, h2, h3⟩ := hi.lockedId ht h
  simp only at h2
  subst h2
  exact ⟨a, h1, (hr.stored _ id a).2 ⟨h1, h3⟩⟩

/-- If the map has an item for the key-values, it is the only one in all the locked nodes. -/
theorem Rel.single {s : St V A} {m : AMap V A} (hi : Inv s) (hr : Rel s m) {t : Nat} {th : Thread V A} {held : List Nat} {got : Option (List Nat)} {e : Entry A} (ht : s.threads[t]? = some th)
    (h : th.phase = .lock [] held got ∨ th.phase = .dlock [] held got) (hst : m.stored th.call.kvs = some e) (hx : ∀ i ∈ held, s.index (s.node i).pair = some i) :
    got = some [e.id] := by
  have hcr := hi.creates t th ht
  have hp := hi.phs t th ht
  have hfit := hcr.2.2
  have hq : th.phase.loud = false := by rcases h with h | h <;> (rw [h]; rfl)
  have hmem : ∀ i ∈ held, i ∈ th.phase.holds := by
    intro i hi'; rcases h with h | h <;> (rw [h]; exact hi')
  have hp' : held.map (fun i => (s.node i).pair) = th.call.kvs ∧ Got s th.call.kvs.length held got := by
    rcases h with h | h
    · rw [h] at hp; obtain ⟨h1, h2, _⟩ := hp; rw [List.append_nil] at h1; exact ⟨h1, h2⟩
    · rw [h] at hp; obtain ⟨h1, h2⟩ := hp; rw [List.append_nil] at h1; exact ⟨h1, h2⟩
  have hok : th.call.kvs ≠ [] ∧ Sorted th.call.kvs := by
    have hok := hcr.2.1
    have hnd : ∀ i can, th.call ≠ .destroy i can := by
      intro i can e; rcases h with h | h <;> (rw [e, h] at hfit; exact hfit)
    cases hcc : th.call with
    | destroy i can => exact absurd hcc (hnd i can)
    | _ => rw [hcc] at hok; exact hok
  cases got with
  | none =>
    have : held = [] := hp'.2
    rw [this] at hp'
    exact absurd hp'.1.symm hok.1
  | some g =>
    obtain ⟨_, hnd, hg⟩ := hp'.2
    have hin : e.id ∈ g := by
      refine (hg e.id).2 fun i hi' => ?_
      have hpk : (s.node i).pair ∈ th.call.kvs := by rw [← hp'.1]; exact List.mem_map.2 ⟨i, hi', rfl⟩
      have := hr.content hi hst hpk
      rwa [content_some (hx i hi')] at this
    have hall : ∀ id ∈ g, id = e.id := by
      intro id hid
      obtain ⟨⟨kvs, a⟩, h1, h2, h3⟩ := hi.common ht hq hok.2 hok.1 hp'.1 hmem ((hg id).1 hid)
      simp only at h2
      subst h2
      have := (hr.stored _ id a).2 ⟨h1, h3⟩
      rw [hst] at this; cases this; rfl
    congr 1
    cases g with
    | nil => cases hin
    | cons a g =>
      have ha := hall a (by simp)
      subst ha
      cases g with
      | nil => rfl
      | cons b g =>
        have hb := hall b (by simp)
        subst hb
        simp at hnd

end Willow.AssocConc
