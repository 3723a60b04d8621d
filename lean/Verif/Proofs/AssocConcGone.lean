import Verif.Proofs.AssocConcUse
/-! A map on which calls act at one moment: what was deleted is not found by later calls. -/
namespace Willow.AssocConc

variable {V A : Type}

/-- What one step does to items and calls. -/
theorem step_does [DecidableEq V] {m m' : AMap V A} {cs : List (Call V A)} {e : Option (Event V A)} (hs : Sane m cs) (h : AMap.Step m e m') :
    (∀ id ∈ m.used, id ∈ m'.used ∧ ∀ k a, m'.stored k = some ⟨id, a⟩ → m.stored k = some ⟨id, a⟩) ∧
    (∀ (u : Nat) (q : Pend V A) r, m'.calls[u]? = some q → q.res = some r → (∃ x, m.calls[u]? = some x ∧ x.call = q.call ∧ x.res = some r) ∨
      ∃ x m1, m.calls[u]? = some x ∧ x.call = q.call ∧ AMap.Act m q.call x.marked m1 r ∧ m'.stored = m1.stored ∧ m'.used = m1.used) ∧
    (∀ (u : Nat) (q : Pend V A), m'.calls[u]? = some q → q.missed = true → (∃ x, m.calls[u]? = some x ∧ x.call = q.call ∧ x.missed = true) ∨ m'.misses q.call = true) ∧
    (∀ (u : Nat) (q : Pend V A), m'.calls[u]? = some q → (∃ x, m.calls[u]? = some x ∧ x.call = q.call) ∨ (u = m.calls.length ∧ e = some (.call q.call))) := by
  cases h with
  | call c =>
    have old : ∀ (t : Nat) (p : Pend V A), (m.calls ++ [⟨c, m.misses c, false, none, false⟩])[t]? = some p → m.calls[t]? = some p ∨ (t = m.calls.length ∧ p = ⟨c, m.misses c, false, none, false⟩) := by
      intro t p hp
      rw [List.getElem?_append] at hp
      split at hp
      · exact Or.inl hp
      · rw [List.getElem?_singleton] at hp
        split at hp
        · cases hp; exact Or.inr ⟨by omega, rfl⟩
        · cases hp
    refine ⟨fun id h => ⟨h, fun _ _ h => h⟩, ?_, ?_, ?_⟩
    · intro u q r hq hr
      rcases old u q hq with h | ⟨_, h⟩
      · exact Or.inl ⟨q, h, rfl, hr⟩
      · subst h; cases hr
    · intro u q hq hm
      rcases old u q hq with h | ⟨_, h⟩
      · exact Or.inl ⟨q, h, rfl, hm⟩
      · subst h; exact Or.inr hm
    · intro u q hq
      rcases old u q hq with h | ⟨h1, h⟩
      · exact Or.inl ⟨q, h, rfl⟩
      · subst h; exact Or.inr ⟨h1, rfl⟩
  | @act m1 r t p hp hres ha =>
    have hcs : p.call ∈ cs := by rw [← hs.calls]; exact List.mem_map.2 ⟨p, List.mem_of_getElem? hp, rfl⟩
    obtain ⟨k1, k2, k3, k4, k5, k6⟩ := act_items hs hcs ha
    refine ⟨fun id h => ⟨k2 id h, fun k a h' => k3 k id a h h'⟩, ?_, ?_, ?_⟩
    · intro u q r' hq hr
      obtain ⟨x, hx, e1, e2, _⟩ := see_calls_get hq
      rw [e2] at hr
      rcases pget_set hp hx with ⟨e3, e4⟩ | ⟨e3, hx⟩
      · subst e3; subst e4
        cases hr
        exact Or.inr ⟨p, m1, hp, e1.symm, by rw [e1]; exact ha, rfl, rfl⟩
      · exact Or.inl ⟨x, hx, e1.symm, hr⟩
    · intro u q hq hm
      obtain ⟨x, hx, e1, e2, _, e3⟩ := see_calls_get hq
      rcases e3 hm with h | h
      · rcases pget_set hp hx with ⟨e3, e4⟩ | ⟨e3, hx⟩
        · subst e3; subst e4; exact Or.inl ⟨p, hp, e1.symm, h⟩
        · exact Or.inl ⟨x, hx, e1.symm, h⟩
      · right
        rw [e1]
        cases e : x.call <;> rw [e] at h <;> exact h
    · intro u q hq
      obtain ⟨x, hx, e1, _⟩ := see_calls_get hq
      rcases pget_set hp hx with ⟨e3, e4⟩ | ⟨e3, hx⟩
      · subst e3; subst e4; exact Or.inl ⟨p, hp, e1.symm⟩
      · exact Or.inl ⟨x, hx, e1.symm⟩
  | mark t p id can hp hcall hr hm hid =>
    refine ⟨fun id h => ⟨h, fun _ _ h => h⟩, ?_, ?_, ?_⟩
    · intro u q r' hq hr
      obtain ⟨x, hx, e1, e2, _⟩ := see_calls_get hq
      rw [e2] at hr
      rcases pget_set hp hx with ⟨e3, e4⟩ | ⟨e3, hx⟩
      · subst e3; subst e4; exact Or.inl ⟨p, hp, e1.symm, hr⟩
      · exact Or.inl ⟨x, hx, e1.symm, hr⟩
    · intro u q hq hm
      obtain ⟨x, hx, e1, e2, _, e3⟩ := see_calls_get hq
      rcases e3 hm with h | h
      · rcases pget_set hp hx with ⟨e3, e4⟩ | ⟨e3, hx⟩
        · subst e3; subst e4; exact Or.inl ⟨p, hp, e1.symm, h⟩
        · exact Or.inl ⟨x, hx, e1.symm, h⟩
      · right
        rw [e1]
        cases e : x.call <;> rw [e] at h <;> exact h
    · intro u q hq
      obtain ⟨x, hx, e1, _⟩ := see_calls_get hq
      rcases pget_set hp hx with ⟨e3, e4⟩ | ⟨e3, hx⟩
      · subst e3; subst e4; exact Or.inl ⟨p, hp, e1.symm⟩
      · exact Or.inl ⟨x, hx, e1.symm⟩
  | unmark t p id can hp hcall hr hm =>
    refine ⟨fun id h => ⟨h, fun _ _ h => h⟩, ?_, ?_, ?_⟩
    · intro u q r' hq hr
      obtain ⟨x, hx, e1, e2, _⟩ := see_calls_get hq
      rw [e2] at hr
      rcases pget_set hp hx with ⟨e3, e4⟩ | ⟨e3, hx⟩
      · subst e3; subst e4; exact Or.inl ⟨p, hp, e1.symm, hr⟩
      · exact Or.inl ⟨x, hx, e1.symm, hr⟩
    · intro u q hq hm
      obtain ⟨x, hx, e1, e2, _, e3⟩ := see_calls_get hq
      rcases e3 hm with h | h
      · rcases pget_set hp hx with ⟨e3, e4⟩ | ⟨e3, hx⟩
        · subst e3; subst e4; exact Or.inl ⟨p, hp, e1.symm, h⟩
        · exact Or.inl ⟨x, hx, e1.symm, h⟩
      · right
        rw [e1]
        cases e : x.call <;> rw [e] at h <;> exact h
    · intro u q hq
      obtain ⟨x, hx, e1, _⟩ := see_calls_get hq
      rcases pget_set hp hx with ⟨e3, e4⟩ | ⟨e3, hx⟩
      · subst e3; subst e4; exact Or.inl ⟨p, hp, e1.symm⟩
      · exact Or.inl ⟨x, hx, e1.symm⟩
  | ret t p r hp hr hm hres =>
    refine ⟨fun id h => ⟨h, fun _ _ h => h⟩, ?_, ?_, ?_⟩
    · intro u q r' hq hr
      rcases pget_set hp hq with ⟨e3, e4⟩ | ⟨e3, hx⟩
      · subst e3; subst e4; exact Or.inl ⟨p, hp, rfl, hr⟩
      · exact Or.inl ⟨q, hx, rfl, hr⟩
    · intro u q hq hm
      rcases pget_set hp hq with ⟨e3, e4⟩ | ⟨e3, hx⟩
      · subst e3; subst e4; exact Or.inl ⟨p, hp, rfl, hm⟩
      · exact Or.inl ⟨q, hx, rfl, hm⟩
    · intro u q hq
      rcases pget_set hp hq with ⟨e3, e4⟩ | ⟨e3, hx⟩
      · subst e3; subst e4; exact Or.inl ⟨p, hp, rfl⟩
      · exact Or.inl ⟨q, hx, rfl⟩

/-- The item with this id is, or was, under these key-values. -/
def Own (m : AMap V A) (id : Nat) (kvs : KVs V) : Prop := id ∈ m.used ∧ ∀ k a, m.stored k = some ⟨id, a⟩ → k = kvs

/-- The item with this id was there and is not there any more. -/
def Gone (m : AMap V A) (id : Nat) : Prop := id ∈ m.used ∧ ∀ k a, m.stored k ≠ some ⟨id, a⟩

theorem Own.step [DecidableEq V] {m m' : AMap V A} {cs : List (Call V A)} {e : Option (Event V A)} {id : Nat} {kvs : KVs V} (ho : Own m id kvs) (hs : Sane m cs) (h : AMap.Step m e m') : Own m' id kvs :=
  let d := (step_does hs h).1 id ho.1
  ⟨d.1, fun k a h => ho.2 k a (d.2 k a h)⟩

theorem Gone.step [DecidableEq V] {m m' : AMap V A} {cs : List (Call V A)} {e : Option (Event V A)} {id : Nat} (ho : Gone m id) (hs : Sane m cs) (h : AMap.Step m e m') : Gone m' id :=
  let d := (step_does hs h).1 id ho.1
  ⟨d.1, fun k a h => ho.2 k a (d.2 k a h)⟩

theorem live_stored_gone {m : AMap V A} {k : KVs V} {e : Entry A} (h : m.live k = some e) : m.stored k = some e := by
  unfold AMap.live at h
  split at h
  · split at h
    · cases h
    · cases h; assumption
  · cases h

/-- Who was told of an item has the key-values under which it is. -/
def Told (m : AMap V A) : Prop := ∀ (t : Nat) (p : Pend V A) id, m.calls[t]? = some p → (p.res = some (.created id) ∨ ∃ a, p.res = some (.found id a)) → Own m id p.call.kvs

theorem Told.step [DecidableEq V] {m m' : AMap V A} {cs : List (Call V A)} {e : Option (Event V A)} (ht : Told m) (hs : Sane m cs) (hs' : ∃ cs', Sane m' cs') (h : AMap.Step m e m') : Told m' := by
  intro t p id hp hr
  obtain ⟨cs', hs'⟩ := hs'
  obtain ⟨d1, d2, _⟩ := step_does hs h
  have new : ∀ k a, m'.stored k = some ⟨id, a⟩ → k = p.call.kvs → Own m' id p.call.kvs := by
    intro k a h e
    obtain ⟨i1, i2, _⟩ := hs'.inj k id a h
    exact ⟨i1, fun k' a' h' => (i2 k' a' h').trans e⟩
  rcases hr with hr | ⟨a, hr⟩
  · rcases d2 t p _ hp hr with ⟨x, hx, e1, e2⟩ | ⟨x, m1, hx, e1, ha, e2, e3⟩
    · rw [← e1]; exact (ht t x id hx (Or.inl e2)).step hs h
    · generalize hc : p.call = c at ha new
      generalize x.marked = b at ha
      cases ha with
      | @created kvs a _ h0 hid => exact new kvs a (by rw [e2]; exact if_pos rfl) rfl
      | @created' kvs a _ h0 hid => exact new kvs a (by rw [e2]; exact if_pos rfl) rfl
  · rcases d2 t p _ hp hr with ⟨x, hx, e1, e2⟩ | ⟨x, m1, hx, e1, ha, e2, e3⟩
    · rw [← e1]; exact (ht t x id hx (Or.inr ⟨a, e2⟩)).step hs h
    · generalize hc : p.call = c at ha new
      generalize x.marked = b at ha
      cases ha with
      | @found' kvs a' en h0 => exact new kvs en.val (by rw [e2]; exact live_stored_gone h0) rfl
      | @found kvs en h0 => exact new kvs en.val (by rw [e2]; exact live_stored_gone h0) rfl

theorem Told.run [DecidableEq V] {m m' : AMap V A} {cs : List (Call V A)} {evs : List (Event V A)} (ht : Told m) (hs : Sane m cs) (h : AMap.Run m evs m') : Told m' := by
  induction h with
  | nil => exact ht
  | step h1 h' ih => exact ih.step (hs.run h1) ⟨_, (hs.run h1).step h'⟩ h'

/-- A deletion of these key-values: when it has acted, or there was nothing to delete, the item is gone. -/
structure Wipes (m : AMap V A) (d id : Nat) (kvs : KVs V) (can : A → Bool) : Prop where
  own : Own m id kvs
  there : ∃ p, m.calls[d]? = some p ∧ p.call = .delete kvs can
  gone : ∀ p, m.calls[d]? = some p → (p.missed = true ∨ ∃ r, p.res = some r ∧ r ≠ .refused ∧ r ≠ .destroying) → Gone m id

theorem misses_gone {m : AMap V A} {id : Nat} {kvs : KVs V} {can : A → Bool} (ho : Own m id kvs) (h : m.misses (.delete kvs can) = true) : Gone m id := by
  refine ⟨ho.1, fun k a e => ?_⟩
  rw [ho.2 k a e] at e
  simp [AMap.misses, e] at h

theorem Wipes.step [DecidableEq V] {m m' : AMap V A} {cs : List (Call V A)} {e : Option (Event V A)} {d id : Nat} {kvs : KVs V} {can : A → Bool} (hw : Wipes m d id kvs can) (hs : Sane m cs)
    (h : AMap.Step m e m') : Wipes m' d id kvs can := by
  obtain ⟨x0, h0, c0⟩ := hw.there
  have hlt := (List.getElem?_eq_some_iff.1 h0).1
  obtain ⟨d1, d2, d3, d4⟩ := step_does hs h
  have hc : ∀ q, m'.calls[d]? = some q → q.call = .delete kvs can := by
    intro q hq
    rcases d4 d q hq with ⟨x, hx, e1⟩ | ⟨e1, _⟩
    · rw [h0] at hx; cases hx; rw [← e1]; exact c0
    · omega
  have hlen : d < m'.calls.length := by
    have h1 := (hs.step h).calls
    have h2 := congrArg List.length h1
    rw [← hs.calls] at h2
    simp only [List.length_map, List.length_append] at h2
    omega
  refine ⟨hw.own.step hs h, ⟨_, List.getElem?_eq_getElem hlen, hc _ (List.getElem?_eq_getElem hlen)⟩, ?_⟩
  intro p hp hor
  have hown := hw.own.step hs h
  rcases hor with hm | ⟨r, hr, n1, n2⟩
  · rcases d3 d p hp hm with ⟨x, hx, _, e2⟩ | hmi
    · exact (hw.gone x hx (Or.inl e2)).step hs h
    · rw [hc p hp] at hmi; exact misses_gone hown hmi
  · rcases d2 d p r hp hr with ⟨x, hx, _, e2⟩ | ⟨x, m1, hx, e1, ha, e2, e3⟩
    · exact (hw.gone x hx (Or.inr ⟨r, e2, n1, n2⟩)).step hs h
    · rw [hc p hp] at ha
      generalize hcc : Call.delete kvs can = c at ha
      generalize x.marked = b at ha
      cases ha with
      | removed hl hcan =>
        cases hcc
        refine ⟨hown.1, fun k a e' => ?_⟩
        have := hown.2 k a e'
        subst this
        rw [e2] at e'
        rw [show (m.put k none).stored k = none from if_pos rfl] at e'
        cases e'
      | refused => exact absurd rfl n1
      | closing => exact absurd rfl n2
      | _ => cases hcc

theorem Wipes.run [DecidableEq V] {m m' : AMap V A} {cs : List (Call V A)} {evs : List (Event V A)} {d id : Nat} {kvs : KVs V} {can : A → Bool} (hw : Wipes m d id kvs can) (hs : Sane m cs)
    (h : AMap.Run m evs m') : Wipes m' d id kvs can := by
  induction h with
  | nil => exact hw
  | step h1 h' ih => exact ih.step (hs.run h1) h'

/-- Gone, and no call from number `n` on has found it. -/
def Never (m : AMap V A) (n id : Nat) : Prop := Gone m id ∧ ∀ (u : Nat) (p : Pend V A) a, n ≤ u → m.calls[u]? = some p → p.res ≠ some (.found id a)

theorem Never.step [DecidableEq V] {m m' : AMap V A} {cs : List (Call V A)} {e : Option (Event V A)} {n id : Nat} (hn : Never m n id) (hs : Sane m cs) (h : AMap.Step m e m') : Never m' n id := by
  refine ⟨hn.1.step hs h, fun u p a hu hp hr => ?_⟩
  rcases (step_does hs h).2.1 u p _ hp hr with ⟨x, hx, _, e2⟩ | ⟨x, m1, hx, e1, ha, _⟩
  · exact hn.2 u x a hu hx e2
  · generalize p.call = c at ha
    generalize x.marked = b at ha
    cases ha with
    | @found' kvs a' en h0 => exact hn.1.2 kvs en.val (live_stored_gone h0)
    | @found kvs en h0 => exact hn.1.2 kvs en.val (live_stored_gone h0)

theorem Never.run [DecidableEq V] {m m' : AMap V A} {cs : List (Call V A)} {evs : List (Event V A)} {n id : Nat} (hn : Never m n id) (hs : Sane m cs) (h : AMap.Run m evs m') : Never m' n id := by
  induction h with
  | nil => exact hn
  | step h1 h' ih => exact ih.step (hs.run h1) h'

/-- A return: the call has acted, or found that there was nothing. -/
theorem ret_what [DecidableEq V] {m : AMap V A} {evs : List (Event V A)} {t : Nat} {r : Res A} (h : AMap.Run AMap.init evs m) (he : Event.ret t r ∈ evs) :
    ∃ p, m.calls[t]? = some p ∧ (p.res = some r ∨ (r = .nothing ∧ p.missed = true)) := by
  induction h with
  | nil => cases he
  | @step m1 m2 evs e h1 h' ih =>
    have hs : Sane m1 (callsOf evs) := by have := Sane.init.run h1; rwa [List.nil_append] at this
    rcases List.mem_append.1 he with he | he
    · obtain ⟨p, hp, hor⟩ := ih he
      have keep : ∀ {l : List (Pend V A)} {t0 : Nat} {p0 y : Pend V A}, l[t0]? = some p0 → l[t]? = some p → (p0.res = none ∨ y.res = p0.res) → y.missed = p0.missed → (y.res = none → p0.res = none) →
          ∃ q, (l.set t0 y)[t]? = some q ∧ (p.res = some r → q.res = some r) ∧ (p.missed = true → q.missed = true) := by
        intro l t0 p0 y h0 h1 e1 e2 _
        by_cases e : t = t0
        · subst e
          rw [h0] at h1; cases h1
          refine ⟨y, List.getElem?_set_self (List.getElem?_eq_some_iff.1 h0).1, ?_, fun h => by rw [e2]; exact h⟩
          intro h
          rcases e1 with e | e
          · rw [e] at h; cases h
          · rw [e]; exact h
        · exact ⟨p, by rw [List.getElem?_set_ne (Ne.symm e)]; exact h1, id, id⟩
      have see : ∀ {m0 : AMap V A}, (∃ q, m0.calls[t]? = some q ∧ (p.res = some r → q.res = some r) ∧ (p.missed = true → q.missed = true)) →
          ∃ q, m0.see.calls[t]? = some q ∧ (q.res = some r ∨ (r = .nothing ∧ q.missed = true)) := by
        rintro m0 ⟨q, hq, h1, h2⟩
        refine ⟨{ q with missed := q.missed || m0.misses q.call }, by simp [AMap.see, List.getElem?_map, hq], ?_⟩
        rcases hor with h | ⟨h, h'⟩
        · exact Or.inl (h1 h)
        · exact Or.inr ⟨h, by simp [h2 h']⟩
      cases h' with
      | call c => exact ⟨p, by simp only; rw [List.getElem?_append_left (List.getElem?_eq_some_iff.1 hp).1]; exact hp, hor⟩
      | @act m0 r0 t0 p0 h0 hres ha => exact see (keep h0 hp (Or.inl hres) rfl nofun)
      | mark t0 p0 i c h0 hcall hr hm hid => exact see (keep h0 hp (Or.inr rfl) rfl (fun h => h))
      | unmark t0 p0 i c h0 hcall hr hm => exact see (keep h0 hp (Or.inr rfl) rfl (fun h => h))
      | ret t0 p0 r0 h0 hr hm hres =>
        obtain ⟨q, hq, h1, h2⟩ := keep (y := { p0 with returned := true }) h0 hp (Or.inr rfl) rfl (fun h => h)
        refine ⟨q, hq, ?_⟩
        rcases hor with h | ⟨h, h'⟩
        · exact Or.inl (h1 h)
        · exact Or.inr ⟨h, h2 h'⟩
    · cases h' with
      | call c => simp at he
      | act => simp at he
      | mark => simp at he
      | unmark => simp at he
      | ret t0 p0 r0 h0 hr hm hres =>
        simp only [Option.toList, List.mem_singleton, Event.ret.injEq] at he
        obtain ⟨e1, e2⟩ := he
        subst e1; subst e2
        refine ⟨_, List.getElem?_set_self (List.getElem?_eq_some_iff.1 h0).1, ?_⟩
        rcases hres with h | ⟨_, h1, h2⟩
        · exact Or.inl h
        · exact Or.inr ⟨h2, h1⟩

theorem Own.run [DecidableEq V] {m m' : AMap V A} {cs : List (Call V A)} {evs : List (Event V A)} {id : Nat} {kvs : KVs V} (ho : Own m id kvs) (hs : Sane m cs) (h : AMap.Run m evs m') : Own m' id kvs := by
  induction h with
  | nil => exact ho
  | step h1 h' ih => exact ih.step (hs.run h1) h'

/-- What was deleted is not found by later calls. -/
theorem deleted_gone [DecidableEq V] {m : AMap V A} {l k n : List (Event V A)} {kvs : KVs V} {can : A → Bool} {t id u : Nat} {c : Call V A} {r res : Res A} {a : A}
    (h : AMap.Run AMap.init (l ++ Event.call (.delete kvs can) :: (k ++ n)) m) (hc : (callsOf l)[t]? = some c) (hk : c.kvs = kvs) (hres : Event.ret t res ∈ l)
    (htold : res = .created id ∨ ∃ b, res = .found id b) (hr : Event.ret (callsOf l).length r ∈ k) (h1 : r ≠ .refused) (h2 : r ≠ .destroying)
    (hu : (callsOf l).length + 1 + (callsOf k).length ≤ u) : Event.ret u (.found id a) ∉ l ++ Event.call (.delete kvs can) :: (k ++ n) := by
  have h' : AMap.Run AMap.init (l ++ ([Event.call (.delete kvs can)] ++ (k ++ n))) m := by simpa using h
  obtain ⟨m1, r1, r2⟩ := h'.split rfl
  obtain ⟨m2, r3, r4⟩ := r2.split rfl
  obtain ⟨m3, r5, r6⟩ := r4.split rfl
  have s1 : Sane m1 (callsOf l) := by have := Sane.init.run r1; rwa [List.nil_append] at this
  have told1 : Told m1 := Told.run (m := AMap.init) (fun t p id hp => by simp [AMap.init] at hp) Sane.init r1
  have own1 : Own m1 id kvs := by
    obtain ⟨p, hp, hor⟩ := ret_what r1 hres
    have hcall : p.call = c := by rw [← s1.calls, List.getElem?_map, hp] at hc; exact Option.some.inj hc
    rw [← hk, ← hcall]
    refine told1 t p id hp ?_
    rcases hor with e | ⟨e, _⟩
    · rcases htold with e' | ⟨b, e'⟩
      · exact Or.inl (by rw [e, e'])
      · exact Or.inr ⟨b, by rw [e, e']⟩
    · rcases htold with e' | ⟨b, e'⟩ <;> rw [e] at e' <;> cases e'
  obtain ⟨x, y, q1, q2, q3⟩ := r3.single
  have sx := s1.run q1
  rw [show callsOf ([] : List (Event V A)) = [] from rfl, List.append_nil] at sx
  have ownx : Own x id kvs := own1.run s1 q1
  have lenx : x.calls.length = (callsOf l).length := by rw [← sx.calls, List.length_map]
  have wy : Wipes y (callsOf l).length id kvs can := by
    generalize hev : Event.call (Call.delete kvs can) = ev at q2
    cases q2 with
    | call c0 =>
      cases hev
      have hget : (x.calls ++ [⟨.delete kvs can, x.misses (.delete kvs can), false, none, false⟩])[(callsOf l).length]? = some ⟨.delete kvs can, x.misses (.delete kvs can), false, none, false⟩ := by
        rw [← lenx, List.getElem?_append_right (Nat.le_refl _)]; simp
      refine ⟨ownx, ⟨_, hget, rfl⟩, ?_⟩
      intro p hp hor
      rw [show _ = _ from hget] at hp
      cases hp
      rcases hor with hm | ⟨_, hm, _⟩
      · exact misses_gone (can := can) ownx hm
      · cases hm
    | ret => cases hev
  have sy := sx.step q2
  have w2 := wy.run sy q3
  have s2 := sy.run q3
  have w3 := w2.run s2 r5
  have s3 := s2.run r5
  have g3 : Gone m3 id := by
    have r7 : AMap.Run AMap.init ((l ++ [Event.call (.delete kvs can)]) ++ k) m3 := (r1.trans r3).trans r5
    obtain ⟨p, hp, hor⟩ := ret_what r7 (List.mem_append_right _ hr)
    refine w3.gone p hp ?_
    rcases hor with e | ⟨_, e⟩
    · exact Or.inr ⟨r, e, h1, h2⟩
    · exact Or.inl e
  have len3 : m3.calls.length = (callsOf l).length + 1 + (callsOf k).length := by
    have := congrArg List.length s3.calls
    simp only [List.length_map, List.length_append, Option.toList, callsOf, List.length_cons, List.length_nil] at this
    omega
  have n3 : Never m3 u id := ⟨g3, fun v p a hv hp => absurd (List.getElem?_eq_some_iff.1 hp).1 (by omega)⟩
  have n4 := n3.run s3 r6
  intro hmem
  obtain ⟨p, hp, hor⟩ := ret_what h hmem
  rcases hor with e | ⟨e, _⟩
  · exact n4.2 u p a (Nat.le_refl _) hp e
  · cases e

end Willow.AssocConc
