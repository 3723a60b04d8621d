import Verif.Spec.AssocConc
/-! Consequences of acting at one moment, and runs written down as scripts. -/
namespace Willow.AssocConc
open Willow

variable {V A : Type}

/-! ### Histories of the map without removals -/

theorem callsOf_append (l k : List (Event V A)) : callsOf (l ++ k) = callsOf l ++ callsOf k := by
  induction l with
  | nil => rfl
  | cons e l ih => cases e <;> simp [callsOf, ih]

theorem mem_callsOf {evs : List (Event V A)} {c : Call V A} : c ∈ callsOf evs ↔ Event.call c ∈ evs := by
  induction evs with
  | nil => simp [callsOf]
  | cons e l ih => cases e <;> simp [callsOf, ih]

/-- What is known about the map when nobody removes anything. -/
structure Kept (m : AMap V A) (cs : List (Call V A)) : Prop where
  calls : m.calls.map Pend.call = cs
  keeps : ∀ p ∈ m.calls, p.call.removes = false
  closing : m.closing = []
  made : ∀ (t : Nat) (p : Pend V A) (id : Nat), m.calls[t]? = some p → p.res = some (.created id) → ∃ a, m.stored p.call.kvs = some ⟨id, a⟩ ∧ (p.call = .create p.call.kvs a ∨ p.call = .createOrFind p.call.kvs a)
  once : ∀ (t u : Nat) (p q : Pend V A) (i j : Nat), m.calls[t]? = some p → m.calls[u]? = some q → p.res = some (.created i) → q.res = some (.created j) → p.call.kvs = q.call.kvs → t = u
  found : ∀ (t : Nat) (p : Pend V A) (kvs : KVs V) (id : Nat) (a : A), m.calls[t]? = some p → p.call = .find kvs → p.res = some (.found id a) → m.stored kvs = some ⟨id, a⟩
  finds : ∀ (t : Nat) (p : Pend V A) (kvs : KVs V) (r : Res A), m.calls[t]? = some p → p.call = .find kvs → p.res = some r → ∃ id a, r = .found id a

theorem Kept.init : Kept (AMap.init : AMap V A) [] := by
  refine ⟨rfl, ?_, rfl, ?_, ?_, ?_, ?_⟩ <;> simp [AMap.init]

theorem see_calls (m : AMap V A) : m.see.calls.map Pend.call = m.calls.map Pend.call := by
  simp [AMap.see]

theorem see_calls_get {m : AMap V A} {t : Nat} {p : Pend V A} (h : m.see.calls[t]? = some p) : ∃ q, m.calls[t]? = some q ∧ p.call = q.call ∧ p.res = q.res ∧ (q.missed = true → p.missed = true) ∧
    (p.missed = true → q.missed = true ∨ m.misses q.call = true) := by
  simp only [AMap.see, List.getElem?_map] at h
  cases hq : m.calls[t]? with
  | none => rw [hq] at h; cases h
  | some q => rw [hq] at h; cases h; refine ⟨q, rfl, rfl, rfl, ?_, ?_⟩ <;> simp <;> grind

theorem pget_set {l : List (Pend V A)} {t u : Nat} {p y x : Pend V A} (hp : l[t]? = some p) (h : (l.set t y)[u]? = some x) : (u = t ∧ x = y) ∨ (u ≠ t ∧ l[u]? = some x) := by
  rw [List.getElem?_set] at h
  by_cases e : t = u
  · rw [if_pos e] at h
    split at h
    · cases h; exact Or.inl ⟨e.symm, rfl⟩
    · cases h
  · rw [if_neg e] at h; exact Or.inr ⟨fun e' => e e'.symm, h⟩

theorem map_set_call {l : List (Pend V A)} {t : Nat} {p y : Pend V A} (hp : l[t]? = some p) (h : y.call = p.call) : (l.set t y).map Pend.call = l.map Pend.call := by
  apply List.ext_getElem?
  intro u
  rw [List.getElem?_map, List.getElem?_map, List.getElem?_set]
  by_cases e : t = u
  · subst e
    rw [if_pos rfl, hp]
    have := (List.getElem?_eq_some_iff.1 hp).1
    rw [if_pos this]; simp [h]
  · rw [if_neg e]

theorem live_eq {m : AMap V A} (h : m.closing = []) (kvs : KVs V) : m.live kvs = m.stored kvs := by
  unfold AMap.live
  rw [h]
  cases m.stored kvs <;> simp

/-- Without removals nothing that is stored changes. -/
theorem Kept.step [DecidableEq V] {m m' : AMap V A} {cs : List (Call V A)} {e : Option (Event V A)} (hk : Kept m cs) (h : AMap.Step m e m')
    (hc : ∀ c, e = some (.call c) → c.removes = false) : Kept m' (cs ++ callsOf e.toList) ∧ ∀ kvs x, m.stored kvs = some x → m'.stored kvs = some x := by
  cases h with
  | call c =>
    refine ⟨⟨?_, ?_, hk.closing, ?_, ?_, ?_, ?_⟩, fun _ _ h => h⟩
    · simp [hk.calls, callsOf]
    · intro p hp
      rcases List.mem_append.1 hp with hp | hp
      · exact hk.keeps p hp
      · rw [List.mem_singleton] at hp; subst hp; exact hc c rfl
    · intro t p id hp hr
      rw [List.getElem?_append] at hp
      split at hp
      · exact hk.made t p id hp hr
      · have : p.res = none := by
          rw [List.getElem?_singleton] at hp; split at hp <;> cases hp; rfl
        rw [this] at hr; cases hr
    · intro t u p q i j hp hq hr hr' he
      have old : ∀ (t : Nat) (p : Pend V A) (i : Nat), (m.calls ++ [⟨c, m.misses c, false, none, false⟩])[t]? = some p → p.res = some (.created i) → m.calls[t]? = some p := by
        intro t p i hp hr
        rw [List.getElem?_append] at hp
        split at hp
        · exact hp
        · rw [List.getElem?_singleton] at hp; split at hp <;> cases hp; cases hr
      exact hk.once t u p q i j (old t p i hp hr) (old u q j hq hr') hr hr' he
    · intro t p kvs id a hp hcall hr
      rw [List.getElem?_append] at hp
      split at hp
      · exact hk.found t p kvs id a hp hcall hr
      · rw [List.getElem?_singleton] at hp; split at hp <;> cases hp; cases hr
    · intro t p kvs r hp hcall hr
      rw [List.getElem?_append] at hp
      split at hp
      · exact hk.finds t p kvs r hp hcall hr
      · rw [List.getElem?_singleton] at hp; split at hp <;> cases hp; cases hr
  | @act m1 r t p hp hres ha =>
    have hrm := hk.keeps p (List.mem_of_getElem? hp)
    have key : m1.closing = [] ∧ (∀ kvs x, m.stored kvs = some x → m1.stored kvs = some x) ∧
        (∀ id, r = .created id → ∃ a, m1.stored p.call.kvs = some ⟨id, a⟩ ∧ (p.call = .create p.call.kvs a ∨ p.call = .createOrFind p.call.kvs a)) ∧ (∀ id, r = .created id → m.stored p.call.kvs = none) ∧
        (∀ kvs, p.call = .find kvs → ∃ id a, r = .found id a ∧ m1.stored kvs = some ⟨id, a⟩) := by
      have hcl := hk.closing
      generalize hpc : p.call = c at ha hrm
      generalize p.marked = b at ha
      cases ha with
      | created hn hid =>
        refine ⟨hcl, ?_, ?_, fun _ _ => hn, nofun⟩
        · intro k x hx
          simp only [AMap.put]
          rw [if_neg]; exact hx
          intro e; rw [e, hn] at hx; cases hx
        · intro id e; cases e
          exact ⟨_, by simp [AMap.put, Call.kvs], Or.inl rfl⟩
      | created' hn hid =>
        refine ⟨hcl, ?_, ?_, fun _ _ => hn, nofun⟩
        · intro k x hx
          simp only [AMap.put]
          rw [if_neg]; exact hx
          intro e; rw [e, hn] at hx; cases hx
        · intro id e; cases e
          exact ⟨_, by simp [AMap.put, Call.kvs], Or.inr rfl⟩
      | found h =>
        refine ⟨hcl, fun _ _ h => h, nofun, nofun, ?_⟩
        intro kvs e; cases e
        rw [live_eq hcl] at h
        exact ⟨_, _, rfl, h⟩
      | «exists» h => exact ⟨hcl, fun _ _ h => h, nofun, nofun, nofun⟩
      | found' h => exact ⟨hcl, fun _ _ h => h, nofun, nofun, nofun⟩
      | closing' h hcc => rw [hcl] at hcc; cases hcc
      | removed => cases hrm
      | refused => cases hrm
      | closing => cases hrm
      | taken => cases hrm
      | destroyed => cases hrm
      | kept => cases hrm
      | unknown => cases hrm
    obtain ⟨k1, k2, k3, k4, k5⟩ := key
    refine ⟨⟨?_, ?_, k1, ?_, ?_, ?_, ?_⟩, k2⟩
    · rw [see_calls]; simp only; rw [map_set_call hp]
      · simp [hk.calls, callsOf]
      · rfl
    · intro q hq
      obtain ⟨u, hu⟩ := List.mem_iff_getElem?.1 hq
      obtain ⟨x, hx, e1, _⟩ := see_calls_get hu
      rw [e1]
      rcases pget_set hp hx with ⟨_, e⟩ | ⟨_, hx⟩
      · subst e; exact hrm
      · exact hk.keeps x (List.mem_of_getElem? hx)
    · intro u q id hq hr
      obtain ⟨x, hx, e1, e2, _⟩ := see_calls_get hq
      rw [e1]; rw [e2] at hr
      rcases pget_set hp hx with ⟨_, e⟩ | ⟨_, hx⟩
      · subst e; exact k3 id (by simpa using hr)
      · obtain ⟨a, h1, h2⟩ := hk.made u x id hx hr
        exact ⟨a, k2 _ _ h1, h2⟩
    · intro u v q q' i j hq hq' hr hr' he
      obtain ⟨x, hx, e1, e2, _⟩ := see_calls_get hq
      obtain ⟨y, hy, f1, f2, _⟩ := see_calls_get hq'
      rw [e1, f1] at he; rw [e2] at hr; rw [f2] at hr'
      rcases pget_set hp hx with ⟨h1, e⟩ | ⟨h1, hx⟩ <;> rcases pget_set hp hy with ⟨h2, e'⟩ | ⟨h2, hy⟩
      · rw [h1, h2]
      · exfalso
        subst e
        obtain ⟨a, h3, _⟩ := hk.made v y j hy hr'
        have := k4 i (by simpa using hr)
        simp only at he
        rw [← he, this] at h3; cases h3
      · exfalso
        subst e'
        obtain ⟨a, h3, _⟩ := hk.made u x i hx hr
        have := k4 j (by simpa using hr')
        simp only at he
        rw [he, this] at h3; cases h3
      · exact hk.once u v x y i j hx hy hr hr' he
    · intro u q kvs id a hq hcall hr
      obtain ⟨x, hx, e1, e2, _⟩ := see_calls_get hq
      rw [e1] at hcall; rw [e2] at hr
      rcases pget_set hp hx with ⟨_, e⟩ | ⟨_, hx⟩
      · subst e
        obtain ⟨i, b, e3, h3⟩ := k5 kvs hcall
        simp only [Option.some.injEq] at hr
        rw [e3] at hr; cases hr; exact h3
      · exact k2 _ _ (hk.found u x kvs id a hx hcall hr)
    · intro u q kvs r' hq hcall hr
      obtain ⟨x, hx, e1, e2, _⟩ := see_calls_get hq
      rw [e1] at hcall; rw [e2] at hr
      rcases pget_set hp hx with ⟨_, e⟩ | ⟨_, hx⟩
      · subst e
        obtain ⟨i, b, e3, h3⟩ := k5 kvs hcall
        simp only [Option.some.injEq] at hr
        rw [← hr]; exact ⟨i, b, e3⟩
      · exact hk.finds u x kvs r' hx hcall hr
  | mark t p id can hp hcall hr hm hid =>
    have := hk.keeps p (List.mem_of_getElem? hp)
    rw [hcall] at this; cases this
  | unmark t p id can hp hcall hr hm =>
    have := hk.keeps p (List.mem_of_getElem? hp)
    rw [hcall] at this; cases this
  | ret t p r hp hr hm hres =>
    have old : ∀ {u : Nat} {q : Pend V A}, (m.calls.set t { p with returned := true })[u]? = some q → ∃ x, m.calls[u]? = some x ∧ x.call = q.call ∧ x.res = q.res := by
      intro u q hq
      rcases pget_set hp hq with ⟨e, e'⟩ | ⟨_, hq⟩
      · subst e; subst e'; exact ⟨p, hp, rfl, rfl⟩
      · exact ⟨q, hq, rfl, rfl⟩
    refine ⟨⟨?_, ?_, hk.closing, ?_, ?_, ?_, ?_⟩, fun _ _ h => h⟩
    · simp only; rw [map_set_call hp]
      · simp [hk.calls, callsOf]
      · rfl
    · intro q hq
      obtain ⟨u, hu⟩ := List.mem_iff_getElem?.1 hq
      obtain ⟨x, hx, e1, _⟩ := old hu
      rw [← e1]; exact hk.keeps x (List.mem_of_getElem? hx)
    · intro u q id hq h
      obtain ⟨x, hx, e1, e2⟩ := old hq
      rw [← e1]; rw [← e2] at h; exact hk.made u x id hx h
    · intro u v q q' i j hq hq' h h' he
      obtain ⟨x, hx, e1, e2⟩ := old hq
      obtain ⟨y, hy, f1, f2⟩ := old hq'
      rw [← e1, ← f1] at he; rw [← e2] at h; rw [← f2] at h'
      exact hk.once u v x y i j hx hy h h' he
    · intro u q kvs id a hq hcall h
      obtain ⟨x, hx, e1, e2⟩ := old hq
      rw [← e1] at hcall; rw [← e2] at h; exact hk.found u x kvs id a hx hcall h
    · intro u q kvs r' hq hcall h
      obtain ⟨x, hx, e1, e2⟩ := old hq
      rw [← e1] at hcall; rw [← e2] at h; exact hk.finds u x kvs r' hx hcall h

theorem Kept.run [DecidableEq V] {m m' : AMap V A} {cs : List (Call V A)} {evs : List (Event V A)} (hk : Kept m cs) (h : AMap.Run m evs m')
    (hc : ∀ c ∈ callsOf evs, c.removes = false) : Kept m' (cs ++ callsOf evs) ∧ ∀ kvs x, m.stored kvs = some x → m'.stored kvs = some x := by
  induction h with
  | nil => simp only [callsOf, List.append_nil]; exact ⟨hk, fun _ _ h => h⟩
  | @step m1 m2 evs e h h' ih =>
    rw [callsOf_append] at hc
    obtain ⟨k1, k2⟩ := ih (fun c hc' => hc c (List.mem_append_left _ hc'))
    obtain ⟨k3, k4⟩ := k1.step h' (fun c e' => hc c (List.mem_append_right _ (by rw [e']; simp [callsOf])))
    rw [callsOf_append, ← List.append_assoc]
    exact ⟨k3, fun kvs x hx => k4 kvs x (k2 kvs x hx)⟩

theorem AMap.Run.trans [DecidableEq V] {m m' m'' : AMap V A} {evs evs' : List (Event V A)} (h : AMap.Run m evs m') (h' : AMap.Run m' evs' m'') : AMap.Run m (evs ++ evs') m'' := by
  induction h' with
  | nil => rw [List.append_nil]; exact h
  | step _ hs ih => rw [← List.append_assoc]; exact .step ih hs

theorem AMap.Run.split [DecidableEq V] {m m' : AMap V A} {evs : List (Event V A)} (h : AMap.Run m evs m') : ∀ {l k : List (Event V A)}, evs = l ++ k → ∃ m1, AMap.Run m l m1 ∧ AMap.Run m1 k m' := by
  induction h with
  | nil =>
    intro l k e
    obtain ⟨e1, e2⟩ := List.nil_eq_append_iff.1 e
    subst e1; subst e2; exact ⟨_, .nil, .nil⟩
  | @step m1 m2 evs e h h' ih =>
    intro l k he
    cases e with
    | none =>
      simp only [Option.toList, List.append_nil] at he
      obtain ⟨x, h1, h2⟩ := ih he
      refine ⟨x, h1, ?_⟩
      have := AMap.Run.step (e := none) h2 h'
      simpa using this
    | some ev =>
      simp only [Option.toList] at he
      rcases List.eq_nil_or_concat k with hk | ⟨k', y, hk⟩
      · subst hk
        rw [List.append_nil] at he
        subst he
        exact ⟨_, .step (e := some ev) h h', .nil⟩
      · rw [hk, List.concat_eq_append, ← List.append_assoc] at he
        obtain ⟨e1, e2⟩ := List.append_inj' he rfl
        cases e2
        obtain ⟨x, h1, h2⟩ := ih e1
        refine ⟨x, h1, ?_⟩
        rw [hk, List.concat_eq_append]
        exact AMap.Run.step (e := some ev) h2 h'

/-- What stays true of a call. -/
structure Aged (p q : Pend V A) : Prop where
  call : q.call = p.call
  res : ∀ r, p.res = some r → q.res = some r
  returned : p.returned = true → q.returned = true

theorem Aged.refl (p : Pend V A) : Aged p p := ⟨rfl, fun _ h => h, id⟩

theorem aged_step [DecidableEq V] {m m' : AMap V A} {e : Option (Event V A)} (h : AMap.Step m e m') : ∀ (t : Nat) (p : Pend V A), m.calls[t]? = some p → ∃ q, m'.calls[t]? = some q ∧ Aged p q := by
  have see : ∀ {m : AMap V A} {t : Nat} {p : Pend V A}, m.calls[t]? = some p → ∃ q, m.see.calls[t]? = some q ∧ Aged p q := by
    intro m t p h
    refine ⟨{ p with missed := p.missed || m.misses p.call }, ?_, rfl, fun _ h => h, id⟩
    simp only [AMap.see, List.getElem?_map, h]; rfl
  have set : ∀ {l : List (Pend V A)} {t : Nat} {x y : Pend V A}, l[t]? = some x → Aged x y → ∀ (u : Nat) (p : Pend V A), l[u]? = some p → ∃ q, (l.set t y)[u]? = some q ∧ Aged p q := by
    intro l t x y hx ha u p hp
    rw [List.getElem?_set]
    by_cases e : t = u
    · subst e
      rw [hx] at hp; cases hp
      rw [if_pos rfl, if_pos (List.getElem?_eq_some_iff.1 hx).1]
      exact ⟨y, rfl, ha⟩
    · rw [if_neg e]; exact ⟨p, hp, Aged.refl p⟩
  have comp : ∀ {m : AMap V A} {t : Nat} {p x : Pend V A}, m.calls[t]? = some x → Aged p x → ∃ q, m.see.calls[t]? = some q ∧ Aged p q := by
    intro m t p x hx ha
    obtain ⟨q, hq, hb⟩ := see hx
    exact ⟨q, hq, hb.call.trans ha.call, fun r h => hb.res r (ha.res r h), fun h => hb.returned (ha.returned h)⟩
  intro u p hp
  cases h with
  | call c => exact ⟨p, by simp only; rw [List.getElem?_append_left (List.getElem?_eq_some_iff.1 hp).1]; exact hp, Aged.refl p⟩
  | act t x hx hres ha =>
    obtain ⟨q, hq, hb⟩ := set hx (y := { x with res := some _ }) ⟨rfl, (fun r h => by rw [hres] at h; cases h), fun h => h⟩ u p hp
    exact comp hq hb
  | mark t x id can hx =>
    obtain ⟨q, hq, hb⟩ := set hx (y := { x with marked := true }) ⟨rfl, fun r h => h, fun h => h⟩ u p hp
    exact comp hq hb
  | unmark t x id can hx =>
    obtain ⟨q, hq, hb⟩ := set hx (y := { x with marked := false }) ⟨rfl, fun r h => h, fun h => h⟩ u p hp
    exact comp hq hb
  | ret t x r hx => exact set hx (y := { x with returned := true }) ⟨rfl, fun r h => h, fun _ => rfl⟩ u p hp

theorem aged_run [DecidableEq V] {m m' : AMap V A} {evs : List (Event V A)} (h : AMap.Run m evs m') : ∀ (t : Nat) (p : Pend V A), m.calls[t]? = some p → ∃ q, m'.calls[t]? = some q ∧ Aged p q := by
  induction h with
  | nil => exact fun t p h => ⟨p, h, Aged.refl p⟩
  | step _ h' ih =>
    intro t p hp
    obtain ⟨q, hq, ha⟩ := ih t p hp
    obtain ⟨x, hx, hb⟩ := aged_step h' t q hq
    exact ⟨x, hx, hb.call.trans ha.call, fun r h => hb.res r (ha.res r h), fun h => hb.returned (ha.returned h)⟩

theorem AMap.Run.single [DecidableEq V] {m m' : AMap V A} {ev : Event V A} (h : AMap.Run m [ev] m') : ∃ m1 m2, AMap.Run m [] m1 ∧ AMap.Step m1 (some ev) m2 ∧ AMap.Run m2 [] m' := by
  generalize he : [ev] = evs at h
  induction h with
  | nil => cases he
  | @step m1 m2 evs e h h' ih =>
    cases e with
    | none =>
      simp only [Option.toList, List.append_nil] at he
      obtain ⟨x, y, h1, h2, h3⟩ := ih he
      exact ⟨x, y, h1, h2, .step (e := none) h3 h'⟩
    | some ev' =>
      have : evs = [] ∧ ev = ev' := by
        rcases evs with _ | ⟨a, _ | ⟨b, l⟩⟩ <;> simp_all [Option.toList]
      obtain ⟨e1, e2⟩ := this
      subst e1; subst e2
      exact ⟨m1, m2, h, h', .nil⟩

/-- A create that has returned has acted. -/
theorem ret_created [DecidableEq V] {m : AMap V A} {evs : List (Event V A)} {t id : Nat} (h : AMap.Run AMap.init evs m) (he : Event.ret t (.created id) ∈ evs) :
    ∃ p, m.calls[t]? = some p ∧ p.res = some (.created id) := by
  obtain ⟨l, k, e⟩ := List.append_of_mem he
  obtain ⟨m1, h1, h2⟩ := h.split e
  obtain ⟨m2, h3, h4⟩ := h2.split (l := [Event.ret t (.created id)]) (k := k) rfl
  obtain ⟨x, y, _, hs, h5⟩ := h3.single
  cases hs with
  | ret t p r hp hr hm hres =>
    have hres' : p.res = some (.created id) := by
      rcases hres with h | ⟨_, _, h⟩
      · exact h
      · cases h
    obtain ⟨q, hq, ha⟩ := aged_run (h5.trans h4) t { p with returned := true } (by
      rw [List.getElem?_set, if_pos rfl, if_pos (List.getElem?_eq_some_iff.1 hp).1])
    exact ⟨q, hq, ha.res _ hres'⟩

/-- Finds made when the item was already there do not miss it. -/
def Seen (m : AMap V A) (n : Nat) (kvs : KVs V) (e : Entry A) : Prop :=
  m.stored kvs = some e ∧ ∀ (t : Nat) (p : Pend V A), n ≤ t → m.calls[t]? = some p → p.call = .find kvs → p.missed = false

theorem Seen.step [DecidableEq V] {m m' : AMap V A} {cs : List (Call V A)} {n : Nat} {kvs : KVs V} {x : Entry A} {e : Option (Event V A)} (hk : Kept m cs) (hs : Seen m n kvs x)
    (h : AMap.Step m e m') (hc : ∀ c, e = some (.call c) → c.removes = false) : Seen m' n kvs x := by
  obtain ⟨hk', hst⟩ := hk.step h hc
  refine ⟨hst _ _ hs.1, ?_⟩
  have see : ∀ {l : List (Pend V A)} {m1 : AMap V A}, m1.closing = [] → m1.stored kvs = some x → m1.calls = l →
      (∀ (t : Nat) (p : Pend V A), n ≤ t → l[t]? = some p → p.call = .find kvs → p.missed = false) →
      ∀ (t : Nat) (p : Pend V A), n ≤ t → m1.see.calls[t]? = some p → p.call = .find kvs → p.missed = false := by
    intro l m1 h1 h2 h3 h4 t p ht hp hcall
    obtain ⟨q, hq, e1, _, _, e2⟩ := see_calls_get hp
    rw [h3] at hq
    rw [e1] at hcall
    cases hpm : p.missed with
    | false => rfl
    | true =>
      rcases e2 hpm with h5 | h5
      · rw [h4 t q ht hq hcall] at h5; cases h5
      · rw [hcall] at h5
        simp only [AMap.misses, live_eq h1, h2] at h5
        cases h5
  have set : ∀ {t0 : Nat} {p0 y : Pend V A}, m.calls[t0]? = some p0 → y.call = p0.call → y.missed = p0.missed →
      ∀ (t : Nat) (p : Pend V A), n ≤ t → (m.calls.set t0 y)[t]? = some p → p.call = .find kvs → p.missed = false := by
    intro t0 p0 y h0 e1 e2 t p ht hp hcall
    rcases pget_set h0 hp with ⟨e3, e4⟩ | ⟨_, hp⟩
    · subst e3; subst e4
      rw [e2]; exact hs.2 t p0 ht h0 (e1 ▸ hcall)
    · exact hs.2 t p ht hp hcall
  cases h with
  | call c =>
    intro t p ht hp hcall
    simp only at hp
    rw [List.getElem?_append] at hp
    split at hp
    · exact hs.2 t p ht hp hcall
    · rw [List.getElem?_singleton] at hp
      split at hp
      · cases hp
        simp only at hcall ⊢
        subst hcall
        simp [AMap.misses, live_eq hk.closing, hs.1]
      · cases hp
  | @act m1 r t p hp hres ha =>
    exact see (m1 := { m1 with calls := m.calls.set t { p with res := some r } }) hk'.closing (hst _ _ hs.1) rfl (set hp rfl rfl)
  | mark t p id can hp hcall =>
    have := hk.keeps p (List.mem_of_getElem? hp)
    rw [hcall] at this; cases this
  | unmark t p id can hp hcall =>
    have := hk.keeps p (List.mem_of_getElem? hp)
    rw [hcall] at this; cases this
  | ret t p r hp => exact set hp rfl rfl

theorem Seen.run [DecidableEq V] {m m' : AMap V A} {cs : List (Call V A)} {n : Nat} {kvs : KVs V} {x : Entry A} {evs : List (Event V A)} (hk : Kept m cs) (hs : Seen m n kvs x)
    (h : AMap.Run m evs m') (hc : ∀ c ∈ callsOf evs, c.removes = false) : Seen m' n kvs x := by
  induction h with
  | nil => exact hs
  | @step m1 m2 evs e h h' ih =>
    rw [callsOf_append] at hc
    have hc1 := fun c hc' => hc c (List.mem_append_left _ hc')
    exact (ih hc1).step (hk.run h hc1).1 h' (fun c e' => hc c (List.mem_append_right _ (by rw [e']; simp [callsOf])))

theorem created_once [DecidableEq V] {m : AMap V A} {evs : List (Event V A)} (h : AMap.Run AMap.init evs m) (hc : ∀ c ∈ callsOf evs, c.removes = false) {t u i j : Nat} {c d : Call V A}
    (ht : (callsOf evs)[t]? = some c) (hu : (callsOf evs)[u]? = some d) (hk : c.kvs = d.kvs) (hr : Event.ret t (.created i) ∈ evs) (hr' : Event.ret u (.created j) ∈ evs) : t = u := by
  have k := (Kept.init.run h hc).1
  rw [List.nil_append] at k
  obtain ⟨p, hp, e1⟩ := ret_created h hr
  obtain ⟨q, hq, e2⟩ := ret_created h hr'
  refine k.once t u p q i j hp hq e1 e2 ?_
  have f1 : p.call = c := by
    have := k.calls
    rw [← this, List.getElem?_map, hp] at ht
    exact Option.some.inj ht
  have f2 : q.call = d := by
    have := k.calls
    rw [← this, List.getElem?_map, hq] at hu
    exact Option.some.inj hu
  rw [f1, f2]; exact hk

theorem find_created [DecidableEq V] {m : AMap V A} {l k : List (Event V A)} {t id u : Nat} {c : Call V A} {r : Res A} (h : AMap.Run AMap.init (l ++ Event.ret t (.created id) :: k) m)
    (hc : ∀ c ∈ callsOf (l ++ Event.ret t (.created id) :: k), c.removes = false) (ht : (callsOf l)[t]? = some c)
    (hu : (callsOf k)[u]? = some (.find c.kvs)) (hr : Event.ret ((callsOf l).length + u) r ∈ k) :
    ∃ a, r = .found id a ∧ (c = .create c.kvs a ∨ c = .createOrFind c.kvs a) := by
  rw [callsOf_append] at hc
  have hcl := fun c h' => hc c (List.mem_append_left _ h')
  have hck : ∀ c ∈ callsOf k, c.removes = false := fun c h' => hc c (List.mem_append_right _ h')
  have h' : AMap.Run AMap.init ((l ++ [Event.ret t (.created id)]) ++ k) m := by simpa using h
  obtain ⟨m1, h1, h2⟩ := h'.split rfl
  have hco : callsOf (l ++ [Event.ret t (.created id)]) = callsOf l := by rw [callsOf_append]; simp [callsOf]
  have k1 := (Kept.init.run h1 (by rw [hco]; exact hcl)).1
  rw [hco, List.nil_append] at k1
  obtain ⟨p, hp, e1⟩ := ret_created h1 (by simp : Event.ret t (.created id) ∈ l ++ [Event.ret t (.created id)])
  have f1 : p.call = c := by
    have := k1.calls
    rw [← this, List.getElem?_map, hp] at ht
    exact Option.some.inj ht
  obtain ⟨a, h3, h4⟩ := k1.made t p id hp e1
  rw [f1] at h3 h4
  have hlen : m1.calls.length = (callsOf l).length := by rw [← k1.calls, List.length_map]
  have s1 : Seen m1 (callsOf l).length c.kvs ⟨id, a⟩ := by
    refine ⟨h3, ?_⟩
    intro v q hv hq
    have := (List.getElem?_eq_some_iff.1 hq).1
    omega
  obtain ⟨k', k'', e⟩ := List.append_of_mem hr
  rw [e] at h2
  obtain ⟨m2, h5, h6⟩ := h2.split (l := k') (k := Event.ret ((callsOf l).length + u) r :: k'') rfl
  obtain ⟨m3, h7, h8⟩ := h6.split (l := [Event.ret ((callsOf l).length + u) r]) (k := k'') rfl
  obtain ⟨x, y, h9, hs, _⟩ := h7.single
  have h10 := h5.trans h9
  rw [List.append_nil] at h10
  have hck' : ∀ c ∈ callsOf k', c.removes = false := by
    intro c h'
    refine hck c ?_
    rw [e, callsOf_append]; exact List.mem_append_left _ h'
  have k2 := (k1.run h10 hck').1
  have s2 := s1.run k1 h10 hck'
  cases hs with
  | ret v q r hq hret hm hres =>
    have hcall : q.call = .find c.kvs := by
      have e2 := k2.calls
      have e3 : (x.calls.map Pend.call)[(callsOf l).length + u]? = some q.call := by rw [List.getElem?_map, hq]; rfl
      rw [e2, List.getElem?_append_right (Nat.le_add_right _ _)] at e3
      rw [e, callsOf_append] at hu
      have e4 : (callsOf l).length + u - (callsOf l).length = u := by omega
      rw [e4] at e3
      have e5 := (List.getElem?_eq_some_iff.1 e3).1
      rw [List.getElem?_append_left e5, e3] at hu
      exact Option.some.inj hu
    rcases hres with hres | ⟨_, hmiss, _⟩
    · obtain ⟨i, b, e6⟩ := k2.finds _ q c.kvs r hq hcall hres
      subst e6
      have := k2.found _ q c.kvs i b hq hcall hres
      rw [s2.1] at this; cases this
      exact ⟨a, rfl, h4⟩
    · rw [s2.2 _ q (Nat.le_add_right _ _) hq hcall] at hmiss; cases hmiss

/-! ### Items in the histories of the map -/

theorem Asked.more {cs ds : List (Call V A)} {kvs : KVs V} {a : A} (h : Asked cs kvs a) : Asked (cs ++ ds) kvs a :=
  h.imp (List.mem_append_left _) (List.mem_append_left _)

/-- What is known about items and results. -/
structure Sane (m : AMap V A) (cs : List (Call V A)) : Prop where
  calls : m.calls.map Pend.call = cs
  inj : ∀ k id a, m.stored k = some ⟨id, a⟩ → id ∈ m.used ∧ (∀ k' a', m.stored k' = some ⟨id, a'⟩ → k' = k) ∧ Asked cs k a
  gone : ∀ (t : Nat) (p : Pend V A) id, m.calls[t]? = some p → p.res = some (.removed id) → id ∈ m.used ∧ ∀ k a, m.stored k ≠ some ⟨id, a⟩
  one : ∀ (t u : Nat) (p q : Pend V A) id, m.calls[t]? = some p → m.calls[u]? = some q → p.res = some (.removed id) → q.res = some (.removed id) → t = u
  found : ∀ (t : Nat) (p : Pend V A) id a, m.calls[t]? = some p → p.res = some (.found id a) → Asked cs p.call.kvs a
  plain : ∀ (t : Nat) (p : Pend V A) r, m.calls[t]? = some p → p.res = some r → r.plain = true

theorem Sane.init : Sane (AMap.init : AMap V A) [] := by
  refine ⟨rfl, ?_, ?_, ?_, ?_, ?_⟩ <;> simp [AMap.init]

/-- What one action does to the items. -/
theorem act_items [DecidableEq V] {m m' : AMap V A} {cs : List (Call V A)} {c : Call V A} {b : Bool} {r : Res A} (hs : Sane m cs) (hc : c ∈ cs) (ha : AMap.Act m c b m' r) :
    (∀ k id a, m'.stored k = some ⟨id, a⟩ → id ∈ m'.used ∧ (∀ k' a', m'.stored k' = some ⟨id, a'⟩ → k' = k) ∧ Asked cs k a) ∧
    (∀ id ∈ m.used, id ∈ m'.used) ∧ (∀ k id a, id ∈ m.used → m'.stored k = some ⟨id, a⟩ → m.stored k = some ⟨id, a⟩) ∧
    (∀ id, r = .removed id → id ∈ m.used ∧ (∃ k a, m.stored k = some ⟨id, a⟩) ∧ ∀ k a, m'.stored k ≠ some ⟨id, a⟩) ∧
    (∀ id a, r = .found id a → Asked cs c.kvs a) ∧ r.plain = true := by
  have same : m' = m → (∀ id, r ≠ .removed id) → (∀ id a, r = .found id a → m.stored c.kvs = some ⟨id, a⟩) → r.plain = true → _ := fun e h1 h2 h3 =>
    (show (∀ k id a, m'.stored k = some ⟨id, a⟩ → id ∈ m'.used ∧ (∀ k' a', m'.stored k' = some ⟨id, a'⟩ → k' = k) ∧ Asked cs k a) ∧
    (∀ id ∈ m.used, id ∈ m'.used) ∧ (∀ k id a, id ∈ m.used → m'.stored k = some ⟨id, a⟩ → m.stored k = some ⟨id, a⟩) ∧
    (∀ id, r = .removed id → id ∈ m.used ∧ (∃ k a, m.stored k = some ⟨id, a⟩) ∧ ∀ k a, m'.stored k ≠ some ⟨id, a⟩) ∧
    (∀ id a, r = .found id a → Asked cs c.kvs a) ∧ r.plain = true from
      ⟨e ▸ hs.inj, e ▸ fun _ h => h, e ▸ fun _ _ _ _ h => h, fun id e => absurd e (h1 id), fun id a e => (hs.inj _ _ _ (h2 id a e)).2.2, h3⟩)
  have live : ∀ {k : KVs V} {e : Entry A}, m.live k = some e → m.stored k = some e := by
    intro k e h
    unfold AMap.live at h
    split at h
    · split at h
      · cases h
      · cases h; assumption
    · cases h
  have put : ∀ {k0 : KVs V} {a0 : A} {id0 : Nat}, id0 ∉ m.used → Asked cs k0 a0 → m' = { m.put k0 (some ⟨id0, a0⟩) with used := id0 :: m.used } → r = .created id0 →
      (∀ k id a, m'.stored k = some ⟨id, a⟩ → id ∈ m'.used ∧ (∀ k' a', m'.stored k' = some ⟨id, a'⟩ → k' = k) ∧ Asked cs k a) ∧
    (∀ id ∈ m.used, id ∈ m'.used) ∧ (∀ k id a, id ∈ m.used → m'.stored k = some ⟨id, a⟩ → m.stored k = some ⟨id, a⟩) ∧
    (∀ id, r = .removed id → id ∈ m.used ∧ (∃ k a, m.stored k = some ⟨id, a⟩) ∧ ∀ k a, m'.stored k ≠ some ⟨id, a⟩) ∧
    (∀ id a, r = .found id a → Asked cs c.kvs a) ∧ r.plain = true := by
    intro k0 a0 id0 hid hask e er
    subst e; subst er
    have key : ∀ k id a, (if k = k0 then some ⟨id0, a0⟩ else m.stored k) = some (⟨id, a⟩ : Entry A) → (k = k0 ∧ id = id0 ∧ a = a0) ∨ (k ≠ k0 ∧ m.stored k = some ⟨id, a⟩ ∧ id ≠ id0) := by
      intro k id a h
      by_cases e : k = k0
      · rw [if_pos e] at h; cases h; exact Or.inl ⟨e, rfl, rfl⟩
      · rw [if_neg e] at h
        refine Or.inr ⟨e, h, ?_⟩
        intro e'; rw [e'] at h; exact hid (hs.inj _ _ _ h).1
    refine ⟨?_, fun _ h => List.mem_cons_of_mem _ h, ?_, nofun, nofun, rfl⟩
    · intro k id a h
      rcases key k id a h with ⟨e1, e2, e3⟩ | ⟨e1, h2, e2⟩
      · subst e1; subst e2; subst e3
        refine ⟨List.mem_cons_self, ?_, hask⟩
        intro k' a' h'
        rcases key k' id a' h' with ⟨e1, _, _⟩ | ⟨_, _, e2⟩
        · exact e1
        · exact absurd rfl e2
      · obtain ⟨i1, i2, i3⟩ := hs.inj _ _ _ h2
        refine ⟨List.mem_cons_of_mem _ i1, ?_, i3⟩
        intro k' a' h'
        rcases key k' id a' h' with ⟨_, e3, _⟩ | ⟨_, h3, _⟩
        · exact absurd e3 e2
        · exact i2 k' a' h3
    · intro k id a hu h
      rcases key k id a h with ⟨_, e2, _⟩ | ⟨_, h2, _⟩
      · rw [e2] at hu; exact absurd hu hid
      · exact h2
  have del : ∀ {k0 : KVs V} {a0 : A} {id0 : Nat}, m.stored k0 = some ⟨id0, a0⟩ → m' = m.put k0 none → r = .removed id0 →
      (∀ k id a, m'.stored k = some ⟨id, a⟩ → id ∈ m'.used ∧ (∀ k' a', m'.stored k' = some ⟨id, a'⟩ → k' = k) ∧ Asked cs k a) ∧
    (∀ id ∈ m.used, id ∈ m'.used) ∧ (∀ k id a, id ∈ m.used → m'.stored k = some ⟨id, a⟩ → m.stored k = some ⟨id, a⟩) ∧
    (∀ id, r = .removed id → id ∈ m.used ∧ (∃ k a, m.stored k = some ⟨id, a⟩) ∧ ∀ k a, m'.stored k ≠ some ⟨id, a⟩) ∧
    (∀ id a, r = .found id a → Asked cs c.kvs a) ∧ r.plain = true := by
    intro k0 a0 id0 h0 e er
    subst e; subst er
    have key : ∀ k id a, (if k = k0 then none else m.stored k) = some (⟨id, a⟩ : Entry A) → k ≠ k0 ∧ m.stored k = some ⟨id, a⟩ := by
      intro k id a h
      by_cases e : k = k0
      · rw [if_pos e] at h; cases h
      · rw [if_neg e] at h; exact ⟨e, h⟩
    refine ⟨?_, fun _ h => h, fun k id a _ h => (key k id a h).2, ?_, nofun, rfl⟩
    · intro k id a h
      obtain ⟨i1, i2, i3⟩ := hs.inj _ _ _ (key k id a h).2
      exact ⟨i1, fun k' a' h' => i2 k' a' (key k' id a' h').2, i3⟩
    · intro id e; cases e
      obtain ⟨i1, i2, _⟩ := hs.inj _ _ _ h0
      refine ⟨i1, ⟨k0, a0, h0⟩, ?_⟩
      intro k a h
      obtain ⟨h1, h2⟩ := key k id0 a h
      exact h1 (i2 k a h2)
  cases ha with
  | created h hid => exact put hid (Or.inl hc) rfl rfl
  | created' h hid => exact put hid (Or.inr hc) rfl rfl
  | «exists» h => exact same rfl nofun nofun rfl
  | @found' kvs a e h => exact same rfl nofun (fun id a e' => by cases e'; exact live h) rfl
  | closing' h hcl => exact same rfl nofun nofun rfl
  | @found kvs e h => exact same rfl nofun (fun id a e' => by cases e'; exact live h) rfl
  | @removed kvs can e h hcan => exact del (a0 := e.val) (live h) rfl rfl
  | refused h hcan => exact same rfl nofun nofun rfl
  | closing h hcl => exact same rfl nofun nofun rfl
  | taken h => exact same rfl nofun nofun rfl
  | destroyed h hcan => exact del h rfl rfl
  | kept h hcan => exact same rfl nofun nofun rfl
  | unknown h => exact same rfl nofun nofun rfl

theorem Sane.congr {m m' : AMap V A} {cs : List (Call V A)} (hs : Sane m cs) (h1 : m'.stored = m.stored) (h2 : m'.used = m.used) (hc : m'.calls.map Pend.call = cs)
    (h3 : ∀ (t : Nat) (p : Pend V A) r, m'.calls[t]? = some p → p.res = some r → ∃ q, m.calls[t]? = some q ∧ q.call = p.call ∧ q.res = some r) : Sane m' cs := by
  refine ⟨hc, ?_, ?_, ?_, ?_, ?_⟩
  · rw [h1, h2]; exact hs.inj
  · intro t p id hp hr
    obtain ⟨q, hq, _, e⟩ := h3 t p _ hp hr
    rw [h1, h2]; exact hs.gone t q id hq e
  · intro t u p q id hp hq hr hr'
    obtain ⟨x, hx, _, e⟩ := h3 t p _ hp hr
    obtain ⟨y, hy, _, e'⟩ := h3 u q _ hq hr'
    exact hs.one t u x y id hx hy e e'
  · intro t p id a hp hr
    obtain ⟨q, hq, e1, e⟩ := h3 t p _ hp hr
    rw [← e1]; exact hs.found t q id a hq e
  · intro t p r hp hr
    obtain ⟨q, hq, _, e⟩ := h3 t p _ hp hr
    exact hs.plain t q r hq e

theorem Sane.step [DecidableEq V] {m m' : AMap V A} {cs : List (Call V A)} {e : Option (Event V A)} (hs : Sane m cs) (h : AMap.Step m e m') : Sane m' (cs ++ callsOf e.toList) := by
  cases h with
  | call c =>
    have old : ∀ (t : Nat) (p : Pend V A) r, (m.calls ++ [⟨c, m.misses c, false, none, false⟩])[t]? = some p → p.res = some r → m.calls[t]? = some p := by
      intro t p r hp hr
      rw [List.getElem?_append] at hp
      split at hp
      · exact hp
      · rw [List.getElem?_singleton] at hp; split at hp <;> cases hp; cases hr
    refine ⟨by simp [hs.calls, callsOf], ?_, ?_, ?_, ?_, ?_⟩
    · intro k id a h
      obtain ⟨i1, i2, i3⟩ := hs.inj k id a h
      exact ⟨i1, i2, i3.more⟩
    · intro t p id hp hr; exact hs.gone t p id (old t p _ hp hr) hr
    · intro t u p q id hp hq hr hr'; exact hs.one t u p q id (old t p _ hp hr) (old u q _ hq hr') hr hr'
    · intro t p id a hp hr; exact (hs.found t p id a (old t p _ hp hr) hr).more
    · intro t p r hp hr; exact hs.plain t p r (old t p _ hp hr) hr
  | @act m1 r t p hp hres ha =>
    have hcs : p.call ∈ cs := by rw [← hs.calls]; exact List.mem_map.2 ⟨p, List.mem_of_getElem? hp, rfl⟩
    obtain ⟨k1, k2, k3, k4, k5, k6⟩ := act_items hs hcs ha
    have split : ∀ (u : Nat) (q : Pend V A) r', ({ m1 with calls := m.calls.set t { p with res := some r } }.see).calls[u]? = some q → q.res = some r' →
        (u = t ∧ r' = r ∧ q.call = p.call) ∨ (u ≠ t ∧ ∃ x, m.calls[u]? = some x ∧ x.call = q.call ∧ x.res = some r') := by
      intro u q r' hq hr
      obtain ⟨x, hx, e1, e2, _⟩ := see_calls_get hq
      rw [e2] at hr
      rcases pget_set hp hx with ⟨e3, e4⟩ | ⟨e3, hx⟩
      · subst e4; left; simp only [Option.some.injEq] at hr; exact ⟨e3, hr.symm, e1⟩
      · exact Or.inr ⟨e3, x, hx, e1.symm, hr⟩
    simp only [Option.toList, callsOf, List.append_nil]
    refine ⟨?_, k1, ?_, ?_, ?_, ?_⟩
    · rw [see_calls]; simp only; rw [map_set_call hp]
      · exact hs.calls
      · rfl
    · intro u q id hq hr
      rcases split u q _ hq hr with ⟨_, e, _⟩ | ⟨_, x, hx, _, e⟩
      · obtain ⟨i1, _, i3⟩ := k4 id e.symm
        exact ⟨k2 _ i1, i3⟩
      · obtain ⟨i1, i2⟩ := hs.gone u x id hx e
        exact ⟨k2 _ i1, fun k a h => i2 k a (k3 k id a i1 h)⟩
    · intro u v q q' id hq hq' hr hr'
      rcases split u q _ hq hr with ⟨e1, e, _⟩ | ⟨_, x, hx, _, e⟩ <;> rcases split v q' _ hq' hr' with ⟨f1, f, _⟩ | ⟨_, y, hy, _, f⟩
      · rw [e1, f1]
      · exfalso
        obtain ⟨_, ⟨k, a, h⟩, _⟩ := k4 id e.symm
        exact (hs.gone v y id hy f).2 k a h
      · exfalso
        obtain ⟨_, ⟨k, a, h⟩, _⟩ := k4 id f.symm
        exact (hs.gone u x id hx e).2 k a h
      · exact hs.one u v x y id hx hy e f
    · intro u q id a hq hr
      rcases split u q _ hq hr with ⟨_, e, e'⟩ | ⟨_, x, hx, e', e⟩
      · rw [e']; exact k5 id a e.symm
      · rw [← e']; exact hs.found u x id a hx e
    · intro u q r' hq hr
      rcases split u q _ hq hr with ⟨_, e, _⟩ | ⟨_, x, hx, _, e⟩
      · rw [e]; exact k6
      · exact hs.plain u x r' hx e
  | mark t p id can hp hcall hr hm hid =>
    simp only [Option.toList, callsOf, List.append_nil]
    refine hs.congr rfl rfl ?_ ?_
    · rw [see_calls]; simp only; rw [map_set_call hp]
      · exact hs.calls
      · rfl
    · intro u q r hq hr'
      obtain ⟨x, hx, e1, e2, _⟩ := see_calls_get hq
      rw [e2] at hr'
      rcases pget_set hp hx with ⟨e3, e4⟩ | ⟨_, hx⟩
      · subst e3; subst e4; exact ⟨p, hp, e1.symm, hr'⟩
      · exact ⟨x, hx, e1.symm, hr'⟩
  | unmark t p id can hp hcall hr hm =>
    simp only [Option.toList, callsOf, List.append_nil]
    refine hs.congr rfl rfl ?_ ?_
    · rw [see_calls]; simp only; rw [map_set_call hp]
      · exact hs.calls
      · rfl
    · intro u q r hq hr'
      obtain ⟨x, hx, e1, e2, _⟩ := see_calls_get hq
      rw [e2] at hr'
      rcases pget_set hp hx with ⟨e3, e4⟩ | ⟨_, hx⟩
      · subst e3; subst e4; exact ⟨p, hp, e1.symm, hr'⟩
      · exact ⟨x, hx, e1.symm, hr'⟩
  | ret t p r hp hr hm hres =>
    simp only [Option.toList, callsOf, List.append_nil]
    refine hs.congr rfl rfl ?_ ?_
    · simp only; rw [map_set_call hp]
      · exact hs.calls
      · rfl
    · intro u q r hq hr'
      rcases pget_set hp hq with ⟨e3, e4⟩ | ⟨_, hx⟩
      · subst e3; subst e4; exact ⟨p, hp, rfl, hr'⟩
      · exact ⟨q, hx, rfl, hr'⟩

theorem Sane.run [DecidableEq V] {m m' : AMap V A} {cs : List (Call V A)} {evs : List (Event V A)} (hs : Sane m cs) (h : AMap.Run m evs m') : Sane m' (cs ++ callsOf evs) := by
  induction h with
  | nil => simp only [callsOf, List.append_nil]; exact hs
  | step _ h' ih => rw [callsOf_append, ← List.append_assoc]; exact ih.step h'

/-- A call that has returned has acted, or found nothing. -/
theorem ret_acted [DecidableEq V] {m : AMap V A} {evs : List (Event V A)} {t : Nat} {r : Res A} (h : AMap.Run AMap.init evs m) (he : Event.ret t r ∈ evs) :
    r = .nothing ∨ ∃ p, m.calls[t]? = some p ∧ p.res = some r := by
  obtain ⟨l, k, e⟩ := List.append_of_mem he
  obtain ⟨m1, h1, h2⟩ := h.split e
  obtain ⟨m2, h3, h4⟩ := h2.split (l := [Event.ret t r]) (k := k) rfl
  obtain ⟨x, y, _, hs, h5⟩ := h3.single
  cases hs with
  | ret t p r hp hr hm hres =>
    rcases hres with hres | ⟨_, _, h⟩
    · obtain ⟨q, hq, ha⟩ := aged_run (h5.trans h4) t { p with returned := true } (by
        rw [List.getElem?_set, if_pos rfl, if_pos (List.getElem?_eq_some_iff.1 hp).1])
      exact Or.inr ⟨q, hq, ha.res _ hres⟩
    · exact Or.inl h

/-- The ids of items are all different. -/
structure News (m : AMap V A) : Prop where
  used : ∀ (t : Nat) (p : Pend V A) id, m.calls[t]? = some p → p.res = some (.created id) → id ∈ m.used
  one : ∀ (t u : Nat) (p q : Pend V A) id, m.calls[t]? = some p → m.calls[u]? = some q → p.res = some (.created id) → q.res = some (.created id) → t = u

theorem News.init : News (AMap.init : AMap V A) := by
  refine ⟨?_, ?_⟩ <;> simp [AMap.init]

theorem act_used [DecidableEq V] {m m' : AMap V A} {c : Call V A} {b : Bool} {r : Res A} (ha : AMap.Act m c b m' r) :
    (∀ id ∈ m.used, id ∈ m'.used) ∧ ∀ id, r = .created id → id ∉ m.used ∧ id ∈ m'.used := by
  cases ha with
  | created h hid => exact ⟨fun _ h => List.mem_cons_of_mem _ h, fun id e => by cases e; exact ⟨hid, List.mem_cons_self⟩⟩
  | created' h hid => exact ⟨fun _ h => List.mem_cons_of_mem _ h, fun id e => by cases e; exact ⟨hid, List.mem_cons_self⟩⟩
  | _ => exact ⟨fun _ h => h, nofun⟩

theorem News.congr {m m' : AMap V A} (hs : News m) (h2 : m'.used = m.used)
    (h3 : ∀ (t : Nat) (p : Pend V A) r, m'.calls[t]? = some p → p.res = some r → ∃ q, m.calls[t]? = some q ∧ q.res = some r) : News m' := by
  refine ⟨?_, ?_⟩
  · intro t p id hp hr
    obtain ⟨q, hq, e⟩ := h3 t p _ hp hr
    rw [h2]; exact hs.used t q id hq e
  · intro t u p q id hp hq hr hr'
    obtain ⟨x, hx, e⟩ := h3 t p _ hp hr
    obtain ⟨y, hy, e'⟩ := h3 u q _ hq hr'
    exact hs.one t u x y id hx hy e e'

theorem News.step [DecidableEq V] {m m' : AMap V A} {e : Option (Event V A)} (hs : News m) (h : AMap.Step m e m') : News m' := by
  have seen : ∀ {x : AMap V A} {t : Nat} {p y : Pend V A}, m.calls[t]? = some p → y.res = p.res → x.calls = m.calls.set t y →
      ∀ (u : Nat) (q : Pend V A) r, x.see.calls[u]? = some q → q.res = some r → ∃ q, m.calls[u]? = some q ∧ q.res = some r := by
    intro x t p y hp hy hx u q r hq hr'
    obtain ⟨z, hz, e1, e2, _⟩ := see_calls_get hq
    rw [e2] at hr'
    rw [hx] at hz
    rcases pget_set hp hz with ⟨e3, e4⟩ | ⟨_, hz⟩
    · rw [e4, hy] at hr'; rw [e3]; exact ⟨p, hp, hr'⟩
    · exact ⟨z, hz, hr'⟩
  cases h with
  | call c =>
    refine hs.congr rfl ?_
    intro t p r hp hr
    simp only at hp
    rw [List.getElem?_append] at hp
    split at hp
    · exact ⟨p, hp, hr⟩
    · rw [List.getElem?_singleton] at hp; split at hp <;> cases hp; cases hr
  | @act m1 r t p hp hres ha =>
    obtain ⟨k1, k2⟩ := act_used ha
    have split : ∀ (u : Nat) (q : Pend V A) r', ({ m1 with calls := m.calls.set t { p with res := some r } }.see).calls[u]? = some q → q.res = some r' →
        (u = t ∧ r' = r) ∨ (u ≠ t ∧ ∃ x, m.calls[u]? = some x ∧ x.res = some r') := by
      intro u q r' hq hr
      obtain ⟨x, hx, e1, e2, _⟩ := see_calls_get hq
      rw [e2] at hr
      rcases pget_set hp hx with ⟨e3, e4⟩ | ⟨e3, hx⟩
      · subst e4; left; simp only [Option.some.injEq] at hr; exact ⟨e3, hr.symm⟩
      · exact Or.inr ⟨e3, x, hx, hr⟩
    refine ⟨?_, ?_⟩
    · intro u q id hq hr
      rcases split u q _ hq hr with ⟨_, e⟩ | ⟨_, x, hx, e⟩
      · exact (k2 id e.symm).2
      · exact k1 _ (hs.used u x id hx e)
    · intro u v q q' id hq hq' hr hr'
      rcases split u q _ hq hr with ⟨e1, e⟩ | ⟨_, x, hx, e⟩ <;> rcases split v q' _ hq' hr' with ⟨f1, f⟩ | ⟨_, y, hy, f⟩
      · rw [e1, f1]
      · exact absurd (hs.used v y id hy f) (k2 id e.symm).1
      · exact absurd (hs.used u x id hx e) (k2 id f.symm).1
      · exact hs.one u v x y id hx hy e f
  | mark t p id can hp hcall hr hm hid => exact hs.congr rfl (seen (y := { p with marked := true }) hp rfl rfl)
  | unmark t p id can hp hcall hr hm => exact hs.congr rfl (seen (y := { p with marked := false }) hp rfl rfl)
  | ret t p r hp hr hm hres =>
    refine hs.congr rfl ?_
    intro u q r hq hr'
    rcases pget_set hp hq with ⟨e3, e4⟩ | ⟨_, hx⟩
    · subst e3; subst e4; exact ⟨p, hp, hr'⟩
    · exact ⟨q, hx, hr'⟩

theorem News.run [DecidableEq V] {m m' : AMap V A} {evs : List (Event V A)} (hs : News m) (h : AMap.Run m evs m') : News m' := by
  induction h with
  | nil => exact hs
  | step _ h' ih => exact ih.step h'

/-! ### Runs as scripts -/

/-- What happens next. -/
inductive Op (V A : Type) where
  | call (c : Call V A)
  | go (t pick : Nat)
  | ret (t : Nat)

/-- Run a script. -/
def exec [DecidableEq V] (blocks : (Nat → Option (Item V A)) → Nat → Nat → Bool) : List (Op V A) → St V A → Option (St V A × List (Event V A))
  | [], s => some (s, [])
  | .call c :: ops, s => (exec blocks ops { s with threads := s.threads ++ [⟨c, start c, false⟩] }).map fun x => (x.1, .call c :: x.2)
  | .go t pick :: ops, s => s.threads[t]?.bind fun th => (next blocks s t pick th).bind fun s' => exec blocks ops s'
  | .ret t :: ops, s => s.threads[t]?.bind fun th => match th.returned, th.phase with
    | false, .done r _ => (exec blocks ops { s with threads := s.threads.set t { th with returned := true } }).map fun x => (x.1, .ret t r :: x.2)
    | _, _ => none

theorem exec_run [DecidableEq V] {blocks : (Nat → Option (Item V A)) → Nat → Nat → Bool} : ∀ {ops : List (Op V A)} {s0 s s' : St V A} {evs evs' : List (Event V A)},
    exec blocks ops s = some (s', evs') → (∀ c, Op.call c ∈ ops → c.ok) → Run blocks s0 evs s → Run blocks s0 (evs ++ evs') s'
  | [], s0, s, s', evs, evs', h, hc, hr => by
    simp only [exec, Option.some.injEq, Prod.mk.injEq] at h
    obtain ⟨e1, e2⟩ := h; subst e1; subst e2; rw [List.append_nil]; exact hr
  | .call c :: ops, s0, s, s', evs, evs', h, hc, hr => by
    simp only [exec, Option.map_eq_some_iff] at h
    obtain ⟨⟨x, l⟩, h1, h2⟩ := h
    cases h2
    have := exec_run h1 (fun c h => hc c (List.mem_cons_of_mem _ h)) (.step hr (.call c (hc c (by simp))))
    simpa using this
  | .go t pick :: ops, s0, s, s', evs, evs', h, hc, hr => by
    simp only [exec, Option.bind_eq_some_iff] at h
    obtain ⟨th, h1, s1, h2, h3⟩ := h
    have := exec_run h3 (fun c h => hc c (List.mem_cons_of_mem _ h)) (.step (e := none) hr (.go t pick th h1 h2))
    simpa using this
  | .ret t :: ops, s0, s, s', evs, evs', h, hc, hr => by
    simp only [exec, Option.bind_eq_some_iff] at h
    obtain ⟨th, h1, h2⟩ := h
    split at h2
    next r kept e1 e2 =>
      simp only [Option.map_eq_some_iff] at h2
      obtain ⟨⟨x, l⟩, h3, h4⟩ := h2
      cases h4
      have := exec_run h3 (fun c h => hc c (List.mem_cons_of_mem _ h)) (.step hr (.ret t th r kept h1 e1 e2))
      simpa using this
    · cases h2


end Willow.AssocConc
