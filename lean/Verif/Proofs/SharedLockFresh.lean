import Verif.Proofs.SharedLockRet
import Verif.Proofs.AssocConcGone
/-! Lock clients shared by goroutines: an ObtainLock that is called after a lock object was released does not return that lock object. -/
namespace Willow.SharedLock
open Willow.AssocConc (KVs Call Phase Thread Res callsOf rets set_cases set_self set_other append_cases append_old AMap Pend Sane)

variable {V : Type}

/-! ### A map without destructions: what Delete is told -/

/-- Nothing is being destroyed, and a Delete that is never refused is told neither that it was refused nor that the item is being destroyed. -/
def Plain {A : Type} (m : AMap V A) : Prop :=
  m.closing = [] ∧ ∀ (t : Nat) (p : Pend V A) kvs can, m.calls[t]? = some p → p.call = .delete kvs can → (∀ a, can a = true) → p.res ≠ some .refused ∧ p.res ≠ some .destroying

theorem Plain.step {A : Type} [DecidableEq V] {m m' : AMap V A} {cs : List (Call V A)} {e : Option (AssocConc.Event V A)} (hp : Plain m) (hs : Sane m cs) (hd : ∀ c ∈ cs, c.destroys = false)
    (h : AMap.Step m e m') : Plain m' := by
  refine ⟨?_, ?_⟩
  · have nope : ∀ {t : Nat} {p : Pend V A} {id can}, m.calls[t]? = some p → p.call = .destroy id can → False := by
      intro t p id can h1 h2
      have := hd p.call (by rw [← hs.calls]; exact List.mem_map.2 ⟨p, List.mem_of_getElem? h1, rfl⟩)
      rw [h2] at this; cases this
    cases h with
    | call c => exact hp.1
    | @act m1 r t p h1 hr ha =>
      show m1.closing = []
      rw [← hp.1]
      generalize p.call = c at ha
      generalize p.marked = b at ha
      cases ha <;> rfl
    | mark t p id can h1 hc => exact (nope h1 hc).elim
    | unmark t p id can h1 hc => exact (nope h1 hc).elim
    | ret => exact hp.1
  · intro t p kvs can h1 hc hcan
    have key : ∀ r, p.res = some r → r ≠ .refused ∧ r ≠ .destroying := by
      intro r hr
      rcases (AssocConc.step_does hs h).2.1 t p r h1 hr with ⟨x, hx, e1, e2⟩ | ⟨x, m1, hx, e1, ha, _⟩
      · have := hp.2 t x kvs can hx (e1.trans hc) hcan
        exact ⟨fun e => this.1 (by rw [e2, e]), fun e => this.2 (by rw [e2, e])⟩
      · rw [hc] at ha
        generalize x.marked = b at ha
        cases ha with
        | removed => exact ⟨nofun, nofun⟩
        | @refused _ _ en h0 hr' => rw [hcan] at hr'; cases hr'
        | closing h0 hcl => rw [hp.1] at hcl; cases hcl
    exact ⟨fun e => (key _ e).1 rfl, fun e => (key _ e).2 rfl⟩

theorem plain_run {A : Type} [DecidableEq V] {m : AMap V A} {evs : List (AssocConc.Event V A)} (h : AMap.Run AMap.init evs m) : (∀ c ∈ callsOf evs, c.destroys = false) → Plain m := by
  generalize h0 : (AMap.init : AMap V A) = m0 at h
  induction h with
  | nil => intro _; subst h0; exact ⟨rfl, fun t p kvs can hp => by simp [AMap.init] at hp⟩
  | @step m1 m2 evs e h1 h' ih =>
    subst h0
    intro hd
    have hd' : ∀ c ∈ callsOf evs, c.destroys = false := fun c hc => hd c (by rw [AssocConc.callsOf_append]; exact List.mem_append_left _ hc)
    have hs : Sane m1 (callsOf evs) := by have := Sane.init.run h1; rwa [List.nil_append] at this
    exact Plain.step (ih hd') hs hd' h'

/-! ### Every lock object has its own id -/

/-- The ObtainLock that made the lock object `o` was told that its item has this id. -/
def As (x : AssocConc.St V Nat) (o id : Nat) : Prop := ∃ th, x.threads[o]? = some th ∧ told th.phase = some (.created id)

theorem As.one {x : AssocConc.St V Nat} {o i j : Nat} (h : As x o i) (h' : As x o j) : i = j := by
  obtain ⟨th, h1, h2⟩ := h
  obtain ⟨y, h3, h4⟩ := h'
  rw [h1] at h3; cases h3
  rw [h2] at h4; cases h4; rfl

/-- Items are named by the ObtainLocks that made them. -/
structure TId (x : AssocConc.St V Nat) : Prop where
  items : ∀ id it, x.item id = some it → As x it.val id
  found : ∀ (t : Nat) (th : Thread V Nat) id a, x.threads[t]? = some th → told th.phase = some (.found id a) → As x a id

theorem TId.next [DecidableEq V] {x x' : AssocConc.St V Nat} {t pick : Nat} {th : Thread V Nat} (h : TId x) (hi : TInv x) (ht : x.threads[t]? = some th) (hn : AssocConc.next free x t pick th = some x') : TId x' := by
  obtain ⟨p', e1, d⟩ := next_did hn
  have keep : ∀ {o id : Nat}, As x o id → As x' o id := by
    rintro o id ⟨y, h1, h2⟩
    by_cases e : o = t
    · subst e; rw [ht] at h1; cases h1
      obtain ⟨kvs, hc⟩ := hi.creator o th id ht h2
      exact ⟨{ th with phase := p' }, by rw [e1]; exact set_self ht _, d.keeps kvs _ _ hc h2 nofun⟩
    · exact ⟨y, by rw [e1]; exact set_other ht _ e h1, h2⟩
  refine ⟨fun id it hit => ?_, fun u y id a hu e => ?_⟩
  · rcases d.item id it hit with h1 | ⟨⟨held, h1, h3⟩, h2⟩
    · exact keep (h.items id it h1)
    · rcases h2 with h2 | h2
      · exact absurd h2 ((hi.calls t th ht).2 _ _)
      · rw [hi.named t th _ _ ht h2]
        exact ⟨{ th with phase := p' }, by rw [e1]; exact set_self ht _, h3⟩
  · rw [e1] at hu
    rcases set_cases ht hu with ⟨_, e2⟩ | ⟨_, hu⟩
    · subst e2
      rcases d.found id a e with h1 | ⟨it, h1, h2⟩
      · exact keep (h.found t th id a ht h1)
      · have := h.items id it h1; rw [h2] at this; exact keep this
    · exact keep (h.found u y id a hu e)

theorem TId.begin {x : AssocConc.St V Nat} {c : Call V Nat} (h : TId x) : TId (begin x c) := by
  have keep : ∀ {o id : Nat}, As x o id → As (SharedLock.begin x c) o id := fun ⟨y, h1, h2⟩ => ⟨y, append_old h1, h2⟩
  refine ⟨fun id it hit => keep (h.items id it hit), fun u y id a hu e => ?_⟩
  rcases append_cases hu with ⟨_, e'⟩ | hu
  · subst e'; rw [show told (Thread.mk c (AssocConc.start c) false).phase = _ from start_told c] at e; cases e
  · exact keep (h.found u y id a hu e)

theorem TId.ret {x : AssocConc.St V Nat} {t : Nat} {th : Thread V Nat} (h : TId x) (ht : x.threads[t]? = some th) : TId (retd x t th) := by
  have keep : ∀ {o id : Nat}, As x o id → As (retd x t th) o id := by
    rintro o id ⟨y, h1, h2⟩
    by_cases e : o = t
    · subst e; rw [ht] at h1; cases h1
      exact ⟨{ th with returned := true }, set_self ht _, h2⟩
    · exact ⟨y, set_other ht _ e h1, h2⟩
  refine ⟨fun id it hit => keep (h.items id it hit), fun u y id a hu e => ?_⟩
  rcases set_cases ht hu with ⟨_, e2⟩ | ⟨_, hu⟩
  · subst e2; exact keep (h.found t th id a ht e)
  · exact keep (h.found u y id a hu e)

/-! ### What a step does to the trees and to the Releases -/

/-- What a step does to one tree. -/
inductive Moved [DecidableEq V] (kept : Bool) (x : AssocConc.St V Nat) : AssocConc.St V Nat → Prop where
  | same : Moved kept x x
  | obtain (kvs : KVs V) (cancel : Bool) (hk : kvs ≠ [] ∧ AssocConc.Sorted kvs) (hc : kept = true → cancel = false) : Moved kept x (begin x (obtainCall x kvs cancel))
  | delete (o : Nat) (th : Thread V Nat) (h : x.threads[o]? = some th) : Moved kept x (begin x (.delete th.call.kvs fun _ => true))
  | next (t pick : Nat) (th : Thread V Nat) (h : x.threads[t]? = some th) {x' : AssocConc.St V Nat} (hn : AssocConc.next free x t pick th = some x') : Moved kept x x'
  | ret (t : Nat) (th : Thread V Nat) (h : x.threads[t]? = some th) (ho : over th = true) (hr : th.returned = false) : Moved kept x (retd x t th)

/-- A Release stays what it is; it is told the locker only when its call on the tree has returned. -/
structure RelsKept (s s' : Sys V) : Prop where
  old : ∀ (m : Nat) (r : Rel), s.rels[m]? = some r → ∃ r', s'.rels[m]? = some r' ∧ r'.client = r.client ∧ r'.obj = r.obj ∧ r'.call = r.call
  freed : ∀ (m : Nat) (r : Rel), s'.rels[m]? = some r → r.freed = true → s.rels[m]? = some r ∨ ∃ th, (s'.tree r.client).threads[r.call]? = some th ∧ th.returned = true

theorem RelsKept.same {s s' : Sys V} (h : s'.rels = s.rels) : RelsKept s s' :=
  ⟨fun m r hr => ⟨r, by rw [h]; exact hr, rfl, rfl, rfl⟩, fun m r hr _ => Or.inl (by rw [← h]; exact hr)⟩

theorem moved_set [DecidableEq V] {b : Bool} {s : Sys V} {c : Nat} {x : AssocConc.St V Nat} (h : Moved b (s.tree c) x) (d : Nat) : Moved b (s.tree d) ((s.setTree c x).tree d) := by
  show Moved b (s.tree d) (if d = c then x else s.tree d)
  split
  next e => subst e; exact h
  · exact .same

theorem moved_step [DecidableEq V] {s s' : Sys V} {l : Label V} (hs : step s l = some s') : (∀ c, Moved l.kept (s.tree c) (s'.tree c)) ∧ RelsKept s s' := by
  cases l with
  | acquire c kvs cancel =>
    simp only [step] at hs
    split at hs <;> cases hs
    next hk => exact ⟨moved_set (.obtain kvs cancel hk (fun h => by cases cancel with
      | true => cases h
      | false => rfl)), .same rfl⟩
  | go c t pick =>
    simp only [step] at hs
    split at hs
    next th ht =>
      unfold goStep at hs
      split at hs
      · split at hs
        · cases hs
        · rw [Option.map_eq_some_iff] at hs; obtain ⟨x, hn, e⟩ := hs; subst e; exact ⟨moved_set (.next t pick th ht hn), .same rfl⟩
      · rw [Option.map_eq_some_iff] at hs; obtain ⟨x, hn, e⟩ := hs; subst e; exact ⟨moved_set (.next t pick th ht hn), .same rfl⟩
    · cases hs
  | ret c t =>
    simp only [step] at hs
    split at hs
    next th ht =>
      split at hs
      next ho =>
        cases hs
        simp only [Bool.and_eq_true, Bool.not_eq_true'] at ho
        exact ⟨moved_set (.ret t th ht ho.1 ho.2), .same rfl⟩
      · cases hs
    · cases hs
  | release c o =>
    simp only [step] at hs
    split at hs
    · split at hs
      next th ht =>
        cases hs
        refine ⟨moved_set (.delete o th ht), ⟨fun m r hr => ⟨r, ?_, rfl, rfl, rfl⟩, fun m r hr hf => ?_⟩⟩
        · show (s.rels ++ [_])[m]? = _
          rw [List.getElem?_append_left (List.getElem?_eq_some_iff.1 hr).1]; exact hr
        · have hr' : (s.rels ++ [(⟨c, o, (s.tree c).threads.length, false⟩ : Rel)])[m]? = some r := hr
          rw [List.getElem?_append] at hr'
          split at hr'
          · exact Or.inl hr'
          · rw [List.getElem?_singleton] at hr'
            split at hr' <;> cases hr'
            cases hf
      · cases hs
    · cases hs
  | free k =>
    simp only [step] at hs
    split at hs
    next q hq =>
      split at hs
      · cases hs
      · unfold freeStep at hs
        split at hs
        next y hy =>
          split at hs
          next hov =>
            simp only [Bool.and_eq_true] at hov
            have hlen : k < s.rels.length := (List.getElem?_eq_some_iff.1 hq).1
            have key : ∀ s1 : Sys V, s1.rels = s.rels.set k { q with freed := true } → s1.tree = s.tree → (∀ c, Moved true (s.tree c) (s1.tree c)) ∧ RelsKept s s1 := by
              intro s1 e1 e2
              refine ⟨fun c => by rw [e2]; exact .same, ⟨fun m r hr => ?_, fun m r hr hf => ?_⟩⟩
              · by_cases e : m = k
                · subst e; rw [hq] at hr; cases hr; exact ⟨{ q with freed := true }, by rw [e1]; exact List.getElem?_set_self hlen, rfl, rfl, rfl⟩
                · exact ⟨r, by rw [e1, List.getElem?_set_ne (Ne.symm e)]; exact hr, rfl, rfl, rfl⟩
              · rw [e1] at hr
                by_cases e : m = k
                · subst e; rw [List.getElem?_set_self hlen] at hr; cases hr
                  exact Or.inr ⟨y, by rw [e2]; exact hy, hov.2⟩
                · rw [List.getElem?_set_ne (Ne.symm e)] at hr; exact Or.inl hr
            simp only at hs
            split at hs <;> cases hs
            · exact key _ rfl rfl
            · exact key _ rfl rfl
          · cases hs
        · cases hs
    · cases hs

theorem TId.moved [DecidableEq V] {b : Bool} {x x' : AssocConc.St V Nat} (h : TId x) (hi : TInv x) (hm : Moved b x x') : TId x' := by
  cases hm with
  | same => exact h
  | obtain => exact h.begin
  | delete => exact h.begin
  | next t pick th ht hn => exact h.next hi ht hn
  | ret t th ht => exact h.ret ht

theorem tid_run [DecidableEq V] : ∀ {ls : List (Label V)} {s s' : Sys V}, Inv s → (∀ c, TId (s.tree c)) → run s ls = some s' → ∀ c, TId (s'.tree c)
  | [], s, s', _, h, e => by cases e; exact h
  | l :: ls, s, s', hi, h, e => by
    simp only [run, Option.bind_eq_some_iff] at e
    obtain ⟨x, h1, h2⟩ := e
    exact tid_run (hi.step h1) (fun c => (h c).moved (hi.trees c) ((moved_step h1).1 c)) h2

/-- A call that has returned stays one that has returned. -/
theorem Moved.returned [DecidableEq V] {b : Bool} {x x' : AssocConc.St V Nat} (hm : Moved b x x') {t : Nat} {th : Thread V Nat} (ht : x.threads[t]? = some th) :
    ∃ th', x'.threads[t]? = some th' ∧ (th.returned = true → th'.returned = true) := by
  cases hm with
  | same => exact ⟨th, ht, id⟩
  | obtain => exact ⟨th, append_old ht, id⟩
  | delete => exact ⟨th, append_old ht, id⟩
  | next u pick y hu hn =>
    obtain ⟨p', e1, _⟩ := next_did hn
    by_cases e : t = u
    · subst e; rw [ht] at hu; cases hu; exact ⟨{ th with phase := p' }, by rw [e1]; exact set_self ht _, id⟩
    · exact ⟨th, by rw [e1]; exact set_other hu _ e ht, id⟩
  | ret u y hu =>
    by_cases e : t = u
    · subst e; rw [ht] at hu; cases hu; exact ⟨{ th with returned := true }, set_self ht _, fun _ => rfl⟩
    · exact ⟨th, set_other hu _ e ht, id⟩

/-- The call on the tree of a Release that is over has returned. -/
def RelDone (s : Sys V) : Prop := ∀ (m : Nat) (r : Rel), s.rels[m]? = some r → r.freed = true → ∃ th, (s.tree r.client).threads[r.call]? = some th ∧ th.returned = true

theorem relDone_run [DecidableEq V] : ∀ {ls : List (Label V)} {s s' : Sys V}, RelDone s → run s ls = some s' → RelDone s'
  | [], s, s', h, e => by cases e; exact h
  | l :: ls, s, s', h, e => by
    simp only [run, Option.bind_eq_some_iff] at e
    obtain ⟨x, h1, h2⟩ := e
    obtain ⟨m1, m2⟩ := moved_step h1
    refine relDone_run (fun m r hr hf => ?_) h2
    rcases m2.freed m r hr hf with hr | h'
    · obtain ⟨th, t1, t2⟩ := h m r hr hf
      obtain ⟨th', t3, t4⟩ := (m1 r.client).returned t1
      exact ⟨th', t3, t4 t2⟩
    · exact h'

theorem rel_run [DecidableEq V] : ∀ {ls : List (Label V)} {s s' : Sys V}, run s ls = some s' → ∀ (m : Nat) (r : Rel), s.rels[m]? = some r →
    ∃ r', s'.rels[m]? = some r' ∧ r'.client = r.client ∧ r'.obj = r.obj ∧ r'.call = r.call
  | [], s, s', e, m, r, hr => by cases e; exact ⟨r, hr, rfl, rfl, rfl⟩
  | l :: ls, s, s', e, m, r, hr => by
    simp only [run, Option.bind_eq_some_iff] at e
    obtain ⟨x, h1, h2⟩ := e
    obtain ⟨r1, a1, a2, a3, a4⟩ := (moved_step h1).2.old m r hr
    obtain ⟨r2, b1, b2, b3, b4⟩ := rel_run h2 m r1 a1
    exact ⟨r2, b1, b2.trans a2, b3.trans a3, b4.trans a4⟩

/-- Where a Release was called. -/
theorem release_split [DecidableEq V] {c o : Nat} : ∀ {ls : List (Label V)} {s s' : Sys V}, (∀ r ∈ s.rels, ¬ (r.client = c ∧ r.obj = o)) → run s ls = some s' →
    (∃ r ∈ s'.rels, r.client = c ∧ r.obj = o) → ∃ ls1 ls2 s1 s2, ls = ls1 ++ .release c o :: ls2 ∧ run s ls1 = some s1 ∧ step s1 (.release c o) = some s2 ∧ run s2 ls2 = some s'
  | [], s, s', hn, e, ⟨r, hr, h⟩ => by cases e; exact absurd h (hn r hr)
  | l :: ls, s, s', hn, e, hr => by
    simp only [run, Option.bind_eq_some_iff] at e
    obtain ⟨x, h1, h2⟩ := e
    by_cases hl : l = .release c o
    · subst hl; exact ⟨[], ls, s, x, rfl, rfl, h1, h2⟩
    · obtain ⟨ls1, ls2, s1, s2, e1, e2, e3, e4⟩ := release_split (rels_step hn hl h1) h2 hr
      exact ⟨l :: ls1, ls2, s1, s2, by rw [e1]; rfl, by simp only [run, h1, Option.bind_some]; exact e2, e3, e4⟩

/-- What Release does first. -/
theorem release_does [DecidableEq V] {s s' : Sys V} {c o : Nat} (hs : step s (.release c o) = some s') : ∃ th, given (s.tree c) o = true ∧ (s.tree c).threads[o]? = some th ∧
    s'.tree c = begin (s.tree c) (.delete th.call.kvs fun _ => true) ∧ s'.rels = s.rels ++ [⟨c, o, (s.tree c).threads.length, false⟩] := by
  simp only [step] at hs
  split at hs
  next hg =>
    split at hs
    next th ht => cases hs; exact ⟨th, hg.1, ht, if_pos rfl, rfl⟩
    · cases hs
  · cases hs

theorem As.moved [DecidableEq V] {b : Bool} {x x' : AssocConc.St V Nat} {o id : Nat} (h : As x o id) (hi : TInv x) (hm : Moved b x x') : As x' o id := by
  obtain ⟨y, h1, h2⟩ := h
  cases hm with
  | same => exact ⟨y, h1, h2⟩
  | obtain => exact ⟨y, append_old h1, h2⟩
  | delete => exact ⟨y, append_old h1, h2⟩
  | next t pick th ht hn =>
    obtain ⟨p', e1, d⟩ := next_did hn
    by_cases e : o = t
    · subst e; have := Option.some.inj (ht.symm.trans h1); subst this
      obtain ⟨kvs, hc⟩ := hi.creator o th id h1 h2
      exact ⟨{ th with phase := p' }, by rw [e1]; exact set_self h1 _, d.keeps kvs _ _ hc h2 nofun⟩
    · exact ⟨y, by rw [e1]; exact set_other ht _ e h1, h2⟩
  | ret t th ht =>
    by_cases e : o = t
    · subst e; have := Option.some.inj (ht.symm.trans h1); subst this
      exact ⟨{ th with returned := true }, set_self h1 _, h2⟩
    · exact ⟨y, set_other ht _ e h1, h2⟩

theorem as_run [DecidableEq V] {c o id : Nat} : ∀ {ls : List (Label V)} {s s' : Sys V}, Inv s → As (s.tree c) o id → run s ls = some s' → As (s'.tree c) o id
  | [], s, s', _, h, e => by cases e; exact h
  | l :: ls, s, s', hi, h, e => by
    simp only [run, Option.bind_eq_some_iff] at e
    obtain ⟨x, h1, h2⟩ := e
    exact as_run (hi.step h1) (h.moved (hi.trees c) ((moved_step h1).1 c)) h2

theorem run_split [DecidableEq V] : ∀ {ls ms : List (Label V)} {s0 s s' : Sys V}, run s0 (ls ++ ms) = some s' → run s0 ls = some s → run s ms = some s'
  | [], ms, s0, s, s', h, h' => by cases h'; exact h
  | l :: ls, ms, s0, s, s', h, h' => by
    simp only [run, List.cons_append, Option.bind_eq_some_iff] at h h'
    obtain ⟨x, h1, h2⟩ := h
    obtain ⟨y, h3, h4⟩ := h'
    rw [h1] at h3; cases h3
    exact run_split h2 h4

/-! ### The events of one tree -/

/-- The events of a tree, beginning with some. -/
def After [DecidableEq V] [Inhabited V] (pre : List (AssocConc.Event V Nat)) (x : AssocConc.St V Nat) : Prop :=
  ∃ n, AssocConc.Run free AssocConc.St.init (pre ++ n) x ∧ ∀ k, AssocConc.Event.call k ∈ pre ++ n → k.destroys = false ∧ (k.kvs ≠ [] ∧ AssocConc.Sorted k.kvs) ∧ k.creates = true

theorem After.moved [DecidableEq V] [Inhabited V] {pre : List (AssocConc.Event V Nat)} {x x' : AssocConc.St V Nat} (h : After pre x) (hm : Moved true x x') : After pre x' := by
  obtain ⟨n, h1, h2⟩ := h
  have more : ∀ {x1 : AssocConc.St V Nat} {e : Option (AssocConc.Event V Nat)}, AssocConc.Step free x e x1 →
      (∀ k, e = some (.call k) → k.destroys = false ∧ (k.kvs ≠ [] ∧ AssocConc.Sorted k.kvs) ∧ k.creates = true) → After pre x1 := by
    intro x1 e he hc
    refine ⟨n ++ e.toList, by rw [← List.append_assoc]; exact h1.step he, fun k hk => ?_⟩
    rw [← List.append_assoc] at hk
    rcases List.mem_append.1 hk with hk | hk
    · exact h2 k hk
    · exact hc k (by simpa using hk)
  cases hm with
  | same => exact ⟨n, h1, h2⟩
  | obtain kvs cancel hk hc =>
    have := hc rfl
    subst this
    refine more (.call _ hk) ?_
    intro k e; cases e; exact ⟨rfl, hk, rfl⟩
  | delete o th ht =>
    have hok := (h2 _ (AssocConc.run_calls h1 o th ht)).2.1
    refine more (.call _ hok) ?_
    intro k e; cases e; exact ⟨rfl, hok, rfl⟩
  | next t pick th ht hn => exact more (.go t pick th ht hn) nofun
  | ret t th ht ho hr =>
    unfold over at ho
    split at ho
    next r kept e => exact more (.ret t th r kept ht hr e) nofun
    · cases ho

theorem after_run [DecidableEq V] [Inhabited V] {c : Nat} {pre : List (AssocConc.Event V Nat)} : ∀ {ls : List (Label V)} {s s' : Sys V}, After pre (s.tree c) → (∀ l ∈ ls, l.kept = true) → run s ls = some s' →
    After pre (s'.tree c)
  | [], s, s', h, _, e => by cases e; exact h
  | l :: ls, s, s', h, hk, e => by
    simp only [run, Option.bind_eq_some_iff] at e
    obtain ⟨x, h1, h2⟩ := e
    have hm := (moved_step h1).1 c
    rw [hk l (List.mem_cons_self ..)] at hm
    exact after_run (h.moved hm) (fun m hm => hk m (List.mem_cons_of_mem _ hm)) h2

/-- Only calls that were made return. -/
theorem rets_made [DecidableEq V] [Inhabited V] {evs : List (AssocConc.Event V Nat)} {x : AssocConc.St V Nat} (h : AssocConc.Run free AssocConc.St.init evs x) : ∀ t r, (t, r) ∈ rets evs → t < x.threads.length := by
  generalize h0 : (AssocConc.St.init : AssocConc.St V Nat) = x0 at h
  induction h with
  | nil => intro t r h; cases h
  | @step x1 x2 evs e h1 h' ih =>
    intro t r hm
    rw [Props.AC.rets_append] at hm
    have len : x1.threads.length ≤ x2.threads.length := by
      cases h' with
      | call c hok => simp
      | go t pick th ht hn => obtain ⟨p', e1, _⟩ := next_did hn; rw [e1, List.length_set]; exact Nat.le_refl _
      | ret => rw [List.length_set]; exact Nat.le_refl _
    rcases List.mem_append.1 hm with hm | hm
    · exact Nat.lt_of_lt_of_le (ih t r hm) len
    · cases h' with
      | call c hok => simp [rets] at hm
      | go => simp [rets] at hm
      | ret u th r' kept hu hr hp =>
        simp only [Option.toList, rets, List.mem_singleton, Prod.mk.injEq] at hm
        rw [hm.1]
        exact Nat.lt_of_lt_of_le (List.getElem?_eq_some_iff.1 hu).1 len

theorem gives_what {t o : Nat} {th : Thread V Nat} (h : gives t th = some o) : th.returned = true ∧ ((∃ id kept, th.phase = .done (.created id) kept ∧ o = t) ∨ ∃ id kept, th.phase = .done (.found id o) kept) := by
  unfold gives at h
  split at h
  next hr =>
    refine ⟨hr, ?_⟩
    split at h
    next id kept e => cases h; exact Or.inl ⟨id, kept, e, rfl⟩
    next id a kept e => cases h; exact Or.inr ⟨id, kept, e⟩
    · cases h
  · cases h

/-- A lock object that was released is not returned by later ObtainLocks. -/
theorem not_released_before [DecidableEq V] [Inhabited V] {ls ms : List (Label V)} {s s' : Sys V} (h : run Sys.init ls = some s) (hk : ∀ l ∈ ls ++ ms, l.kept = true) {c o t : Nat} (hf : Freed s c o)
    (hrun : run s ms = some s') (ht : (s.tree c).threads.length ≤ t) {th : Thread V Nat} (hth : (s'.tree c).threads[t]? = some th) : gives t th ≠ some o := by
  intro hg
  have hi := Inv.init.run h
  have hi' := hi.run hrun
  obtain ⟨r, hr, rc, ro, rf⟩ := hf
  obtain ⟨ls1, ls2, s1, s2, e1, e2, e3, e4⟩ := release_split (c := c) (o := o) (s := (Sys.init : Sys V)) (fun r (hr : r ∈ ([] : List Rel)) => nomatch hr) h ⟨r, hr, rc, ro⟩
  have hk1 : ∀ l ∈ ls1, l.kept = true := fun l hl => hk l (by rw [e1]; simp [hl])
  have hk2 : ∀ l ∈ ls2, l.kept = true := fun l hl => hk l (by rw [e1]; simp [hl])
  have hk3 : ∀ l ∈ ms, l.kept = true := fun l hl => hk l (by simp [hl])
  have hi1 := Inv.init.run e2
  -- the moment of the Release
  obtain ⟨th0, hgiv, hth0, htree2, hrels2⟩ := release_does e3
  -- its call on the tree
  have hcall : r.call = (s1.tree c).threads.length := by
    have : s2.rels[s1.rels.length]? = some ⟨c, o, (s1.tree c).threads.length, false⟩ := by
      rw [hrels2]; simp
    obtain ⟨r', a1, a2, a3, a4⟩ := rel_run e4 _ _ this
    obtain ⟨m, hm⟩ := List.mem_iff_getElem?.1 hr
    have := hi.once m _ r r' hm a1 (rc.trans a2.symm) (ro.trans a3.symm)
    rw [this, a1] at hm
    cases hm
    exact a4
  -- the events of the tree
  obtain ⟨l, l1, l2⟩ := after_run (c := c) (pre := []) (s := (Sys.init : Sys V)) ⟨[], .nil, nofun⟩ hk1 e2
  rw [List.nil_append] at l1 l2
  have hok := (l2 _ (AssocConc.run_calls l1 o th0 hth0)).2.1
  have lens : (callsOf l).length = (s1.tree c).threads.length := by rw [← (returned_rets l1).1, List.length_map]
  have aft2 : After (l ++ [AssocConc.Event.call (.delete th0.call.kvs fun _ => true)]) (s2.tree c) := by
    refine ⟨[], ?_, ?_⟩
    · rw [List.append_nil, htree2]; exact l1.step (.call (.delete th0.call.kvs fun _ => true) hok)
    · intro k hk
      rw [List.append_nil] at hk
      rcases List.mem_append.1 hk with hk | hk
      · exact l2 k hk
      · simp only [List.mem_singleton, AssocConc.Event.call.injEq] at hk
        subst hk; exact ⟨rfl, hok, rfl⟩
  obtain ⟨k, k1, k2⟩ := after_run aft2 hk2 e4
  obtain ⟨n, n1, n2⟩ := after_run (c := c) (pre := l ++ [AssocConc.Event.call (.delete th0.call.kvs fun _ => true)] ++ k) (s := s) ⟨[], by rw [List.append_nil]; exact k1, by rw [List.append_nil]; exact k2⟩ hk3 hrun
  -- the lock object was given to somebody
  have hgv : ∃ (u : Nat) (y : Thread V Nat), (s1.tree c).threads[u]? = some y ∧ gives u y = some o := by
    have := hgiv
    unfold given at this
    rw [List.any_eq_true] at this
    obtain ⟨u, _, hu⟩ := this
    split at hu
    next y hy => exact ⟨u, y, hy, of_decide_eq_true hu⟩
    · cases hu
  obtain ⟨u, y, hu, hgy⟩ := hgv
  obtain ⟨yr, yp⟩ := gives_what hgy
  obtain ⟨q, kept, yq, ym⟩ := (returned_rets l1).2 u y hu yr
  have tid1 := tid_run (s := (Sys.init : Sys V)) Inv.init (fun c => ⟨nofun, nofun⟩) e2 c
  have tid' := tid_run (s := (Sys.init : Sys V)) Inv.init (fun c => ⟨nofun, nofun⟩) (run_append h hrun) c
  have hcalls : (callsOf l)[u]? = some y.call := by rw [← (returned_rets l1).1, List.getElem?_map, hu]; rfl
  -- its id and its key-values
  have hid : ∃ id, As (s1.tree c) o id ∧ (q = .created id ∨ ∃ b, q = .found id b) ∧ y.call.kvs = th0.call.kvs := by
    rcases yp with ⟨id, kept', e, eo⟩ | ⟨id, kept', e⟩
    · rw [yq] at e; cases e
      subst eo
      rw [hu] at hth0; cases hth0
      exact ⟨id, ⟨th0, hu, by rw [yq]; rfl⟩, Or.inl rfl, rfl⟩
    · rw [yq] at e; cases e
      refine ⟨id, tid1.found u y id o hu (by rw [yq]; rfl), Or.inr ⟨o, rfl⟩, ?_⟩
      have hp1 : Proj true s1 := proj_run proj_init (fun _ => hk1) e2
      have hask := Props.C86_found_was_created free l _ l1 (fun k hk => (l2 k (AssocConc.mem_callsOf.1 hk)).2.2) u id o y.call hcalls ym
      have hmem : Call.createOrFind y.call.kvs o ∈ callsOf l := by
        rcases hask with h | h
        · rw [← (returned_rets l1).1, List.mem_map] at h
          obtain ⟨x, hx, ex⟩ := h
          obtain ⟨v, hv⟩ := List.mem_iff_getElem?.1 hx
          exact absurd ex (((hi1.trees c).calls v x hv).2 _ _)
        · exact h
      rw [← (returned_rets l1).1, List.mem_map] at hmem
      obtain ⟨x, hx, ex⟩ := hmem
      obtain ⟨v, hv⟩ := List.mem_iff_getElem?.1 hx
      have hvo := (hi1.trees c).named v x _ _ hv ex
      subst hvo
      rw [hth0] at hv; cases hv
      rw [ex]; rfl
  obtain ⟨id, has, hq, hkv⟩ := hid
  -- the call has returned
  have done : RelDone s := relDone_run (s := (Sys.init : Sys V)) nofun h
  obtain ⟨m, hm⟩ := List.mem_iff_getElem?.1 hr
  obtain ⟨dth, d1, d2⟩ := done m r hm rf
  rw [rc, hcall] at d1
  obtain ⟨res, dk, d3, d4⟩ := (returned_rets k1).2 _ dth d1 d2
  have d5 : ((callsOf l).length, res) ∈ rets k := by
    rw [lens]
    rw [Props.AC.rets_append, Props.AC.rets_append] at d4
    rcases List.mem_append.1 d4 with d4 | d4
    · rcases List.mem_append.1 d4 with d4 | d4
      · exact absurd (rets_made l1 _ _ d4) (Nat.lt_irrefl _)
      · simp [rets] at d4
    · exact d4
  have hcc : ∀ {evs : List (AssocConc.Event V Nat)}, (∀ k, AssocConc.Event.call k ∈ evs → k.destroys = false ∧ (k.kvs ≠ [] ∧ AssocConc.Sorted k.kvs) ∧ k.creates = true) →
      (∀ c ∈ callsOf evs, c.creates = true) ∧ ∀ c ∈ callsOf evs, c.destroys = false :=
    fun h => ⟨fun c hc => (h c (AssocConc.mem_callsOf.1 hc)).2.2, fun c hc => (h c (AssocConc.mem_callsOf.1 hc)).1⟩
  have hnot : res ≠ .refused ∧ res ≠ .destroying := by
    obtain ⟨mm, hmm, _⟩ := AssocConc.sim_run k1 (fun c h => (k2 c h).2.2)
    have pl := plain_run hmm (hcc k2).2
    obtain ⟨p, hp, hor⟩ := AssocConc.ret_what hmm (Props.AC.mem_rets.1 d4)
    have sm : Sane mm _ := Sane.init.run hmm
    have hpc : p.call = .delete th0.call.kvs fun _ => true := by
      have h1 := sm.calls
      rw [List.nil_append] at h1
      have h2 : (mm.calls.map Pend.call)[(s1.tree c).threads.length]? = some p.call := by rw [List.getElem?_map, hp]; rfl
      rw [h1, AssocConc.callsOf_append, AssocConc.callsOf_append, List.append_assoc, ← lens, List.getElem?_append_right (Nat.le_refl _), Nat.sub_self] at h2
      simp [callsOf] at h2
      exact h2.symm
    rcases hor with e | ⟨e, _⟩
    · have := pl.2 _ p _ _ hp hpc (fun _ => rfl)
      exact ⟨fun e' => this.1 (by rw [e, e']), fun e' => this.2 (by rw [e, e'])⟩
    · rw [e]; exact ⟨nofun, nofun⟩
  -- the later ObtainLock
  obtain ⟨tr, tp⟩ := gives_what hg
  have hlo : o < (s.tree c).threads.length := by
    obtain ⟨_, kv, _, _, _, ⟨x, _, hx, _⟩⟩ := hi.rels r hr
    rw [rc, ro] at hx
    exact (List.getElem?_eq_some_iff.1 hx).1
  rcases tp with ⟨id', kept', e, eo⟩ | ⟨id', kept', e⟩
  · omega
  · obtain ⟨q', kept2, tq, tm⟩ := (returned_rets n1).2 t th hth tr
    rw [e] at tq; cases tq
    have has' := tid'.found t th id' o hth (by rw [e]; rfl)
    have has2 : As (s'.tree c) o id := as_run hi (as_run (hi1.step e3) (has.moved (hi1.trees c) ((moved_step e3).1 c)) e4) hrun
    have := has2.one has'
    subst this
    have hev : l ++ [AssocConc.Event.call (.delete th0.call.kvs fun _ => true)] ++ k ++ n = l ++ AssocConc.Event.call (.delete th0.call.kvs fun _ => true) :: (k ++ n) := by simp
    rw [hev] at n1 n2 tm
    refine Props.C86_deleted_not_found free l k n _ _ _ n1 (hcc n2).1 u id t y.call res q o hcalls hkv ym hq d5 hnot.1 hnot.2 ?_ tm
    have hl2 : (s.tree c).threads.length = (callsOf l).length + 1 + (callsOf k).length := by
      rw [← List.length_map (f := (·.call)), (returned_rets k1).1, AssocConc.callsOf_append, AssocConc.callsOf_append]
      simp only [List.length_append, callsOf, List.length_cons, List.length_nil]
    omega

end Willow.SharedLock
