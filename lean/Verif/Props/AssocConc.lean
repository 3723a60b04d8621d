import Verif.Proofs.AssocConcSim2
import Verif.Proofs.AssocConcGone
import Verif.Proofs.AssocConcHang
/-
Properties C86, C87: the associated tree (key-values → items) used by any number of goroutines at the same time.

`AssocConc.Run blocks St.init evs s`: some interleaving of the steps of any number of calls on a new tree; `evs` are the calls and returns seen, in order, and `s` is
where the tree and the calls are now.  Calls are numbered in the order in which they are made.  `blocks` says which operations on the tree of ids wait for a
destruction under way; the theorems hold for all of them unless they say otherwise.
-/
namespace Willow.Props
open Willow.AssocConc (KVs AMap callsOf rets Stuck Forever Asked Op exec)

namespace AC
variable {V A : Type}

theorem mem_rets {evs : List (AssocConc.Event V A)} {t : Nat} {r : AssocConc.Res A} : (t, r) ∈ rets evs ↔ AssocConc.Event.ret t r ∈ evs := by
  induction evs with
  | nil => simp [rets]
  | cons e evs ih => cases e <;> simp [rets, ih]

/-- The calls of a script. -/
def opCalls : List (Op V A) → List (AssocConc.Call V A)
  | [] => []
  | .call c :: ops => c :: opCalls ops
  | _ :: ops => opCalls ops

theorem mem_opCalls {ops : List (Op V A)} {c : AssocConc.Call V A} (h : Op.call c ∈ ops) : c ∈ opCalls ops := by
  induction ops with
  | nil => cases h
  | cons o ops ih => cases o <;> simp [opCalls] at h ⊢ <;> grind

theorem exec_calls [DecidableEq V] {blocks : (Nat → Option (AssocConc.Item V A)) → Nat → Nat → Bool} : ∀ {ops : List (Op V A)} {s s' : AssocConc.St V A} {evs : List (AssocConc.Event V A)},
    exec blocks ops s = some (s', evs) → callsOf evs = opCalls ops
  | [], s, s', evs, h => by simp only [exec, Option.some.injEq, Prod.mk.injEq] at h; rw [← h.2]; rfl
  | .call c :: ops, s, s', evs, h => by
    simp only [exec, Option.map_eq_some_iff] at h
    obtain ⟨⟨x, l⟩, h1, h2⟩ := h
    cases h2
    simp only [callsOf, opCalls, exec_calls h1]
  | .go t pick :: ops, s, s', evs, h => by
    simp only [exec, Option.bind_eq_some_iff] at h
    obtain ⟨th, h1, s1, h2, h3⟩ := h
    simpa [opCalls] using exec_calls h3
  | .ret t :: ops, s, s', evs, h => by
    simp only [exec, Option.bind_eq_some_iff] at h
    obtain ⟨th, h1, h2⟩ := h
    split at h2
    · simp only [Option.map_eq_some_iff] at h2
      obtain ⟨⟨x, l⟩, h3, h4⟩ := h2
      cases h4
      simpa [opCalls, callsOf] using exec_calls h3
    · cases h2

/-- A script that works is a run. -/
theorem script [DecidableEq V] [Inhabited V] {blocks : (Nat → Option (AssocConc.Item V A)) → Nat → Nat → Bool} {ops : List (Op V A)} {l : List (Nat × AssocConc.Res A)}
    (h : (exec blocks ops AssocConc.St.init).map (fun x => rets x.2) = some l) (hc : ∀ c ∈ opCalls ops, c.ok) :
    ∃ evs s, AssocConc.Run blocks AssocConc.St.init evs s ∧ rets evs = l ∧ callsOf evs = opCalls ops ∧ exec blocks ops AssocConc.St.init = some (s, evs) := by
  rw [Option.map_eq_some_iff] at h
  obtain ⟨⟨s, evs⟩, h1, h2⟩ := h
  refine ⟨evs, s, ?_, h2, exec_calls h1, h1⟩
  simpa using AssocConc.exec_run h1 (fun c h => hc c (mem_opCalls h)) .nil

/-- The pairs a=1, b=2 of the examples. -/
def pa : GoString × Nat := ([97], 1)
def pb : GoString × Nat := ([98], 2)

/-- A number of steps of one call. -/
def goes (t n pick : Nat) : List (Op Nat Nat) := List.replicate n (.go t pick)

/-- Nothing waits for destructions. -/
def free : (Nat → Option (AssocConc.Item Nat Nat)) → Nat → Nat → Bool := fun _ _ _ => false

/-- A tree of ids with one node: as long as it is locked nothing can be done in it. -/
def whole : (Nat → Option (AssocConc.Item Nat Nat)) → Nat → Nat → Bool := fun _ _ _ => true

theorem rets_append (l k : List (AssocConc.Event V A)) : rets (l ++ k) = rets l ++ rets k := by
  induction l with
  | nil => rfl
  | cons e l ih => cases e <;> simp [rets, ih]

/-- The call is over and has returned. -/
def over (x : AssocConc.Thread V A) : Bool :=
  match x.phase with
  | .done _ _ => x.returned
  | _ => false

theorem over_iff {x : AssocConc.Thread V A} (h : over x = true) : x.returned = true ∧ ∃ r kept, x.phase = .done r kept := by
  unfold over at h
  split at h
  next r k e => exact ⟨h, r, k, e⟩
  · cases h

theorem stuck_of_over [DecidableEq V] {blocks : (Nat → Option (AssocConc.Item V A)) → Nat → Nat → Bool} {s : AssocConc.St V A}
    (h : ∀ x ∈ s.threads, x.returned = true ∧ ∃ r kept, x.phase = .done r kept) : Stuck blocks s := by
  intro e s' hs
  cases hs with
  | call c hok => exact ⟨c, rfl⟩
  | go t pick th ht hn =>
    obtain ⟨_, r, k, e⟩ := h th (List.mem_of_getElem? ht)
    unfold AssocConc.next at hn
    rw [e] at hn
    cases hn
  | ret t th r kept ht hr hp =>
    rw [(h th (List.mem_of_getElem? ht)).1] at hr
    cases hr

/-- The calls of a run, and which of them have returned. -/
theorem returned_iff [DecidableEq V] [Inhabited V] {blocks : (Nat → Option (AssocConc.Item V A)) → Nat → Nat → Bool} {evs : List (AssocConc.Event V A)} {s : AssocConc.St V A}
    (h : AssocConc.Run blocks AssocConc.St.init evs s) :
    s.threads.length = (callsOf evs).length ∧ ∀ (t : Nat) (th : AssocConc.Thread V A), s.threads[t]? = some th → th.returned = true → ∃ r, (t, r) ∈ rets evs := by
  generalize h0 : (AssocConc.St.init : AssocConc.St V A) = s0 at h
  induction h with
  | nil => subst h0; simp [AssocConc.St.init, callsOf]
  | @step s' s'' evs e h' hstep ih =>
    obtain ⟨i1, i2⟩ := ih
    rw [AssocConc.callsOf_append, rets_append]
    cases hstep with
    | call c hok =>
      refine ⟨by simp [callsOf, i1], ?_⟩
      intro t th ht hr
      rcases AssocConc.append_cases ht with ⟨_, e⟩ | ht
      · subst e; cases hr
      · obtain ⟨r, h⟩ := i2 t th ht hr; exact ⟨r, List.mem_append_left _ h⟩
    | go t pick th ht hn =>
      obtain ⟨p', hp', _⟩ := AssocConc.next_closer hn
      refine ⟨by simp [callsOf, i1, hp'], ?_⟩
      intro u x hu hr
      rw [hp'] at hu
      by_cases hut : u = t
      · subst hut
        rw [AssocConc.set_get ht, if_pos rfl] at hu
        cases hu
        obtain ⟨r, h⟩ := i2 u th ht hr; exact ⟨r, List.mem_append_left _ h⟩
      · rw [AssocConc.set_get ht, if_neg hut] at hu
        obtain ⟨r, h⟩ := i2 u x hu hr; exact ⟨r, List.mem_append_left _ h⟩
    | ret t th r kept ht hr hp =>
      refine ⟨by simp [callsOf, i1], ?_⟩
      intro u x hu hr'
      simp only at hu
      by_cases hut : u = t
      · subst hut; exact ⟨r, List.mem_append_right _ (by simp [rets])⟩
      · rw [AssocConc.set_get ht, if_neg hut] at hu
        obtain ⟨r, h⟩ := i2 u x hu hr'; exact ⟨r, List.mem_append_left _ h⟩

theorem returned_all [DecidableEq V] [Inhabited V] {blocks : (Nat → Option (AssocConc.Item V A)) → Nat → Nat → Bool} {evs : List (AssocConc.Event V A)} {s : AssocConc.St V A}
    (h : AssocConc.Run blocks AssocConc.St.init evs s) (hr : ∀ (t : Nat) (th : AssocConc.Thread V A), s.threads[t]? = some th → th.returned = true) : ∀ t, t < (callsOf evs).length → ∃ r, (t, r) ∈ rets evs := by
  obtain ⟨h1, h2⟩ := returned_iff h
  intro t ht
  rw [← h1] at ht
  have := List.getElem?_eq_getElem ht
  exact h2 t _ this (hr t _ this)

/-- A create of {a}; then a create of {a,b} up to the moment when it stores its item; then the destruction of {a}. -/
def crossScript : List (Op Nat Nat) :=
  [.call (.create [pa] 7), .go 0 1, .go 0 1, .go 0 1, .go 0 1, .go 0 1, .go 0 1, .go 0 1, .ret 0, .call (.create [pa, pb] 8), .call (.destroy 1 fun _ => true),
   .go 1 2, .go 1 2, .go 1 2, .go 1 2, .go 1 2, .go 1 2, .go 2 0, .go 2 0]

/-- A create of {a}; then a Delete of {a} that has locked its pair, a destruction of the same item that has announced itself; Delete gives up. -/
def leakScript : List (Op Nat Nat) :=
  [.call (.create [pa] 7), .go 0 1, .go 0 1, .go 0 1, .go 0 1, .go 0 1, .go 0 1, .go 0 1, .ret 0, .call (.delete [pa] fun _ => true), .call (.destroy 1 fun _ => true),
   .go 1 0, .go 1 0, .go 1 0, .go 2 0, .go 1 0, .go 2 0, .ret 1]
end AC

open AC

variable {V A : Type} [DecidableEq V] [Inhabited V]

/-! ## C86 – overlapping calls behave as if each acted at one moment -/

/-- C86.  Whatever the interleaving of any number of calls (Create, CreateOrFind with an onCreate that returns an item, exact queries, Delete, DestroyByAssociatedID),
what their callers see is a history of a map from key-values to items on which every call acts at one moment between its call and its return.  The tree holds what that map
holds, up to items that are being destroyed. -/
theorem C86_linearizable (blocks : (Nat → Option (AssocConc.Item V A)) → Nat → Nat → Bool) (evs : List (AssocConc.Event V A)) (s : AssocConc.St V A)
    (h : AssocConc.Run blocks AssocConc.St.init evs s) (hc : ∀ c ∈ callsOf evs, c.creates = true) :
    ∃ m, AMap.Run AMap.init evs m ∧ m.closing = s.destroying ∧ (∀ kvs id a, m.stored kvs = some ⟨id, a⟩ → s.item id = some ⟨kvs, a⟩) ∧
      ∀ kvs id a, s.item id = some ⟨kvs, a⟩ → id ∉ s.destroying → m.stored kvs = some ⟨id, a⟩ := by
  have hc' : ∀ c, AssocConc.Event.call c ∈ evs → c.creates = true := fun c h => hc c (AssocConc.mem_callsOf.2 h)
  obtain ⟨m, hm, hr⟩ := AssocConc.sim_run h hc'
  have hi := AssocConc.Inv.run h hc'
  refine ⟨m, hm, hr.closing, fun kvs id a e => ((hr.stored kvs id a).1 e).1, fun kvs id a e hd => (hr.stored kvs id a).2 ⟨e, ?_⟩⟩
  intro u x todo hu hw
  exact absurd ((hi.cont.des.2 id).2 ⟨u, x, hu, hw.1, Or.inr ⟨todo, hw.2⟩⟩) hd

/-- Two creates of {a,b} and a create of {a}, all at the same time, then a query, a deletion and a query. -/
def assocScript : List (Op Nat Nat) :=
  [.call (.create [pa, pb] 7), .call (.createOrFind [pa, pb] 8), .call (.create [pa] 9)] ++ [.go 0 0, .go 1 0, .go 2 0, .go 1 0, .go 0 0] ++ goes 1 4 5 ++ [.go 2 0] ++
    goes 1 5 5 ++ goes 2 5 6 ++ goes 0 7 0 ++
    [.ret 0, .ret 1, .ret 2, .call (.find [pa, pb]), .call (.delete [pa] fun _ => true)] ++ goes 3 4 0 ++ [.ret 3] ++ goes 4 8 0 ++ [.ret 4, .call (.find [pa])] ++ goes 5 1 0 ++ [.ret 5]

theorem assoc_run : ∃ evs s, AssocConc.Run free AssocConc.St.init evs s ∧
    rets evs = [(0, .exists), (1, .created 5), (2, .created 6), (3, .found 5 8), (4, .removed 6), (5, .nothing)] ∧
    (∀ c ∈ callsOf evs, c.creates = true) ∧ (∀ c ∈ callsOf evs, c.destroys = false) ∧ (∀ x ∈ s.threads, x.returned = true ∧ ∃ r kept, x.phase = .done r kept) := by
  obtain ⟨evs, s, h, h1, h2, h3⟩ := script (blocks := free) (ops := assocScript)
    (l := [(0, .exists), (1, .created 5), (2, .created 6), (3, .found 5 8), (4, .removed 6), (5, .nothing)]) (by decide +kernel)
    (by simp [assocScript, opCalls, goes, List.replicate, AssocConc.Call.ok, AssocConc.Call.kvs, AssocConc.Sorted, pa, pb, strLt])
  refine ⟨evs, s, h, h1, ?_, ?_, ?_⟩
  · rw [h2]; simp [assocScript, opCalls, goes, List.replicate, AssocConc.Call.creates]
  · rw [h2]; simp [assocScript, opCalls, goes, List.replicate, AssocConc.Call.destroys]
  · have : (exec free assocScript AssocConc.St.init).map (fun x => x.1.threads.all over) = some true := by decide +kernel
    rw [h3] at this
    intro x hx
    exact over_iff (List.all_eq_true.1 (Option.some.inj this) x hx)

/-- The hypotheses of C86 hold of a run in which creates overlap; it ends with a tree whose only item is that with id 5. -/
example : ∃ evs s, AssocConc.Run free AssocConc.St.init evs s ∧ (∀ c ∈ callsOf evs, c.creates = true) ∧ rets evs = [(0, .exists), (1, .created 5), (2, .created 6), (3, .found 5 8), (4, .removed 6), (5, .nothing)] := by
  obtain ⟨evs, s, h, h1, h2, _⟩ := assoc_run
  exact ⟨evs, s, h, h2, h1⟩

/-- A map on which calls act at one moment does not allow everything: nothing is found before anything was called for. -/
example : ¬ ∃ m : AMap Nat Nat, AMap.Run AMap.init [.call (.find [pa]), .ret 0 (.found 1 1)] m := by
  rintro ⟨m, h⟩
  have s := AssocConc.Sane.init.run h
  rcases AssocConc.ret_acted (t := 0) (r := .found 1 1) h (by simp) with e | ⟨p, hp, hr⟩
  · cases e
  · rcases s.found 0 p 1 1 hp hr with h | h <;> simp [callsOf] at h

/-- C86.  As long as nothing is removed, of all the calls that create an item with the same key-values at most one is told that it has created it. -/
theorem C86_created_once (blocks : (Nat → Option (AssocConc.Item V A)) → Nat → Nat → Bool) (evs : List (AssocConc.Event V A)) (s : AssocConc.St V A)
    (h : AssocConc.Run blocks AssocConc.St.init evs s) (hc : ∀ c ∈ callsOf evs, c.creates = true ∧ c.removes = false) (t u i j : Nat) (c d : AssocConc.Call V A)
    (ht : (callsOf evs)[t]? = some c) (hu : (callsOf evs)[u]? = some d) (hk : c.kvs = d.kvs) (hr : (t, .created i) ∈ rets evs) (hr' : (u, .created j) ∈ rets evs) : t = u := by
  obtain ⟨m, hm, _⟩ := AssocConc.sim_run h (fun c h => (hc c (AssocConc.mem_callsOf.2 h)).1)
  exact AssocConc.created_once hm (fun c h => (hc c h).2) ht hu hk (mem_rets.1 hr) (mem_rets.1 hr')

/-- C86.  Every item has its own id. -/
theorem C86_ids_differ (blocks : (Nat → Option (AssocConc.Item V A)) → Nat → Nat → Bool) (evs : List (AssocConc.Event V A)) (s : AssocConc.St V A)
    (h : AssocConc.Run blocks AssocConc.St.init evs s) (hc : ∀ c ∈ callsOf evs, c.creates = true) (t u id : Nat) (hr : (t, .created id) ∈ rets evs) (hr' : (u, .created id) ∈ rets evs) :
    t = u := by
  obtain ⟨m, hm, _⟩ := AssocConc.sim_run h (fun c h => hc c (AssocConc.mem_callsOf.2 h))
  have n := AssocConc.News.init.run hm
  obtain ⟨p, hp, e⟩ := AssocConc.ret_created hm (mem_rets.1 hr)
  obtain ⟨q, hq, e'⟩ := AssocConc.ret_created hm (mem_rets.1 hr')
  exact n.one t u p q id hp hq e e'

/-- Two creates of {a,b} and one of {a} at the same time: two are told that they have created an item. -/
def createScript : List (Op Nat Nat) :=
  [.call (.create [pa, pb] 7), .call (.createOrFind [pa, pb] 8), .call (.create [pa] 9)] ++ [.go 0 0, .go 1 0, .go 2 0, .go 1 0, .go 0 0] ++ goes 1 4 5 ++ [.go 2 0] ++
    goes 1 5 5 ++ goes 2 5 6 ++ goes 0 7 0 ++ [.ret 1, .ret 0, .ret 2, .call (.find [pa, pb])] ++ goes 3 4 0 ++ [.ret 3]

theorem create_run : ∃ evs s, AssocConc.Run free AssocConc.St.init evs s ∧ rets evs = [(1, .created 5), (0, .exists), (2, .created 6), (3, .found 5 8)] ∧
    (∀ c ∈ callsOf evs, c.creates = true ∧ c.removes = false) ∧
    ∃ l k, evs = l ++ .ret 1 (.created 5) :: k ∧ callsOf l = [.create [pa, pb] 7, .createOrFind [pa, pb] 8, .create [pa] 9] ∧ callsOf k = [.find [pa, pb]] := by
  obtain ⟨evs, s, h, h1, h2, h3⟩ := script (blocks := free) (ops := createScript) (l := [(1, .created 5), (0, .exists), (2, .created 6), (3, .found 5 8)]) (by decide +kernel)
    (by simp [createScript, opCalls, goes, List.replicate, AssocConc.Call.ok, AssocConc.Call.kvs, AssocConc.Sorted, pa, pb, strLt])
  refine ⟨evs, s, h, h1, ?_, ?_⟩
  · rw [h2]; simp [createScript, opCalls, goes, List.replicate, AssocConc.Call.creates, AssocConc.Call.removes]
  · have : (exec free createScript AssocConc.St.init).map (fun x => x.2) = some [.call (.create [pa, pb] 7), .call (.createOrFind [pa, pb] 8), .call (.create [pa] 9),
        .ret 1 (.created 5), .ret 0 .exists, .ret 2 (.created 6), .call (.find [pa, pb]), .ret 3 (.found 5 8)] := rfl
    rw [h3] at this
    have e := Option.some.inj this
    simp only at e
    exact ⟨[.call (.create [pa, pb] 7), .call (.createOrFind [pa, pb] 8), .call (.create [pa] 9)], [.ret 0 .exists, .ret 2 (.created 6), .call (.find [pa, pb]), .ret 3 (.found 5 8)], e, rfl, rfl⟩

example : ∃ evs s, AssocConc.Run free AssocConc.St.init evs s ∧ (∀ c ∈ callsOf evs, c.creates = true ∧ c.removes = false) ∧ (1, .created 5) ∈ rets evs ∧ (2, .created 6) ∈ rets evs := by
  obtain ⟨evs, s, h, h1, h2, _⟩ := create_run
  exact ⟨evs, s, h, h2, by rw [h1]; simp, by rw [h1]; simp⟩

/-- C86.  As long as nothing is removed, a query that is made after an item was created finds it: with the id its creator was told and the value its creator gave it. -/
theorem C86_find_after_create (blocks : (Nat → Option (AssocConc.Item V A)) → Nat → Nat → Bool) (l k : List (AssocConc.Event V A)) (s : AssocConc.St V A) (t id u : Nat)
    (c : AssocConc.Call V A) (r : AssocConc.Res A) (h : AssocConc.Run blocks AssocConc.St.init (l ++ .ret t (.created id) :: k) s)
    (hc : ∀ c ∈ callsOf (l ++ .ret t (.created id) :: k), c.creates = true ∧ c.removes = false) (ht : (callsOf l)[t]? = some c)
    (hu : (callsOf k)[u]? = some (.find c.kvs)) (hr : ((callsOf l).length + u, r) ∈ rets k) :
    ∃ a, r = .found id a ∧ (c = .create c.kvs a ∨ c = .createOrFind c.kvs a) := by
  obtain ⟨m, hm, _⟩ := AssocConc.sim_run h (fun c h => (hc c (AssocConc.mem_callsOf.2 h)).1)
  exact AssocConc.find_created hm (fun c h => (hc c h).2) ht hu (mem_rets.1 hr)

example : ∃ l k s, AssocConc.Run free AssocConc.St.init (l ++ .ret 1 (.created 5) :: k) s ∧ (∀ c ∈ callsOf (l ++ .ret 1 (.created 5) :: k), c.creates = true ∧ c.removes = false) ∧
    (callsOf l)[1]? = some (.createOrFind [pa, pb] 8) ∧ (callsOf k)[0]? = some (.find [pa, pb]) ∧ ((callsOf l).length + 0, .found 5 8) ∈ rets k := by
  obtain ⟨evs, s, h, h1, h2, l, k, e, e1, e2⟩ := create_run
  subst e
  refine ⟨l, k, s, h, h2, by rw [e1]; rfl, by rw [e2]; rfl, ?_⟩
  have : rets (l ++ .ret 1 (.created 5) :: k) = rets l ++ (1, .created 5) :: rets k := by rw [rets_append]; rfl
  rw [this] at h1
  rw [e1]
  rcases rl : rets l with _ | ⟨x, _ | ⟨y, _ | ⟨z, _ | ⟨w, v⟩⟩⟩⟩ <;> rw [rl] at h1 <;> simp at h1
  rw [h1]; simp

/-- C86.  An item is removed once: of all the deletions and destructions at most one is told that it has removed it. -/
theorem C86_removed_once (blocks : (Nat → Option (AssocConc.Item V A)) → Nat → Nat → Bool) (evs : List (AssocConc.Event V A)) (s : AssocConc.St V A)
    (h : AssocConc.Run blocks AssocConc.St.init evs s) (hc : ∀ c ∈ callsOf evs, c.creates = true) (t u id : Nat) (hr : (t, .removed id) ∈ rets evs) (hr' : (u, .removed id) ∈ rets evs) :
    t = u := by
  obtain ⟨m, hm, _⟩ := AssocConc.sim_run h (fun c h => hc c (AssocConc.mem_callsOf.2 h))
  have n := AssocConc.Sane.init.run hm
  rcases AssocConc.ret_acted hm (mem_rets.1 hr) with e | ⟨p, hp, e⟩
  · cases e
  rcases AssocConc.ret_acted hm (mem_rets.1 hr') with e' | ⟨q, hq, e'⟩
  · cases e'
  exact n.one t u p q id hp hq e e'

/-- C86.  What was deleted stays deleted: once a Delete has returned (and was neither refused by its canDelete nor told that the item is being destroyed), the item that a caller had
been given for these key-values before the Delete was called is not found by any call made later. -/
theorem C86_deleted_not_found (blocks : (Nat → Option (AssocConc.Item V A)) → Nat → Nat → Bool) (l k n : List (AssocConc.Event V A)) (s : AssocConc.St V A) (kvs : KVs V) (can : A → Bool)
    (h : AssocConc.Run blocks AssocConc.St.init (l ++ .call (.delete kvs can) :: (k ++ n)) s) (hc : ∀ c ∈ callsOf (l ++ .call (.delete kvs can) :: (k ++ n)), c.creates = true)
    (t id u : Nat) (c : AssocConc.Call V A) (r res : AssocConc.Res A) (a : A) (ht : (callsOf l)[t]? = some c) (hk : c.kvs = kvs) (hres : (t, res) ∈ rets l)
    (htold : res = .created id ∨ ∃ b, res = .found id b) (hr : ((callsOf l).length, r) ∈ rets k) (h1 : r ≠ .refused) (h2 : r ≠ .destroying)
    (hu : (callsOf l).length + 1 + (callsOf k).length ≤ u) : (u, .found id a) ∉ rets (l ++ .call (.delete kvs can) :: (k ++ n)) := by
  obtain ⟨m, hm, _⟩ := AssocConc.sim_run h (fun c h => hc c (AssocConc.mem_callsOf.2 h))
  intro hf
  exact AssocConc.deleted_gone hm ht hk (mem_rets.1 hres) htold (mem_rets.1 hr) h1 h2 hu (mem_rets.1 hf)

/-- An item is created and deleted; it is found by a query that overlaps with the deletion, not by a query afterwards. -/
def goneScript : List (Op Nat Nat) :=
  .call (.create [pa, pb] 7) :: goes 0 10 1 ++ [.ret 0, .call (.find [pa, pb])] ++ goes 1 4 0 ++ [.call (.delete [pa, pb] fun _ => true)] ++ goes 2 12 0 ++ [.ret 2, .ret 1, .call (.find [pa, pb])] ++ goes 3 1 0 ++ [.ret 3]

example : ∃ l k n s, AssocConc.Run free AssocConc.St.init (l ++ .call (.delete [pa, pb] fun _ => true) :: (k ++ n)) s ∧
    (∀ c ∈ callsOf (l ++ .call (.delete [pa, pb] fun _ => true) :: (k ++ n)), c.creates = true) ∧ (callsOf l)[0]? = some (.create [pa, pb] 7) ∧ (0, .created 1) ∈ rets l ∧
    ((callsOf l).length, .removed 1) ∈ rets k ∧ (callsOf l).length + 1 + (callsOf k).length ≤ 3 ∧ (1, .found 1 7) ∈ rets n ∧ (3, .nothing) ∈ rets n := by
  have e : (exec free goneScript AssocConc.St.init).map (fun x => x.2) = some ([.call (.create [pa, pb] 7), .ret 0 (.created 1), .call (.find [pa, pb])] ++
      .call (.delete [pa, pb] fun _ => true) :: ([.ret 2 (.removed 1)] ++ [.ret 1 (.found 1 7), .call (.find [pa, pb]), .ret 3 .nothing])) := rfl
  rw [Option.map_eq_some_iff] at e
  obtain ⟨⟨s, evs⟩, h1, h2⟩ := e
  simp only at h2
  subst h2
  refine ⟨[.call (.create [pa, pb] 7), .ret 0 (.created 1), .call (.find [pa, pb])], [.ret 2 (.removed 1)], [.ret 1 (.found 1 7), .call (.find [pa, pb]), .ret 3 .nothing], s, ?_, ?_, rfl,
    by simp [rets], by simp [rets, callsOf], by simp [callsOf], by simp [rets], by simp [rets]⟩
  · have := AssocConc.exec_run h1 (fun c h => by
      revert h
      simp [goneScript, goes, List.replicate, AssocConc.Call.ok, AssocConc.Call.kvs, AssocConc.Sorted, pa, pb, strLt]
      grind [AssocConc.Call.kvs, AssocConc.Sorted, strLt]) .nil
    simpa using this
  · simp [callsOf, AssocConc.Call.creates]

/-- C86.  What is found was asked for: by a create with the same key-values and this value. -/
theorem C86_found_was_created (blocks : (Nat → Option (AssocConc.Item V A)) → Nat → Nat → Bool) (evs : List (AssocConc.Event V A)) (s : AssocConc.St V A)
    (h : AssocConc.Run blocks AssocConc.St.init evs s) (hc : ∀ c ∈ callsOf evs, c.creates = true) (t id : Nat) (a : A) (c : AssocConc.Call V A) (ht : (callsOf evs)[t]? = some c)
    (hr : (t, .found id a) ∈ rets evs) : Asked (callsOf evs) c.kvs a := by
  obtain ⟨m, hm, _⟩ := AssocConc.sim_run h (fun c h => hc c (AssocConc.mem_callsOf.2 h))
  have n := AssocConc.Sane.init.run hm
  rw [List.nil_append] at n
  rcases AssocConc.ret_acted hm (mem_rets.1 hr) with e | ⟨p, hp, e⟩
  · cases e
  have := n.found t p id a hp e
  have hcall : p.call = c := by
    have h1 := n.calls
    rw [← h1, List.getElem?_map, hp] at ht
    exact Option.some.inj ht
  rw [hcall] at this; exact this

/-- C86.  Every answer tells of an item, or that there is none, or that it is being destroyed: CreateOrFind never returns without having created or found an item. -/
theorem C86_answers (blocks : (Nat → Option (AssocConc.Item V A)) → Nat → Nat → Bool) (evs : List (AssocConc.Event V A)) (s : AssocConc.St V A)
    (h : AssocConc.Run blocks AssocConc.St.init evs s) (hc : ∀ c ∈ callsOf evs, c.creates = true) (t : Nat) (r : AssocConc.Res A) (hr : (t, r) ∈ rets evs) : r.plain = true := by
  obtain ⟨m, hm, _⟩ := AssocConc.sim_run h (fun c h => hc c (AssocConc.mem_callsOf.2 h))
  have n := AssocConc.Sane.init.run hm
  rcases AssocConc.ret_acted hm (mem_rets.1 hr) with e | ⟨p, hp, e⟩
  · rw [e]; rfl
  · exact n.plain t p r hp e

/-- Two destructions of the same item, and a query while the item is being destroyed; afterwards the key-values can be used again. -/
def destroyScript : List (Op Nat Nat) :=
  .call (.create [pa, pb] 7) :: goes 0 10 1 ++ [.ret 0, .call (.destroy 1 fun _ => true), .call (.destroy 1 fun _ => true), .call (.find [pa, pb]), .go 3 0, .go 3 0] ++
    [.go 1 0, .go 2 0, .go 1 0, .go 1 1] ++ goes 3 3 0 ++ goes 1 2 0 ++ [.ret 3, .ret 2, .ret 1, .call (.createOrFind [pa, pb] 8)] ++ goes 4 11 2 ++ [.ret 4]

theorem destroy_run : ∃ evs s, AssocConc.Run free AssocConc.St.init evs s ∧ rets evs = [(0, .created 1), (3, .nothing), (2, .destroying), (1, .removed 1), (4, .created 2)] ∧
    (∀ c ∈ callsOf evs, c.creates = true) ∧ (∀ c ∈ callsOf evs, c.deletes = false) ∧ (∀ x ∈ s.threads, x.returned = true ∧ ∃ r kept, x.phase = .done r kept) := by
  obtain ⟨evs, s, h, h1, h2, h3⟩ := script (blocks := free) (ops := destroyScript)
    (l := [(0, .created 1), (3, .nothing), (2, .destroying), (1, .removed 1), (4, .created 2)]) (by decide +kernel)
    (by simp [destroyScript, opCalls, goes, List.replicate, AssocConc.Call.ok, AssocConc.Call.kvs, AssocConc.Sorted, pa, pb, strLt])
  refine ⟨evs, s, h, h1, ?_, ?_, ?_⟩
  · rw [h2]; simp [destroyScript, opCalls, goes, List.replicate, AssocConc.Call.creates]
  · rw [h2]; simp [destroyScript, opCalls, goes, List.replicate, AssocConc.Call.deletes]
  · have : (exec free destroyScript AssocConc.St.init).map (fun x => x.1.threads.all over) = some true := by decide +kernel
    rw [h3] at this
    intro x hx
    exact over_iff (List.all_eq_true.1 (Option.some.inj this) x hx)

example : ∃ evs s, AssocConc.Run free AssocConc.St.init evs s ∧ (∀ c ∈ callsOf evs, c.creates = true) ∧
    rets evs = [(0, .created 1), (3, .nothing), (2, .destroying), (1, .removed 1), (4, .created 2)] := by
  obtain ⟨evs, s, h, h1, h2, _⟩ := destroy_run
  exact ⟨evs, s, h, h2, h1⟩

/-- C86 does not hold of CreateOrFind calls whose onCreate can return nil: while one of them cleans up, another one for the same key-values returns an id, but neither
of its callbacks was called and there is no item. -/
theorem C86_violated_failed_create : ∃ (evs : List (AssocConc.Event Nat Nat)) (s : AssocConc.St Nat Nat), AssocConc.Run free AssocConc.St.init evs s ∧
    callsOf evs = [.createFails [pa], .createOrFind [pa] 7] ∧ rets evs = [(1, .neither 1)] ∧ s.item 1 = none := by
  obtain ⟨evs, s, h, h1, h2, h3⟩ := script (blocks := free)
    (ops := [.call (.createFails [pa]), .call (.createOrFind [pa] 7)] ++ [.go 0 0, .go 1 0, .go 0 0, .go 1 0] ++ goes 0 5 1 ++ [.go 0 0] ++ goes 1 5 0 ++ [.ret 1])
    (l := [(1, .neither 1)]) (by decide +kernel)
    (by simp [opCalls, goes, List.replicate, AssocConc.Call.ok, AssocConc.Call.kvs, AssocConc.Sorted, pa])
  refine ⟨evs, s, h, by rw [h2]; rfl, h1, ?_⟩
  have : (exec free ([.call (.createFails [pa]), .call (.createOrFind [pa] 7)] ++ [.go 0 0, .go 1 0, .go 0 0, .go 1 0] ++ goes 0 5 1 ++ [.go 0 0] ++ goes 1 5 0 ++ [.ret 1])
    AssocConc.St.init).map (fun x => x.1.item 1) = some none := rfl
  rw [h3] at this
  exact Option.some.inj this

/-! ## C87 – every call returns -/

omit [Inhabited V] in
/-- C87.  No call goes on for ever: without new calls, every run ends. -/
theorem C87_finite (blocks : (Nat → Option (AssocConc.Item V A)) → Nat → Nat → Bool) (f : Nat → AssocConc.St V A) : ¬ Forever blocks f :=
  fun h => AssocConc.no_forever f h

/-- C87.  Without DestroyByAssociatedID, calls do not wait for each other for ever: if nothing more can happen, every call has returned. -/
theorem C87_no_deadlock (blocks : (Nat → Option (AssocConc.Item V A)) → Nat → Nat → Bool) (evs : List (AssocConc.Event V A)) (s : AssocConc.St V A)
    (h : AssocConc.Run blocks AssocConc.St.init evs s) (hc : ∀ c ∈ callsOf evs, c.creates = true) (hd : ∀ c ∈ callsOf evs, c.destroys = false) (hs : Stuck blocks s) :
    ∀ t, t < (callsOf evs).length → ∃ r, (t, r) ∈ rets evs := by
  have hc' : ∀ c, AssocConc.Event.call c ∈ evs → c.creates = true := fun c h => hc c (AssocConc.mem_callsOf.2 h)
  have hd' : ∀ c, AssocConc.Event.call c ∈ evs → c.destroys = false := fun c h => hd c (AssocConc.mem_callsOf.2 h)
  exact returned_all h (AssocConc.stuck_returned (AssocConc.Inv.run h hc') (AssocConc.not_busy h hd') (AssocConc.kept_nil h hc' (Or.inl hd')) hs)

example : ∃ evs s, AssocConc.Run free AssocConc.St.init evs s ∧ (∀ c ∈ callsOf evs, c.creates = true) ∧ (∀ c ∈ callsOf evs, c.destroys = false) ∧ Stuck free s ∧ (rets evs).length = 6 := by
  obtain ⟨evs, s, h, h1, h2, h3, h4⟩ := assoc_run
  exact ⟨evs, s, h, h2, h3, stuck_of_over h4, by rw [h1]; rfl⟩

/-- C87.  With DestroyByAssociatedID and without Delete, too, if nothing waits for a destruction under way. -/
theorem C87_no_deadlock_destroy (blocks : (Nat → Option (AssocConc.Item V A)) → Nat → Nat → Bool) (evs : List (AssocConc.Event V A)) (s : AssocConc.St V A)
    (hb : ∀ items id j, blocks items id j = false) (h : AssocConc.Run blocks AssocConc.St.init evs s) (hc : ∀ c ∈ callsOf evs, c.creates = true)
    (hd : ∀ c ∈ callsOf evs, c.deletes = false) (hs : Stuck blocks s) : ∀ t, t < (callsOf evs).length → ∃ r, (t, r) ∈ rets evs := by
  have hc' : ∀ c, AssocConc.Event.call c ∈ evs → c.creates = true := fun c h => hc c (AssocConc.mem_callsOf.2 h)
  have hd' : ∀ c, AssocConc.Event.call c ∈ evs → c.deletes = false := fun c h => hd c (AssocConc.mem_callsOf.2 h)
  exact returned_all h (AssocConc.stuck_returned (AssocConc.Inv.run h hc') (AssocConc.not_busy' hb s) (AssocConc.kept_nil h hc' (Or.inr hd')) hs)

example : ∃ evs s, (∀ items id j, free items id j = false) ∧ AssocConc.Run free AssocConc.St.init evs s ∧ (∀ c ∈ callsOf evs, c.creates = true) ∧ (∀ c ∈ callsOf evs, c.deletes = false) ∧
    Stuck free s ∧ (rets evs).length = 5 := by
  obtain ⟨evs, s, h, h1, h2, h3, h4⟩ := destroy_run
  exact ⟨evs, s, fun _ _ _ => rfl, h, h2, h3, stuck_of_over h4, by rw [h1]; rfl⟩

/-- C87 does not hold of a create that overlaps a destruction of an item that shares a pair with the new one.  The create of {a,b} has locked the pair a and waits for
the tree of ids, the destruction of {a} has locked the tree of ids and waits for the pair a: whatever happens afterwards, neither returns, and no call ever
creates, finds or removes anything again. -/
theorem C87_violated_create_destroy (blocks : (Nat → Option (AssocConc.Item Nat Nat)) → Nat → Nat → Bool)
    (hb : ∀ items, (∀ j, j ≠ 1 → items j = none) → ∀ w, blocks items 1 w = true) :
    ∃ (evs : List (AssocConc.Event Nat Nat)) (s : AssocConc.St Nat Nat), AssocConc.Run blocks AssocConc.St.init evs s ∧
      callsOf evs = [.create [pa] 7, .create [pa, pb] 8, .destroy 1 fun _ => true] ∧ rets evs = [(0, .created 1)] ∧
      ∀ evs' s', AssocConc.Run blocks s evs' s' → ∀ t r, (t, r) ∈ rets evs' → t ≠ 1 ∧ t ≠ 2 ∧ r.good = false := by
  obtain ⟨evs, s, h, h1, h2, h3⟩ := script (blocks := blocks) (ops := crossScript) (l := [(0, .created 1)]) rfl
    (by simp [crossScript, opCalls, goes, List.replicate, AssocConc.Call.ok, AssocConc.Call.kvs, AssocConc.Sorted, pa, pb, strLt])
  refine ⟨evs, s, h, by rw [h2]; rfl, h1, ?_⟩
  have get : ∀ {β : Type} (f : AssocConc.St Nat Nat → β) (b : β), (exec blocks crossScript AssocConc.St.init).map (fun x => f x.1) = some b → f s = b := by
    intro β f b e; rw [h3] at e; exact Option.some.inj e
  have hth : s.threads = [⟨.create [pa] 7, .done (.created 1) [], true⟩, ⟨.create [pa, pb] 8, .make [0, 1] 2, false⟩, ⟨.destroy 1 fun _ => true, .wipe [pa], false⟩] :=
    get AssocConc.St.threads _ rfl
  have three : ∀ (u : Nat) (x : AssocConc.Thread Nat Nat), s.threads[u]? = some x → (u = 0 ∧ x = ⟨.create [pa] 7, .done (.created 1) [], true⟩) ∨
      (u = 1 ∧ x = ⟨.create [pa, pb] 8, .make [0, 1] 2, false⟩) ∨ (u = 2 ∧ x = ⟨.destroy 1 fun _ => true, .wipe [pa], false⟩) := by
    intro u x hx
    rw [hth] at hx
    match u with
    | 0 => exact Or.inl ⟨rfl, (Option.some.inj hx).symm⟩
    | 1 => exact Or.inr (Or.inl ⟨rfl, (Option.some.inj hx).symm⟩)
    | 2 => exact Or.inr (Or.inr ⟨rfl, (Option.some.inj hx).symm⟩)
    | u + 3 => simp at hx
  have hitem : ∀ j, j ≠ 1 → s.item j = none := by
    intro j hj
    have e : s.item = fun j => if j = 1 then some ⟨[pa], 7⟩ else none := get AssocConc.St.item _ rfl
    rw [e]; exact if_neg hj
  have hcross : AssocConc.Crossed blocks s 1 2 0 pa := by
    refine ⟨⟨get (fun s => s.index pa) _ rfl, get (fun s => (s.node 0).owner) _ rfl, ?_⟩, ⟨⟨_, 1, fun _ => true, by rw [hth]; rfl, rfl, rfl, rfl⟩⟩,
      ⟨_, [0, 1], 2, [pa, pb], 8, by rw [hth]; rfl, rfl, rfl, rfl⟩, ?_, ?_, ?_⟩
    · have : s.next = 2 := get AssocConc.St.next _ rfl
      omega
    · intro th id can hd hc w
      rw [hth] at hd; cases hd; cases hc
      exact hb _ hitem w
    · intro u x hu hx
      rcases three u x hx with ⟨_, e⟩ | ⟨e, _⟩ | ⟨_, e⟩
      · subst e; simp [AssocConc.Phase.holds]
      · exact absurd e hu
      · subst e; simp [AssocConc.Phase.holds]
    · intro u x hu hx
      rcases three u x hx with ⟨_, e⟩ | ⟨_, e⟩ | ⟨e, _⟩
      · subst e; exact Or.inr ⟨rfl, _, _, rfl⟩
      · subst e; exact Or.inl trivial
      · exact absurd e hu
  intro evs' s' h' t r hr
  exact (hcross.run h').2 t r (mem_rets.1 hr)

/-- Such a tree of ids: one that is locked as a whole as long as it consists of one node. -/
example : ∀ items : Nat → Option (AssocConc.Item Nat Nat), (∀ j, j ≠ 1 → items j = none) → ∀ w, whole items 1 w = true := fun _ _ _ => rfl

/-- C87 does not hold of a Delete that overlaps a destruction of the same item, whatever waits for destructions.  Delete finds out that the item is being destroyed and
returns without unlocking the pair it has locked: the destruction never returns. -/
theorem C87_violated_lock_leak (blocks : (Nat → Option (AssocConc.Item Nat Nat)) → Nat → Nat → Bool) :
    ∃ (evs : List (AssocConc.Event Nat Nat)) (s : AssocConc.St Nat Nat), AssocConc.Run blocks AssocConc.St.init evs s ∧
      callsOf evs = [.create [pa] 7, .delete [pa] fun _ => true, .destroy 1 fun _ => true] ∧ rets evs = [(0, .created 1), (1, .destroying)] ∧
      ∀ evs' s', AssocConc.Run blocks s evs' s' → ∀ r, (2, r) ∉ rets evs' := by
  obtain ⟨evs, s, h, h1, h2, h3⟩ := script (blocks := blocks) (ops := leakScript) (l := [(0, .created 1), (1, .destroying)]) rfl
    (by simp [leakScript, opCalls, AssocConc.Call.ok, AssocConc.Call.kvs, AssocConc.Sorted, pa])
  refine ⟨evs, s, h, by rw [h2]; rfl, h1, ?_⟩
  have get : ∀ {β : Type} (f : AssocConc.St Nat Nat → β) (b : β), (exec blocks leakScript AssocConc.St.init).map (fun x => f x.1) = some b → f s = b := by
    intro β f b e; rw [h3] at e; exact Option.some.inj e
  have hth : s.threads = [⟨.create [pa] 7, .done (.created 1) [], true⟩, ⟨.delete [pa] fun _ => true, .done .destroying [0], true⟩, ⟨.destroy 1 fun _ => true, .wipe [pa], false⟩] :=
    get AssocConc.St.threads _ rfl
  have hleak : AssocConc.Leaked s 1 2 0 pa := by
    refine ⟨⟨get (fun s => s.index pa) _ rfl, get (fun s => (s.node 0).owner) _ rfl, ?_⟩, ⟨⟨_, 1, fun _ => true, by rw [hth]; rfl, rfl, rfl, rfl⟩⟩,
      ⟨_, .destroying, [0], by rw [hth]; rfl, rfl⟩, ?_⟩
    · have : s.next = 1 := get AssocConc.St.next _ rfl
      omega
    · intro u x hu hx
      rw [hth] at hx
      match u with
      | 0 => cases hx; simp [AssocConc.Phase.holds]
      | 1 => exact absurd rfl hu
      | 2 => cases hx; simp [AssocConc.Phase.holds]
      | u + 3 => simp at hx
  intro evs' s' h' r hr
  exact (hleak.run h').2 r (mem_rets.1 hr)

end Willow.Props
