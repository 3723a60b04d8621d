import Verif.Proofs.SharedLockEnd
import Verif.Proofs.SharedLockFresh
/-
Property C89: a lock client can be shared by goroutines.

`SharedLock.run Sys.init ls = some s`: the history `ls` of calls of ObtainLock and Release by any number of goroutines of any number of clients, and of the steps these calls
do one after the other, is possible, and leads to `s`.  The calls on the tree of a client are numbered in the order in which they are made; a lock object is named by its
client and the ObtainLock that made it.  `s.held kvs = some (c, o)`: for the locker, lock object `o` of client `c` holds the lock.  `acquire … true` is an ObtainLock that is
cancelled, or fails.
-/
namespace Willow.Props
open Willow.AssocConc (KVs Call Thread)
open Willow.SharedLock (Sys Rel Freed)

namespace SL
variable {V : Type} [DecidableEq V] [Inhabited V]

/-- A history. -/
abbrev Reach (ls : List (SharedLock.Label V)) (s : Sys V) : Prop := SharedLock.run Sys.init ls = some s

/-- No ObtainLock is cancelled or fails. -/
abbrev Kept (ls : List (SharedLock.Label V)) : Prop := ∀ c kvs, .acquire c kvs true ∉ ls

/-- ObtainLock number `t` of client `c` was called with `kvs` and has returned the lock object `o`. -/
def Obtained (s : Sys V) (c t : Nat) (kvs : KVs V) (o : Nat) : Prop :=
  ∃ th, (s.tree c).threads[t]? = some th ∧ th.call = .createOrFind kvs t ∧ SharedLock.gives t th = some o

/-- It was called and has not returned. -/
def Waiting (s : Sys V) (c t : Nat) (kvs : KVs V) : Prop := ∃ th, (s.tree c).threads[t]? = some th ∧ th.call = .createOrFind kvs t ∧ th.returned = false

/-- Release of a lock object was called and has not returned. -/
def Releasing (s : Sys V) (c o : Nat) : Prop := ∃ r ∈ s.rels, r.client = c ∧ r.obj = o ∧ r.freed = false

omit [Inhabited V] in
theorem kept_iff {ls : List (SharedLock.Label V)} (h : Kept ls) : ∀ l ∈ ls, l.kept = true := by
  intro l hl
  cases l with
  | acquire c kvs b => cases b with
    | true => exact absurd hl (h c kvs)
    | false => rfl
  | _ => rfl

theorem inv {ls : List (SharedLock.Label V)} {s : Sys V} (h : Reach ls s) : SharedLock.Inv s := SharedLock.Inv.init.run h

theorem proj {ls : List (SharedLock.Label V)} {s : Sys V} (h : Reach ls s) (hk : Kept ls) : SharedLock.Proj true s := SharedLock.proj_run SharedLock.proj_init (fun _ => kept_iff hk) h

theorem returned_of_gives {t o : Nat} {th : Thread V Nat} (h : SharedLock.gives t th = some o) : th.returned = true := by
  unfold SharedLock.gives at h
  split at h
  · assumption
  · cases h

/-- The pairs a=1, b=2, c=3 of the examples. -/
def pa : GoString × Nat := ([97], 1)
def pb : GoString × Nat := ([98], 2)
def pc : GoString × Nat := ([99], 3)

/-- A number of steps of one call. -/
def goes (c t n pick : Nat) : List (SharedLock.Label Nat) := List.replicate n (.go c t pick)

/-- Client 0 obtains {a}. -/
def oneScript : List (SharedLock.Label Nat) := [.acquire 0 [pa] false] ++ goes 0 0 8 1 ++ [.ret 0 0]

/-- Then another goroutine of client 0 obtains {a}, too. -/
def twoScript : List (SharedLock.Label Nat) := oneScript ++ [.acquire 0 [pa] false] ++ goes 0 1 3 2 ++ [.ret 0 1]

/-- Then the first one releases it, and client 1 obtains it. -/
def threeScript : List (SharedLock.Label Nat) := twoScript ++ [.release 0 0] ++ goes 0 2 8 0 ++ [.ret 0 2, .free 0, .acquire 1 [pa] false] ++ goes 1 0 8 1 ++ [.ret 1 0]

/-- Client 1 obtains {a,b}, client 0 obtains {a}; another goroutine of client 0 wants {a,b}, another one of client 1 wants {a}; then both locks are released. -/
def ringScript : List (SharedLock.Label Nat) :=
  [.acquire 1 [pa, pb] false] ++ goes 1 0 11 1 ++ [.ret 1 0, .acquire 0 [pa] false] ++ goes 0 0 8 1 ++ [.ret 0 0, .acquire 0 [pa, pb] false] ++ goes 0 1 7 2 ++
    [.acquire 1 [pa] false] ++ goes 1 1 5 2 ++ [.release 0 0] ++ goes 0 2 2 0 ++ [.release 1 0] ++ goes 1 2 3 0

/-- Client 1 obtains {a,b}, a goroutine of client 0 wants {a,b}, another one {a,c}. -/
def sideScript : List (SharedLock.Label Nat) := [.acquire 1 [pa, pb] false] ++ goes 1 0 11 1 ++ [.ret 1 0, .acquire 0 [pa, pb] false] ++ goes 0 0 7 2 ++ [.acquire 0 [pa, pc] false]

/-- Two goroutines of client 0 want {a}; the first is cancelled. -/
def nothingScript : List (SharedLock.Label Nat) :=
  [.acquire 0 [pa] true, .acquire 0 [pa] false] ++ [.go 0 0 0, .go 0 1 0, .go 0 0 0, .go 0 1 0] ++ goes 0 0 5 1 ++ [.go 0 0 0] ++ goes 0 1 5 0 ++ [.ret 0 1]

/-- Client 1 obtains {a}; client 0 wants it, too. -/
def waitScript : List (SharedLock.Label Nat) := [.acquire 1 [pa] false] ++ goes 1 0 8 1 ++ [.ret 1 0, .acquire 0 [pa] false] ++ goes 0 0 5 2

/-- Two goroutines of client 0 have obtained {a}; one of them has released it. -/
def releasedScript : List (SharedLock.Label Nat) := twoScript ++ [.release 0 0] ++ goes 0 2 8 0 ++ [.ret 0 2, .free 0]

/-- Then a goroutine of client 0 obtains {a} again. -/
def againScript : List (SharedLock.Label Nat) := [.acquire 0 [pa] false] ++ goes 0 3 8 3 ++ [.ret 0 3]

/-- The two clients, and nothing else. -/
def twoOnly (ls : List (SharedLock.Label Nat)) : Bool := ls.all fun l => decide (l.client < 2)

theorem others_empty {ls : List (SharedLock.Label Nat)} {s : Sys Nat} (h : Reach ls s) (hc : twoOnly ls = true) {c : Nat} (h2 : 2 ≤ c) : (s.tree c).threads = [] := by
  rw [SharedLock.tree_unused (c := c) (fun l hl => ?_) h]
  · rfl
  · have := List.all_eq_true.1 hc l hl
    have := of_decide_eq_true this
    omega

/-- What a script leads to. -/
theorem get {β : Type} {ls : List (SharedLock.Label Nat)} (f : Sys Nat → β) {s : Sys Nat} (h : Reach ls s) {b : β} (e : (SharedLock.run Sys.init ls).map f = some b) : f s = b := by
  rw [show SharedLock.run Sys.init ls = some s from h] at e
  exact Option.some.inj e

theorem runs {ls : List (SharedLock.Label Nat)} (h : (SharedLock.run (Sys.init : Sys Nat) ls).isSome = true) : ∃ s, Reach ls s := Option.isSome_iff_exists.1 h

/-- Lists of labels without cancellations. -/
def keeps (ls : List (SharedLock.Label Nat)) : Bool := ls.all SharedLock.Label.kept

theorem kept_of {ls : List (SharedLock.Label Nat)} (h : keeps ls = true) : Kept ls := fun c kvs hm => by
  have := List.all_eq_true.1 h _ hm
  cases this

/-- `Obtained`, to be computed. -/
def obtained (s : Sys Nat) (c t : Nat) (kvs : KVs Nat) (o : Nat) : Bool :=
  match (s.tree c).threads[t]? with
  | some th => decide (SharedLock.gives t th = some o) && match th.call with
    | .createOrFind k a => decide (k = kvs) && decide (a = t)
    | _ => false
  | none => false

theorem obtained_iff {s : Sys Nat} {c t : Nat} {kvs : KVs Nat} {o : Nat} (h : obtained s c t kvs o = true) : Obtained s c t kvs o := by
  unfold obtained at h
  split at h
  next th ht =>
    simp only [Bool.and_eq_true, decide_eq_true_eq] at h
    obtain ⟨h1, h2⟩ := h
    split at h2
    next k a e =>
      simp only [Bool.and_eq_true, decide_eq_true_eq] at h2
      obtain ⟨e1, e2⟩ := h2
      subst e1; subst e2
      exact ⟨th, ht, e, h1⟩
    · cases h2
  · cases h

theorem obtain_of {ls : List (SharedLock.Label Nat)} {s : Sys Nat} (h : Reach ls s) {c t : Nat} {kvs : KVs Nat} {o : Nat}
    (e : (SharedLock.run Sys.init ls).map (fun s => obtained s c t kvs o) = some true) : Obtained s c t kvs o := obtained_iff (get _ h e)

end SL
open SL (Reach Kept Obtained Waiting Releasing)

variable {V : Type} [DecidableEq V] [Inhabited V]

/-! ## What ObtainLock returns -/

/-- **C89** If no ObtainLock is cancelled or fails, every ObtainLock that has returned has returned a lock object for the key-values it was called with: the locker counts
that lock object as the holder of these key-values, unless it was released since. -/
theorem C89_right_lock {ls : List (SharedLock.Label V)} {s : Sys V} (h : Reach ls s) (hk : Kept ls) {c t o : Nat} {kvs : KVs V} (ho : Obtained s c t kvs o) :
    s.held kvs = some (c, o) ∨ Freed s c o := by
  obtain ⟨th, h1, h2, h3⟩ := ho
  obtain ⟨o', e, hm⟩ := SharedLock.obtain_gives (SL.proj h hk) ((SL.inv h).trees c) h1 h2 (SL.returned_of_gives h3)
  rw [h3] at e; cases e
  by_cases hf : Freed s c o
  · exact Or.inr hf
  · exact Or.inl ((SL.inv h).held c o kvs hm hf)

example : ∃ s, Reach SL.twoScript s ∧ Kept SL.twoScript ∧ Obtained s 0 0 [SL.pa] 0 ∧ Obtained s 0 1 [SL.pa] 0 := by
  obtain ⟨s, h⟩ := SL.runs (ls := SL.twoScript) (by decide +kernel)
  exact ⟨s, h, SL.kept_of (by decide), SL.obtain_of h (by decide +kernel), SL.obtain_of h (by decide +kernel)⟩

/-- **C89** If no ObtainLock is cancelled or fails, every ObtainLock that has returned has returned a lock object. -/
theorem C89_always_lock {ls : List (SharedLock.Label V)} {s : Sys V} (h : Reach ls s) (hk : Kept ls) {c t : Nat} {kvs : KVs V} {th : Thread V Nat} (ht : (s.tree c).threads[t]? = some th)
    (hc : th.call = .createOrFind kvs t) (hr : th.returned = true) : ∃ o, Obtained s c t kvs o := by
  obtain ⟨o, e, hm⟩ := SharedLock.obtain_gives (SL.proj h hk) ((SL.inv h).trees c) ht hc hr
  exact ⟨o, th, ht, hc, e⟩

example : ∃ s th, Reach SL.twoScript s ∧ Kept SL.twoScript ∧ (s.tree 0).threads[1]? = some th ∧ th.call = .createOrFind [SL.pa] 1 ∧ th.returned = true := by
  obtain ⟨s, h⟩ := SL.runs (ls := SL.twoScript) (by decide +kernel)
  obtain ⟨th, h1, h2, h3⟩ := SL.obtain_of h (c := 0) (t := 1) (kvs := [SL.pa]) (o := 0) (by decide +kernel)
  exact ⟨s, th, h, SL.kept_of (by decide), h1, h2, SL.returned_of_gives h3⟩

/-- **C89** Goroutines of different clients do not hold the same lock: one of their lock objects was released. -/
theorem C89_exclusive_clients {ls : List (SharedLock.Label V)} {s : Sys V} (h : Reach ls s) (hk : Kept ls) {c d t u o o' : Nat} {kvs : KVs V} (ho : Obtained s c t kvs o)
    (ho' : Obtained s d u kvs o') (hcd : c ≠ d) : Freed s c o ∨ Freed s d o' := by
  rcases C89_right_lock h hk ho with e | hf
  · rcases C89_right_lock h hk ho' with e' | hf
    · rw [e] at e'; cases e'; exact absurd rfl hcd
    · exact Or.inr hf
  · exact Or.inl hf

/-- **C89** Goroutines of the same client that obtain the same lock share one lock object, unless one of theirs was released. -/
theorem C89_shared_object {ls : List (SharedLock.Label V)} {s : Sys V} (h : Reach ls s) (hk : Kept ls) {c t u o o' : Nat} {kvs : KVs V} (ho : Obtained s c t kvs o)
    (ho' : Obtained s c u kvs o') : o = o' ∨ Freed s c o ∨ Freed s c o' := by
  rcases C89_right_lock h hk ho with e | hf
  · rcases C89_right_lock h hk ho' with e' | hf
    · rw [e] at e'; cases e'; exact Or.inl rfl
    · exact Or.inr (Or.inr hf)
  · exact Or.inr (Or.inl hf)

/-- Two goroutines of client 0 and one of client 1 have obtained {a}. -/
example : ∃ s, Reach SL.threeScript s ∧ Kept SL.threeScript ∧ Obtained s 0 0 [SL.pa] 0 ∧ Obtained s 0 1 [SL.pa] 0 ∧ Obtained s 1 0 [SL.pa] 0 := by
  obtain ⟨s, h⟩ := SL.runs (ls := SL.threeScript) (by decide +kernel)
  exact ⟨s, h, SL.kept_of (by decide), SL.obtain_of h (by decide +kernel), SL.obtain_of h (by decide +kernel), SL.obtain_of h (by decide +kernel)⟩

/-- **C89** When Release has returned, the locker does not count the lock object as a holder, whatever happens afterwards. -/
theorem C89_release_frees {ls : List (SharedLock.Label V)} {s : Sys V} (h : Reach ls s) {c o : Nat} (hf : Freed s c o) (kvs : KVs V) : s.held kvs ≠ some (c, o) :=
  fun e => ((SL.inv h).only c o kvs e).2 hf

/-- **C89** If no ObtainLock is cancelled or fails, an ObtainLock that is called after a Release has returned does not return the lock object that was released. -/
theorem C89_not_released_before {ls ms : List (SharedLock.Label V)} {s s' : Sys V} (h : Reach ls s) (hk : Kept (ls ++ ms)) {c o : Nat} (hf : Freed s c o) (hm : SharedLock.run s ms = some s') {t : Nat}
    {kvs : KVs V} (ht : (s.tree c).threads.length ≤ t) : ¬ Obtained s' c t kvs o := by
  rintro ⟨th, h1, _, h3⟩
  exact SharedLock.not_released_before h (SL.kept_iff hk) hf hm ht h1 h3

example : ∃ s s', Reach SL.releasedScript s ∧ Kept (SL.releasedScript ++ SL.againScript) ∧ Freed s 0 0 ∧ SharedLock.run s SL.againScript = some s' ∧ (s.tree 0).threads.length ≤ 3 ∧ Obtained s' 0 3 [SL.pa] 3 := by
  obtain ⟨s, h⟩ := SL.runs (ls := SL.releasedScript) (by decide +kernel)
  obtain ⟨s', h'⟩ := SL.runs (ls := SL.releasedScript ++ SL.againScript) (by decide +kernel)
  have hm : SharedLock.run s SL.againScript = some s' := by
    have := SharedLock.run_split h' h
    exact this
  refine ⟨s, s', h, SL.kept_of (by decide), ⟨⟨0, 0, 2, true⟩, ?_, rfl, rfl, rfl⟩, hm, ?_, SL.obtain_of h' (by decide +kernel)⟩
  · rw [SL.get Sys.rels h (b := [⟨0, 0, 2, true⟩]) (by decide +kernel)]
    exact List.mem_singleton.2 rfl
  · rw [SL.get (fun s => (s.tree 0).threads.length) h (b := 3) (by decide +kernel)]; exact Nat.le_refl _

/-- **C89** What the locker counts as held is held by a lock object whose ObtainLock was called with these key-values and was told so. -/
theorem C89_held_was_obtained {ls : List (SharedLock.Label V)} {s : Sys V} (h : Reach ls s) {c o : Nat} {kvs : KVs V} (hh : s.held kvs = some (c, o)) :
    ∃ th, (s.tree c).threads[o]? = some th ∧ th.call = .createOrFind kvs o := by
  obtain ⟨⟨th, _, h1, h2, _⟩, _⟩ := (SL.inv h).only c o kvs hh
  exact ⟨th, h1, h2⟩

example : ∃ s, Reach SL.threeScript s ∧ Freed s 0 0 ∧ s.held [SL.pa] = some (1, 0) := by
  obtain ⟨s, h⟩ := SL.runs (ls := SL.threeScript) (by decide +kernel)
  refine ⟨s, h, ⟨⟨0, 0, 2, true⟩, ?_, rfl, rfl, rfl⟩, SL.get (fun s => s.held [SL.pa]) h (by decide +kernel)⟩
  rw [SL.get Sys.rels h (b := [⟨0, 0, 2, true⟩]) (by decide +kernel)]
  exact List.mem_singleton.2 rfl

/-! ## Whether calls return -/

/-- **C89** Without new calls, nothing goes on for ever. -/
theorem C89_finite {ls : List (SharedLock.Label V)} {s : Sys V} (h : Reach ls s) (f : Nat → Sys V) (h0 : f 0 = s) : ¬ SharedLock.Forever f := by
  obtain ⟨n, hn⟩ := SharedLock.unused_run (n := 0) (s := (Sys.init : Sys V)) (fun c _ => rfl) h
  intro hf
  exact SharedLock.no_forever (by rw [h0]; exact hn) hf

omit [DecidableEq V] [Inhabited V] in
theorem SL.waiting {s : Sys V} {c u : Nat} {x : Thread V Nat} {k : KVs V} (hi : SharedLock.TInv (s.tree c)) (hu : (s.tree c).threads[u]? = some x) (hw : SharedLock.waitsFor x = some k)
    (hr : x.returned = false) : Waiting s c u k := by
  refine ⟨x, hu, ?_, hr⟩
  unfold SharedLock.waitsFor at hw
  split at hw
  next held id kvs a _ e => cases hw; rw [e, hi.named u x _ _ hu e]
  · cases hw

theorem SL.not_returned {ls : List (SharedLock.Label V)} {s : Sys V} (h : Reach ls s) {c u : Nat} {x : Thread V Nat} (hu : (s.tree c).threads[u]? = some x) (ho : SharedLock.over x = false) :
    x.returned = false := by
  cases e : x.returned with
  | false => rfl
  | true =>
    obtain ⟨evs, h1, _⟩ := SharedLock.proj_run (b := false) SharedLock.proj_init nofun h c
    obtain ⟨r, kept, e', _⟩ := (SharedLock.returned_rets h1).2 u x hu e
    unfold SharedLock.over at ho
    rw [e'] at ho; cases ho

/-- **C89** (what holds of "ObtainLock returns as soon as its lock is free, Release always returns") If no ObtainLock is cancelled or fails, and nothing can go on without
new calls, then every client with an ObtainLock or a Release that has not returned has an ObtainLock waiting for a lock that is held.  Missing: the call that has not
returned need not be the one whose lock is held. -/
theorem C89_waits_partial {ls : List (SharedLock.Label V)} {s : Sys V} (h : Reach ls s) (hk : Kept ls) (hs : SharedLock.Stuck s) {c : Nat}
    (hw : (∃ t kvs, Waiting s c t kvs) ∨ ∃ o, Releasing s c o) : ∃ u kvs d o, Waiting s c u kvs ∧ s.held kvs = some (d, o) := by
  have key : ∀ (t : Nat) (th : Thread V Nat), (s.tree c).threads[t]? = some th → th.returned = false → ∃ u kvs d o, Waiting s c u kvs ∧ s.held kvs = some (d, o) := by
    intro t th ht hr
    obtain ⟨_, u, x, kvs, d, o, h1, h2, h3⟩ := SharedLock.stuck_waits (SL.proj h hk) hs ht hr
    exact ⟨u, kvs, d, o, SL.waiting ((SL.inv h).trees c) h1 h2 (SL.not_returned h h1 (SharedLock.waitsFor_over h2)), h3⟩
  rcases hw with ⟨t, kvs, th, h1, _, h3⟩ | ⟨o, r, hr, e1, _, e3⟩
  · exact key t th h1 h3
  · subst e1
    obtain ⟨th, t1, t2⟩ := SharedLock.stuck_rel (SL.inv h) hs hr e3
    exact key _ th t1 (SL.not_returned h t1 t2)

/-- **C89** If moreover no client has a Release under way while one of its ObtainLocks waits – as when each client is used by one goroutine – all Releases have returned,
and ObtainLocks wait only for locks that nobody has released. -/
theorem C89_one_at_a_time {ls : List (SharedLock.Label V)} {s : Sys V} (h : Reach ls s) (hk : Kept ls) (hs : SharedLock.Stuck s)
    (hq : ∀ c t kvs o, Waiting s c t kvs → ¬ Releasing s c o) :
    (∀ c o, ¬ Releasing s c o) ∧ ∀ c t kvs, Waiting s c t kvs → ∃ u kvs' d o, Waiting s c u kvs' ∧ s.held kvs' = some (d, o) ∧ ∀ r ∈ s.rels, ¬ (r.client = d ∧ r.obj = o) := by
  have hnr : ∀ c o, ¬ Releasing s c o := fun c o hr => by
    obtain ⟨u, kvs, d, o', hw, _⟩ := C89_waits_partial h hk hs (Or.inr ⟨o, hr⟩)
    exact hq c u kvs o hw hr
  refine ⟨hnr, fun c t kvs hw => ?_⟩
  obtain ⟨u, kvs', d, o, h1, h2⟩ := C89_waits_partial h hk hs (Or.inl ⟨t, kvs, hw⟩)
  refine ⟨u, kvs', d, o, h1, h2, fun r hr ⟨e1, e2⟩ => ?_⟩
  cases e : r.freed with
  | true => exact ((SL.inv h).only d o kvs' h2).2 ⟨r, hr, e1, e2, e⟩
  | false => exact hnr d o ⟨r, hr, e1, e2, e⟩

/-- Client 0 waits for the lock client 1 has obtained. -/
example : ∃ s, Reach SL.waitScript s ∧ Kept SL.waitScript ∧ SharedLock.Stuck s ∧ Waiting s 0 0 [SL.pa] ∧ ∀ c t kvs o, Waiting s c t kvs → ¬ Releasing s c o := by
  obtain ⟨s, h⟩ := SL.runs (ls := SL.waitScript) (by decide +kernel)
  have h0 : (s.tree 0).threads = [⟨.createOrFind [SL.pa] 0, .make [0] 2, false⟩] := SL.get (fun s => (s.tree 0).threads) h rfl
  have h1 : (s.tree 1).threads = [⟨.createOrFind [SL.pa] 0, .done (.created 1) [], true⟩] := SL.get (fun s => (s.tree 1).threads) h rfl
  have hr : s.rels = [] := SL.get Sys.rels h rfl
  have hh : s.held [SL.pa] = some (1, 0) := SL.get (fun s => s.held [SL.pa]) h (by decide +kernel)
  refine ⟨s, h, SL.kept_of (by decide), SharedLock.stuck_of ?_ (by rw [hr]; nofun), ⟨_, by rw [h0]; rfl, rfl, rfl⟩, fun c t kvs o _ ⟨r, hr', _⟩ => by rw [hr] at hr'; cases hr'⟩
  intro c t th ht
  match c with
  | 0 =>
    rw [h0] at ht
    match t with
    | 0 => cases ht; exact Or.inr ⟨_, rfl, by rw [hh]; nofun⟩
    | t + 1 => simp at ht
  | 1 =>
    rw [h1] at ht
    match t with
    | 0 => cases ht; exact Or.inl ⟨rfl, rfl⟩
    | t + 1 => simp at ht
  | c + 2 => rw [SL.others_empty h (by decide) (by omega)] at ht; simp at ht

/-! ## What does not hold -/

/-- C89 does not hold of "as long as nobody else releases it, the lock stays mine": two goroutines of one client obtain the same lock and get the same lock object; when
one of them releases it, another client obtains the lock while the other goroutine uses it, without having released it. -/
theorem C89_violated_shared : ∃ s : Sys Nat, Reach SL.threeScript s ∧ Kept SL.threeScript ∧ Obtained s 0 0 [SL.pa] 0 ∧ Obtained s 0 1 [SL.pa] 0 ∧ Obtained s 1 0 [SL.pa] 0 ∧
    s.held [SL.pa] = some (1, 0) ∧ s.rels = [⟨0, 0, 2, true⟩] := by
  obtain ⟨s, h⟩ := SL.runs (ls := SL.threeScript) (by decide +kernel)
  exact ⟨s, h, SL.kept_of (by decide), SL.obtain_of h (by decide +kernel), SL.obtain_of h (by decide +kernel), SL.obtain_of h (by decide +kernel),
    SL.get (fun s => s.held [SL.pa]) h (by decide +kernel), SL.get Sys.rels h (by decide +kernel)⟩

/-- C89 does not hold of "Release always returns, ObtainLock returns after the lock was released": two clients, each with a goroutine that obtains one lock and releases it,
and a goroutine that wants the lock of the other client.  Both Releases were called; whatever happens afterwards neither of them returns, neither of the waiting ObtainLocks
returns, and both locks stay held. -/
theorem C89_violated_deadlock : ∃ s : Sys Nat, Reach SL.ringScript s ∧ Kept SL.ringScript ∧
    Waiting s 0 1 [SL.pa, SL.pb] ∧ s.held [SL.pa, SL.pb] = some (1, 0) ∧ Releasing s 1 0 ∧ Waiting s 1 1 [SL.pa] ∧ s.held [SL.pa] = some (0, 0) ∧ Releasing s 0 0 ∧
    ∀ ls s', SharedLock.run s ls = some s' →
      Waiting s' 0 1 [SL.pa, SL.pb] ∧ s'.held [SL.pa, SL.pb] = some (1, 0) ∧ Releasing s' 1 0 ∧ Waiting s' 1 1 [SL.pa] ∧ s'.held [SL.pa] = some (0, 0) ∧ Releasing s' 0 0 := by
  obtain ⟨s, h⟩ := SL.runs (ls := SL.ringScript) (by decide +kernel)
  have h0 : (s.tree 0).threads = [⟨.createOrFind [SL.pa] 0, .done (.created 1) [], true⟩, ⟨.createOrFind [SL.pa, SL.pb] 1, .make [0, 1] 2, false⟩, ⟨.delete [SL.pa] fun _ => true, .dlock [0] [] none, false⟩] :=
    SL.get (fun s => (s.tree 0).threads) h rfl
  have h1 : (s.tree 1).threads = [⟨.createOrFind [SL.pa, SL.pb] 0, .done (.created 1) [], true⟩, ⟨.createOrFind [SL.pa] 1, .make [0] 2, false⟩,
      ⟨.delete [SL.pa, SL.pb] fun _ => true, .dlock [0, 1] [] none, false⟩] := SL.get (fun s => (s.tree 1).threads) h rfl
  have hr : s.rels = [⟨0, 0, 2, false⟩, ⟨1, 0, 2, false⟩] := SL.get Sys.rels h rfl
  have ring : SharedLock.Ring s 0 1 2 0 SL.pa [SL.pa, SL.pb] 0 0 1 1 2 0 SL.pa [SL.pa] 1 0 := by
    refine ⟨⟨⟨_, by rw [h0]; rfl, rfl⟩, ⟨SL.get (fun s => (s.tree 0).index SL.pa) h (by decide +kernel), SL.get (fun s => ((s.tree 0).node 0).owner) h (by decide +kernel), ?_⟩, ?_, ⟨_, by rw [h0]; rfl, Or.inl ⟨_, _, _, rfl⟩⟩⟩,
      ⟨⟨_, by rw [h1]; rfl, rfl⟩, ⟨SL.get (fun s => (s.tree 1).index SL.pa) h (by decide +kernel), SL.get (fun s => ((s.tree 1).node 0).owner) h (by decide +kernel), ?_⟩, ?_, ⟨_, by rw [h1]; rfl, Or.inl ⟨_, _, _, rfl⟩⟩⟩,
      SL.get (fun s => s.held [SL.pa, SL.pb]) h (by decide +kernel), SL.get (fun s => s.held [SL.pa]) h (by decide +kernel), by rw [hr]; rfl, by rw [hr]; rfl⟩
    · rw [SL.get (fun s => (s.tree 0).next) h (b := 2) (by decide +kernel)]; omega
    · intro t x ht hx
      rw [h0] at hx
      match t with
      | 0 => cases hx; simp [AssocConc.Phase.holds]
      | 1 => exact absurd rfl ht
      | 2 => cases hx; simp [AssocConc.Phase.holds]
      | t + 3 => simp at hx
    · rw [SL.get (fun s => (s.tree 1).next) h (b := 2) (by decide +kernel)]; omega
    · intro t x ht hx
      rw [h1] at hx
      match t with
      | 0 => cases hx; simp [AssocConc.Phase.holds]
      | 1 => exact absurd rfl ht
      | 2 => cases hx; simp [AssocConc.Phase.holds]
      | t + 3 => simp at hx
  have what : ∀ {s' : Sys Nat} {ls : List (SharedLock.Label Nat)}, Reach ls s' → SharedLock.Ring s' 0 1 2 0 SL.pa [SL.pa, SL.pb] 0 0 1 1 2 0 SL.pa [SL.pa] 1 0 →
      Waiting s' 0 1 [SL.pa, SL.pb] ∧ s'.held [SL.pa, SL.pb] = some (1, 0) ∧ Releasing s' 1 0 ∧ Waiting s' 1 1 [SL.pa] ∧ s'.held [SL.pa] = some (0, 0) ∧ Releasing s' 0 0 := by
    intro s' ls h' r
    obtain ⟨x, x1, x2⟩ := r.one.waiter
    obtain ⟨y, y1, y2⟩ := r.two.waiter
    exact ⟨SL.waiting ((SL.inv h').trees 0) x1 x2 (SL.not_returned h' x1 (SharedLock.waitsFor_over x2)), r.takenOne, ⟨_, List.mem_of_getElem? r.relTwo, rfl, rfl, rfl⟩,
      SL.waiting ((SL.inv h').trees 1) y1 y2 (SL.not_returned h' y1 (SharedLock.waitsFor_over y2)), r.takenTwo, ⟨_, List.mem_of_getElem? r.relOne, rfl, rfl, rfl⟩⟩
  obtain ⟨w1, w2, w3, w4, w5, w6⟩ := what h ring
  refine ⟨s, h, SL.kept_of (by decide), w1, w2, w3, w4, w5, w6, fun ls s' hl => ?_⟩
  exact what (SharedLock.run_append h hl) (ring.run (SL.inv h) hl)

/-- C89 does not hold of "ObtainLock returns if nobody holds the lock": a goroutine wants {a,b}, which another client holds; as long as that client does not release it,
no ObtainLock of {a,c} by another goroutine of the same client returns, although nobody holds {a,c} and nobody else asks for it. -/
theorem C89_violated_free_lock : ∃ s : Sys Nat, Reach SL.sideScript s ∧ Kept SL.sideScript ∧ Waiting s 0 1 [SL.pa, SL.pc] ∧ s.held [SL.pa, SL.pc] = none ∧
    ∀ ls s', .release 1 0 ∉ ls → SharedLock.run s ls = some s' → Waiting s' 0 1 [SL.pa, SL.pc] := by
  obtain ⟨s, h⟩ := SL.runs (ls := SL.sideScript) (by decide +kernel)
  have h0 : (s.tree 0).threads = [⟨.createOrFind [SL.pa, SL.pb] 0, .make [0, 1] 2, false⟩, ⟨.createOrFind [SL.pa, SL.pc] 1, .query [SL.pa, SL.pc] none, false⟩] :=
    SL.get (fun s => (s.tree 0).threads) h rfl
  have hr : s.rels = [] := SL.get Sys.rels h rfl
  have hold : SharedLock.Hold s 0 0 1 0 SL.pa [SL.pa, SL.pb] 1 0 := by
    refine ⟨⟨⟨_, by rw [h0]; rfl, rfl⟩, ⟨SL.get (fun s => (s.tree 0).index SL.pa) h (by decide +kernel), SL.get (fun s => ((s.tree 0).node 0).owner) h (by decide +kernel), ?_⟩, ?_, ⟨_, by rw [h0]; rfl, Or.inr ⟨_, _, rfl⟩⟩⟩,
      SL.get (fun s => s.held [SL.pa, SL.pb]) h (by decide +kernel), by rw [hr]; nofun⟩
    · rw [SL.get (fun s => (s.tree 0).next) h (b := 2) (by decide +kernel)]; omega
    · intro t x ht hx
      rw [h0] at hx
      match t with
      | 0 => exact absurd rfl ht
      | 1 => cases hx; simp [AssocConc.Phase.holds]
      | t + 2 => simp at hx
  have w : (s.tree 0).threads[1]? = some ⟨.createOrFind [SL.pa, SL.pc] 1, .query [SL.pa, SL.pc] none, false⟩ := by rw [h0]; rfl
  refine ⟨s, h, SL.kept_of (by decide), ⟨_, w, rfl, rfl⟩, SL.get (fun s => s.held [SL.pa, SL.pc]) h (by decide +kernel), fun ls s' hl hrun => ?_⟩
  have h2 := hold.run hl hrun
  obtain ⟨th, t1, t2⟩ := h2.side.blocked
  obtain ⟨th', t1', t2'⟩ := SharedLock.call_run hrun w
  rw [t1] at t1'
  cases t1'
  exact ⟨th, t1, t2', SL.not_returned (SharedLock.run_append h hrun) t1 (SharedLock.blocked_over t2).1⟩

/-- C89_always_lock does not hold if another ObtainLock is cancelled: then an ObtainLock that is not cancelled can return neither a lock nor an error. -/
theorem C89_violated_nothing : ∃ (s : Sys Nat) (th : Thread Nat Nat), Reach SL.nothingScript s ∧ (s.tree 0).threads[1]? = some th ∧ th.call = .createOrFind [SL.pa] 1 ∧ th.returned = true ∧
    (∀ o, ¬ Obtained s 0 1 [SL.pa] o) ∧ s.held [SL.pa] = none := by
  obtain ⟨s, h⟩ := SL.runs (ls := SL.nothingScript) (by decide +kernel)
  have w : (s.tree 0).threads[1]? = some ⟨.createOrFind [SL.pa] 1, .done (.neither 1) [], true⟩ := SL.get (fun s => (s.tree 0).threads[1]?) h rfl
  refine ⟨s, _, h, w, rfl, rfl, ?_, SL.get (fun s => s.held [SL.pa]) h (by decide +kernel)⟩
  rintro o ⟨th, t1, _, t3⟩
  rw [w] at t1; cases t1
  cases t3

end Willow.Props
