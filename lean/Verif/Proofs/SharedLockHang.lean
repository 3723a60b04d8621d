import Verif.Proofs.SharedLock
/-! Lock clients shared by goroutines: the trees of the clients are those of C86 and C87; calls that wait for ever. -/
namespace Willow.SharedLock
open Willow.AssocConc (KVs Call Phase Thread Res set_cases set_self set_other append_cases append_old Frozen next_frozen)

variable {V : Type}

/-- The label is not an ObtainLock that fails. -/
def Label.kept : Label V → Bool
  | .acquire _ _ true => false
  | _ => true

/-- The trees are those of runs. -/
def Proj [DecidableEq V] [Inhabited V] (b : Bool) (s : Sys V) : Prop :=
  ∀ c, ∃ evs, AssocConc.Run free AssocConc.St.init evs (s.tree c) ∧ ∀ k, AssocConc.Event.call k ∈ evs → k.destroys = false ∧ (k.kvs ≠ [] ∧ AssocConc.Sorted k.kvs) ∧ (b = true → k.creates = true)

theorem proj_set [DecidableEq V] [Inhabited V] {b : Bool} {s : Sys V} {c : Nat} {x : AssocConc.St V Nat} (h : Proj b s)
    (hx : ∃ e, AssocConc.Step free (s.tree c) e x ∧ ∀ k, e = some (.call k) → k.destroys = false ∧ (k.kvs ≠ [] ∧ AssocConc.Sorted k.kvs) ∧ (b = true → k.creates = true)) : Proj b (s.setTree c x) := by
  intro d
  show ∃ evs, AssocConc.Run free AssocConc.St.init evs (if d = c then x else s.tree d) ∧ _
  split
  next e =>
    subst e
    obtain ⟨evs, h1, h2⟩ := h d
    obtain ⟨e, h3, h4⟩ := hx
    refine ⟨_, h1.step h3, fun k hk => ?_⟩
    rcases List.mem_append.1 hk with hk | hk
    · exact h2 k hk
    · exact h4 k (by simpa using hk)
  · exact h d

theorem proj_step [DecidableEq V] [Inhabited V] {b : Bool} {s s' : Sys V} {l : Label V} (h : Proj b s) (hb : b = true → l.kept = true) (hs : step s l = some s') : Proj b s' := by
  have cong : ∀ {s1 s2 : Sys V}, s1.tree = s2.tree → Proj b s1 → Proj b s2 := by
    intro s1 s2 e h; unfold Proj; rw [← e]; exact h
  cases l with
  | acquire c kvs cancel =>
    simp only [step] at hs
    split at hs
    next hk =>
      cases hs
      refine proj_set h ⟨_, .call _ ?_, ?_⟩
      · unfold obtainCall; split <;> exact hk
      · intro k e; cases e
        unfold obtainCall
        split
        next hc => refine ⟨rfl, hk, fun hb' => ?_⟩; have := hb hb'; rw [hc] at this; cases this
        · exact ⟨rfl, hk, fun _ => rfl⟩
    · cases hs
  | go c t pick =>
    simp only [step] at hs
    split at hs
    next th ht =>
      unfold goStep at hs
      split at hs
      · split at hs
        · cases hs
        · rw [Option.map_eq_some_iff] at hs
          obtain ⟨x, hn, e⟩ := hs
          subst e
          exact cong (s1 := s.setTree c x) rfl (proj_set h ⟨_, .go t pick th ht hn, nofun⟩)
      · rw [Option.map_eq_some_iff] at hs
        obtain ⟨x, hn, e⟩ := hs
        subst e
        exact proj_set h ⟨_, .go t pick th ht hn, nofun⟩
    · cases hs
  | ret c t =>
    simp only [step] at hs
    split at hs
    next th ht =>
      split at hs
      next ho =>
        cases hs
        simp only [Bool.and_eq_true, Bool.not_eq_true'] at ho
        obtain ⟨h1, h2⟩ := ho
        unfold over at h1
        split at h1
        next r kept e => exact proj_set h ⟨_, .ret t th r kept ht h2 e, nofun⟩
        · cases h1
      · cases hs
    · cases hs
  | release c o =>
    simp only [step] at hs
    split at hs
    next hg =>
      split at hs
      next th ht =>
        cases hs
        obtain ⟨evs, h1, h2⟩ := h c
        have hok := (h2 _ (AssocConc.run_calls h1 o th ht)).2.1
        refine cong (s1 := s.setTree c (begin (s.tree c) (.delete th.call.kvs fun _ => true))) rfl (proj_set h ⟨_, .call _ hok, ?_⟩)
        intro k e; cases e; exact ⟨rfl, hok, fun _ => rfl⟩
      · cases hs
    · cases hs
  | free k =>
    simp only [step] at hs
    split at hs
    · split at hs
      · cases hs
      · unfold freeStep at hs
        split at hs
        · split at hs
          · simp only at hs
            split at hs <;> cases hs <;> exact cong (s1 := s) rfl h
          · cases hs
        · cases hs
    · cases hs

theorem proj_init [DecidableEq V] [Inhabited V] {b : Bool} : Proj b (Sys.init : Sys V) := fun _ => ⟨[], .nil, nofun⟩

theorem proj_run [DecidableEq V] [Inhabited V] {b : Bool} : ∀ {ls : List (Label V)} {s s' : Sys V}, Proj b s → (b = true → ∀ l ∈ ls, l.kept = true) → run s ls = some s' → Proj b s'
  | [], s, s', h, _, e => by cases e; exact h
  | l :: ls, s, s', h, hb, e => by
    simp only [run, Option.bind_eq_some_iff] at e
    obtain ⟨t, h1, h2⟩ := e
    exact proj_run (proj_step h (fun e => hb e l (List.mem_cons_self ..)) h1) (fun e m hm => hb e m (List.mem_cons_of_mem _ hm)) h2

/-- As long as no ObtainLock of a client waits for the locker, its calls go on. -/
theorem client_progress [DecidableEq V] [Inhabited V] {s : Sys V} {c t : Nat} {th : Thread V Nat} (h : Proj true s) (ht : (s.tree c).threads[t]? = some th) (hd : over th = false)
    (hw : ∀ (u : Nat) (x : Thread V Nat) kvs, (s.tree c).threads[u]? = some x → waitsFor x = some kvs → s.held kvs = none) : ∃ u pick s', step s (.go c u pick) = some s' := by
  obtain ⟨evs, h1, h2⟩ := h c
  have hc : ∀ k, AssocConc.Event.call k ∈ evs → k.creates = true := fun k hk => (h2 k hk).2.2 rfl
  have hdd : ∀ k, AssocConc.Event.call k ∈ evs → k.destroys = false := fun k hk => (h2 k hk).1
  obtain ⟨u, pick, x, s', hu, hn⟩ := AssocConc.progress (AssocConc.Inv.run h1 hc) (AssocConc.not_busy h1 hdd) (AssocConc.kept_nil h1 hc (Or.inl hdd)) ht
    (fun r kept e => by unfold over at hd; rw [e] at hd; cases hd)
  have : ∃ s'', goStep s c u pick x = some s'' := by
    unfold goStep
    split
    next kvs hk => rw [hw u x kvs hu hk]; exact ⟨_, by rw [hn]; rfl⟩
    · exact ⟨_, by rw [hn]; rfl⟩
  obtain ⟨s'', h3⟩ := this
  exact ⟨u, pick, s'', by simp only [step, hu]; exact h3⟩

/-! ### Calls that wait for the pair of an ObtainLock that waits for the locker -/

/-- In the tree of client `c`, ObtainLock `u` waits for the locker to grant it `k`; meanwhile it keeps the ID node `i` of the pair `p` locked, and call `w` waits for that node. -/
structure Side (s : Sys V) (c u w i : Nat) (p : GoString × V) (k : KVs V) : Prop where
  waiter : ∃ th, (s.tree c).threads[u]? = some th ∧ waitsFor th = some k
  frozen : Frozen (s.tree c) u i p
  others : ∀ (t : Nat) (x : Thread V Nat), t ≠ u → (s.tree c).threads[t]? = some x → i ∉ x.phase.holds
  blocked : ∃ th, (s.tree c).threads[w]? = some th ∧ ((∃ rest held got, th.phase = .dlock (i :: rest) held got) ∨ ∃ rest acc, th.phase = .query (p :: rest) acc)

theorem waitsFor_over {th : Thread V Nat} {k : KVs V} (h : waitsFor th = some k) : over th = false := by
  unfold waitsFor at h
  split at h
  next e _ => unfold over; rw [e]
  · cases h

theorem blocked_next [DecidableEq V] {x : AssocConc.St V Nat} {u i w pick : Nat} {p : GoString × V} {th : Thread V Nat} (hf : Frozen x u i p)
    (hp : (∃ rest held got, th.phase = .dlock (i :: rest) held got) ∨ ∃ rest acc, th.phase = .query (p :: rest) acc) : AssocConc.next free x w pick th = none := by
  have : (x.node i).owner ≠ none := by rw [hf.own]; nofun
  unfold AssocConc.next
  rcases hp with ⟨rest, held, got, e⟩ | ⟨rest, acc, e⟩
  · rw [e]; simp only; unfold AssocConc.nextDlock; rw [if_pos this]
  · rw [e]; simp only; unfold AssocConc.nextQuery; rw [hf.idx]; simp only; rw [if_pos this]

theorem blocked_over {th : Thread V Nat} {i : Nat} {p : GoString × V} (hp : (∃ rest held got, th.phase = .dlock (i :: rest) held got) ∨ ∃ rest acc, th.phase = .query (p :: rest) acc) : over th = false ∧ waitsFor th = none := by
  unfold over waitsFor
  rcases hp with ⟨rest, held, got, e⟩ | ⟨rest, acc, e⟩ <;> rw [e] <;> exact ⟨rfl, rfl⟩
/-- Only other trees change. -/
theorem Side.tree {s s' : Sys V} {c u w i : Nat} {p : GoString × V} {k : KVs V} (h : Side s c u w i p k) (e3 : s'.tree c = s.tree c) : Side s' c u w i p k :=
  ⟨by rw [e3]; exact h.waiter, by rw [e3]; exact h.frozen, by rw [e3]; exact h.others, by rw [e3]; exact h.blocked⟩

/-- As long as the lock is not free, nothing changes. -/
theorem Side.step [DecidableEq V] {s s' : Sys V} {c u w i : Nat} {p : GoString × V} {k : KVs V} {l : Label V} (h : Side s c u w i p k) (hk : s.held k ≠ none)
    (hs : SharedLock.step s l = some s') : Side s' c u w i p k := by
  have app : ∀ (x : Call V Nat) (s1 : Sys V), s1.tree c = begin (s.tree c) x → Side s1 c u w i p k := by
    intro x s1 e3
    refine ⟨?_, ?_, ?_, ?_⟩
    · obtain ⟨th, h1, h2⟩ := h.waiter; exact ⟨th, by rw [e3]; exact append_old h1, h2⟩
    · rw [e3]; exact ⟨h.frozen.idx, h.frozen.own, h.frozen.old⟩
    · intro t y ht hy
      rw [e3] at hy
      rcases append_cases hy with ⟨_, e⟩ | hy
      · subst e; rw [show (Thread.mk x (AssocConc.start x) false).phase.holds = [] from (AssocConc.start_quiet x).2.1]; exact nofun
      · exact h.others t y ht hy
    · obtain ⟨th, h1, h2⟩ := h.blocked; exact ⟨th, by rw [e3]; exact append_old h1, h2⟩
  have tset : ∀ (c' : Nat) (x : AssocConc.St V Nat), c' ≠ c → (s.setTree c' x).tree c = s.tree c := fun c' x e => if_neg (Ne.symm e)
  cases l with
  | acquire c' kvs cancel =>
    simp only [SharedLock.step] at hs
    split at hs
    · cases hs
      by_cases e : c' = c
      · subst e; exact app _ _ (if_pos rfl)
      · exact h.tree (tset c' _ e)
    · cases hs
  | go c' t pick =>
    simp only [SharedLock.step] at hs
    split at hs
    next th ht =>
      have key : ∃ x, AssocConc.next free (s.tree c') t pick th = some x ∧ s'.tree = (s.setTree c' x).tree ∧ (waitsFor th ≠ some k) := by
        unfold SharedLock.goStep at hs
        split at hs
        next kvs hw =>
          split at hs
          · cases hs
          next hh =>
            rw [Option.map_eq_some_iff] at hs
            obtain ⟨x, hn, e⟩ := hs
            have hne : k ≠ kvs := by intro e'; rw [← e'] at hh; exact hk hh
            exact ⟨x, hn, by rw [← e]; rfl, by rw [hw]; intro e'; cases e'; exact hne rfl⟩
        next hw =>
          rw [Option.map_eq_some_iff] at hs
          obtain ⟨x, hn, e⟩ := hs
          exact ⟨x, hn, by rw [← e], by rw [hw]; nofun⟩
      obtain ⟨x, hn, e1, e4⟩ := key
      by_cases e : c' = c
      · subst e
        have e1 : s'.tree c' = x := by rw [e1]; exact if_pos rfl
        obtain ⟨wt, w1, w2⟩ := h.waiter
        obtain ⟨bt, b1, b2⟩ := h.blocked
        have htu : t ≠ u := by
          intro e; subst e; rw [ht] at w1; cases w1; exact e4 w2
        have htw : t ≠ w := by
          intro e; subst e; rw [ht] at b1; cases b1
          rw [blocked_next h.frozen b2] at hn; cases hn
        obtain ⟨p', f1, f2, f3⟩ := next_frozen hn h.frozen (h.others t th htu ht)
        refine ⟨⟨wt, by rw [e1, f1]; exact set_other ht _ (Ne.symm htu) w1, w2⟩, by rw [e1]; exact f2, ?_, ⟨bt, by rw [e1, f1]; exact set_other ht _ (Ne.symm htw) b1, b2⟩⟩
        intro v y hv hy
        rw [e1, f1] at hy
        rcases set_cases ht hy with ⟨_, e⟩ | ⟨_, hy⟩
        · subst e; exact f3
        · exact h.others v y hv hy
      · exact h.tree (by rw [e1]; exact tset c' _ e)
    · cases hs
  | ret c' t =>
    simp only [SharedLock.step] at hs
    split at hs
    next th ht =>
      split at hs
      next ho =>
        cases hs
        simp only [Bool.and_eq_true] at ho
        by_cases e : c' = c
        · subst e
          have e1 : (s.setTree c' { s.tree c' with threads := (s.tree c').threads.set t { th with returned := true } }).tree c' = { s.tree c' with threads := (s.tree c').threads.set t { th with returned := true } } := if_pos rfl
          obtain ⟨wt, w1, w2⟩ := h.waiter
          obtain ⟨bt, b1, b2⟩ := h.blocked
          have htu : t ≠ u := by
            intro e; subst e; rw [ht] at w1; cases w1; rw [waitsFor_over w2] at ho; cases ho.1
          have htw : t ≠ w := by
            intro e; subst e; rw [ht] at b1; cases b1; rw [(blocked_over b2).1] at ho; cases ho.1
          refine ⟨⟨wt, by rw [e1]; exact set_other ht _ (Ne.symm htu) w1, w2⟩, by rw [e1]; exact ⟨h.frozen.idx, h.frozen.own, h.frozen.old⟩, ?_,
            ⟨bt, by rw [e1]; exact set_other ht _ (Ne.symm htw) b1, b2⟩⟩
          intro v y hv hy
          rw [e1] at hy
          rcases set_cases ht hy with ⟨e, e'⟩ | ⟨_, hy⟩
          · subst e; subst e'; exact h.others v th hv ht
          · exact h.others v y hv hy
        · exact h.tree (tset c' _ e)
      · cases hs
    · cases hs
  | release c' o' =>
    simp only [SharedLock.step] at hs
    split at hs
    · split at hs
      next th ht =>
        cases hs
        by_cases e : c' = c
        · subst e; exact app _ _ (if_pos rfl)
        · exact h.tree (tset c' _ e)
      · cases hs
    · cases hs
  | free m =>
    have : s'.tree = s.tree := by
      simp only [SharedLock.step] at hs
      split at hs
      · split at hs
        · cases hs
        · unfold freeStep at hs
          split at hs
          · split at hs
            · simp only at hs
              split at hs <;> cases hs <;> rfl
            · cases hs
          · cases hs
      · cases hs
    exact h.tree (by rw [this])

/-- A lock whose Release cannot be finished yet, if it was called at all, stays held. -/
theorem held_step [DecidableEq V] {s s' : Sys V} {k : KVs V} {d o : Nat} {l : Label V} (hk : s.held k = some (d, o))
    (hr : ∀ r ∈ s.rels, r.client = d → r.obj = o → r.freed = false → ∃ th, (s.tree d).threads[r.call]? = some th ∧ over th = false) (hs : SharedLock.step s l = some s') :
    s'.held k = some (d, o) := by
  cases l with
  | acquire c' kvs cancel =>
    simp only [SharedLock.step] at hs
    split at hs <;> cases hs; exact hk
  | go c' t pick =>
    simp only [SharedLock.step] at hs
    split at hs
    · unfold SharedLock.goStep at hs
      split at hs
      next kvs _ =>
        split at hs
        · cases hs
        next hh =>
          rw [Option.map_eq_some_iff] at hs; obtain ⟨x, _, e⟩ := hs; subst e
          refine (if_neg ?_).trans hk
          intro e; rw [← e, hk] at hh; cases hh
      · rw [Option.map_eq_some_iff] at hs; obtain ⟨x, _, e⟩ := hs; subst e; exact hk
    · cases hs
  | ret c' t =>
    simp only [SharedLock.step] at hs
    split at hs
    · split at hs <;> cases hs; exact hk
    · cases hs
  | release c' o'' =>
    simp only [SharedLock.step] at hs
    split at hs
    · split at hs <;> cases hs; exact hk
    · cases hs
  | free n =>
    simp only [SharedLock.step] at hs
    split at hs
    next r hrr =>
      split at hs
      · cases hs
      next hf =>
        unfold freeStep at hs
        split at hs
        next y hy =>
          split at hs
          next ho =>
            simp only at hs
            split at hs
            next hh =>
              cases hs
              refine (if_neg ?_).trans hk
              intro e
              rw [← e, hk] at hh; cases hh
              obtain ⟨th, t1, t2⟩ := hr r (List.mem_of_getElem? hrr) rfl rfl (by simpa using hf)
              rw [hy] at t1; cases t1
              rw [t2] at ho; cases ho
            · cases hs; exact hk
          · cases hs
        · cases hs
    · cases hs

/-- A Release whose call on the tree is not over is not over. -/
theorem rel_step [DecidableEq V] {s s' : Sys V} {m : Nat} {r : Rel} {l : Label V} (hm : s.rels[m]? = some r) (ho : ∃ th, (s.tree r.client).threads[r.call]? = some th ∧ over th = false)
    (hs : SharedLock.step s l = some s') : s'.rels[m]? = some r := by
  have hlen : m < s.rels.length := (List.getElem?_eq_some_iff.1 hm).1
  cases l with
  | acquire c' kvs cancel =>
    simp only [SharedLock.step] at hs
    split at hs <;> cases hs; exact hm
  | go c' t pick =>
    simp only [SharedLock.step] at hs
    split at hs
    · unfold SharedLock.goStep at hs
      split at hs
      · split at hs
        · cases hs
        · rw [Option.map_eq_some_iff] at hs; obtain ⟨x, _, e⟩ := hs; subst e; exact hm
      · rw [Option.map_eq_some_iff] at hs; obtain ⟨x, _, e⟩ := hs; subst e; exact hm
    · cases hs
  | ret c' t =>
    simp only [SharedLock.step] at hs
    split at hs
    · split at hs <;> cases hs; exact hm
    · cases hs
  | release c' o'' =>
    simp only [SharedLock.step] at hs
    split at hs
    · split at hs <;> cases hs
      show (s.rels ++ [_])[m]? = _
      rw [List.getElem?_append_left hlen]; exact hm
    · cases hs
  | free n =>
    simp only [SharedLock.step] at hs
    split at hs
    next q hq =>
      split at hs
      · cases hs
      · unfold freeStep at hs
        split at hs
        next y hy =>
          split at hs
          next hov =>
            have hne : n ≠ m := by
              intro e; subst e
              rw [hm] at hq; cases hq
              obtain ⟨b, b1, b2⟩ := ho
              rw [hy] at b1; cases b1
              rw [b2] at hov; cases hov
            simp only at hs
            split at hs <;> cases hs <;> exact (List.getElem?_set_ne hne).trans hm
          · cases hs
        · cases hs
    · cases hs

theorem run_append [DecidableEq V] : ∀ {ls ks : List (Label V)} {s s' s'' : Sys V}, run s ls = some s' → run s' ks = some s'' → run s (ls ++ ks) = some s''
  | [], ks, s, s', s'', h, h' => by cases h; exact h'
  | l :: ls, ks, s, s', s'', h, h' => by
    simp only [run, List.cons_append, Option.bind_eq_some_iff] at h ⊢
    obtain ⟨t, h1, h2⟩ := h
    exact ⟨t, h1, run_append h2 h'⟩

/-- Calls stay what they are. -/
theorem call_step [DecidableEq V] {s s' : Sys V} {l : Label V} {c t : Nat} {th : Thread V Nat} (ht : (s.tree c).threads[t]? = some th) (hs : step s l = some s') :
    ∃ th', (s'.tree c).threads[t]? = some th' ∧ th'.call = th.call := by
  have one : ∀ (d : Nat) (x : AssocConc.St V Nat) (s1 : Sys V), s1.tree = (s.setTree d x).tree → (d = c → ∃ th', x.threads[t]? = some th' ∧ th'.call = th.call) →
      ∃ th', (s1.tree c).threads[t]? = some th' ∧ th'.call = th.call := by
    intro d x s1 e hx
    rw [e]
    show ∃ th', (if c = d then x else s.tree c).threads[t]? = some th' ∧ th'.call = th.call
    split
    next e => exact hx e.symm
    · exact ⟨th, ht, rfl⟩
  cases l with
  | acquire d kvs b =>
    simp only [step] at hs
    split at hs <;> cases hs
    exact one d _ _ rfl (fun e => by subst e; exact begin_keeps t th ht)
  | go d u pick =>
    simp only [step] at hs
    split at hs
    next y hy =>
      have fin : ∀ x, AssocConc.next free (s.tree d) u pick y = some x → d = c → ∃ th', x.threads[t]? = some th' ∧ th'.call = th.call := by
        intro x hn e; subst e; exact next_keeps hy hn t th ht
      unfold goStep at hs
      split at hs
      · split at hs
        · cases hs
        · rw [Option.map_eq_some_iff] at hs; obtain ⟨x, hn, e⟩ := hs; exact one d x _ (by rw [← e]; rfl) (fin x hn)
      · rw [Option.map_eq_some_iff] at hs; obtain ⟨x, hn, e⟩ := hs; exact one d x _ (by rw [← e]) (fin x hn)
    · cases hs
  | ret d u =>
    simp only [step] at hs
    split at hs
    next y hy =>
      split at hs <;> cases hs
      refine one d _ _ rfl (fun e => ?_)
      subst e
      by_cases e : t = u
      · subst e
        rw [hy] at ht; cases ht
        exact ⟨{ th with returned := true }, set_self hy _, rfl⟩
      · exact ⟨th, set_other hy _ e ht, rfl⟩
    · cases hs
  | release d o =>
    simp only [step] at hs
    split at hs
    · split at hs <;> cases hs
      exact one d _ _ rfl (fun e => by subst e; exact begin_keeps t th ht)
    · cases hs
  | free k =>
    simp only [step] at hs
    split at hs
    · split at hs
      · cases hs
      · unfold freeStep at hs
        split at hs
        · split at hs
          · simp only at hs
            split at hs <;> cases hs <;> exact ⟨th, ht, rfl⟩
          · cases hs
        · cases hs
    · cases hs

theorem call_run [DecidableEq V] : ∀ {ls : List (Label V)} {s s' : Sys V} {c t : Nat} {th : Thread V Nat}, run s ls = some s' → (s.tree c).threads[t]? = some th →
    ∃ th', (s'.tree c).threads[t]? = some th' ∧ th'.call = th.call
  | [], s, s', c, t, th, e, ht => by cases e; exact ⟨th, ht, rfl⟩
  | l :: ls, s, s', c, t, th, e, ht => by
    simp only [run, Option.bind_eq_some_iff] at e
    obtain ⟨x, h1, h2⟩ := e
    obtain ⟨y, y1, y2⟩ := call_step ht h1
    obtain ⟨z, z1, z2⟩ := call_run h2 y1
    exact ⟨z, z1, z2.trans y2⟩

/-- `Side`, and the lock is held by an object that nobody has released. -/
structure Hold (s : Sys V) (c u w i : Nat) (p : GoString × V) (k : KVs V) (d o : Nat) : Prop where
  side : Side s c u w i p k
  taken : s.held k = some (d, o)
  norel : ∀ r ∈ s.rels, ¬ (r.client = d ∧ r.obj = o)

/-- Which Releases there are. -/
theorem rels_step [DecidableEq V] {s s' : Sys V} {l : Label V} {d o : Nat} (hr : ∀ r ∈ s.rels, ¬ (r.client = d ∧ r.obj = o)) (hl : l ≠ .release d o) (hs : SharedLock.step s l = some s') :
    ∀ r ∈ s'.rels, ¬ (r.client = d ∧ r.obj = o) := by
  cases l with
  | acquire c' kvs cancel =>
    simp only [SharedLock.step] at hs
    split at hs <;> cases hs; exact hr
  | go c' t pick =>
    simp only [SharedLock.step] at hs
    split at hs
    · unfold SharedLock.goStep at hs
      split at hs
      · split at hs
        · cases hs
        · rw [Option.map_eq_some_iff] at hs; obtain ⟨x, _, e⟩ := hs; subst e; exact hr
      · rw [Option.map_eq_some_iff] at hs; obtain ⟨x, _, e⟩ := hs; subst e; exact hr
    · cases hs
  | ret c' t =>
    simp only [SharedLock.step] at hs
    split at hs
    · split at hs <;> cases hs; exact hr
    · cases hs
  | release c' o'' =>
    simp only [SharedLock.step] at hs
    split at hs
    · split at hs <;> cases hs
      intro r hm
      rcases List.mem_append.1 hm with hm | hm
      · exact hr r hm
      · rw [List.mem_singleton] at hm; subst hm
        rintro ⟨e1, e2⟩
        simp only at e1 e2
        subst e1; subst e2; exact hl rfl
    · cases hs
  | free n =>
    simp only [SharedLock.step] at hs
    split at hs
    next q hq =>
      split at hs
      · cases hs
      · unfold freeStep at hs
        have hr' : ∀ x ∈ s.rels.set n { q with freed := true }, ¬ (x.client = d ∧ x.obj = o) := by
          intro x hx
          rcases List.mem_or_eq_of_mem_set hx with hx | hx
          · exact hr x hx
          · subst hx; exact hr q (List.mem_of_getElem? hq)
        split at hs
        · split at hs
          · simp only at hs
            split at hs <;> cases hs <;> exact hr'
          · cases hs
        · cases hs
    · cases hs

theorem Hold.step [DecidableEq V] {s s' : Sys V} {c u w i : Nat} {p : GoString × V} {k : KVs V} {d o : Nat} {l : Label V} (h : Hold s c u w i p k d o) (hl : l ≠ .release d o)
    (hs : SharedLock.step s l = some s') : Hold s' c u w i p k d o :=
  ⟨h.side.step (by rw [h.taken]; nofun) hs, held_step h.taken (fun r hr e1 e2 => absurd ⟨e1, e2⟩ (h.norel r hr)) hs, rels_step h.norel hl hs⟩

theorem Hold.run [DecidableEq V] {c u w i : Nat} {p : GoString × V} {k : KVs V} {d o : Nat} : ∀ {ls : List (Label V)} {s s' : Sys V}, Hold s c u w i p k d o → .release d o ∉ ls →
    SharedLock.run s ls = some s' → Hold s' c u w i p k d o
  | [], s, s', h, _, e => by cases e; exact h
  | l :: ls, s, s', h, hl, e => by
    simp only [SharedLock.run, Option.bind_eq_some_iff] at e
    obtain ⟨t, h1, h2⟩ := e
    exact Hold.run (h.step (fun e => hl (by rw [e]; exact List.mem_cons_self ..)) h1) (fun hm => hl (List.mem_cons_of_mem _ hm)) h2

/-- Two clients that wait for each other: ObtainLock `u` of client `c` waits for lock object (d, o), whose Release waits in the tree of `d`, where ObtainLock `v` waits for lock
object (c, o'), whose Release waits in the tree of `c`. -/
structure Ring (s : Sys V) (c u w i : Nat) (p : GoString × V) (k : KVs V) (m o' : Nat) (d v z j : Nat) (q : GoString × V) (k' : KVs V) (n o : Nat) : Prop where
  one : Side s c u w i p k
  two : Side s d v z j q k'
  takenOne : s.held k = some (d, o)
  takenTwo : s.held k' = some (c, o')
  relOne : s.rels[m]? = some ⟨c, o', w, false⟩
  relTwo : s.rels[n]? = some ⟨d, o, z, false⟩

theorem Side.stays {s : Sys V} {c u w i : Nat} {p : GoString × V} {k : KVs V} (h : Side s c u w i p k) : ∃ th, (s.tree c).threads[w]? = some th ∧ over th = false :=
  let ⟨th, h1, h2⟩ := h.blocked
  ⟨th, h1, (blocked_over h2).1⟩

/-- There is one Release of each lock object. -/
theorem held_other [DecidableEq V] {s s' : Sys V} {k : KVs V} {d o z n : Nat} {l : Label V} (hi : Inv s) (hk : s.held k = some (d, o)) (hn : s.rels[n]? = some ⟨d, o, z, false⟩)
    (hz : ∃ th, (s.tree d).threads[z]? = some th ∧ over th = false) (hs : SharedLock.step s l = some s') : s'.held k = some (d, o) := by
  refine held_step hk (fun r hr e1 e2 _ => ?_) hs
  obtain ⟨a, ha⟩ := List.mem_iff_getElem?.1 hr
  have := hi.once a n r _ ha hn e1 e2
  subst this
  rw [hn] at ha; cases ha
  exact hz

theorem Ring.step [DecidableEq V] {s s' : Sys V} {c u w i : Nat} {p : GoString × V} {k : KVs V} {m o' d v z j : Nat} {q : GoString × V} {k' : KVs V} {n o : Nat} {l : Label V} (hi : Inv s)
    (h : Ring s c u w i p k m o' d v z j q k' n o) (hs : SharedLock.step s l = some s') : Ring s' c u w i p k m o' d v z j q k' n o :=
  ⟨h.one.step (by rw [h.takenOne]; nofun) hs, h.two.step (by rw [h.takenTwo]; nofun) hs, held_other hi h.takenOne h.relTwo h.two.stays hs, held_other hi h.takenTwo h.relOne h.one.stays hs,
    rel_step h.relOne h.one.stays hs, rel_step h.relTwo h.two.stays hs⟩

theorem Ring.run [DecidableEq V] {c u w i : Nat} {p : GoString × V} {k : KVs V} {m o' d v z j : Nat} {q : GoString × V} {k' : KVs V} {n o : Nat} : ∀ {ls : List (Label V)} {s s' : Sys V}, Inv s →
    Ring s c u w i p k m o' d v z j q k' n o → SharedLock.run s ls = some s' → Ring s' c u w i p k m o' d v z j q k' n o
  | [], s, s', _, h, e => by cases e; exact h
  | l :: ls, s, s', hi, h, e => by
    simp only [SharedLock.run, Option.bind_eq_some_iff] at e
    obtain ⟨t, h1, h2⟩ := e
    exact Ring.run (hi.step h1) (h.step hi h1) h2

end Willow.SharedLock
