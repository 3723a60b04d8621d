import Verif.Proofs.AssocConcLive
import Verif.Proofs.AssocConcUse
/-! The associated tree under concurrency: calls that wait for each other for ever. -/
namespace Willow.AssocConc
open Willow

variable {V A : Type}

/-- The ID node of `p` is locked by call `c`. -/
structure Frozen (s : St V A) (c i : Nat) (p : GoString × V) : Prop where
  idx : s.index p = some i
  own : (s.node i).owner = some c
  old : i < s.next

/-- A call that does not hold the lock leaves it alone. -/
theorem next_frozen [DecidableEq V] {blocks : (Nat → Option (Item V A)) → Nat → Nat → Bool} {s s' : St V A} {t pick c i : Nat} {p : GoString × V} {th : Thread V A}
    (h : next blocks s t pick th = some s') (hf : Frozen s c i p) (hn : i ∉ th.phase.holds) :
    ∃ p', s'.threads = s.threads.set t { th with phase := p' } ∧ Frozen s' c i p ∧ i ∉ p'.holds := by
  obtain ⟨f1, f2, f3⟩ := hf
  have hno : ∀ {j : Nat}, (s.node j).owner = none → j ≠ i := by
    intro j h e; rw [e, f2] at h; cases h
  have hnp : ∀ {j : Nat} {q : GoString × V}, s.index q = some j → (s.node j).owner = none → q ≠ p := by
    intro j q h1 h2 e; rw [e, f1] at h1; cases h1; rw [f2] at h2; cases h2
  unfold next at h
  split at h
  next acc e => cases h; exact ⟨_, rfl, ⟨f1, f2, f3⟩, nofun⟩
  next q rest acc e =>
    unfold nextQuery at h
    have aq : i ∉ (afterQuery th.call).holds := by cases th.call <;> exact nofun
    split at h
    · cases h; exact ⟨_, rfl, ⟨f1, f2, f3⟩, aq⟩
    · split at h
      · cases h
      · split at h
        · cases h; exact ⟨_, rfl, ⟨f1, f2, f3⟩, aq⟩
        · cases h; exact ⟨_, rfl, ⟨f1, f2, f3⟩, nofun⟩
  next e =>
    have aq : i ∉ (afterQuery th.call).holds := by cases th.call <;> exact nofun
    cases h; exact ⟨_, rfl, ⟨f1, f2, f3⟩, aq⟩
  next id rest e =>
    unfold nextLookup at h
    split at h
    · cases h; exact ⟨_, rfl, ⟨f1, f2, f3⟩, nofun⟩
    · split at h
      · cases h
      · split at h
        · cases h; exact ⟨_, rfl, ⟨f1, f2, f3⟩, nofun⟩
        · cases h; exact ⟨_, rfl, ⟨f1, f2, f3⟩, nofun⟩
  next nodes e => cases h; exact ⟨_, rfl, ⟨f1, f2, f3⟩, nofun⟩
  next q rest nodes e =>
    unfold nextTouch at h
    split at h
    next hx =>
      cases h
      refine ⟨_, rfl, ⟨?_, ?_, Nat.lt_succ_of_lt f3⟩, nofun⟩
      · refine (if_neg ?_).trans f1
        intro e; rw [e, hx] at f1; cases f1
      · show (if i = s.next then _ else s.node i).owner = some c
        rw [if_neg (by omega)]; exact f2
    next j hx =>
      split at h
      · cases h
      · cases h
        refine ⟨_, rfl, ⟨f1, ?_, f3⟩, nofun⟩
        show (if i = j then _ else s.node i).owner = some c
        split <;> exact f2
  next held got e =>
    rw [e] at hn
    unfold nextLocked at h
    split at h
    · split at h
      · cases h; exact ⟨_, rfl, ⟨f1, f2, f3⟩, hn⟩
      · split at h
        · cases h; exact ⟨_, rfl, ⟨f1, f2, f3⟩, hn⟩
        · split at h
          · cases h
          · split at h
            · cases h; exact ⟨_, rfl, ⟨f1, f2, f3⟩, hn⟩
            · cases h; exact ⟨_, rfl, ⟨f1, f2, f3⟩, hn⟩
    · split at h
      · cases h
        refine ⟨_, rfl, ⟨f1, ?_, f3⟩, hn⟩
        show (if i ∈ held then _ else s.node i).owner = some c
        split <;> exact f2
      · cases h
  next j rest held got e =>
    rw [e] at hn
    unfold nextLock at h
    split at h
    · cases h
    next ho =>
      have hj := hno (not_owned ho)
      cases h
      refine ⟨_, rfl, ⟨f1, ?_, f3⟩, ?_⟩
      · show (if i = j then _ else s.node i).owner = some c
        rw [if_neg (Ne.symm hj)]; exact f2
      · intro hin
        rcases List.mem_append.1 hin with hin | hin
        · exact hn hin
        · exact hj (List.mem_singleton.1 hin).symm
  next held id e =>
    rw [e] at hn
    unfold nextMake at h
    split at h
    · split at h
      · cases h
      · cases h; exact ⟨_, rfl, ⟨f1, f2, f3⟩, hn⟩
    · split at h
      · cases h
      · cases h; exact ⟨_, rfl, ⟨f1, f2, f3⟩, hn⟩
    · cases h; exact ⟨_, rfl, ⟨f1, f2, f3⟩, hn⟩
  next r e =>
    have : i ∉ (afterUnlock th.call r).holds := by cases r <;> exact nofun
    cases h; exact ⟨_, rfl, ⟨f1, f2, f3⟩, this⟩
  next j rest r e =>
    rw [e] at hn
    cases h
    refine ⟨_, rfl, ⟨f1, ?_, f3⟩, fun h => hn (List.mem_cons_of_mem _ h)⟩
    show (if i = j then _ else s.node i).owner = some c
    rw [if_neg]; exact f2
    intro e; subst e; exact hn (List.mem_cons_self)
  next nodes e =>
    have : i ∉ (afterDfind th.call nodes).holds := by unfold afterDfind; split <;> exact nofun
    cases h; exact ⟨_, rfl, ⟨f1, f2, f3⟩, this⟩
  next q rest nodes e =>
    unfold nextDfind at h
    split at h
    · cases h; exact ⟨_, rfl, ⟨f1, f2, f3⟩, nofun⟩
    · cases h; exact ⟨_, rfl, ⟨f1, f2, f3⟩, nofun⟩
  next held got e =>
    rw [e] at hn
    unfold nextDlocked at h
    have keep : ∀ (f : Node V → Node V), (∀ d, (f d).owner = d.owner) → (if i ∈ held then f (s.node i) else s.node i).owner = some c := by
      intro f hf; split
      · rw [hf]; exact f2
      · exact f2
    split at h
    · split at h
      · cases h; exact ⟨_, rfl, ⟨f1, f2, f3⟩, hn⟩
      · split at h
        · cases h
        · split at h
          · split at h
            · cases h; exact ⟨_, rfl, ⟨f1, keep (fun d => { d with ids := dropId th.call.kvs.length _ d.ids }) (fun _ => rfl), f3⟩, hn⟩
            · cases h; exact ⟨_, rfl, ⟨f1, f2, f3⟩, hn⟩
          · cases h; exact ⟨_, rfl, ⟨f1, keep (fun d => { d with ids := dropId th.call.kvs.length _ d.ids }) (fun _ => rfl), f3⟩, hn⟩
    · cases h; exact ⟨_, rfl, ⟨f1, f2, f3⟩, hn⟩
  next j rest held got e =>
    rw [e] at hn
    unfold nextDlock at h
    split at h
    · cases h
    next ho =>
      have hj := hno (not_owned ho)
      have hin : i ∉ held ++ [j] := by
        intro hin
        rcases List.mem_append.1 hin with hin | hin
        · exact hn hin
        · exact hj (List.mem_singleton.1 hin).symm
      have ow : ∀ (d : Node V), (if i = j then d else s.node i).owner = some c := by
        intro d; rw [if_neg (Ne.symm hj)]; exact f2
      split at h
      · cases h; exact ⟨_, rfl, ⟨f1, ow _, f3⟩, hin⟩
      · cases h; exact ⟨_, rfl, ⟨f1, ow _, f3⟩, hin⟩
  next stop r e =>
    have : i ∉ (afterDunlock th.call stop r).holds := by
      unfold afterDunlock finish; split
      · split <;> exact nofun
      · exact nofun
    cases h; exact ⟨_, rfl, ⟨f1, f2, f3⟩, this⟩
  next j rest stop r e =>
    rw [e] at hn
    cases h
    refine ⟨_, rfl, ⟨f1, ?_, f3⟩, fun h => hn (List.mem_cons_of_mem _ h)⟩
    show (if i = j then _ else s.node i).owner = some c
    rw [if_neg]; exact f2
    intro e; subst e; exact hn (List.mem_cons_self)
  next r e =>
    have : i ∉ (finish th.call r).holds := by unfold finish; split <;> exact nofun
    cases h; exact ⟨_, rfl, ⟨f1, f2, f3⟩, this⟩
  next q rest r e =>
    unfold nextClean at h
    split at h
    · cases h; exact ⟨_, rfl, ⟨f1, f2, f3⟩, nofun⟩
    next j hx =>
      split at h
      · cases h
      next ho =>
        split at h
        · cases h
          refine ⟨_, rfl, ⟨?_, f2, f3⟩, nofun⟩
          exact (if_neg (Ne.symm (hnp hx (not_owned ho)))).trans f1
        · cases h; exact ⟨_, rfl, ⟨f1, f2, f3⟩, nofun⟩
  next e =>
    split at h
    · cases h
      unfold nextMark
      split
      · exact ⟨_, rfl, ⟨f1, f2, f3⟩, nofun⟩
      · exact ⟨_, rfl, ⟨f1, f2, f3⟩, nofun⟩
    · cases h
  next e =>
    split at h
    · unfold nextSeize at h
      split at h
      · cases h
      · split at h
        · cases h; exact ⟨_, rfl, ⟨f1, f2, f3⟩, nofun⟩
        · split at h
          · cases h; exact ⟨_, rfl, ⟨f1, f2, f3⟩, nofun⟩
          · cases h; exact ⟨_, rfl, ⟨f1, f2, f3⟩, nofun⟩
    · cases h
  next e =>
    split at h
    · cases h; exact ⟨_, rfl, ⟨f1, f2, f3⟩, nofun⟩
    · cases h
  next q rest e =>
    split at h
    next id can q' hc hq =>
      split at h
      next it hit =>
        unfold nextWipe at h
        split at h
        · cases h; exact ⟨_, rfl, ⟨f1, f2, f3⟩, nofun⟩
        next j hx =>
          split at h
          · cases h
          next ho =>
            have hj := hno (not_owned ho)
            have ow : ∀ (d : Node V), (if i = j then d else s.node i).owner = some c := by
              intro d; rw [if_neg (Ne.symm hj)]; exact f2
            simp only at h
            split at h
            · cases h
              refine ⟨_, rfl, ⟨?_, ow _, f3⟩, nofun⟩
              exact (if_neg (Ne.symm (hnp hx (not_owned ho)))).trans f1
            · cases h; exact ⟨_, rfl, ⟨f1, ow _, f3⟩, nofun⟩
      · cases h
    · cases h
  · cases h

/-- A destruction that waits for a locked ID node. -/
structure Jammed (s : St V A) (d : Nat) (p : GoString × V) : Prop where
  here : ∃ th id can, s.threads[d]? = some th ∧ th.returned = false ∧ th.call = .destroy id can ∧ th.phase = .wipe [p]

theorem jammed_next [DecidableEq V] {blocks : (Nat → Option (Item V A)) → Nat → Nat → Bool} {s : St V A} {d c i pick : Nat} {p : GoString × V} {th : Thread V A} (hj : Jammed s d p) (hf : Frozen s c i p)
    (hd : s.threads[d]? = some th) : next blocks s d pick th = none := by
  obtain ⟨th', id, can, h1, _, h2, h3⟩ := hj.here
  rw [hd] at h1; cases h1
  unfold next
  rw [h3, h2]
  simp only
  cases pick with
  | zero =>
    simp only [List.getElem?_cons_zero]
    split
    · unfold nextWipe
      rw [hf.idx]
      simp only
      rw [if_pos (by rw [hf.own]; exact nofun)]
    · rfl
  | succ n => simp

/-! ### A lock that is left locked -/

/-- Call `c` is over and has left a node locked. -/
structure Leaked (s : St V A) (c d i : Nat) (p : GoString × V) : Prop where
  frozen : Frozen s c i p
  jam : Jammed s d p
  over : ∃ th r kept, s.threads[c]? = some th ∧ th.phase = .done r kept
  others : ∀ (u : Nat) (x : Thread V A), u ≠ c → s.threads[u]? = some x → i ∉ x.phase.holds

theorem Leaked.step [DecidableEq V] {blocks : (Nat → Option (Item V A)) → Nat → Nat → Bool} {s s' : St V A} {c d i : Nat} {p : GoString × V} {e : Option (Event V A)} (h : Leaked s c d i p)
    (hs : Step blocks s e s') : Leaked s' c d i p ∧ ∀ r, e ≠ some (.ret d r) := by
  obtain ⟨hf, hj, ⟨th0, r0, k0, o1, o2⟩, ho⟩ := h
  obtain ⟨thd, id, can, j1, j2, j3, j4⟩ := hj.here
  cases hs with
  | call c' hok =>
    refine ⟨⟨⟨hf.idx, hf.own, hf.old⟩, ⟨thd, id, can, append_old j1, j2, j3, j4⟩, ⟨th0, r0, k0, append_old o1, o2⟩, ?_⟩, nofun⟩
    intro u x hu hx
    rcases append_cases hx with ⟨_, e⟩ | hx
    · subst e; rw [show (Thread.mk c' (start c') false).phase.holds = [] from (start_quiet c').2.1]; exact nofun
    · exact ho u x hu hx
  | go t pick th ht hn =>
    have htd : t ≠ d := by
      intro e; subst e; rw [jammed_next hj hf ht] at hn; cases hn
    have htc : t ≠ c := by
      intro e; subst e; rw [ht] at o1; cases o1
      unfold next at hn; rw [o2] at hn; cases hn
    obtain ⟨p', e1, hf', hp'⟩ := next_frozen hn hf (ho t th htc ht)
    refine ⟨⟨hf', ⟨thd, id, can, by rw [e1]; exact set_other ht _ (Ne.symm htd) j1, j2, j3, j4⟩, ⟨th0, r0, k0, by rw [e1]; exact set_other ht _ (Ne.symm htc) o1, o2⟩, ?_⟩, nofun⟩
    intro u x hu hx
    rw [e1] at hx
    rcases set_cases ht hx with ⟨_, e⟩ | ⟨_, hx⟩
    · subst e; exact hp'
    · exact ho u x hu hx
  | ret t th r kept ht hr hp =>
    have htd : t ≠ d := by
      intro e; subst e; rw [ht] at j1; cases j1; rw [hp] at j4; cases j4
    refine ⟨⟨⟨hf.idx, hf.own, hf.old⟩, ⟨thd, id, can, set_other ht _ (Ne.symm htd) j1, j2, j3, j4⟩, ?_, ?_⟩, ?_⟩
    · by_cases e : c = t
      · subst e; rw [ht] at o1; cases o1; exact ⟨_, r0, k0, set_self ht _, o2⟩
      · exact ⟨th0, r0, k0, set_other ht _ e o1, o2⟩
    · intro u x hu hx
      rcases set_cases ht hx with ⟨e, e'⟩ | ⟨_, hx⟩
      · subst e; subst e'; exact ho u th hu ht
      · exact ho u x hu hx
    · intro r' e; cases e; exact htd rfl

theorem Leaked.run [DecidableEq V] {blocks : (Nat → Option (Item V A)) → Nat → Nat → Bool} {s s' : St V A} {c d i : Nat} {p : GoString × V} {evs : List (Event V A)} (h : Leaked s c d i p)
    (hs : Run blocks s evs s') : Leaked s' c d i p ∧ ∀ r, Event.ret d r ∉ evs := by
  induction hs with
  | nil => exact ⟨h, fun _ => nofun⟩
  | step _ hst ih =>
    obtain ⟨h1, h2⟩ := ih
    obtain ⟨h3, h4⟩ := h1.step hst
    refine ⟨h3, ?_⟩
    intro r hr
    rcases List.mem_append.1 hr with hr | hr
    · exact h2 r hr
    · exact h4 r (by simpa using hr)

/-! ### A create and a destruction that wait for each other -/

/-- The call has not found or changed anything. -/
def Phase.poor : Phase V A → Prop
  | .unlock _ r | .dunlock _ _ r | .clean _ r | .done r _ => r.good = false
  | .wipe _ => False
  | _ => True

/-- While everything in the tree of ids waits, nothing is found or changed. -/
theorem next_poor [DecidableEq V] {blocks : (Nat → Option (Item V A)) → Nat → Nat → Bool} {s s' : St V A} {t pick : Nat} {th : Thread V A} (h : next blocks s t pick th = some s')
    (hb : ∀ w, s.busy blocks w = true) (hp : th.phase.poor) : s'.item = s.item ∧ ∀ p', s'.threads = s.threads.set t { th with phase := p' } → s.threads[t]? = some th → p'.poor := by
  have use : ∀ {q : Phase V A}, q.poor → s'.threads = s.threads.set t { th with phase := q } → ∀ p', s'.threads = s.threads.set t { th with phase := p' } → s.threads[t]? = some th → p'.poor := by
    intro q hq e p' e' ht
    rw [e] at e'
    have h1 := set_self ht { th with phase := q }
    rw [e', set_self ht] at h1
    cases h1; exact hq
  have aq : (afterQuery th.call).poor := by cases th.call <;> trivial
  have fin : ∀ {r : Res A}, r.good = false → (finish th.call r).poor := by
    intro r hr; unfold finish; split
    · rfl
    · exact hr
  unfold next at h
  split at h
  next acc e => cases h; exact ⟨rfl, use (q := .lookup _) trivial rfl⟩
  next q rest acc e =>
    unfold nextQuery at h
    split at h
    · cases h; exact ⟨rfl, use aq rfl⟩
    · split at h
      · cases h
      · split at h
        · cases h; exact ⟨rfl, use aq rfl⟩
        · cases h; exact ⟨rfl, use (q := .query _ _) trivial rfl⟩
  next e => cases h; exact ⟨rfl, use aq rfl⟩
  next id rest e =>
    unfold nextLookup at h
    rw [hb] at h
    split at h
    · cases h; exact ⟨rfl, use (q := .lookup _) trivial rfl⟩
    · cases h
  next nodes e => cases h; exact ⟨rfl, use (q := .lock _ _ _) trivial rfl⟩
  next q rest nodes e =>
    unfold nextTouch at h
    split at h
    · cases h; exact ⟨rfl, use (q := .touch _ _) trivial rfl⟩
    · split at h
      · cases h
      · cases h; exact ⟨rfl, use (q := .touch _ _) trivial rfl⟩
  next held got e =>
    unfold nextLocked at h
    split at h
    · split at h
      · cases h; exact ⟨rfl, use (q := .unlock _ .exists) rfl rfl⟩
      · split at h
        · cases h; exact ⟨rfl, use (q := .unlock _ .destroying) rfl rfl⟩
        · rw [hb] at h; cases h
    · split at h
      · cases h; exact ⟨rfl, use (q := .make _ _) trivial rfl⟩
      · cases h
  next j rest held got e =>
    unfold nextLock at h
    split at h
    · cases h
    · cases h; exact ⟨rfl, use (q := .lock _ _ _) trivial rfl⟩
  next held id e =>
    unfold nextMake at h
    split at h
    · rw [hb] at h; cases h
    · rw [hb] at h; cases h
    · cases h; exact ⟨rfl, use (q := .unlock _ .failed) rfl rfl⟩
  next r e =>
    rw [e] at hp
    have : (afterUnlock th.call r).poor := by cases r <;> first | trivial | exact hp
    cases h; exact ⟨rfl, use this rfl⟩
  next j rest r e => rw [e] at hp; cases h; exact ⟨rfl, use (q := .unlock rest r) hp rfl⟩
  next nodes e =>
    have : (afterDfind th.call nodes).poor := by unfold afterDfind; split <;> trivial
    cases h; exact ⟨rfl, use this rfl⟩
  next q rest nodes e =>
    unfold nextDfind at h
    split at h
    · cases h; exact ⟨rfl, use (q := .dfind _ _) trivial rfl⟩
    · cases h; exact ⟨rfl, use (q := .dfind _ _) trivial rfl⟩
  next held got e =>
    unfold nextDlocked at h
    split at h
    · split at h
      · cases h; exact ⟨rfl, use (q := .done .destroying _) rfl rfl⟩
      · rw [hb] at h; cases h
    · cases h; exact ⟨rfl, use (q := .dunlock _ _ .nothing) rfl rfl⟩
  next j rest held got e =>
    unfold nextDlock at h
    split at h
    · cases h
    · split at h
      · cases h; exact ⟨rfl, use (q := .dunlock _ _ .nothing) rfl rfl⟩
      · cases h; exact ⟨rfl, use (q := .dlock _ _ _) trivial rfl⟩
  next stop r e =>
    rw [e] at hp
    have : (afterDunlock th.call stop r).poor := by
      unfold afterDunlock; split
      · exact fin hp
      · exact hp
    cases h; exact ⟨rfl, use this rfl⟩
  next j rest stop r e => rw [e] at hp; cases h; exact ⟨rfl, use (q := .dunlock rest stop r) hp rfl⟩
  next r e => rw [e] at hp; cases h; exact ⟨rfl, use (fin hp) rfl⟩
  next q rest r e =>
    rw [e] at hp
    unfold nextClean at h
    split at h
    · cases h; exact ⟨rfl, use (q := .clean rest r) hp rfl⟩
    · split at h
      · cases h
      · split at h
        · cases h; exact ⟨rfl, use (q := .clean rest r) hp rfl⟩
        · cases h; exact ⟨rfl, use (q := .clean rest r) hp rfl⟩
  next e =>
    split at h
    · cases h
      unfold nextMark
      split
      next h1 => refine ⟨rfl, ?_⟩; have := use (q := .done .destroying []) rfl (by unfold nextMark; rw [if_pos h1]; rfl); unfold nextMark at this; rw [if_pos h1] at this; exact this
      next h1 => refine ⟨rfl, ?_⟩; have := use (q := .seize) trivial (by unfold nextMark; rw [if_neg h1]; rfl); unfold nextMark at this; rw [if_neg h1] at this; exact this
    · cases h
  next e =>
    split at h
    · unfold nextSeize at h
      rw [hb] at h; cases h
    · cases h
  next e => rw [e] at hp; exact hp.elim
  next q rest e => rw [e] at hp; exact hp.elim
  · cases h

/-- A create that has locked the ID node of `p` waits for the tree of ids, which a destruction that waits for the node keeps locked. -/
structure Crossed (blocks : (Nat → Option (Item V A)) → Nat → Nat → Bool) (s : St V A) (c d i : Nat) (p : GoString × V) : Prop where
  frozen : Frozen s c i p
  jam : Jammed s d p
  making : ∃ th held id kvs a, s.threads[c]? = some th ∧ th.returned = false ∧ th.call = .create kvs a ∧ th.phase = .make held id
  block : ∀ (th : Thread V A) id can, s.threads[d]? = some th → th.call = .destroy id can → ∀ w, blocks s.item id w = true
  others : ∀ (u : Nat) (x : Thread V A), u ≠ c → s.threads[u]? = some x → i ∉ x.phase.holds
  poor : ∀ (u : Nat) (x : Thread V A), u ≠ d → s.threads[u]? = some x → x.phase.poor ∨ (x.returned = true ∧ ∃ r kept, x.phase = .done r kept)

theorem Crossed.busy {blocks : (Nat → Option (Item V A)) → Nat → Nat → Bool} {s : St V A} {c d i : Nat} {p : GoString × V} (h : Crossed blocks s c d i p) (w : Nat) : s.busy blocks w = true := by
  obtain ⟨th, id, can, h1, _, h2, h3⟩ := h.jam.here
  unfold St.busy
  rw [List.any_eq_true]
  refine ⟨th, List.mem_of_getElem? h1, ?_⟩
  rw [h2, h3]
  exact h.block th id can h1 h2 w

theorem Crossed.step [DecidableEq V] {blocks : (Nat → Option (Item V A)) → Nat → Nat → Bool} {s s' : St V A} {c d i : Nat} {p : GoString × V} {e : Option (Event V A)} (h : Crossed blocks s c d i p)
    (hs : Step blocks s e s') : Crossed blocks s' c d i p ∧ ∀ t r, e = some (.ret t r) → t ≠ c ∧ t ≠ d ∧ r.good = false := by
  have hbusy := h.busy
  obtain ⟨hf, hj, ⟨th0, held0, id0, kvs0, a0, o1, o2, o3, o4⟩, hbl, ho, hpo⟩ := h
  obtain ⟨thd, id, can, j1, j2, j3, j4⟩ := hj.here
  cases hs with
  | call c' hok =>
    refine ⟨⟨⟨hf.idx, hf.own, hf.old⟩, ⟨thd, id, can, append_old j1, j2, j3, j4⟩, ⟨th0, held0, id0, kvs0, a0, append_old o1, o2, o3, o4⟩, ?_, ?_, ?_⟩, nofun⟩
    · intro th id' can' hth hc w
      have := append_old (y := ⟨c', start c', false⟩) j1
      simp only at hth
      rw [this] at hth; cases hth
      exact hbl thd id' can' j1 hc w
    · intro u x hu hx
      rcases append_cases hx with ⟨_, e⟩ | hx
      · subst e; rw [show (Thread.mk c' (start c') false).phase.holds = [] from (start_quiet c').2.1]; exact nofun
      · exact ho u x hu hx
    · intro u x hu hx
      rcases append_cases hx with ⟨_, e⟩ | hx
      · subst e; left; cases c' <;> trivial
      · exact hpo u x hu hx
  | go t pick th ht hn =>
    have htd : t ≠ d := by
      intro e; subst e; rw [jammed_next hj hf ht] at hn; cases hn
    have htc : t ≠ c := by
      intro e; subst e; rw [ht] at o1; cases o1
      unfold next at hn; rw [o4] at hn
      simp only [nextMake, o3, hbusy, if_true] at hn; cases hn
    have hp : th.phase.poor := by
      rcases hpo t th htd ht with hp | ⟨_, r, kept, e⟩
      · exact hp
      · unfold next at hn; rw [e] at hn; cases hn
    obtain ⟨p', e1, hf', hp'⟩ := next_frozen hn hf (ho t th htc ht)
    obtain ⟨e2, hp''⟩ := next_poor hn hbusy hp
    have hd' : s'.threads[d]? = some thd := by rw [e1]; exact set_other ht _ (Ne.symm htd) j1
    refine ⟨⟨hf', ⟨thd, id, can, hd', j2, j3, j4⟩, ⟨th0, held0, id0, kvs0, a0, by rw [e1]; exact set_other ht _ (Ne.symm htc) o1, o2, o3, o4⟩, ?_, ?_, ?_⟩, nofun⟩
    · intro x id' can' hth hc w
      rw [hd'] at hth; cases hth
      rw [e2]; exact hbl thd id' can' j1 hc w
    · intro u x hu hx
      rw [e1] at hx
      rcases set_cases ht hx with ⟨_, e⟩ | ⟨_, hx⟩
      · subst e; exact hp'
      · exact ho u x hu hx
    · intro u x hu hx
      rw [e1] at hx
      rcases set_cases ht hx with ⟨_, e⟩ | ⟨_, hx⟩
      · subst e; exact Or.inl (hp'' p' e1 ht)
      · exact hpo u x hu hx
  | ret t th r kept ht hr hp =>
    have htd : t ≠ d := by
      intro e; subst e; rw [ht] at j1; cases j1; rw [hp] at j4; cases j4
    have htc : t ≠ c := by
      intro e; subst e; rw [ht] at o1; cases o1; rw [hp] at o4; cases o4
    refine ⟨⟨⟨hf.idx, hf.own, hf.old⟩, ⟨thd, id, can, set_other ht _ (Ne.symm htd) j1, j2, j3, j4⟩, ⟨th0, held0, id0, kvs0, a0, set_other ht _ (Ne.symm htc) o1, o2, o3, o4⟩, ?_, ?_, ?_⟩, ?_⟩
    · intro x id' can' hth hc w
      have := set_other ht { th with returned := true } (Ne.symm htd) j1
      simp only at hth
      rw [this] at hth; cases hth
      exact hbl thd id' can' j1 hc w
    · intro u x hu hx
      rcases set_cases ht hx with ⟨e, e'⟩ | ⟨_, hx⟩
      · subst e; subst e'; exact ho u th hu ht
      · exact ho u x hu hx
    · intro u x hu hx
      rcases set_cases ht hx with ⟨e, e'⟩ | ⟨_, hx⟩
      · subst e; subst e'; exact Or.inr ⟨rfl, r, kept, hp⟩
      · exact hpo u x hu hx
    · intro t' r' e; cases e
      refine ⟨htc, htd, ?_⟩
      rcases hpo t th htd ht with h | ⟨h, _⟩
      · rw [hp] at h; exact h
      · rw [hr] at h; cases h

theorem Crossed.run [DecidableEq V] {blocks : (Nat → Option (Item V A)) → Nat → Nat → Bool} {s s' : St V A} {c d i : Nat} {p : GoString × V} {evs : List (Event V A)} (h : Crossed blocks s c d i p)
    (hs : Run blocks s evs s') : Crossed blocks s' c d i p ∧ ∀ t r, Event.ret t r ∈ evs → t ≠ c ∧ t ≠ d ∧ r.good = false := by
  induction hs with
  | nil => exact ⟨h, fun _ _ => nofun⟩
  | step _ hst ih =>
    obtain ⟨h1, h2⟩ := ih
    obtain ⟨h3, h4⟩ := h1.step hst
    refine ⟨h3, ?_⟩
    intro t r hr
    rcases List.mem_append.1 hr with hr | hr
    · exact h2 t r hr
    · exact h4 t r (by simpa using hr)

end Willow.AssocConc
