import Verif.Model.SharedLock
import Verif.Proofs.AssocConcHang
/-! Lock clients shared by goroutines: what the steps of the calls on a tree do, and the invariant of clients and locker. -/
namespace Willow.SharedLock
open Willow.AssocConc (KVs Call Phase Thread Res next set_cases set_self set_other append_cases append_old)

variable {V : Type}

/-- The answer a call is about to give. -/
def told : Phase V Nat → Option (Res Nat)
  | .unlock _ r | .dunlock _ _ r | .clean _ r | .done r _ => some r
  | _ => none

/-- The phases of CreateOrFind. -/
def forward : Phase V Nat → Bool
  | .query _ _ | .lookup _ | .touch _ _ | .lock _ _ _ | .make _ _ | .unlock _ _ | .done _ _ => true
  | _ => false

/-- The answers of a CreateOrFind in a tree without destructions. -/
def lockAnswer : Option (Res Nat) → Bool
  | none | some (.created _) | some (.found _ _) | some (.neither _) => true
  | _ => false

/-- What one step of a call does, as far as locks are concerned. -/
structure Did (s s' : AssocConc.St V Nat) (th : Thread V Nat) (p' : Phase V Nat) : Prop where
  created : ∀ id, told p' = some (.created id) → told th.phase = some (.created id) ∨ (∃ held, th.phase = .make held id) ∧ ∃ kvs a, th.call = .create kvs a ∨ th.call = .createOrFind kvs a
  found : ∀ id a, told p' = some (.found id a) → told th.phase = some (.found id a) ∨ ∃ it, s.item id = some it ∧ it.val = a
  item : ∀ id it, s'.item id = some it → s.item id = some it ∨ (∃ held, th.phase = .make held id ∧ told p' = some (.created id)) ∧ (th.call = .create it.kvs it.val ∨ th.call = .createOrFind it.kvs it.val)
  keeps : ∀ kvs a r, th.call = .createOrFind kvs a → told th.phase = some r → r ≠ .failed → told p' = some r
  fwd : ∀ kvs a, th.call = .createOrFind kvs a → s.destroying = [] → forward th.phase = true → lockAnswer (told th.phase) = true → forward p' = true ∧ lockAnswer (told p') = true
  makes : ∀ held id kvs a, th.phase = .make held id → th.call = .createOrFind kvs a → told p' = some (.created id)

/-- A step that gives no answer. -/
theorem Did.quiet {s s' : AssocConc.St V Nat} {th : Thread V Nat} {p' : Phase V Nat} (h1 : ∀ id it, s'.item id = some it → s.item id = some it) (h2 : told p' = none) (h3 : told th.phase = none)
    (h4 : forward th.phase = true → forward p' = true) (h5 : ∀ held id, th.phase ≠ .make held id) : Did s s' th p' := by
  refine ⟨?_, ?_, fun id it e => Or.inl (h1 id it e), ?_, ?_, ?_⟩
  · intro id e; rw [h2] at e; cases e
  · intro id a e; rw [h2] at e; cases e
  · intro kvs a r _ e; rw [h3] at e; cases e
  · intro kvs a _ _ e _; exact ⟨h4 e, by rw [h2]; rfl⟩
  · intro held id kvs a e; exact absurd e (h5 held id)

/-- A step that gives another answer than a lock. -/
theorem Did.other {s s' : AssocConc.St V Nat} {th : Thread V Nat} {p' : Phase V Nat} {r : Res Nat} (h1 : ∀ id it, s'.item id = some it → s.item id = some it) (h2 : told p' = some r)
    (hr : (∀ id, r ≠ .created id) ∧ ∀ id a, r ≠ .found id a) (h3 : told th.phase = none) (h4 : ∀ kvs a, th.call = .createOrFind kvs a → forward th.phase = true → forward p' = true ∧ lockAnswer (told p') = true)
    (h5 : ∀ held id kvs a, th.phase = .make held id → th.call ≠ .createOrFind kvs a) : Did s s' th p' := by
  refine ⟨?_, ?_, fun id it e => Or.inl (h1 id it e), ?_, ?_, ?_⟩
  · intro id e; rw [h2] at e; cases e; exact absurd rfl (hr.1 id)
  · intro id a e; rw [h2] at e; cases e; exact absurd rfl (hr.2 id a)
  · intro kvs a r _ e; rw [h3] at e; cases e
  · intro kvs a e _ e' _; exact h4 kvs a e e'
  · intro held id kvs a e e'; exact absurd e' (h5 held id kvs a e)

/-- A step after which the answer is the same. -/
theorem Did.same {s s' : AssocConc.St V Nat} {th : Thread V Nat} {p' : Phase V Nat} (h1 : ∀ id it, s'.item id = some it → s.item id = some it) (h2 : told p' = told th.phase)
    (h4 : forward th.phase = true → forward p' = true) (h5 : ∀ held id, th.phase ≠ .make held id) : Did s s' th p' := by
  refine ⟨?_, ?_, fun id it e => Or.inl (h1 id it e), ?_, ?_, ?_⟩
  · intro id e; rw [h2] at e; exact Or.inl e
  · intro id a e; rw [h2] at e; exact Or.inl e
  · intro kvs a r _ e _; rw [h2]; exact e
  · intro kvs a _ _ e e'; exact ⟨h4 e, by rw [h2]; exact e'⟩
  · intro held id kvs a e; exact absurd e (h5 held id)

theorem afterQuery_did {s s' : AssocConc.St V Nat} {th : Thread V Nat} (h1 : ∀ id it, s'.item id = some it → s.item id = some it) (h3 : told th.phase = none) (h5 : ∀ held id, th.phase ≠ .make held id) :
    Did s s' th (AssocConc.afterQuery th.call) := by
  cases e : th.call with
  | createOrFind kvs a => exact .quiet h1 rfl h3 (fun _ => rfl) h5
  | createFails kvs => exact .quiet h1 rfl h3 (fun _ => rfl) h5
  | _ => exact .other h1 (r := .nothing) rfl ⟨nofun, nofun⟩ h3 (fun kvs a e' => by rw [e] at e'; cases e') (fun held id _ _ e' => absurd e' (h5 held id))

theorem told_setPhase {s s' : AssocConc.St V Nat} {th : Thread V Nat} {r : Res Nat} {rest : List Nat} {i : Nat} (h1 : ∀ id it, s'.item id = some it → s.item id = some it)
    (e : th.phase = .unlock (i :: rest) r) : Did s s' th (.unlock rest r) :=
  .same h1 (by rw [e]; rfl) (fun _ => rfl) (by rw [e]; nofun)

theorem finish_did {s s' : AssocConc.St V Nat} {th : Thread V Nat} {r : Res Nat} (h3 : told th.phase = some r) (h4 : forward th.phase = false) (h5 : ∀ held id, th.phase ≠ .make held id)
    (h1 : ∀ id it, s'.item id = some it → s.item id = some it := by exact fun _ _ h => h) : Did s s' th (AssocConc.finish th.call r) := by
  have hs : AssocConc.finish th.call r = .done r [] → Did s s' th (AssocConc.finish th.call r) := fun e => by
    rw [e]; exact .same h1 h3.symm (fun h => by rw [h4] at h; cases h) h5
  cases e : th.call with
  | createFails kvs =>
    refine ⟨?_, ?_, fun _ _ h => Or.inl (h1 _ _ h), ?_, ?_, ?_⟩
    · intro i e'; cases e'
    · intro i a e'; cases e'
    · intro kvs a r e'; rw [e] at e'; cases e'
    · intro kvs a e'; rw [e] at e'; cases e'
    · intro held i kvs a e'; exact absurd e' (h5 held i)
  | _ => rw [e] at hs; exact hs rfl

theorem next_did [DecidableEq V] {s s' : AssocConc.St V Nat} {t pick : Nat} {th : Thread V Nat} (h : next free s t pick th = some s') :
    ∃ p', s'.threads = s.threads.set t { th with phase := p' } ∧ Did s s' th p' := by
  unfold next at h
  split at h
  next acc e => cases h; exact ⟨_, rfl, .quiet (fun _ _ h => h) rfl (by rw [e]; rfl) (fun _ => rfl) (by rw [e]; nofun)⟩
  next q rest acc e =>
    unfold AssocConc.nextQuery at h
    have aq := @afterQuery_did V s
    split at h
    · cases h; exact ⟨_, rfl, afterQuery_did (fun _ _ h => h) (by rw [e]; rfl) (by rw [e]; nofun)⟩
    · split at h
      · cases h
      · split at h <;> cases h
        · exact ⟨_, rfl, afterQuery_did (fun _ _ h => h) (by rw [e]; rfl) (by rw [e]; nofun)⟩
        · exact ⟨_, rfl, .quiet (fun _ _ h => h) rfl (by rw [e]; rfl) (fun _ => rfl) (by rw [e]; nofun)⟩
  next e => cases h; exact ⟨_, rfl, afterQuery_did (fun _ _ h => h) (by rw [e]; rfl) (by rw [e]; nofun)⟩
  next id rest e =>
    unfold AssocConc.nextLookup at h
    split at h
    · cases h; exact ⟨_, rfl, .quiet (fun _ _ h => h) rfl (by rw [e]; rfl) (fun _ => rfl) (by rw [e]; nofun)⟩
    · split at h
      · cases h
      · split at h
        next it hit =>
          cases h
          refine ⟨_, rfl, ?_, ?_, fun _ _ h => Or.inl h, ?_, ?_, ?_⟩
          · intro i e'; cases e'
          · intro i a e'; cases e'; exact Or.inr ⟨it, hit, rfl⟩
          · intro kvs a r _ e'; rw [e] at e'; cases e'
          · intro kvs a _ _ _ _; exact ⟨rfl, rfl⟩
          · intro held i kvs a e'; rw [e] at e'; cases e'
        · cases h; exact ⟨_, rfl, .quiet (fun _ _ h => h) rfl (by rw [e]; rfl) (fun _ => rfl) (by rw [e]; nofun)⟩
  next nodes e => cases h; exact ⟨_, rfl, .quiet (fun _ _ h => h) rfl (by rw [e]; rfl) (fun _ => rfl) (by rw [e]; nofun)⟩
  next p rest nodes e =>
    unfold AssocConc.nextTouch at h
    split at h
    · cases h; exact ⟨_, rfl, .quiet (fun _ _ h => h) rfl (by rw [e]; rfl) (fun _ => rfl) (by rw [e]; nofun)⟩
    · split at h <;> cases h
      exact ⟨_, rfl, .quiet (fun _ _ h => h) rfl (by rw [e]; rfl) (fun _ => rfl) (by rw [e]; nofun)⟩
  next held got e =>
    unfold AssocConc.nextLocked at h
    split at h
    · split at h
      next k1 k2 e1 =>
        cases h
        exact ⟨_, rfl, .other (fun _ _ h => h) (r := .exists) rfl ⟨nofun, nofun⟩ (by rw [e]; rfl) (fun kvs a e' => by rw [e1] at e'; cases e') (by rw [e]; nofun)⟩
      · split at h
        next hd =>
          cases h
          refine ⟨_, rfl, ?_, ?_, fun _ _ h => Or.inl h, ?_, ?_, ?_⟩
          · intro i e'; cases e'
          · intro i a e'; cases e'
          · intro kvs a r _ e'; rw [e] at e'; cases e'
          · intro kvs a _ hn _ _; rw [hn] at hd; cases hd
          · intro held i kvs a e'; rw [e] at e'; cases e'
        · split at h
          · cases h
          · split at h
            next id _ _ it hit =>
              cases h
              refine ⟨_, rfl, ?_, ?_, fun _ _ h => Or.inl h, ?_, ?_, ?_⟩
              · intro i e'; cases e'
              · intro i a e'; cases e'; exact Or.inr ⟨it, hit, rfl⟩
              · intro kvs a r _ e'; rw [e] at e'; cases e'
              · intro kvs a _ _ _ _; exact ⟨rfl, rfl⟩
              · intro held i kvs a e'; rw [e] at e'; cases e'
            · cases h
              exact ⟨_, rfl, .other (fun _ _ h => h) (r := .neither _) rfl ⟨nofun, nofun⟩ (by rw [e]; rfl) (fun _ _ _ _ => ⟨rfl, rfl⟩) (by rw [e]; nofun)⟩
    · split at h
      · cases h; exact ⟨_, rfl, .quiet (fun _ _ h => h) rfl (by rw [e]; rfl) (fun _ => rfl) (by rw [e]; nofun)⟩
      · cases h
  next i rest held got e =>
    unfold AssocConc.nextLock at h
    split at h
    · cases h
    · cases h; exact ⟨_, rfl, .quiet (fun _ _ h => h) rfl (by rw [e]; rfl) (fun _ => rfl) (by rw [e]; nofun)⟩
  next held id e =>
    unfold AssocConc.nextMake at h
    have mk : ∀ {kvs : KVs V} {a : Nat}, (th.call = .create kvs a ∨ th.call = .createOrFind kvs a) →
        Did s { s with item := fun j => if j = id then some ⟨kvs, a⟩ else s.item j, threads := s.threads.set t { th with phase := .unlock held (.created id) } } th (.unlock held (.created id)) := by
      intro kvs a hc
      refine ⟨?_, ?_, ?_, ?_, ?_, ?_⟩
      · intro i e'; cases e'; exact Or.inr ⟨⟨held, e⟩, kvs, a, hc⟩
      · intro i a e'; cases e'
      · intro i it hi
        have hi : (if i = id then some ⟨kvs, a⟩ else s.item i) = some it := hi
        split at hi
        next e' => cases hi; subst e'; exact Or.inr ⟨⟨held, e, rfl⟩, hc⟩
        · exact Or.inl hi
      · intro kvs a r _ e'; rw [e] at e'; cases e'
      · intro kvs a _ _ _ _; exact ⟨rfl, rfl⟩
      · intro held' i kvs a e' _; rw [e] at e'; cases e'; rfl
    split at h
    next kvs a e1 =>
      split at h
      · cases h
      · cases h; exact ⟨_, rfl, mk (Or.inl e1)⟩
    next kvs a e1 =>
      split at h
      · cases h
      · cases h; exact ⟨_, rfl, mk (Or.inr e1)⟩
    next n1 n2 =>
      cases h
      exact ⟨_, rfl, .other (fun _ _ h => h) (r := .failed) rfl ⟨nofun, nofun⟩ (by rw [e]; rfl) (fun kvs a e' => absurd e' (n2 kvs a)) (fun _ _ kvs a _ => n2 kvs a)⟩
  next r e =>
    cases h
    refine ⟨_, rfl, ?_⟩
    cases r with
    | failed =>
      refine ⟨?_, ?_, fun _ _ h => Or.inl h, ?_, ?_, ?_⟩
      · intro i e'; cases e'
      · intro i a e'; cases e'
      · intro kvs a r _ e' hr; rw [e] at e'; cases e'; exact absurd rfl hr
      · intro kvs a _ _ _ hl; rw [e] at hl; cases hl
      · intro held i kvs a e'; rw [e] at e'; cases e'
    | _ => exact .same (fun _ _ h => h) (by rw [e]; rfl) (fun _ => rfl) (by rw [e]; nofun)
  next i rest r e => cases h; exact ⟨_, rfl, told_setPhase (fun _ _ h => h) e⟩
  next nodes e =>
    cases h
    refine ⟨_, rfl, ?_⟩
    unfold AssocConc.afterDfind
    split
    · exact .quiet (fun _ _ h => h) rfl (by rw [e]; rfl) (by rw [e]; nofun) (by rw [e]; nofun)
    · exact .other (fun _ _ h => h) (r := .nothing) rfl ⟨nofun, nofun⟩ (by rw [e]; rfl) (by rw [e]; nofun) (by rw [e]; nofun)
  next p rest nodes e =>
    cases h
    unfold AssocConc.nextDfind
    split
    · exact ⟨_, rfl, .quiet (fun _ _ h => h) rfl (by rw [e]; rfl) (by rw [e]; nofun) (by rw [e]; nofun)⟩
    · exact ⟨_, rfl, .quiet (fun _ _ h => h) rfl (by rw [e]; rfl) (by rw [e]; nofun) (by rw [e]; nofun)⟩
  next held got e =>
    unfold AssocConc.nextDlocked at h
    have rm : ∀ (id i : Nat) (it : AssocConc.Item V Nat), (if i = id then none else s.item i) = some it → s.item i = some it := by
      intro id i it hi; split at hi
      · cases hi
      · exact hi
    split at h
    · split at h
      · cases h
        exact ⟨_, rfl, .other (fun _ _ h => h) (r := .destroying) rfl ⟨nofun, nofun⟩ (by rw [e]; rfl) (by rw [e]; nofun) (by rw [e]; nofun)⟩
      · split at h
        · cases h
        · split at h
          · split at h <;> cases h
            · exact ⟨_, rfl, .other (rm _) (r := .removed _) rfl ⟨nofun, nofun⟩ (by rw [e]; rfl) (by rw [e]; nofun) (by rw [e]; nofun)⟩
            · exact ⟨_, rfl, .other (fun _ _ h => h) (r := .refused) rfl ⟨nofun, nofun⟩ (by rw [e]; rfl) (by rw [e]; nofun) (by rw [e]; nofun)⟩
          · cases h
            exact ⟨_, rfl, .other (fun _ _ h => h) (r := .nothing) rfl ⟨nofun, nofun⟩ (by rw [e]; rfl) (by rw [e]; nofun) (by rw [e]; nofun)⟩
    · cases h
      exact ⟨_, rfl, .other (fun _ _ h => h) (r := .nothing) rfl ⟨nofun, nofun⟩ (by rw [e]; rfl) (by rw [e]; nofun) (by rw [e]; nofun)⟩
  next i rest held got e =>
    unfold AssocConc.nextDlock at h
    split at h
    · cases h
    · split at h <;> cases h
      · exact ⟨_, rfl, .other (fun _ _ h => h) (r := .nothing) rfl ⟨nofun, nofun⟩ (by rw [e]; rfl) (by rw [e]; nofun) (by rw [e]; nofun)⟩
      · exact ⟨_, rfl, .quiet (fun _ _ h => h) rfl (by rw [e]; rfl) (by rw [e]; nofun) (by rw [e]; nofun)⟩
  next stop r e =>
    cases h
    refine ⟨_, rfl, ?_⟩
    unfold AssocConc.afterDunlock
    split
    · exact finish_did (by rw [e]; rfl) (by rw [e]; rfl) (by rw [e]; nofun)
    · exact .same (fun _ _ h => h) (by rw [e]; rfl) (by rw [e]; nofun) (by rw [e]; nofun)
  next i rest stop r e => cases h; exact ⟨_, rfl, .same (fun _ _ h => h) (by rw [e]; rfl) (by rw [e]; nofun) (by rw [e]; nofun)⟩
  next r e => cases h; exact ⟨_, rfl, finish_did (by rw [e]; rfl) (by rw [e]; rfl) (by rw [e]; nofun)⟩
  next p rest r e =>
    unfold AssocConc.nextClean at h
    split at h
    · cases h; exact ⟨_, rfl, .same (fun _ _ h => h) (by rw [e]; rfl) (by rw [e]; nofun) (by rw [e]; nofun)⟩
    · split at h
      · cases h
      · split at h <;> cases h <;> exact ⟨_, rfl, .same (fun _ _ h => h) (by rw [e]; rfl) (by rw [e]; nofun) (by rw [e]; nofun)⟩
  next e =>
    split at h
    next id can e1 =>
      cases h
      unfold AssocConc.nextMark
      split
      · exact ⟨_, rfl, .other (fun _ _ h => h) (r := .destroying) rfl ⟨nofun, nofun⟩ (by rw [e]; rfl) (by rw [e]; nofun) (by rw [e]; nofun)⟩
      · exact ⟨_, rfl, .quiet (fun _ _ h => h) rfl (by rw [e]; rfl) (by rw [e]; nofun) (by rw [e]; nofun)⟩
    · cases h
  next e =>
    split at h
    next id can e1 =>
      unfold AssocConc.nextSeize at h
      split at h
      · cases h
      · split at h
        · cases h; exact ⟨_, rfl, .other (fun _ _ h => h) (r := .nothing) rfl ⟨nofun, nofun⟩ (by rw [e]; rfl) (by rw [e]; nofun) (by rw [e]; nofun)⟩
        · split at h <;> cases h
          · exact ⟨_, rfl, .quiet (fun _ _ h => h) rfl (by rw [e]; rfl) (by rw [e]; nofun) (by rw [e]; nofun)⟩
          · exact ⟨_, rfl, .other (fun _ _ h => h) (r := .refused) rfl ⟨nofun, nofun⟩ (by rw [e]; rfl) (by rw [e]; nofun) (by rw [e]; nofun)⟩
    · cases h
  next e =>
    split at h
    next id can e1 =>
      cases h
      refine ⟨_, rfl, .other ?_ (r := .removed _) rfl ⟨nofun, nofun⟩ (by rw [e]; rfl) (by rw [e]; nofun) (by rw [e]; nofun)⟩
      intro i it hi
      have hi : (if i = id then none else s.item i) = some it := hi
      split at hi
      · cases hi
      · exact hi
    · cases h
  next p rest e =>
    split at h
    · split at h
      · unfold AssocConc.nextWipe at h
        split at h
        · cases h; exact ⟨_, rfl, .quiet (fun _ _ h => h) rfl (by rw [e]; rfl) (by rw [e]; nofun) (by rw [e]; nofun)⟩
        · split at h
          · cases h
          · simp only at h
            split at h <;> cases h <;> exact ⟨_, rfl, .quiet (fun _ _ h => h) rfl (by rw [e]; rfl) (by rw [e]; nofun) (by rw [e]; nofun)⟩
      · cases h
    · cases h
  · cases h

theorem next_destroying [DecidableEq V] {s s' : AssocConc.St V Nat} {t pick : Nat} {th : Thread V Nat} (h : next free s t pick th = some s') (hd : th.call.destroys = false) :
    s'.destroying = s.destroying := by
  have hn : ∀ id can, th.call ≠ .destroy id can := by intro id can e; rw [e] at hd; cases hd
  unfold next AssocConc.nextQuery AssocConc.nextLookup AssocConc.nextTouch AssocConc.nextLocked AssocConc.nextLock AssocConc.nextMake AssocConc.nextDlocked AssocConc.nextDlock
    AssocConc.nextClean at h
  repeat' split at h
  all_goals first
    | cases h; done
    | (cases h; rfl)
    | (cases h; unfold AssocConc.nextDfind; split <;> rfl)
    | (exact absurd (by assumption) (hn _ _))

/-- The lock object `o` of a client was made for these key-values. -/
def Made (x : AssocConc.St V Nat) (o : Nat) (kvs : KVs V) : Prop := ∃ th id, x.threads[o]? = some th ∧ th.call = .createOrFind kvs o ∧ told th.phase = some (.created id)

/-- Invariant of the tree of one client. -/
structure TInv (x : AssocConc.St V Nat) : Prop where
  named : ∀ (t : Nat) (th : Thread V Nat) kvs a, x.threads[t]? = some th → th.call = .createOrFind kvs a → a = t
  calls : ∀ (t : Nat) (th : Thread V Nat), x.threads[t]? = some th → th.call.destroys = false ∧ ∀ kvs a, th.call ≠ .create kvs a
  none : x.destroying = []
  items : ∀ id it, x.item id = some it → Made x it.val it.kvs
  found : ∀ (t : Nat) (th : Thread V Nat) id a, x.threads[t]? = some th → told th.phase = some (.found id a) → ∃ kvs, Made x a kvs
  fwd : ∀ (t : Nat) (th : Thread V Nat) kvs a, x.threads[t]? = some th → th.call = .createOrFind kvs a → forward th.phase = true ∧ lockAnswer (told th.phase) = true
  creator : ∀ (t : Nat) (th : Thread V Nat) id, x.threads[t]? = some th → told th.phase = some (.created id) → ∃ kvs, th.call = .createOrFind kvs t

theorem TInv.init [Inhabited V] : TInv (AssocConc.St.init : AssocConc.St V Nat) :=
  ⟨nofun, nofun, rfl, nofun, nofun, nofun, nofun⟩

theorem Made.begin {x : AssocConc.St V Nat} {c : Call V Nat} {o : Nat} {kvs : KVs V} (h : Made x o kvs) : Made (begin x c) o kvs := by
  obtain ⟨th, id, h1, h2, h3⟩ := h
  exact ⟨th, id, append_old h1, h2, h3⟩

theorem start_told (c : Call V Nat) : told (AssocConc.start c) = none := by cases c <;> rfl

theorem Made.of_begin {x : AssocConc.St V Nat} {c : Call V Nat} {o : Nat} {kvs : KVs V} (h : Made (SharedLock.begin x c) o kvs) : Made x o kvs := by
  obtain ⟨th, id, h1, h2, h3⟩ := h
  rcases append_cases h1 with ⟨_, e⟩ | h1
  · subst e; rw [show told (Thread.mk c (AssocConc.start c) false).phase = _ from start_told c] at h3; cases h3
  · exact ⟨th, id, h1, h2, h3⟩

theorem TInv.begin {x : AssocConc.St V Nat} {c : Call V Nat} (h : TInv x) (hn : ∀ kvs a, c = .createOrFind kvs a → a = x.threads.length) (hc : c.destroys = false ∧ ∀ kvs a, c ≠ .create kvs a) :
    TInv (begin x c) := by
  refine ⟨?_, ?_, h.none, fun id it e => (h.items id it e).begin, ?_, ?_, ?_⟩
  · intro t th kvs a ht e
    rcases append_cases ht with ⟨e1, e2⟩ | ht
    · subst e2; rw [e1]; exact hn kvs a e
    · exact h.named t th kvs a ht e
  · intro t th ht
    rcases append_cases ht with ⟨_, e2⟩ | ht
    · subst e2; exact hc
    · exact h.calls t th ht
  · intro t th id a ht e
    rcases append_cases ht with ⟨_, e2⟩ | ht
    · subst e2; rw [show told (Thread.mk c (AssocConc.start c) false).phase = _ from start_told c] at e; cases e
    · obtain ⟨kvs, h1⟩ := h.found t th id a ht e; exact ⟨kvs, h1.begin⟩
  · intro t th kvs a ht e
    rcases append_cases ht with ⟨_, e2⟩ | ht
    · subst e2; simp only at e; subst e; exact ⟨rfl, rfl⟩
    · exact h.fwd t th kvs a ht e
  · intro t th id ht e
    rcases append_cases ht with ⟨_, e2⟩ | ht
    · subst e2; rw [show told (Thread.mk c (AssocConc.start c) false).phase = _ from start_told c] at e; cases e
    · exact h.creator t th id ht e

/-- The tree after a call has returned. -/
def retd (x : AssocConc.St V Nat) (t : Nat) (th : Thread V Nat) : AssocConc.St V Nat := { x with threads := x.threads.set t { th with returned := true } }

theorem Made.ret {x : AssocConc.St V Nat} {t : Nat} {th : Thread V Nat} {o : Nat} {kvs : KVs V} (ht : x.threads[t]? = some th) : Made (retd x t th) o kvs ↔ Made x o kvs := by
  constructor
  · rintro ⟨y, id, h1, h2, h3⟩
    rcases set_cases ht h1 with ⟨e, e'⟩ | ⟨_, h1⟩
    · subst e; subst e'; exact ⟨th, id, ht, h2, h3⟩
    · exact ⟨y, id, h1, h2, h3⟩
  · rintro ⟨y, id, h1, h2, h3⟩
    by_cases e : o = t
    · subst e; rw [ht] at h1; cases h1; exact ⟨_, id, set_self ht _, h2, h3⟩
    · exact ⟨y, id, set_other ht _ e h1, h2, h3⟩

theorem TInv.ret {x : AssocConc.St V Nat} {t : Nat} {th : Thread V Nat} (h : TInv x) (ht : x.threads[t]? = some th) : TInv (retd x t th) := by
  refine ⟨?_, ?_, h.none, fun id it e => (Made.ret ht).2 (h.items id it e), ?_, ?_, ?_⟩
  · intro u y kvs a hu e
    rcases set_cases ht hu with ⟨e1, e2⟩ | ⟨_, hu⟩
    · subst e1; subst e2; exact h.named u th kvs a ht e
    · exact h.named u y kvs a hu e
  · intro u y hu
    rcases set_cases ht hu with ⟨e1, e2⟩ | ⟨_, hu⟩
    · subst e2; exact h.calls t th ht
    · exact h.calls u y hu
  · intro u y id a hu e
    rcases set_cases ht hu with ⟨e1, e2⟩ | ⟨_, hu⟩
    · subst e2; obtain ⟨kvs, h1⟩ := h.found t th id a ht e; exact ⟨kvs, (Made.ret ht).2 h1⟩
    · obtain ⟨kvs, h1⟩ := h.found u y id a hu e; exact ⟨kvs, (Made.ret ht).2 h1⟩
  · intro u y kvs a hu e
    rcases set_cases ht hu with ⟨e1, e2⟩ | ⟨_, hu⟩
    · subst e2; exact h.fwd t th kvs a ht e
    · exact h.fwd u y kvs a hu e
  · intro u y id hu e
    rcases set_cases ht hu with ⟨e1, e2⟩ | ⟨_, hu⟩
    · subst e2; rw [e1]; exact h.creator t th id ht e
    · exact h.creator u y id hu e

theorem Made.next [DecidableEq V] {x x' : AssocConc.St V Nat} {t pick : Nat} {th : Thread V Nat} {o : Nat} {kvs : KVs V} (ht : x.threads[t]? = some th) (hn : AssocConc.next free x t pick th = some x')
    (h : Made x o kvs) : Made x' o kvs := by
  obtain ⟨p', e1, d⟩ := next_did hn
  obtain ⟨y, id, h1, h2, h3⟩ := h
  by_cases e : o = t
  · subst e; rw [ht] at h1; cases h1
    exact ⟨{ th with phase := p' }, id, by rw [e1]; exact set_self ht _, h2, d.keeps kvs _ _ h2 h3 nofun⟩
  · exact ⟨y, id, by rw [e1]; exact set_other ht _ e h1, h2, h3⟩

theorem Made.of_next [DecidableEq V] {x x' : AssocConc.St V Nat} {t pick : Nat} {th : Thread V Nat} {o : Nat} {kvs : KVs V} (ht : x.threads[t]? = some th) (hn : AssocConc.next free x t pick th = some x')
    (h : Made x' o kvs) : Made x o kvs ∨ (o = t ∧ waitsFor th = some kvs) := by
  obtain ⟨p', e1, d⟩ := next_did hn
  obtain ⟨y, id, h1, h2, h3⟩ := h
  rw [e1] at h1
  rcases set_cases ht h1 with ⟨e, e2⟩ | ⟨_, h1⟩
  · subst e2
    rcases d.created id h3 with h4 | ⟨⟨held, h4⟩, _⟩
    · exact Or.inl ⟨th, id, by rw [e]; exact ht, h2, h4⟩
    · refine Or.inr ⟨e, ?_⟩
      have h2 : th.call = .createOrFind kvs o := h2
      unfold waitsFor; rw [h4, h2]
  · exact Or.inl ⟨y, id, h1, h2, h3⟩

theorem made_new [DecidableEq V] {x x' : AssocConc.St V Nat} {t pick : Nat} {th : Thread V Nat} {kvs : KVs V} (hi : TInv x) (ht : x.threads[t]? = some th) (hn : AssocConc.next free x t pick th = some x')
    (h : waitsFor th = some kvs) : Made x' t kvs := by
  obtain ⟨p', e1, d⟩ := next_did hn
  unfold waitsFor at h
  split at h
  next held id k a e2 e3 =>
    cases h
    have := hi.named t th kvs a ht e3
    subst this
    exact ⟨{ th with phase := p' }, id, by rw [e1]; exact set_self ht _, e3, d.makes held id kvs a e2 e3⟩
  · cases h

theorem TInv.next [DecidableEq V] {x x' : AssocConc.St V Nat} {t pick : Nat} {th : Thread V Nat} (h : TInv x) (ht : x.threads[t]? = some th) (hn : AssocConc.next free x t pick th = some x') : TInv x' := by
  have hmade : ∀ {o : Nat} {kvs : KVs V}, Made x o kvs → Made x' o kvs := fun hm => hm.next ht hn
  have hnew := fun kvs => made_new (kvs := kvs) h ht hn
  obtain ⟨p', e1, d⟩ := next_did hn
  have hc := h.calls t th ht
  refine ⟨?_, ?_, (next_destroying hn hc.1).trans h.none, ?_, ?_, ?_, ?_⟩
  · intro u y kvs a hu e
    rw [e1] at hu
    rcases set_cases ht hu with ⟨e1, e2⟩ | ⟨_, hu⟩
    · subst e1; subst e2; exact h.named u th kvs a ht e
    · exact h.named u y kvs a hu e
  · intro u y hu
    rw [e1] at hu
    rcases set_cases ht hu with ⟨e1, e2⟩ | ⟨_, hu⟩
    · subst e2; exact hc
    · exact h.calls u y hu
  · intro id it hit
    rcases d.item id it hit with h1 | ⟨⟨held, h1, _⟩, h2⟩
    · exact hmade (h.items id it h1)
    · rcases h2 with h2 | h2
      · exact absurd h2 (hc.2 _ _)
      · have := h.named t th _ _ ht h2
        rw [this]
        exact hnew it.kvs (by unfold waitsFor; rw [h1, h2])
  · intro u y id a hu e
    rw [e1] at hu
    rcases set_cases ht hu with ⟨_, e2⟩ | ⟨_, hu⟩
    · subst e2
      rcases d.found id a e with h1 | ⟨it, h1, h2⟩
      · obtain ⟨kvs, h3⟩ := h.found t th id a ht h1; exact ⟨kvs, hmade h3⟩
      · have := h.items id it h1; rw [h2] at this; exact ⟨it.kvs, hmade this⟩
    · obtain ⟨kvs, h3⟩ := h.found u y id a hu e; exact ⟨kvs, hmade h3⟩
  · intro u y kvs a hu e
    rw [e1] at hu
    rcases set_cases ht hu with ⟨_, e2⟩ | ⟨_, hu⟩
    · subst e2
      have := h.fwd t th kvs a ht e
      exact d.fwd kvs a e h.none this.1 this.2
    · exact h.fwd u y kvs a hu e
  · intro u y id hu e
    rw [e1] at hu
    rcases set_cases ht hu with ⟨e3, e2⟩ | ⟨_, hu⟩
    · subst e2; rw [e3]
      rcases d.created id e with h1 | ⟨_, kvs, a, h1 | h1⟩
      · exact h.creator t th id ht h1
      · exact absurd h1 (hc.2 _ _)
      · have := h.named t th kvs a ht h1; rw [this] at h1; exact ⟨kvs, h1⟩
    · exact h.creator u y id hu e

/-! ### Clients and locker -/

/-- This lock object was released, and the locker knows. -/
def Freed (s : Sys V) (c o : Nat) : Prop := ∃ r ∈ s.rels, r.client = c ∧ r.obj = o ∧ r.freed = true

/-- Invariant of clients and locker. -/
structure Inv (s : Sys V) : Prop where
  trees : ∀ c, TInv (s.tree c)
  held : ∀ c o kvs, Made (s.tree c) o kvs → ¬ Freed s c o → s.held kvs = some (c, o)
  only : ∀ c o kvs, s.held kvs = some (c, o) → Made (s.tree c) o kvs ∧ ¬ Freed s c o
  rels : ∀ r ∈ s.rels, ∃ (th : Thread V Nat) (kvs : KVs V) (can : Nat → Bool), (s.tree r.client).threads[r.call]? = some th ∧ th.call = .delete kvs can ∧ Made (s.tree r.client) r.obj kvs
  once : ∀ (j k : Nat) (r q : Rel), s.rels[j]? = some r → s.rels[k]? = some q → r.client = q.client → r.obj = q.obj → j = k

theorem Inv.init [Inhabited V] : Inv (Sys.init : Sys V) := by
  refine ⟨fun _ => .init, ?_, nofun, nofun, nofun⟩
  rintro c o kvs ⟨th, id, h, _⟩; cases h

theorem tree_set {s : Sys V} {c : Nat} {x : AssocConc.St V Nat} (P : Nat → AssocConc.St V Nat → Prop) (h : ∀ d, P d (s.tree d)) (hx : P c x) : ∀ d, P d ((s.setTree c x).tree d) := by
  intro d
  show P d (if d = c then x else s.tree d)
  split
  next e => rw [e]; exact hx
  · exact h d

/-- A tree changes and nothing is made. -/
theorem Inv.setTree {s : Sys V} {c : Nat} {x : AssocConc.St V Nat} (h : Inv s) (hx : TInv x) (hm : ∀ o kvs, Made x o kvs ↔ Made (s.tree c) o kvs)
    (hk : ∀ (t : Nat) (th : Thread V Nat), (s.tree c).threads[t]? = some th → ∃ th', x.threads[t]? = some th' ∧ th'.call = th.call) : Inv (s.setTree c x) := by
  have hmade : ∀ d o kvs, Made ((s.setTree c x).tree d) o kvs ↔ Made (s.tree d) o kvs := by
    intro d o kvs
    show Made (if d = c then x else s.tree d) o kvs ↔ _
    split
    next e => subst e; exact hm o kvs
    · exact Iff.rfl
  refine ⟨tree_set (fun _ y => TInv y) h.trees hx, ?_, ?_, ?_, h.once⟩
  · intro d o kvs h1 h2; exact h.held d o kvs ((hmade d o kvs).1 h1) h2
  · intro d o kvs h1; have := h.only d o kvs h1; exact ⟨(hmade d o kvs).2 this.1, this.2⟩
  · intro r hr
    obtain ⟨th, kvs, can, h1, h2, h3⟩ := h.rels r hr
    by_cases e : r.client = c
    · obtain ⟨th', h4, h5⟩ := hk r.call th (by rw [← e]; exact h1)
      exact ⟨th', kvs, can, (by show (if r.client = c then x else s.tree r.client).threads[r.call]? = _; rw [if_pos e]; exact h4), h5.trans h2, (hmade _ _ _).2 h3⟩
    · exact ⟨th, kvs, can, (by show (if r.client = c then x else s.tree r.client).threads[r.call]? = _; rw [if_neg e]; exact h1), h2, (hmade _ _ _).2 h3⟩

theorem begin_keeps {x : AssocConc.St V Nat} {c : Call V Nat} (t : Nat) (th : Thread V Nat) (h : x.threads[t]? = some th) : ∃ th', (begin x c).threads[t]? = some th' ∧ th'.call = th.call :=
  ⟨th, append_old h, rfl⟩

theorem next_keeps [DecidableEq V] {x x' : AssocConc.St V Nat} {t pick : Nat} {th : Thread V Nat} (ht : x.threads[t]? = some th) (hn : AssocConc.next free x t pick th = some x') (u : Nat) (y : Thread V Nat)
    (h : x.threads[u]? = some y) : ∃ th', x'.threads[u]? = some th' ∧ th'.call = y.call := by
  obtain ⟨p', e1, _⟩ := next_did hn
  by_cases e : u = t
  · subst e; rw [ht] at h; cases h; exact ⟨{ th with phase := p' }, by rw [e1]; exact set_self ht _, rfl⟩
  · exact ⟨y, by rw [e1]; exact set_other ht _ e h, rfl⟩

theorem Inv.goStep [DecidableEq V] {s s' : Sys V} {c t pick : Nat} {th : Thread V Nat} (h : Inv s) (ht : (s.tree c).threads[t]? = some th) (hs : goStep s c t pick th = some s') : Inv s' := by
  unfold SharedLock.goStep at hs
  split at hs
  next kvs hw =>
    split at hs
    · cases hs
    next hh =>
      rw [Option.map_eq_some_iff] at hs
      obtain ⟨x, hn, e⟩ := hs
      subst e
      have hx := (h.trees c).next ht hn
      have hnew := made_new (h.trees c) ht hn hw
      have hmade : ∀ d o k, Made ((s.setTree c x).tree d) o k → Made (s.tree d) o k ∨ (d = c ∧ o = t ∧ k = kvs) := by
        intro d o k hm
        have hm' : Made (if d = c then x else s.tree d) o k := hm
        split at hm'
        next e =>
          subst e
          rcases hm'.of_next ht hn with h1 | ⟨h1, h2⟩
          · exact Or.inl h1
          · rw [hw] at h2; cases h2; exact Or.inr ⟨rfl, h1, rfl⟩
        · exact Or.inl hm'
      have hup : ∀ d o k, Made (s.tree d) o k → Made ((s.setTree c x).tree d) o k := by
        intro d o k hm
        show Made (if d = c then x else s.tree d) o k
        split
        next e => subst e; exact hm.next ht hn
        · exact hm
      have hold : ¬ Made (s.tree c) t kvs := by
        rintro ⟨y, id, h1, _, h3⟩
        rw [ht] at h1; cases h1
        unfold waitsFor at hw
        split at hw
        next e2 _ => rw [e2] at h3; cases h3
        · cases hw
      have hnf : ¬ Freed s c t := by
        rintro ⟨r, hr, e1, e2, _⟩
        obtain ⟨_, k, _, _, _, h4⟩ := h.rels r hr
        rw [e1, e2] at h4
        obtain ⟨y, id, h5, h6, h7⟩ := h4
        rw [ht] at h5; cases h5
        unfold waitsFor at hw
        split at hw
        next e2 _ => rw [e2] at h7; cases h7
        · cases hw
      refine ⟨tree_set (fun _ y => TInv y) h.trees hx, ?_, ?_, ?_, h.once⟩
      · intro d o k hm hf
        show (if k = kvs then some (c, t) else s.held k) = some (d, o)
        rcases hmade d o k hm with h1 | ⟨h1, h2, h3⟩
        · have := h.held d o k h1 hf
          split
          next e => rw [e, hh] at this; cases this
          · exact this
        · rw [if_pos h3, h1, h2]
      · intro d o k hk
        have hk : (if k = kvs then some (c, t) else s.held k) = some (d, o) := hk
        split at hk
        next e => cases hk; subst e; exact ⟨by show Made (if c = c then x else _) t k; rw [if_pos rfl]; exact hnew, hnf⟩
        · have := h.only d o k hk; exact ⟨hup d o k this.1, this.2⟩
      · intro r hr
        obtain ⟨y, k, can, h1, h2, h3⟩ := h.rels r hr
        by_cases e : r.client = c
        · obtain ⟨y', h4, h5⟩ := next_keeps ht hn r.call y (by rw [← e]; exact h1)
          exact ⟨y', k, can, (by show (if r.client = c then x else s.tree r.client).threads[r.call]? = _; rw [if_pos e]; exact h4), h5.trans h2, hup _ _ _ h3⟩
        · exact ⟨y, k, can, (by show (if r.client = c then x else s.tree r.client).threads[r.call]? = _; rw [if_neg e]; exact h1), h2, hup _ _ _ h3⟩
  next hw =>
    rw [Option.map_eq_some_iff] at hs
    obtain ⟨x, hn, e⟩ := hs
    subst e
    refine h.setTree ((h.trees c).next ht hn) (fun o kvs => ⟨fun hm => ?_, fun hm => hm.next ht hn⟩) (fun u y hu => next_keeps ht hn u y hu)
    rcases hm.of_next ht hn with h1 | ⟨_, h2⟩
    · exact h1
    · rw [hw] at h2; cases h2

theorem given_made {x : AssocConc.St V Nat} {o : Nat} (h : TInv x) (hg : given x o = true) : ∃ kvs, Made x o kvs := by
  unfold given at hg
  obtain ⟨t, _, hg⟩ := List.any_eq_true.1 hg
  split at hg
  next th ht =>
    have hg : gives t th = some o := of_decide_eq_true hg
    unfold gives at hg
    split at hg
    · split at hg
      next id kept e =>
        cases hg
        have e' : told th.phase = some (.created id) := by rw [e]; rfl
        obtain ⟨kvs, hk⟩ := h.creator _ th id ht e'
        exact ⟨kvs, th, id, ht, hk, e'⟩
      next id o' kept e => cases hg; exact h.found t th id o ht (by rw [e]; rfl)
      · cases hg
    · cases hg
  · cases hg

theorem Inv.step [DecidableEq V] {s s' : Sys V} {l : Label V} (h : Inv s) (hs : SharedLock.step s l = some s') : Inv s' := by
  cases l with
  | acquire c kvs cancel =>
    simp only [SharedLock.step] at hs
    split at hs
    · cases hs
      refine h.setTree ((h.trees c).begin ?_ ?_) (fun o k => ⟨Made.of_begin, Made.begin⟩) begin_keeps
      · intro k a e; unfold obtainCall at e; split at e <;> cases e; rfl
      · unfold obtainCall; split <;> exact ⟨rfl, nofun⟩
    · cases hs
  | go c t pick =>
    simp only [SharedLock.step] at hs
    split at hs
    next th ht => exact h.goStep ht hs
    · cases hs
  | ret c t =>
    simp only [SharedLock.step] at hs
    split at hs
    next th ht =>
      split at hs
      · cases hs
        refine h.setTree ((h.trees c).ret ht) (fun o k => Made.ret ht) (fun u y hu => ?_)
        by_cases e : u = t
        · subst e; rw [ht] at hu; cases hu; exact ⟨_, set_self ht _, rfl⟩
        · exact ⟨y, set_other ht _ e hu, rfl⟩
      · cases hs
    · cases hs
  | release c o =>
    simp only [SharedLock.step] at hs
    split at hs
    next hg =>
      split at hs
      next th ht =>
        cases hs
        obtain ⟨kvs, hm⟩ := given_made (h.trees c) hg.1
        obtain ⟨y, id, h1, h2, h3⟩ := hm
        rw [ht] at h1; cases h1
        have hi : Inv (s.setTree c (begin (s.tree c) (.delete th.call.kvs fun _ => true))) :=
          h.setTree ((h.trees c).begin nofun ⟨rfl, nofun⟩) (fun o k => ⟨Made.of_begin, Made.begin⟩) begin_keeps
        have hfr : ∀ d e, Freed (({ s with rels := s.rels ++ [(⟨c, o, (s.tree c).threads.length, false⟩ : Rel)] } : Sys V).setTree c (begin (s.tree c) (.delete th.call.kvs fun _ => true))) d e ↔ Freed s d e := by
          intro d e
          constructor
          · rintro ⟨r, hr, e1, e2, e3⟩
            rcases List.mem_append.1 hr with hr | hr
            · exact ⟨r, hr, e1, e2, e3⟩
            · rw [List.mem_singleton] at hr; subst hr; cases e3
          · rintro ⟨r, hr, e1⟩; exact ⟨r, List.mem_append_left _ hr, e1⟩
        refine ⟨hi.trees, fun d e k hm hf => hi.held d e k hm (fun hf' => hf ((hfr d e).2 hf')), fun d e k hk => ⟨(hi.only d e k hk).1, fun hf => (hi.only d e k hk).2 ((hfr d e).1 hf)⟩, ?_, ?_⟩
        · intro r hr
          rcases List.mem_append.1 hr with hr | hr
          · exact hi.rels r hr
          · rw [List.mem_singleton] at hr; subst hr
            refine ⟨⟨.delete th.call.kvs fun _ => true, AssocConc.start (.delete th.call.kvs fun _ => true), false⟩, kvs, fun _ => true, ?_, ?_, ?_⟩
            · show (if c = c then begin (s.tree c) _ else _).threads[(s.tree c).threads.length]? = _
              rw [if_pos rfl]; simp [SharedLock.begin]
            · rw [h2]; rfl
            · show Made (if c = c then begin (s.tree c) _ else _) o kvs
              rw [if_pos rfl]; exact Made.begin ⟨th, id, ht, h2, h3⟩
        · intro j k r q hj hk e1 e2
          have old : ∀ {r : Rel}, r ∈ s.rels → r.client = c → r.obj = o → False := fun hr a b => hg.2 _ hr ⟨a, b⟩
          have cases' : ∀ {j : Nat} {r : Rel}, (s.rels ++ [(⟨c, o, (s.tree c).threads.length, false⟩ : Rel)])[j]? = some r → (j = s.rels.length ∧ r.client = c ∧ r.obj = o) ∨ s.rels[j]? = some r := by
            intro j r hj
            rw [List.getElem?_append] at hj
            split at hj
            · exact Or.inr hj
            · rw [List.getElem?_singleton] at hj
              split at hj
              · cases hj; exact Or.inl ⟨by omega, rfl, rfl⟩
              · cases hj
          rcases cases' hj with ⟨a1, a2, a3⟩ | hj'
          · rcases cases' hk with ⟨b1, b2, b3⟩ | hk'
            · rw [a1, b1]
            · exact (old (List.mem_of_getElem? hk') (e1.symm.trans a2) (e2.symm.trans a3)).elim
          · rcases cases' hk with ⟨b1, b2, b3⟩ | hk'
            · exact (old (List.mem_of_getElem? hj') (e1.trans b2) (e2.trans b3)).elim
            · exact h.once j k r q hj' hk' e1 e2
      · cases hs
    · cases hs
  | free k =>
    simp only [SharedLock.step] at hs
    split at hs
    next r hr =>
      split at hs
      · cases hs
      next hf =>
        unfold freeStep at hs
        split at hs
        next th ht =>
          split at hs
          next ho =>
            obtain ⟨y, kvs, can, h1, h2, h3⟩ := h.rels r (List.mem_of_getElem? hr)
            rw [ht] at h1; cases h1
            have hkv : th.call.kvs = kvs := by rw [h2]; rfl
            have hset : ∀ q, q ∈ s.rels.set k { r with freed := true } → q = { r with freed := true } ∨ (q ∈ s.rels) := fun q hq => (List.mem_or_eq_of_mem_set hq).symm
            have hlen : k < s.rels.length := (List.getElem?_eq_some_iff.1 hr).1
            have hnow : ∀ (s1 : Sys V), s1.rels = s.rels.set k { r with freed := true } → Freed s1 r.client r.obj := by
              intro s1 e; exact ⟨{ r with freed := true }, by rw [e]; exact List.mem_set hlen _, rfl, rfl, rfl⟩
            have hold : ∀ (s1 : Sys V) d o, s1.rels = s.rels.set k { r with freed := true } → Freed s d o → Freed s1 d o := by
              rintro s1 d o e ⟨q, hq, e1, e2, e3⟩
              obtain ⟨j, hj⟩ := List.mem_iff_getElem?.1 hq
              have hjk : j ≠ k := by
                intro e'; subst e'; rw [hr] at hj; cases hj; exact hf e3
              exact ⟨q, by rw [e]; exact List.mem_iff_getElem?.2 ⟨j, by rw [List.getElem?_set_ne (Ne.symm hjk)]; exact hj⟩, e1, e2, e3⟩
            have hback : ∀ (s1 : Sys V) d o, s1.rels = s.rels.set k { r with freed := true } → Freed s1 d o → (d = r.client ∧ o = r.obj) ∨ Freed s d o := by
              rintro s1 d o e ⟨q, hq, e1, e2, e3⟩
              rw [e] at hq
              rcases hset q hq with e' | hq
              · subst e'; exact Or.inl ⟨e1.symm, e2.symm⟩
              · exact Or.inr ⟨q, hq, e1, e2, e3⟩
            have hrels : ∀ (q : Rel), q ∈ s.rels.set k { r with freed := true } → ∃ (th : Thread V Nat) (kvs : KVs V) (can : Nat → Bool), (s.tree q.client).threads[q.call]? = some th ∧ th.call = .delete kvs can ∧ Made (s.tree q.client) q.obj kvs := by
              intro q hq
              rcases hset q hq with e' | hq
              · subst e'; exact ⟨th, kvs, can, ht, h2, h3⟩
              · exact h.rels q hq
            have honce : ∀ (j m : Nat) (a b : Rel), (s.rels.set k { r with freed := true })[j]? = some a → (s.rels.set k { r with freed := true })[m]? = some b → a.client = b.client → a.obj = b.obj → j = m := by
              have get : ∀ (j : Nat) (a : Rel), (s.rels.set k { r with freed := true })[j]? = some a → ∃ a', s.rels[j]? = some a' ∧ a'.client = a.client ∧ a'.obj = a.obj := by
                intro j a ha
                by_cases e : j = k
                · subst e; rw [List.getElem?_set_self hlen] at ha; cases ha; exact ⟨r, hr, rfl, rfl⟩
                · rw [List.getElem?_set_ne (Ne.symm e)] at ha; exact ⟨a, ha, rfl, rfl⟩
              intro j m a b ha hb e1 e2
              obtain ⟨a', ha', c1, c2⟩ := get j a ha
              obtain ⟨b', hb', d1, d2⟩ := get m b hb
              exact h.once j m a' b' ha' hb' (by rw [c1, d1, e1]) (by rw [c2, d2, e2])
            split at hs
            next hh =>
              cases hs
              refine ⟨h.trees, ?_, ?_, hrels, honce⟩
              · intro d o k' hm hnf
                show (if k' = th.call.kvs then none else s.held k') = some (d, o)
                have hnf' : ¬ Freed s d o := fun hf => hnf (hold _ d o rfl hf)
                have hk := h.held d o k' hm hnf'
                split
                next e =>
                  rw [e, hh] at hk; cases hk
                  exact absurd (hnow _ rfl) hnf
                · exact hk
              · intro d o k' hk
                have hk : (if k' = th.call.kvs then none else s.held k') = some (d, o) := hk
                split at hk
                · cases hk
                next hne =>
                  have := h.only d o k' hk
                  refine ⟨this.1, fun hf => ?_⟩
                  rcases hback _ d o rfl hf with ⟨e1, e2⟩ | hf
                  · subst e1; subst e2
                    obtain ⟨_, _, m1, m2, _⟩ := this.1
                    obtain ⟨_, _, m3, m4, _⟩ := h3
                    rw [m1] at m3; cases m3; rw [m2] at m4; cases m4
                    exact hne hkv.symm
                  · exact this.2 hf
            next hh =>
              cases hs
              refine ⟨h.trees, ?_, ?_, hrels, honce⟩
              · intro d o k' hm hnf
                exact h.held d o k' hm (fun hf => hnf (hold _ d o rfl hf))
              · intro d o k' hk
                have := h.only d o k' hk
                refine ⟨this.1, fun hf => ?_⟩
                rcases hback _ d o rfl hf with ⟨e1, e2⟩ | hf
                · subst e1; subst e2
                  obtain ⟨_, _, m1, m2, _⟩ := this.1
                  obtain ⟨_, _, m3, m4, _⟩ := h3
                  rw [m1] at m3; cases m3; rw [m2] at m4; cases m4
                  exact hh (by rw [hkv]; exact hk)
                · exact this.2 hf
          · cases hs
        · cases hs
    · cases hs

theorem Inv.run [DecidableEq V] : ∀ {ls : List (Label V)} {s s' : Sys V}, Inv s → SharedLock.run s ls = some s' → Inv s'
  | [], s, s', h, e => by cases e; exact h
  | l :: ls, s, s', h, e => by
    simp only [SharedLock.run, Option.bind_eq_some_iff] at e
    obtain ⟨t, h1, h2⟩ := e
    exact (h.step h1).run h2

end Willow.SharedLock
