import Verif.Proofs.SharedLockRet
/-! Lock clients shared by goroutines: nothing goes on for ever, and what it means that nothing can go on. -/
namespace Willow.SharedLock
open Willow.AssocConc (KVs Call Phase Thread Res)

variable {V : Type}

/-- A call of the user. -/
def Label.asked : Label V → Bool
  | .acquire _ _ _ | .release _ _ => true
  | _ => false

/-- Without new calls nothing can happen. -/
def Stuck [DecidableEq V] (s : Sys V) : Prop := ∀ l s', step s l = some s' → l.asked = true

/-- Going on for ever without new calls. -/
def Forever [DecidableEq V] (f : Nat → Sys V) : Prop := ∀ i, ∃ l, step (f i) l = some (f (i + 1)) ∧ l.asked = false

/-! ### Nothing goes on for ever -/

/-- The sum over the clients below `n`. -/
def total (g : AssocConc.St V Nat → Nat) (s : Sys V) : Nat → Nat
  | 0 => 0
  | n + 1 => total g s n + g (s.tree n)

theorem total_other (g : AssocConc.St V Nat → Nat) {s : Sys V} {c : Nat} {x : AssocConc.St V Nat} : ∀ {n : Nat}, n ≤ c → total g (s.setTree c x) n = total g s n
  | 0, _ => rfl
  | n + 1, h => by
    show total g (s.setTree c x) n + g (if n = c then x else s.tree n) = total g s n + g (s.tree n)
    rw [total_other g (by omega), if_neg (by omega)]

theorem total_set (g : AssocConc.St V Nat → Nat) {s : Sys V} {c : Nat} {x : AssocConc.St V Nat} : ∀ {n : Nat}, c < n → total g (s.setTree c x) n + g (s.tree c) = total g s n + g x
  | 0, h => by omega
  | n + 1, h => by
    show total g (s.setTree c x) n + g (if n = c then x else s.tree n) + g (s.tree c) = total g s n + g (s.tree n) + g x
    by_cases e : n = c
    · subst e; rw [total_other g (Nat.le_refl _), if_pos rfl]; omega
    · rw [if_neg e]
      have := total_set g (s := s) (x := x) (show c < n by omega)
      omega

theorem total_congr (g : AssocConc.St V Nat → Nat) {s s' : Sys V} (h : s'.tree = s.tree) : ∀ n : Nat, total g s' n = total g s n
  | 0 => rfl
  | n + 1 => by show total g s' n + g (s'.tree n) = _; rw [total_congr g h n, h]; rfl

/-- Releases that are not over. -/
def openRels (s : Sys V) : Nat := (s.rels.map fun r => if r.freed then 0 else 1).sum

/-- The clients from `n` on were not used. -/
def Unused (s : Sys V) (n : Nat) : Prop := ∀ c, n ≤ c → (s.tree c).threads = []

/-- What one step without a call does: to one tree, or to one Release. -/
theorem step_inner [DecidableEq V] {s s' : Sys V} {l : Label V} (ha : l.asked = false) (hs : step s l = some s') :
    (∃ c x e, (s.tree c).threads ≠ [] ∧ AssocConc.Step free (s.tree c) e x ∧ (∀ k, e ≠ some (.call k)) ∧ s'.tree = (s.setTree c x).tree ∧ s'.rels = s.rels) ∨
      (∃ (k : Nat) (r : Rel), s.rels[k]? = some r ∧ r.freed = false ∧ s'.tree = s.tree ∧ s'.rels = s.rels.set k { r with freed := true }) := by
  have nonempty : ∀ {l : List (Thread V Nat)} {t : Nat} {th : Thread V Nat}, l[t]? = some th → l ≠ [] := by
    intro l t th h e; subst e; simp at h
  cases l with
  | acquire c kvs b => cases ha
  | release c o => cases ha
  | go c t pick =>
    simp only [step] at hs
    split at hs
    next th ht =>
      left
      unfold goStep at hs
      split at hs
      · split at hs
        · cases hs
        · rw [Option.map_eq_some_iff] at hs
          obtain ⟨x, hn, e⟩ := hs
          exact ⟨c, x, none, nonempty ht, .go t pick th ht hn, nofun, by rw [← e]; rfl, by rw [← e]; rfl⟩
      · rw [Option.map_eq_some_iff] at hs
        obtain ⟨x, hn, e⟩ := hs
        exact ⟨c, x, none, nonempty ht, .go t pick th ht hn, nofun, by rw [← e], by rw [← e]; rfl⟩
    · cases hs
  | ret c t =>
    simp only [step] at hs
    split at hs
    next th ht =>
      split at hs
      next ho =>
        simp only [Bool.and_eq_true, Bool.not_eq_true'] at ho
        cases hs
        left
        unfold over at ho
        cases e : th.phase with
        | done r kept => exact ⟨c, _, some (.ret t r), nonempty ht, .ret t th r kept ht ho.2 e, nofun, by rw [← e], rfl⟩
        | _ => rw [e] at ho; cases ho.1
      · cases hs
    · cases hs
  | free k =>
    simp only [step] at hs
    split at hs
    next r hr =>
      split at hs
      · cases hs
      next hf =>
        right
        unfold freeStep at hs
        split at hs
        · split at hs
          · simp only at hs
            split at hs <;> cases hs <;> exact ⟨k, r, hr, by simpa using hf, rfl, rfl⟩
          · cases hs
        · cases hs
    · cases hs

theorem Unused.step [DecidableEq V] {s s' : Sys V} {l : Label V} {n : Nat} (h : Unused s n) (ha : l.asked = false) (hs : SharedLock.step s l = some s') : Unused s' n := by
  rcases step_inner ha hs with ⟨c, x, e, h1, h2, h3, h4, h5⟩ | ⟨k, r, h1, h2, h3, h4⟩
  · intro d hd
    rw [h4]
    show (if d = c then x else s.tree d).threads = []
    split
    next e => subst e; exact absurd (h d hd) h1
    · exact h d hd
  · intro d hd; rw [h3]; exact h d hd

/-- Only finitely many clients were used. -/
theorem unused_run [DecidableEq V] : ∀ {ls : List (Label V)} {s s' : Sys V} {n : Nat}, Unused s n → run s ls = some s' → ∃ n', Unused s' n'
  | [], s, s', n, h, e => by cases e; exact ⟨n, h⟩
  | l :: ls, s, s', n, h, e => by
    simp only [run, Option.bind_eq_some_iff] at e
    obtain ⟨t, h1, h2⟩ := e
    have set : ∀ (c : Nat) (x : AssocConc.St V Nat) (s1 : Sys V), s1.tree = (s.setTree c x).tree → Unused s1 (max n (c + 1)) := by
      intro c x s1 e d hd
      rw [e]
      show (if d = c then x else s.tree d).threads = []
      rw [if_neg (by omega)]
      exact h d (by omega)
    by_cases ha : l.asked = false
    · exact unused_run (h.step ha h1) h2
    · cases l with
      | acquire c kvs b =>
        simp only [step] at h1
        split at h1 <;> cases h1
        exact unused_run (set c _ _ rfl) h2
      | release c o =>
        simp only [step] at h1
        split at h1
        · split at h1 <;> cases h1
          refine unused_run (n := max n (c + 1)) ?_ h2
          exact set c _ _ rfl
        · cases h1
      | _ => exact absurd rfl ha

/-- How much is left to do. -/
def left (s : Sys V) (n : Nat) : Nat × Nat × Nat := (total AssocConc.St.stage s n, total AssocConc.St.tail s n, total AssocConc.St.open s n + openRels s)

theorem left_less [DecidableEq V] {s s' : Sys V} {l : Label V} {n : Nat} (h : Unused s n) (ha : l.asked = false) (hs : step s l = some s') :
    (Prod.lex Nat.lt_wfRel (Prod.lex Nat.lt_wfRel Nat.lt_wfRel)).rel (left s' n) (left s n) := by
  rcases step_inner ha hs with ⟨c, x, e, h1, h2, h3, h4, h5⟩ | ⟨k, r, h1, h2, h3, h4⟩
  · have hc : c < n := Nat.lt_of_not_le fun hle => h1 (h c hle)
    have k1 := total_set AssocConc.St.stage (s := s) (x := x) hc
    have k2 := total_set AssocConc.St.tail (s := s) (x := x) hc
    have k3 := total_set AssocConc.St.open (s := s) (x := x) hc
    have k4 : openRels s' = openRels s := by unfold openRels; rw [h5]
    rw [← total_congr _ (h4 : s'.tree = _)] at k1 k2 k3
    have key : (Prod.lex Nat.lt_wfRel (Prod.lex Nat.lt_wfRel Nat.lt_wfRel)).rel (x.stage, x.tail, x.open) ((s.tree c).stage, (s.tree c).tail, (s.tree c).open) := AssocConc.step_less h2 h3
    have hlex : x.stage < (s.tree c).stage ∨ (x.stage = (s.tree c).stage ∧ (x.tail < (s.tree c).tail ∨ (x.tail = (s.tree c).tail ∧ x.open < (s.tree c).open))) := by
      rcases Prod.lex_def.1 key with h | ⟨h, h'⟩
      · exact Or.inl h
      · rcases Prod.lex_def.1 h' with h'' | ⟨h'', h3⟩
        · exact Or.inr ⟨h, Or.inl h''⟩
        · exact Or.inr ⟨h, Or.inr ⟨h'', h3⟩⟩
    unfold left
    refine Prod.lex_def.2 ?_
    simp only
    rcases hlex with hl | ⟨hl, hl' | ⟨hl', hl''⟩⟩
    · left; show _ < _; omega
    · right
      refine ⟨by omega, Prod.lex_def.2 ?_⟩
      left; show _ < _; simp only; omega
    · right
      refine ⟨by omega, Prod.lex_def.2 ?_⟩
      right
      refine ⟨by simp only; omega, ?_⟩
      show _ < _; simp only; omega
  · unfold left
    rw [total_congr _ h3, total_congr _ h3, total_congr _ h3]
    refine Prod.lex_def.2 (Or.inr ⟨rfl, Prod.lex_def.2 (Or.inr ⟨rfl, ?_⟩)⟩)
    have := AssocConc.sum_set (fun r : Rel => if r.freed then 0 else 1) h1 { r with freed := true }
    rw [← h4] at this
    simp only [h2, if_true, Bool.false_eq_true, if_false] at this
    show _ < _
    unfold openRels
    simp only
    omega

theorem no_forever [DecidableEq V] {f : Nat → Sys V} {n : Nat} (h : Unused (f 0) n) (hf : Forever f) : False := by
  have wf := (Prod.lex Nat.lt_wfRel (Prod.lex Nat.lt_wfRel Nat.lt_wfRel)).wf
  have hu : ∀ i, Unused (f i) n := by
    intro i
    induction i with
    | zero => exact h
    | succ i ih => obtain ⟨l, h1, h2⟩ := hf i; exact ih.step h2 h1
  have : ∀ x, ∀ i, left (f i) n = x → False := by
    intro x
    induction x using wf.induction with
    | _ x ih =>
      intro i e
      obtain ⟨l, h1, h2⟩ := hf i
      exact ih (left (f (i + 1)) n) (by rw [← e]; exact left_less (hu i) h2 h1) (i + 1) rfl
  exact this _ 0 rfl

/-! ### When nothing can go on -/

theorem stuck_waits [DecidableEq V] [Inhabited V] {s : Sys V} {c t : Nat} {th : Thread V Nat} (hp : Proj true s) (hs : Stuck s) (ht : (s.tree c).threads[t]? = some th) (hr : th.returned = false) :
    over th = false ∧ ∃ (u : Nat) (x : Thread V Nat) (kvs : KVs V) (d o : Nat), (s.tree c).threads[u]? = some x ∧ waitsFor x = some kvs ∧ s.held kvs = some (d, o) := by
  have ho : over th = false := by
    cases e : over th with
    | false => rfl
    | true =>
      have : step s (.ret c t) = some (s.setTree c { s.tree c with threads := (s.tree c).threads.set t { th with returned := true } }) := by
        simp only [step]; rw [ht]; simp [e, hr]
      cases hs _ _ this
  refine ⟨ho, Classical.byContradiction fun hn => ?_⟩
  obtain ⟨u, pick, s', h⟩ := client_progress hp ht ho (fun u x kvs hu hw => by
    cases e : s.held kvs with
    | none => rfl
    | some q => exact absurd ⟨u, x, kvs, q.1, q.2, hu, hw, e⟩ hn)
  cases hs _ _ h

theorem stuck_rel [DecidableEq V] {s : Sys V} {r : Rel} (hi : Inv s) (hs : Stuck s) (hr : r ∈ s.rels) (hf : r.freed = false) : ∃ th, (s.tree r.client).threads[r.call]? = some th ∧ over th = false := by
  obtain ⟨th, kvs, can, h1, h2, h3⟩ := hi.rels r hr
  refine ⟨th, h1, ?_⟩
  cases e : over th with
  | false => rfl
  | true =>
    have hret : th.returned = true := by
      cases er : th.returned with
      | true => rfl
      | false =>
        have : step s (.ret r.client r.call) = some (s.setTree r.client { s.tree r.client with threads := (s.tree r.client).threads.set r.call { th with returned := true } }) := by
          simp only [step]; rw [h1]; simp [e, er]
        cases hs _ _ this
    obtain ⟨k, hk⟩ := List.mem_iff_getElem?.1 hr
    have : ∃ s', step s (.free k) = some s' := by
      have : step s (.free k) = freeStep s k r := by simp only [step]; rw [hk]; simp [hf]
      rw [this]
      unfold freeStep
      rw [h1]
      simp only [e, hret, Bool.and_self, if_true]
      by_cases hh : s.held th.call.kvs = some (r.client, r.obj)
      · exact ⟨_, if_pos hh⟩
      · exact ⟨_, if_neg hh⟩
    obtain ⟨s', h⟩ := this
    cases hs _ _ h

/-! ### Examples of such states -/

/-- The client that does something. -/
def Label.client : Label V → Nat
  | .acquire c _ _ | .go c _ _ | .ret c _ | .release c _ => c
  | .free _ => 0

theorem tree_other [DecidableEq V] {s s' : Sys V} {l : Label V} {c : Nat} (hc : c ≠ l.client) (hs : step s l = some s') : s'.tree c = s.tree c := by
  have set : ∀ (d : Nat) (x : AssocConc.St V Nat) (s1 : Sys V), s1.tree = (s.setTree d x).tree → c ≠ d → s1.tree c = s.tree c := by
    intro d x s1 e hd; rw [e]; exact if_neg hd
  by_cases ha : l.asked = false
  · cases l with
    | free k =>
      rcases step_inner ha hs with ⟨d, x, e, h1, h2, h3, h4, h5⟩ | ⟨k, r, h1, h2, h3, h4⟩
      · simp only [step] at hs
        split at hs
        · split at hs
          · cases hs
          · unfold freeStep at hs
            split at hs
            · split at hs
              · simp only at hs
                split at hs <;> cases hs <;> rfl
              · cases hs
            · cases hs
        · cases hs
      · rw [h3]
    | go d t pick =>
      simp only [step] at hs
      split at hs
      · unfold goStep at hs
        split at hs
        · split at hs
          · cases hs
          · rw [Option.map_eq_some_iff] at hs; obtain ⟨x, hn, e⟩ := hs; exact set d x _ (by rw [← e]; rfl) hc
        · rw [Option.map_eq_some_iff] at hs; obtain ⟨x, hn, e⟩ := hs; exact set d x _ (by rw [← e]) hc
      · cases hs
    | ret d t =>
      simp only [step] at hs
      split at hs
      · split at hs <;> cases hs
        exact set d _ _ rfl hc
      · cases hs
    | _ => cases ha
  · cases l with
    | acquire d kvs b =>
      simp only [step] at hs
      split at hs <;> cases hs
      exact set d _ _ rfl hc
    | release d o =>
      simp only [step] at hs
      split at hs
      · split at hs <;> cases hs
        exact if_neg hc
      · cases hs
    | _ => exact absurd rfl ha

theorem tree_unused [DecidableEq V] {c : Nat} : ∀ {ls : List (Label V)} {s s' : Sys V}, (∀ l ∈ ls, c ≠ l.client) → run s ls = some s' → s'.tree c = s.tree c
  | [], s, s', _, e => by cases e; rfl
  | l :: ls, s, s', h, e => by
    simp only [run, Option.bind_eq_some_iff] at e
    obtain ⟨t, h1, h2⟩ := e
    rw [tree_unused (fun m hm => h m (List.mem_cons_of_mem _ hm)) h2, tree_other (h l (List.mem_cons_self ..)) h1]

/-- Nothing can happen if every call has returned or waits for a lock that is not free, and all Releases are over. -/
theorem stuck_of [DecidableEq V] {s : Sys V} (h : ∀ c (t : Nat) (th : Thread V Nat), (s.tree c).threads[t]? = some th → (th.returned = true ∧ over th = true) ∨ ∃ k, waitsFor th = some k ∧ s.held k ≠ none)
    (hr : ∀ r ∈ s.rels, r.freed = true) : Stuck s := by
  intro l s' hs
  cases l with
  | acquire c kvs b => rfl
  | release c o => rfl
  | go c t pick =>
    simp only [step] at hs
    split at hs
    next th ht =>
      unfold goStep at hs
      rcases h c t th ht with ⟨_, h2⟩ | ⟨k, h1, h2⟩
      · have : AssocConc.next free (s.tree c) t pick th = none := by
          unfold over at h2
          unfold AssocConc.next
          cases e : th.phase with
          | done r kept => rfl
          | _ => rw [e] at h2; cases h2
        rw [this] at hs
        split at hs
        · split at hs <;> cases hs
        · cases hs
      · rw [h1] at hs
        simp only at hs
        split at hs
        · cases hs
        next e => exact absurd e h2
    · cases hs
  | ret c t =>
    simp only [step] at hs
    split at hs
    next th ht =>
      split at hs
      next ho =>
        simp only [Bool.and_eq_true, Bool.not_eq_true'] at ho
        rcases h c t th ht with ⟨h1, _⟩ | ⟨k, h1, h2⟩
        · rw [h1] at ho; cases ho.2
        · rw [waitsFor_over h1] at ho; cases ho.1
      · cases hs
    · cases hs
  | free k =>
    simp only [step] at hs
    split at hs
    next r hr' =>
      rw [hr r (List.mem_of_getElem? hr')] at hs
      cases hs
    · cases hs

end Willow.SharedLock
