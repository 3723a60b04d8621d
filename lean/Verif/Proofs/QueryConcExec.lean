import Verif.Proofs.QueryConcOnce
import Verif.Proofs.AssocConcUse
/-! Concrete runs of queries: C95. -/
namespace Willow.QueryConc
open Willow.AssocConc (St Step Item Event Op exec Inv)
open Willow.Assoc (Query)
open Willow.BTree (LawfulKey)

variable {K A : Type} [LawfulKey K]

/-- The search can end: whatever was there all the time was visited. -/
def ends [DecidableEq K] (s : St K A) (q : Search K) (start : GoString × K → Option Nat) (seen : List (GoString × K)) : Bool :=
  (List.range s.next).all fun i => !q.covers (s.node i).pair || decide (start (s.node i).pair = none) || decide (s.index (s.node i).pair ≠ start (s.node i).pair) || seen.contains (s.node i).pair

theorem ends_all [DecidableEq K] {s : St K A} {q : Search K} {start : GoString × K → Option Nat} {seen : List (GoString × K)} (hi : Inv s) (h : ends s q start seen = true) :
    ∀ p, q.covers p = true → start p ≠ none → s.index p = start p → p ∈ seen := by
  intro p hc hn he
  cases hs : start p with
  | none => exact absurd hs hn
  | some i =>
    obtain ⟨h1, h2⟩ := hi.locks.idx p i (he.trans hs)
    unfold ends at h
    rw [List.all_eq_true] at h
    have := h i (List.mem_range.2 h1)
    rw [h2] at this
    simp only [Bool.or_eq_true, Bool.not_eq_true', decide_eq_true_eq] at this
    rcases this with ((h | h) | h) | h
    · rw [hc] at h; cases h
    · exact absurd h hn
    · exact absurd he h
    · simpa using h

/-- The walk through all items can end. -/
def walked (s : St K A) (start : Nat → Option (Item K A)) (got : List (Nat × Item K A)) : Bool :=
  s.used.all fun id => (start id).isNone || (s.item id).isNone || (got.map (·.1)).contains id

theorem walked_all {s : St K A} {start : Nat → Option (Item K A)} {got : List (Nat × Item K A)} (hi : Inv s) (h : walked s start got = true) :
    ∀ id, start id ≠ none → s.item id ≠ none → id ∈ got.map (·.1) := by
  intro id h1 h2
  cases hs : s.item id with
  | none => exact absurd hs h2
  | some it =>
    have hu := (hi.cont.itm id it hs).1
    unfold walked at h
    rw [List.all_eq_true] at h
    have := h id hu
    simp only [Bool.or_eq_true, Option.isNone_iff_eq_none] at this
    rcases this with (h | h) | h
    · exact absurd h h1
    · exact absurd h h2
    · exact List.contains_iff_mem.1 h

/-- The next step of query `m`; `pick`: the ID node to be read next, or the item to be visited next (none: the search, or the walk, ends). -/
def go [DecidableEq K] (blocks : (Nat → Option (Item K A)) → Nat → Nat → Bool) (s : Sys K A) (m : Nat) (pick : Option Nat) : Option (Sys K A × Option (Ev K A)) :=
  match s.js[m]? with
  | none => none
  | some x =>
    match x.phase with
    | .think (.search q k) => some (s.to m x (.search q s.tree.index [] [] k), none)
    | .think (.lookup id k) => (lookAt blocks s.tree id).map fun o => (s.to m x (.think (k o)), none)
    | .think (.ret (some g)) => some (s.to m x (.visit g []), none)
    | .think (.ret none) => some (s.to m x .panicked, some (.panic m))
    | .search q start seen ids k =>
      match pick with
      | none => if ends s.tree q start seen then some (s.to m x (.think (k ids)), none) else none
      | some i =>
        if q.covers (s.tree.node i).pair = true then
          (nextNode s.tree q start seen ids k (s.tree.node i).pair).map fun ph => (s.to m x ph, none)
        else none
    | .visit [] got => some (s.to m x (.done got), none)
    | .visit (id :: rest) got =>
      if id ∈ s.tree.destroying then some (s.to m x (.visit rest got), none)
      else if s.tree.busy blocks id then none
      else match s.tree.item id with
        | some it => some (s.to m x (afterReport x.more id it rest got), some (.report m id it))
        | none => some (s.to m x (.visit rest got), none)
    | .scan start got =>
      match pick with
      | none => if walked s.tree start got then some (s.to m x (.done got), none) else none
      | some id =>
        if id ∈ got.map (·.1) then none
        else if s.tree.busy blocks id then none
        else match s.tree.item id with
          | some it => some (s.to m x (afterScan x.more start id it got), some (.report m id it))
          | none => none
    | .done got => if x.returned then none else some ({ s with js := s.js.set m { x with returned := true } }, some (.ret m got))
    | .panicked => none

theorem go_step [DecidableEq K] {blocks : (Nat → Option (Item K A)) → Nat → Nat → Bool} {s s' : Sys K A} {m : Nat} {pick : Option Nat} {e : Option (Ev K A)} (hi : Inv s.tree)
    (h : go blocks s m pick = some (s', e)) : QStep blocks s e s' := by
  unfold go at h
  split at h
  · cases h
  next x hm =>
    split at h
    next q k hp => cases h; exact .search m x hm hp
    next id k hp =>
      rw [Option.map_eq_some_iff] at h
      obtain ⟨o, h1, h2⟩ := h
      cases h2; exact .lookup m x hm hp h1
    next g hp => cases h; exact .eval m x _ hm hp (List.Perm.refl _)
    next hp => cases h; exact .panic m x hm hp
    next q start seen ids k hp =>
      split at h
      · split at h
        next he => cases h; exact .found m x hm hp (ends_all hi he)
        · cases h
      next i =>
        split at h
        next hc =>
          rw [Option.map_eq_some_iff] at h
          obtain ⟨ph, h1, h2⟩ := h
          cases h2; exact .node m x _ hm hp hc h1
        · cases h
    next got hp => cases h; exact .finish m x hm hp
    next id rest got hp =>
      split at h
      next hd => cases h; exact .miss m x hm hp (Or.inl hd)
      next hd =>
        split at h
        · cases h
        next hb =>
          have hb' : s.tree.busy blocks id = false := by simpa using hb
          split at h
          next it hit => cases h; exact .report m x hm hp hd hb' hit
          next hit => cases h; exact .miss m x hm hp (Or.inr ⟨hb', hit⟩)
    next start got hp =>
      split at h
      · split at h
        next he => cases h; exact .scanned m x hm hp (walked_all hi he)
        · cases h
      next id =>
        split at h
        · cases h
        next hg =>
          split at h
          · cases h
          next hb =>
            split at h
            next it hit => cases h; exact .scan m x id hm hp hg (by simpa using hb) hit
            · cases h
    next got hp =>
      split at h
      · cases h
      next hr => cases h; exact .ret m x hm hp (by simpa using hr)
    · cases h

theorem go_others [DecidableEq K] {blocks : (Nat → Option (Item K A)) → Nat → Nat → Bool} {s s' : Sys K A} {m : Nat} {pick : Option Nat} {e : Option (Ev K A)}
    (h : go blocks s m pick = some (s', e)) : others e.toList = [] := by
  unfold go at h
  split at h
  · cases h
  next x hm =>
    split at h
    next q k hp => cases h; rfl
    next id k hp =>
      rw [Option.map_eq_some_iff] at h
      obtain ⟨o, h1, h2⟩ := h
      cases h2; rfl
    next g hp => cases h; rfl
    next hp => cases h; rfl
    next q start seen ids k hp =>
      split at h
      · split at h
        · cases h; rfl
        · cases h
      next i =>
        split at h
        · rw [Option.map_eq_some_iff] at h
          obtain ⟨ph, h1, h2⟩ := h
          cases h2; rfl
        · cases h
    next got hp => cases h; rfl
    next id rest got hp =>
      split at h
      · cases h; rfl
      · split at h
        · cases h
        · split at h <;> cases h <;> rfl
    next start got hp =>
      split at h
      · split at h
        · cases h; rfl
        · cases h
      next id =>
        split at h
        · cases h
        · split at h
          · cases h
          · split at h <;> cases h
            rfl
    next got hp =>
      split at h
      · cases h
      · cases h; rfl
    · cases h

/-- A script for calls and queries. -/
inductive QOp (K A : Type) where
  | other (op : Op K A)
  | call (q : Query K) (more : A → Bool)
  | go (m : Nat) (pick : Option Nat)

/-- One step of a script. -/
def qop [DecidableEq K] (blocks : (Nat → Option (Item K A)) → Nat → Nat → Bool) (s : Sys K A) : QOp K A → Option (Sys K A × Option (Ev K A))
  | .other (.call c) => some ({ s with tree := { s.tree with threads := s.tree.threads ++ [⟨c, AssocConc.start c, false⟩] } }, some (.other (.call c)))
  | .other (.go t pick) => s.tree.threads[t]?.bind fun th => (AssocConc.next blocks s.tree t pick th).map fun s' => ({ s with tree := s' }, none)
  | .other (.ret t) => s.tree.threads[t]?.bind fun th => match th.returned, th.phase with
    | false, .done r _ => some ({ s with tree := { s.tree with threads := s.tree.threads.set t { th with returned := true } } }, some (.other (.ret t r)))
    | _, _ => none
  | .call q more => some ({ s with js := s.js ++ [⟨q, more, start s.tree q, false⟩] }, some (.call q more))
  | .go m pick => go blocks s m pick

/-- The calls in a step of a script can be made, and are of the kind this tree is used with. -/
def QOp.Fine : QOp K A → Prop
  | .other (.call c) => c.ok ∧ c.creates = true
  | _ => True

theorem qop_step [DecidableEq K] {blocks : (Nat → Option (Item K A)) → Nat → Nat → Bool} {s s' : Sys K A} {o : QOp K A} {e : Option (Ev K A)} (hi : Inv s.tree) (ho : o.Fine)
    (h : qop blocks s o = some (s', e)) : QStep blocks s e s' ∧ ∀ c ∈ others e.toList, c.creates = true := by
  cases o with
  | other op =>
    cases op with
    | call c =>
      simp only [qop, Option.some.injEq, Prod.mk.injEq] at h
      obtain ⟨rfl, rfl⟩ := h
      exact ⟨.other (.call c ho.1), by simp [others]; exact ho.2⟩
    | go t pick =>
      simp only [qop, Option.bind_eq_some_iff, Option.map_eq_some_iff] at h
      obtain ⟨th, h1, s1, h2, h3⟩ := h
      cases h3
      exact ⟨.other (e := none) (.go t pick th h1 h2), by simp [others]⟩
    | ret t =>
      simp only [qop, Option.bind_eq_some_iff] at h
      obtain ⟨th, h1, h2⟩ := h
      split at h2
      next r kept e1 e2 =>
        cases h2
        exact ⟨.other (.ret t th r kept h1 e1 e2), by simp [others]⟩
      · cases h2
  | call q more =>
    simp only [qop, Option.some.injEq, Prod.mk.injEq] at h
    obtain ⟨rfl, rfl⟩ := h
    exact ⟨.call q more, by simp [others]⟩
  | go m pick =>
    have hs := go_step hi h
    refine ⟨hs, ?_⟩
    rw [go_others h]
    simp

/-- Run a script; `ok` has to hold after every step. -/
def qexec [DecidableEq K] (blocks : (Nat → Option (Item K A)) → Nat → Nat → Bool) (ok : Sys K A → Bool) : List (QOp K A) → Sys K A → Option (Sys K A × List (Ev K A))
  | [], s => some (s, [])
  | o :: l, s => (qop blocks s o).bind fun x => if ok x.1 then (qexec blocks ok l x.1).map fun y => (y.1, x.2.toList ++ y.2) else none

theorem qexec_weaken [DecidableEq K] {blocks : (Nat → Option (Item K A)) → Nat → Nat → Bool} {ok : Sys K A → Bool} : ∀ {l : List (QOp K A)} {s : Sys K A} {r : Sys K A × List (Ev K A)},
    qexec blocks ok l s = some r → qexec blocks (fun _ => true) l s = some r
  | [], s, r, h => h
  | o :: l, s, r, h => by
    simp only [qexec, Option.bind_eq_some_iff] at h ⊢
    obtain ⟨x, h1, h2⟩ := h
    refine ⟨x, h1, ?_⟩
    split at h2
    · rw [Option.map_eq_some_iff] at h2
      obtain ⟨y, h3, h4⟩ := h2
      simp [qexec_weaken h3, h4]
    · cases h2

/-- A script that works is a run. -/
theorem qexec_run [DecidableEq K] {blocks : (Nat → Option (Item K A)) → Nat → Nat → Bool} {ok : Sys K A → Bool} {P : Sys K A → Prop} (hP : ∀ s, ok s = true → P s) {s0 : Sys K A} (h0 : Inv s0.tree) :
    ∀ {l : List (QOp K A)} {s s' : Sys K A} {evs evs' : List (Ev K A)}, qexec blocks ok l s = some (s', evs') → (∀ o ∈ l, o.Fine) → QRun blocks P s0 evs s →
      (∀ c ∈ others evs, c.creates = true) → QRun blocks P s0 (evs ++ evs') s'
  | [], s, s', evs, evs', h, hf, hr, hc => by
    simp only [qexec, Option.some.injEq, Prod.mk.injEq] at h
    obtain ⟨e1, e2⟩ := h; subst e1; subst e2; simpa using hr
  | o :: l, s, s', evs, evs', h, hf, hr, hc => by
    simp only [qexec, Option.bind_eq_some_iff] at h
    obtain ⟨⟨s1, e⟩, h1, h2⟩ := h
    split at h2
    next hok =>
      rw [Option.map_eq_some_iff] at h2
      obtain ⟨y, h3, h4⟩ := h2
      cases h4
      obtain ⟨hs, hce⟩ := qop_step (inv_run h0 hr hc) (hf o (by simp)) h1
      have := qexec_run hP h0 h3 (fun o h => hf o (by simp [h])) (.step hr hs (hP _ hok)) (fun c h => by
        rw [others_append] at h
        rcases List.mem_append.1 h with h | h
        · exact hc c h
        · exact hce c h)
      simpa using this
    · cases h2

end Willow.QueryConc
