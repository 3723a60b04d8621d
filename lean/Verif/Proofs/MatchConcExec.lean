import Verif.Proofs.MatchConcQuiet
import Verif.Proofs.MatchConcOnce
import Verif.Proofs.AssocConcUse
/-! Concrete runs of matches: C90. -/
namespace Willow.MatchConc
open Willow.AssocConc (St Step Item Event Op exec)

variable {V A : Type}

/-- The next step of match `m` (the maps and sets ranged over in the order of the model); the event. -/
def go [DecidableEq V] (blocks : (Nat → Option (Item V A)) → Nat → Nat → Bool) (s : Sys V A) (m : Nat) : Option (Sys V A × Option (Ev V A)) :=
  match s.ms[m]? with
  | none => none
  | some x =>
    match x.phase with
    | .read (p :: rest) found => (nextRead s.tree found p rest).map fun ph => (s.to m x ph, none)
    | .read [] found => some (s.to m x (.visit (targets (found.map (·.1)) (Assoc.groupIds found)) []), none)
    | .visit [] got => some (s.to m x (.done got), none)
    | .visit (id :: rest) got =>
      if id ∈ s.tree.destroying then some (s.to m x (afterMiss rest got), some (.miss m id))
      else if s.tree.busy blocks id then none
      else match s.tree.item id with
        | some it => some (s.to m x (afterReport x.more id it rest got), some (.report m id it))
        | none => some (s.to m x (afterMiss rest got), some (.miss m id))
    | .done got => if x.returned then none else some ({ s with ms := s.ms.set m { x with returned := true } }, some (.ret m got))

theorem go_step [DecidableEq V] {blocks : (Nat → Option (Item V A)) → Nat → Nat → Bool} {s s' : Sys V A} {m : Nat} {e : Option (Ev V A)} (h : go blocks s m = some (s', e)) :
    MStep blocks s e s' := by
  unfold go at h
  split at h
  · cases h
  next x hm =>
    split at h
    next p rest found hp =>
      rw [Option.map_eq_some_iff] at h
      obtain ⟨ph, h1, h2⟩ := h
      cases h2; exact .read m x hm hp h1
    next found hp => cases h; exact .group m x _ _ hm hp (List.Perm.refl _) (fun g => List.Perm.refl _)
    next got hp => cases h; exact .finish m x hm hp
    next id rest got hp =>
      split at h
      next hd => cases h; exact .miss m x hm hp (Or.inl hd)
      next hd =>
        split at h
        · cases h
        next hb =>
          have hb' : s.tree.busy blocks id = false := by simpa using hb
          split at h
          next it hit => cases h; exact .report m x hm hp hd hb' hit
          next hit => cases h; exact .miss m x hm hp (Or.inr ⟨hb', hit⟩)
    next got hp =>
      split at h
      · cases h
      next hr => cases h; exact .ret m x hm hp (by simpa using hr)

/-- A script for calls and matches. -/
inductive MOp (V A : Type) where
  | others (ops : List (Op V A))
  | call (q : Query V) (more : A → Bool)
  | go (m : Nat)

/-- Run a script. -/
def mexec [DecidableEq V] (blocks : (Nat → Option (Item V A)) → Nat → Nat → Bool) : List (MOp V A) → Sys V A → Option (Sys V A × List (Ev V A))
  | [], s => some (s, [])
  | .others ops :: l, s => (exec blocks ops s.tree).bind fun x => (mexec blocks l { s with tree := x.1 }).map fun y => (y.1, x.2.map .other ++ y.2)
  | .call q more :: l, s => (mexec blocks l { s with ms := s.ms ++ [⟨q, more, .read (pairs q) [], false⟩] }).map fun y => (y.1, .call q more :: y.2)
  | .go m :: l, s => (go blocks s m).bind fun x => (mexec blocks l x.1).map fun y => (y.1, x.2.toList ++ y.2)

/-- The states between the steps of a script of calls. -/
def through [DecidableEq V] (blocks : (Nat → Option (Item V A)) → Nat → Nat → Bool) (ok : Sys V A → Bool) (ms : List (Matcher V A)) : List (Op V A) → St V A → Bool
  | [], s => ok ⟨s, ms⟩
  | .call c :: ops, s => ok ⟨s, ms⟩ && through blocks ok ms ops { s with threads := s.threads ++ [⟨c, AssocConc.start c, false⟩] }
  | .go t pick :: ops, s => ok ⟨s, ms⟩ && match s.threads[t]?.bind fun th => AssocConc.next blocks s t pick th with
    | some s' => through blocks ok ms ops s'
    | none => false
  | .ret t :: ops, s => ok ⟨s, ms⟩ && match s.threads[t]? with
    | some th => through blocks ok ms ops { s with threads := s.threads.set t { th with returned := true } }
    | none => false

/-- `ok` holds before and after every step of a script. -/
def always [DecidableEq V] (blocks : (Nat → Option (Item V A)) → Nat → Nat → Bool) (ok : Sys V A → Bool) : List (MOp V A) → Sys V A → Bool
  | [], s => ok s
  | .others ops :: l, s => through blocks ok s.ms ops s.tree && match exec blocks ops s.tree with
    | some x => always blocks ok l { s with tree := x.1 }
    | none => false
  | .call q more :: l, s => ok s && always blocks ok l { s with ms := s.ms ++ [⟨q, more, .read (pairs q) [], false⟩] }
  | .go m :: l, s => ok s && match go blocks s m with
    | some x => always blocks ok l x.1
    | none => false

theorem through_run [DecidableEq V] {blocks : (Nat → Option (Item V A)) → Nat → Nat → Bool} {ok : Sys V A → Bool} {ms : List (Matcher V A)} {s0 : Sys V A} :
    ∀ {ops : List (Op V A)} {s s' : St V A} {evs : List (Ev V A)} {evs' : List (Event V A)}, exec blocks ops s = some (s', evs') → (∀ c, Op.call c ∈ ops → c.ok) →
      through blocks ok ms ops s = true → MRun blocks (fun s => ok s = true) s0 evs ⟨s, ms⟩ → MRun blocks (fun s => ok s = true) s0 (evs ++ evs'.map .other) ⟨s', ms⟩
  | [], s, s', evs, evs', h, hc, ht, hr => by
    simp only [exec, Option.some.injEq, Prod.mk.injEq] at h
    obtain ⟨e1, e2⟩ := h; subst e1; subst e2; simpa using hr
  | .call c :: ops, s, s', evs, evs', h, hc, ht, hr => by
    simp only [exec, Option.map_eq_some_iff] at h
    obtain ⟨⟨x, l⟩, h1, h2⟩ := h
    cases h2
    simp only [through, Bool.and_eq_true] at ht
    have hP : ok ⟨{ s with threads := s.threads ++ [⟨c, AssocConc.start c, false⟩] }, ms⟩ = true := by
      have := ht.2; cases ops with
      | nil => exact this
      | cons o ops => cases o <;> simp only [through, Bool.and_eq_true] at this <;> exact this.1
    have := through_run h1 (fun c h => hc c (List.mem_cons_of_mem _ h)) ht.2 (.step hr (.other (.call c (hc c (by simp)))) hP)
    simpa using this
  | .go t pick :: ops, s, s', evs, evs', h, hc, ht, hr => by
    simp only [exec, Option.bind_eq_some_iff] at h
    obtain ⟨th, h1, s1, h2, h3⟩ := h
    simp only [through, Bool.and_eq_true, h1, Option.bind_some, h2] at ht
    have hP : ok ⟨s1, ms⟩ = true := by
      have := ht.2; cases ops with
      | nil => exact this
      | cons o ops => cases o <;> simp only [through, Bool.and_eq_true] at this <;> exact this.1
    have := through_run h3 (fun c h => hc c (List.mem_cons_of_mem _ h)) ht.2 (.step hr (.other (e := none) (.go t pick th h1 h2)) hP)
    simpa using this
  | .ret t :: ops, s, s', evs, evs', h, hc, ht, hr => by
    simp only [exec, Option.bind_eq_some_iff] at h
    obtain ⟨th, h1, h2⟩ := h
    simp only [through, Bool.and_eq_true, h1] at ht
    split at h2
    next r kept e1 e2 =>
      simp only [Option.map_eq_some_iff] at h2
      obtain ⟨⟨x, l⟩, h3, h4⟩ := h2
      cases h4
      have hP : ok ⟨{ s with threads := s.threads.set t { th with returned := true } }, ms⟩ = true := by
        have := ht.2; cases ops with
        | nil => exact this
        | cons o ops => cases o <;> simp only [through, Bool.and_eq_true] at this <;> exact this.1
      have := through_run h3 (fun c h => hc c (List.mem_cons_of_mem _ h)) ht.2 (.step hr (.other (.ret t th r kept h1 e1 e2)) hP)
      simpa using this
    · cases h2

theorem always_first [DecidableEq V] {blocks : (Nat → Option (Item V A)) → Nat → Nat → Bool} {ok : Sys V A → Bool} {l : List (MOp V A)} {s : Sys V A} (h : always blocks ok l s = true) :
    ok s = true := by
  cases l with
  | nil => exact h
  | cons o l =>
    cases o with
    | others ops =>
      simp only [always, Bool.and_eq_true] at h
      have := h.1
      cases ops with
      | nil => exact this
      | cons o ops => cases o <;> simp only [through, Bool.and_eq_true] at this <;> exact this.1
    | _ => simp only [always, Bool.and_eq_true] at h; exact h.1

/-- A script that works is a run, and what holds before and after its steps holds throughout. -/
theorem mexec_run [DecidableEq V] {blocks : (Nat → Option (Item V A)) → Nat → Nat → Bool} {ok : Sys V A → Bool} {s0 : Sys V A} :
    ∀ {l : List (MOp V A)} {s s' : Sys V A} {evs evs' : List (Ev V A)}, mexec blocks l s = some (s', evs') → (∀ ops c, MOp.others ops ∈ l → Op.call c ∈ ops → c.ok) →
      (∀ q more, MOp.call q more ∈ l → (q.map (·.1)).Nodup) → always blocks ok l s = true → MRun blocks (fun s => ok s = true) s0 evs s → MRun blocks (fun s => ok s = true) s0 (evs ++ evs') s'
  | [], s, s', evs, evs', h, hc, hq, ht, hr => by
    simp only [mexec, Option.some.injEq, Prod.mk.injEq] at h
    obtain ⟨e1, e2⟩ := h; subst e1; subst e2; simpa using hr
  | .others ops :: l, s, s', evs, evs', h, hc, hq, ht, hr => by
    simp only [mexec, Option.bind_eq_some_iff, Option.map_eq_some_iff] at h
    obtain ⟨x, h1, y, h2, h3⟩ := h
    cases h3
    simp only [always, Bool.and_eq_true, h1] at ht
    have := mexec_run h2 (fun ops c h => hc ops c (List.mem_cons_of_mem _ h)) (fun q m h => hq q m (List.mem_cons_of_mem _ h)) ht.2
      (through_run h1 (fun c h => hc ops c (by simp) h) ht.1 hr)
    simpa using this
  | .call q more :: l, s, s', evs, evs', h, hc, hq, ht, hr => by
    simp only [mexec, Option.map_eq_some_iff] at h
    obtain ⟨y, h2, h3⟩ := h
    cases h3
    simp only [always, Bool.and_eq_true] at ht
    have := mexec_run h2 (fun ops c h => hc ops c (List.mem_cons_of_mem _ h)) (fun q m h => hq q m (List.mem_cons_of_mem _ h)) ht.2
      (.step hr (.call q more (hq q more (by simp))) (always_first ht.2))
    simpa using this
  | .go m :: l, s, s', evs, evs', h, hc, hq, ht, hr => by
    simp only [mexec, Option.bind_eq_some_iff, Option.map_eq_some_iff] at h
    obtain ⟨x, h1, y, h2, h3⟩ := h
    cases h3
    simp only [always, Bool.and_eq_true, h1] at ht
    have := mexec_run h2 (fun ops c h => hc ops c (List.mem_cons_of_mem _ h)) (fun q m h => hq q m (List.mem_cons_of_mem _ h)) ht.2
      (.step hr (go_step h1) (always_first ht.2))
    simpa using this

end Willow.MatchConc
