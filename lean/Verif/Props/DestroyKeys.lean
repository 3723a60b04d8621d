import Verif.Proofs.DestroyKeys
/-
Property C103: Destroy of one key of the ordered tree next to other calls on the same and on other keys.
-/
namespace Willow.Props
open DestroyKeys

variable {K V : Type} [DecidableEq K]

/-- C103: at most one Destroy of a key is under way. -/
theorem C103_one_destroyer (s : W K V) (hr : DestroyKeys.Run W.init s) (k : K) (i j : Nat) (c d : Call K V)
    (hi : s.calls[i]? = some c) (hj : s.calls[j]? = some d) (hc : Destroys k c) (hd : Destroys k d) : i = j := by
  have hI := I.run hr
  apply Classical.byContradiction
  intro hne
  have h1 := DestroyGate.tot_le2 (dst k) s.calls i j c d hne hi hj
  have := hI.eq k
  have := hI.le k
  have := dst_pos.2 hc
  have := dst_pos.2 hd
  omega

/-- C103: the step by which a call passes or fails the check: it is refused, without any effect, exactly when a Destroy of its key is under
way.  So a call is never refused because of another key or of a Destroy that has returned. -/
theorem C103_refused_iff (s s' : W K V) (hr : DestroyKeys.Run W.init s) (h : DestroyKeys.Step s s') (i : Nat) (c c' : Call K V)
    (hi : s.calls[i]? = some c) (hs : c.pc = .start) (hi' : s'.calls[i]? = some c') (hs' : c'.pc ≠ .start) :
    (c'.pc = .over .destroying ∨ c'.pc = .admitted) ∧
    (c'.pc = .over .destroying ↔ ∃ d ∈ s.calls, Destroys c.key d) ∧
    (c'.pc = .over .destroying → s'.tree = s.tree ∧ s'.keys = s.keys) := by
  have hI := I.run hr
  have hm : marked s.keys c.key = true ↔ ∃ d ∈ s.calls, Destroys c.key d := by
    rw [marked_iff, hI.eq]
    constructor
    · intro h
      obtain ⟨j, d, hj, hd⟩ := DestroyGate.tot_pos h
      exact ⟨d, List.mem_of_getElem? hj, dst_pos.1 hd⟩
    · rintro ⟨d, hd, hdd⟩
      exact DestroyGate.mem_pos hd (dst_pos.2 hdd)
  have hlt : i < s.calls.length := by
    apply Classical.byContradiction; intro hx
    rw [List.getElem?_eq_none (by omega)] at hi; simp at hi
  have same : ∀ (j : Nat) (e : Call K V), j ≠ i → (s.calls.set j e)[i]? = some c' → False := by
    intro j e hj he
    rw [List.getElem?_set_ne hj, hi] at he
    simp only [Option.some.injEq] at he; subst he; exact hs' hs
  cases h with
  | call k op =>
      simp only [List.getElem?_append_left hlt] at hi'
      rw [hi] at hi'; simp only [Option.some.injEq] at hi'; subst hi'; exact absurd hs hs'
  | enter j d hd hst =>
      by_cases hj : j = i
      · subst hj
        rw [hi] at hd; simp only [Option.some.injEq] at hd; subst hd
        simp only [List.getElem?_set_self hlt, Option.some.injEq] at hi'
        subst hi'
        by_cases hk : marked s.keys c.key = true
        · simp [DestroyKeys.enter, hk, hm.1 hk]
        · have hn : ¬ ∃ d ∈ s.calls, Destroys c.key d := fun h => hk (hm.2 h)
          have : (enter s.keys c).2 = .admitted := by
            simp only [DestroyKeys.enter, hk, Bool.false_eq_true, if_false]; split <;> rfl
          rw [this]
          exact ⟨Or.inr rfl, ⟨fun h => by simp at h, fun h => absurd h hn⟩, fun h => by simp at h⟩
      · exact (same j _ hj hi').elim
  | work j d ok hd hst =>
      by_cases hj : j = i
      · subst hj; rw [hi] at hd; simp only [Option.some.injEq] at hd; subst hd; rw [hs] at hst; simp at hst
      · exact (same j _ hj hi').elim
  | leave j d r hd hst =>
      by_cases hj : j = i
      · subst hj; rw [hi] at hd; simp only [Option.some.injEq] at hd; subst hd; rw [hs] at hst; simp at hst
      · exact (same j _ hj hi').elim

/-- C103: when no Destroy is under way the tree remembers no key (so nothing is refused, and nothing piles up). -/
theorem C103_clean (s : W K V) (hr : DestroyKeys.Run W.init s) (h : ∀ d ∈ s.calls, ∀ k, ¬ Destroys k d) : s.keys = [] := by
  have hI := I.run hr
  cases hk : s.keys with
  | nil => rfl
  | cons k l =>
      exfalso
      have h1 := hI.eq k
      have h2 : 0 < DestroyGate.tot (one k) s.keys := by simp [hk, DestroyGate.tot, one]; omega
      obtain ⟨j, d, hj, hd⟩ := DestroyGate.tot_pos (f := dst k) (l := s.calls) (by omega)
      exact h d (List.mem_of_getElem? hj) k (dst_pos.1 hd)

/-- C103: a Destroy that is admitted while no other call on its key is past the check is alone with the key until it returns: whatever
calls are made meanwhile, until it has done its work the tree holds for the key what it held; and from its work until its return the key is
gone if it removed a value – the one that was there –, and unchanged otherwise. -/
theorem C103_alone (s s' : W K V) (hr : DestroyKeys.Run W.init s) (k : K) (i : Nat) (c c' : Call K V) (hi : s.calls[i]? = some c)
    (hc : Destroys k c) (hadm : c.pc = .admitted)
    (hothers : ∀ (j : Nat) (d : Call K V), j ≠ i → s.calls[j]? = some d → d.key = k → d.pc ≠ .admitted)
    (hrun : DestroyKeys.Run s s') (hi' : s'.calls[i]? = some c') :
    (c'.pc = .admitted → s'.tree.find? (·.1 == k) = s.tree.find? (·.1 == k)) ∧
    (∀ r, c'.pc = .worked r →
      (∀ v, r = .removed v → s'.tree.find? (·.1 == k) = none ∧ ∃ p, s.tree.find? (·.1 == k) = some p ∧ p.2 = v) ∧
      ((∀ v, r ≠ .removed v) → s'.tree.find? (·.1 == k) = s.tree.find? (·.1 == k))) := by
  have ha : Alone k i (s.tree.find? (·.1 == k)) s :=
    ⟨I.run hr, ⟨c, hi, hc.1, hc.2.1, Or.inl ⟨hadm, rfl⟩⟩, fun _ => hothers⟩
  obtain ⟨_, ⟨e, he, _, _, hp⟩, _⟩ := ha.run hrun
  rw [hi'] at he; simp only [Option.some.injEq] at he; subst he
  constructor
  · intro h
    rcases hp with ⟨_, h2⟩ | ⟨r, h1, _⟩ | ⟨r, h1⟩
    · exact h2
    · rw [h] at h1; simp at h1
    · rw [h] at h1; simp at h1
  · intro r h
    rcases hp with ⟨h1, _⟩ | ⟨r', h1, h2⟩ | ⟨r', h1⟩
    · rw [h] at h1; simp at h1
    · rw [h] at h1; simp only [Pc.worked.injEq] at h1; subst h1
      rcases h2 with ⟨h3, h4⟩ | ⟨⟨p, h3, h5⟩, h4⟩
      · exact ⟨fun v hv => absurd hv (h3 v), fun _ => h4⟩
      · refine ⟨?_, fun hn => absurd h5 (hn p.2)⟩
        intro v hv
        rw [h5] at hv; simp only [Res.removed.injEq] at hv
        exact ⟨h4, p, h3, hv⟩
    · rw [h] at h1; simp at h1

/-! The hypotheses are met: key 1 holds "a", a Destroy of it has been admitted, a Find of it waits for the check; then the Find is refused,
the Destroy removes the value and returns. -/

/-- Key 1 is there, its Destroy (call 1) admitted, a Find of 1 (call 2) and one of 2 (call 3) before the check. -/
def c103State : W Nat String :=
  ⟨[1], [(1, "a")], [⟨1, .create "a", .over .created⟩, ⟨1, .destroy, .admitted⟩, ⟨1, .find, .start⟩, ⟨2, .find, .start⟩]⟩

theorem c103Run : DestroyKeys.Run W.init c103State :=
  exec_run [.call 1 (.create "a"), .enter 0, .work 0 true, .leave 0, .call 1 .destroy, .call 1 .find, .call 2 .find, .enter 1] rfl

example : Destroys 1 (⟨1, .destroy, .admitted⟩ : Call Nat String) ∧ c103State.calls[1]? = some ⟨1, .destroy, .admitted⟩ :=
  ⟨⟨rfl, rfl, Or.inl rfl⟩, rfl⟩

/-- The Find of key 1 is refused, the Find of key 2 is not. -/
example : (∃ s', DestroyKeys.Step c103State s' ∧ s'.calls[2]? = some ⟨1, .find, .over .destroying⟩) ∧
    (∃ s', DestroyKeys.Step c103State s' ∧ s'.calls[3]? = some ⟨2, .find, .admitted⟩) :=
  ⟨⟨_, .enter c103State 2 _ rfl rfl, rfl⟩, ⟨_, .enter c103State 3 _ rfl rfl, rfl⟩⟩

/-- The Destroy removes "a"; then it returns, and the tree remembers no key. -/
example : ∃ s', DestroyKeys.Run c103State s' ∧ s'.calls[1]? = some ⟨1, .destroy, .worked (.removed "a")⟩ ∧ s'.tree = [] ∧
    ∃ s'', DestroyKeys.Step s' s'' ∧ s''.keys = [] :=
  ⟨_, .step (.refl _) (.work c103State 1 _ true rfl rfl), rfl, rfl, _, .leave _ 1 _ _ rfl rfl, rfl⟩

example : ∀ (j : Nat) (d : Call Nat String), j ≠ 1 → c103State.calls[j]? = some d → d.key = 1 → d.pc ≠ .admitted := by
  intro j d hj hd hk
  match j with
  | 0 => simp [c103State] at hd; subst hd; simp
  | 1 => exact absurd rfl hj
  | 2 => simp [c103State] at hd; subst hd; simp
  | 3 => simp [c103State] at hd; subst hd; simp
  | n + 4 => simp [c103State] at hd

/-! What goes wrong -/

/-- C103 needs its hypothesis: a Create that had passed the check before puts the key back while the Destroy is still under way (its call
began before, so the order Destroy, Create is a possible one; but the Destroy returns and the key is there). -/
theorem C103_violated_created_meanwhile : ∃ s : W Nat String, DestroyKeys.Run W.init s ∧
    s.calls[1]? = some ⟨1, .destroy, .worked (.removed "a")⟩ ∧ s.tree = [(1, "b")] :=
  ⟨⟨[1], [(1, "b")], [⟨1, .create "a", .over .created⟩, ⟨1, .destroy, .worked (.removed "a")⟩, ⟨1, .createOrFind "b", .worked .created⟩]⟩,
    exec_run [.call 1 (.create "a"), .enter 0, .work 0 true, .leave 0, .call 1 .destroy, .call 1 (.createOrFind "b"), .enter 2, .enter 1,
      .work 1 true, .work 2 true] rfl, rfl, rfl⟩

/-- A key as the tree compares it with Go's `==`: a NaN is not equal to itself. -/
inductive GoFloat where
  | nan
  | num (n : Int)

instance : BEq GoFloat := ⟨fun
  | .num a, .num b => a == b
  | _, _ => false⟩

/-- C103 fails for a NaN: two Destroys of it are under way at once, and the tree remembers the key for ever. -/
theorem C103_violated_nan :
    (∃ s : W GoFloat String, DestroyKeys.Run W.init s ∧ s.calls = [⟨.nan, .destroy, .admitted⟩, ⟨.nan, .destroy, .admitted⟩]) ∧
    (∃ s : W GoFloat String, DestroyKeys.Run W.init s ∧ s.calls = [⟨.nan, .destroy, .over .nothing⟩] ∧ s.keys = [.nan]) :=
  ⟨⟨⟨[.nan, .nan], [], [⟨.nan, .destroy, .admitted⟩, ⟨.nan, .destroy, .admitted⟩]⟩,
      exec_run [.call .nan .destroy, .call .nan .destroy, .enter 0, .enter 1] rfl, rfl⟩,
    ⟨⟨[.nan], [], [⟨.nan, .destroy, .over .nothing⟩]⟩,
      exec_run [.call .nan .destroy, .enter 0, .work 0 true, .leave 0] rfl, rfl, rfl⟩⟩

end Willow.Props
