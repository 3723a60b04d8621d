import Verif.Proofs.DeleteRace
/-
Property C88: a queue may be deleted while it is in use.

`DeleteRace.run St.init ls = some s`: the history `ls` of requests arriving, goroutines doing their next step and deliveries running out of time is possible for a new
service, and leads to `s`.  Goroutines are numbered in the order in which they are started; `s.dead = some k` says that goroutine `k` has ended the whole service.
-/
namespace Willow.Props
open Willow.DeleteRace (Op Task Phase Proc)

namespace DR
abbrev Reach (ls : List DeleteRace.Label) (s : DeleteRace.St) : Prop := DeleteRace.run DeleteRace.St.init ls = some s

/-- Goroutine `i` runs this task and is this far. -/
def Runs (s : DeleteRace.St) (i : Nat) (t : Task) (ph : Phase) : Prop := s.procs[i]? = some ⟨t, ph⟩

instance (s : DeleteRace.St) (i : Nat) (t : Task) (ph : Phase) : Decidable (Runs s i t ph) := inferInstanceAs (Decidable (_ = _))

theorem has {ls : List DeleteRace.Label} {P : DeleteRace.St → Prop} [DecidablePred P] (h : (DeleteRace.run DeleteRace.St.init ls).any (fun s => decide (P s)) = true) : ∃ s, Reach ls s ∧ P s := by
  rw [Option.any_eq_true] at h
  obtain ⟨s, h1, h2⟩ := h
  exact ⟨s, h1, of_decide_eq_true h2⟩
end DR
open DR (Runs Reach)
open DeleteRace.Label (request create delete go expire)

/-- **C88** While a request works on a queue, no deletion of that queue removes anything. -/
theorem C88_guarded {ls : List DeleteRace.Label} {s : DeleteRace.St} {i j q : Nat} {op : Op} {ph : Phase} (h : Reach ls s) (hr : Runs s i (.request op q) .inside)
    (hd : Runs s j (.delete q) ph) : ph ≠ .owning ∧ ph ≠ .wiping := by
  have he := DeleteRace.run_excl DeleteRace.excl_init h
  refine ⟨fun e => ?_, fun e => ?_⟩ <;>
  · subst e
    have := he j i _ _ q hd hr (by simp [Proc.owns])
    simp [Proc.reads] at this

/-- An enqueue is at work, a deletion of the queue waits. -/
example : ∃ s, Reach [create 0, go 0 true, go 0 true, request .enqueue 0, go 1 true, go 1 true, delete 0, go 2 true] s ∧ Runs s 1 (.request .enqueue 0) .inside ∧ Runs s 2 (.delete 0) .marked :=
  DR.has (by decide +kernel)

/-- **C88** A queue is deleted by one request at a time. -/
theorem C88_one_deletion {ls : List DeleteRace.Label} {s : DeleteRace.St} {i j q : Nat} {a b : Phase} (h : Reach ls s) (hi : Runs s i (.delete q) a) (hj : Runs s j (.delete q) b)
    (ha : a = .marked ∨ a = .owning ∨ a = .wiping) (hb : b = .marked ∨ b = .owning ∨ b = .wiping) : i = j :=
  DeleteRace.run_one DeleteRace.one_init h i j _ _ q hi hj (by rcases ha with e | e | e <;> subst e <;> simp [Proc.marks]) (by rcases hb with e | e | e <;> subst e <;> simp [Proc.marks])

/-- Two queues are deleted at the same time, and a second deletion of the first is refused. -/
example : ∃ s, Reach [create 0, go 0 true, go 0 true, create 1, go 1 true, go 1 true, delete 0, delete 1, delete 0, go 2 true, go 3 true, go 2 true, go 4 true] s ∧
    Runs s 2 (.delete 0) .owning ∧ Runs s 3 (.delete 1) .marked ∧ Runs s 4 (.delete 0) (.done .conflict) :=
  DR.has (by decide +kernel)

/-- **C88** A queue that is not there, or not there any more, has no items and no deliveries: nothing is accepted into a queue that is being removed, and a queue
created later under the same name begins empty. -/
theorem C88_deleted_is_empty {ls : List DeleteRace.Label} {s : DeleteRace.St} {q : Nat} (h : Reach ls s) (hq : s.queues q = false) : s.items q = 0 ∧ s.out q = 0 :=
  let l := DeleteRace.run_live DeleteRace.excl_init DeleteRace.live_init h q hq
  ⟨l.1, l.2.1⟩

/-- A queue with an item is deleted. -/
example : ∃ s, Reach [create 0, go 0 true, go 0 true, request .enqueue 0, go 1 true, go 1 true, go 1 true, delete 0, go 2 true, go 2 true, go 2 true, go 2 true] s ∧
    s.queues 0 = false ∧ Runs s 1 (.request .enqueue 0) (.done .ok) ∧ Runs s 2 (.delete 0) (.done .ok) :=
  DR.has (by decide +kernel)

/-- **C88** A queue comes into being only by a creation that is answered with success, and only when it was not there. -/
theorem C88_appears {ls : List DeleteRace.Label} {s s' : DeleteRace.St} {l : DeleteRace.Label} {q : Nat} (_h : Reach ls s) (hs : DeleteRace.step s l = some s')
    (h0 : s.queues q = false) (h1 : s'.queues q = true) : ∃ i pick, l = .go i pick ∧ Runs s' i (.create q) (.done .ok) := by
  unfold DeleteRace.step at hs
  split at hs
  · cases hs
  cases l with
  | request => cases hs; rw [show s.queues q = true from h1] at h0; cases h0
  | create => cases hs; rw [show s.queues q = true from h1] at h0; cases h0
  | delete => cases hs; rw [show s.queues q = true from h1] at h0; cases h0
  | expire r =>
    simp only at hs
    split at hs
    · cases hs; rw [show s.queues q = true from h1] at h0; cases h0
    · cases hs
  | go i pick =>
    simp only at hs
    split at hs
    next p hp =>
      have hi : i < s.procs.length := (List.getElem?_eq_some_iff.1 hp).1
      rcases DeleteRace.next_queues hs with e | ⟨r, e1, e2, _, e3⟩ | ⟨r, e1, e2, e3, _⟩
      · rw [e, h0] at h1; cases h1
      · rw [e2] at h1
        unfold DeleteRace.upd at h1
        split at h1
        · next e =>
          subst e
          refine ⟨i, pick, rfl, ?_⟩
          unfold Runs
          rw [e3, List.getElem?_set_self hi, e1]
        · rw [h0] at h1; cases h1
      · rw [e3] at h1
        unfold DeleteRace.upd at h1
        split at h1
        · cases h1
        · rw [h0] at h1; cases h1
    · cases hs

example : ∃ s s', Reach [create 0, go 0 true] s ∧ DeleteRace.step s (.go 0 true) = some s' ∧ s.queues 0 = false ∧ s'.queues 0 = true :=
  ⟨_, _, rfl, rfl, rfl, rfl⟩

/-- **C88** A queue goes away only by a deletion of that very queue that is answered with success. -/
theorem C88_disappears {ls : List DeleteRace.Label} {s s' : DeleteRace.St} {l : DeleteRace.Label} {q : Nat} (_h : Reach ls s) (hs : DeleteRace.step s l = some s')
    (h0 : s.queues q = true) (h1 : s'.queues q = false) : ∃ i pick, l = .go i pick ∧ Runs s i (.delete q) .wiping ∧ Runs s' i (.delete q) (.done .ok) := by
  unfold DeleteRace.step at hs
  split at hs
  · cases hs
  cases l with
  | request => cases hs; rw [show s.queues q = false from h1] at h0; cases h0
  | create => cases hs; rw [show s.queues q = false from h1] at h0; cases h0
  | delete => cases hs; rw [show s.queues q = false from h1] at h0; cases h0
  | expire r =>
    simp only at hs
    split at hs
    · cases hs; rw [show s.queues q = false from h1] at h0; cases h0
    · cases hs
  | go i pick =>
    simp only at hs
    split at hs
    next p hp =>
      have hi : i < s.procs.length := (List.getElem?_eq_some_iff.1 hp).1
      rcases DeleteRace.next_queues hs with e | ⟨r, e1, e2, _, e3⟩ | ⟨r, e1, e2, e3, e4⟩
      · rw [e, h0] at h1; cases h1
      · rw [e2] at h1
        unfold DeleteRace.upd at h1
        split at h1
        · cases h1
        · rw [h0] at h1; cases h1
      · rw [e3] at h1
        unfold DeleteRace.upd at h1
        split at h1
        · next e =>
          subst e
          obtain ⟨t, ph⟩ := p
          cases e1; cases e2
          exact ⟨i, pick, rfl, hp, by unfold Runs; rw [e4, List.getElem?_set_self hi]⟩
        · rw [h0] at h1; cases h1
    · cases hs

example : ∃ s s', Reach [create 0, go 0 true, go 0 true, delete 0, go 1 true, go 1 true, go 1 true] s ∧ DeleteRace.step s (.go 1 true) = some s' ∧ s.queues 0 = true ∧ s'.queues 0 = false :=
  ⟨_, _, rfl, rfl, rfl, rfl⟩

/-- **C88** The only ways in which the service ends: the goroutine a Dequeue has left behind, or a delivery that ran out of time, reaches the channels of a queue
while a deletion of the same queue removes them. -/
theorem C88_crash_only_by_stragglers {ls : List DeleteRace.Label} {s : DeleteRace.St} {k : Nat} (h : Reach ls s) (hk : s.dead = some k) :
    ∃ ms pick t q j ph, ls = ms ++ [.go k pick] ∧ Reach ms t ∧ (Runs t k (.scan q) ph ∨ Runs t k (.timeout q) ph) ∧ Runs t j (.delete q) .wiping ∧ .delete q ∈ ms := by
  obtain ⟨ms, pick, t, p, q, h1, h2, h3, h4, h5⟩ := DeleteRace.run_dead DeleteRace.excl_init rfl h hk
  obtain ⟨j, x, hx, _, hw⟩ := DeleteRace.wiped_owned h5
  have hx' : Runs t j (.delete q) .wiping := by
    obtain ⟨xt, xp⟩ := x
    simp only [Proc.wipes, Bool.and_eq_true, decide_eq_true_eq] at hw
    obtain ⟨e1, e2⟩ := hw
    subst e1; subst e2; exact hx
  have hf := DeleteRace.run_from (ls := []) (s := DeleteRace.St.init) (fun j x q hx => by simp [DeleteRace.St.init] at hx) h2
  refine ⟨ms, pick, t, q, j, p.phase, h1, h2, ?_, hx', by simpa using hf j _ q hx' rfl⟩
  obtain ⟨pt, pp⟩ := p
  rcases h4 with e | e <;> simp only at e <;> subst e
  · exact Or.inl h3
  · exact Or.inr h3

/-- A dequeue, its client gone before the goroutine it started has looked through the channels; then a deletion. -/
def scanRace : List DeleteRace.Label :=
  [create 0, go 0 true, go 0 true, request .dequeue 0, go 1 true, go 1 true, go 1 false, delete 0, go 3 true, go 3 true, go 3 true, go 2 true]

example : ∃ s, Reach scanRace s ∧ s.dead = some 2 := DR.has (by decide +kernel)

/-- **C88** As long as nobody deletes a queue the service goes on, whatever else happens.  Partial: the property asks for it with deletions as well, which is
`C88_violated_scan` and `C88_violated_timeout`. -/
theorem C88_no_delete_partial {ls : List DeleteRace.Label} {s : DeleteRace.St} (h : Reach ls s) (hn : ∀ q, .delete q ∉ ls) : s.dead = none := by
  cases hd : s.dead with
  | none => rfl
  | some k =>
    obtain ⟨ms, pick, t, q, j, ph, h1, _, _, _, h5⟩ := C88_crash_only_by_stragglers h hd
    exact absurd (by rw [h1]; exact List.mem_append_left _ h5) (hn q)

/-- The same dequeue, a delivery out of time. -/
example : ∃ s, Reach [create 0, go 0 true, go 0 true, request .enqueue 0, go 1 true, go 1 true, go 1 true, request .dequeue 0, go 2 true, go 2 true, go 2 true, go 3 true, expire 0, go 4 true] s ∧ s.dead = none :=
  DR.has (by decide +kernel)

/-- **C88 does not hold**: a client that asked for an item goes away, the queue is deleted, and the service ends: the goroutine of the dequeue panics. -/
theorem C88_violated_scan : ∃ s, Reach scanRace s ∧ s.dead.isSome = true ∧ Runs s 1 (.request .dequeue 0) (.done .conflict) := DR.has (by decide +kernel)

/-- **C88 does not hold**: a delivered item runs out of time while its queue is deleted, and the service ends. -/
theorem C88_violated_timeout : ∃ s, Reach [create 0, go 0 true, go 0 true, request .enqueue 0, go 1 true, go 1 true, go 1 true, request .dequeue 0, go 2 true, go 2 true, go 2 true, go 3 true,
      delete 0, go 4 true, go 4 true, go 4 true, expire 0, go 5 true] s ∧ s.dead.isSome = true ∧ Runs s 2 (.request .dequeue 0) (.done .ok) := DR.has (by decide +kernel)

/-- **C88** What a request is told while a deletion of the queue is under way: Enqueue, Dequeue and DeleteChannel answer 500, all others 409. -/
theorem C88_refused {ls : List DeleteRace.Label} {s : DeleteRace.St} {i j q : Nat} {op : Op} {ph : Phase} (_h : Reach ls s) (hd : s.dead = none) (hr : Runs s i (.request op q) .ready)
    (hj : Runs s j (.delete q) ph) (hp : ph = .marked ∨ ph = .owning ∨ ph = .wiping) (pick : Bool) :
    ∃ s', DeleteRace.step s (.go i pick) = some s' ∧
      Runs s' i (.request op q) (.done (if op = .enqueue ∨ op = .dequeue ∨ op = .deleteChannel then .internal else .conflict)) ∧
      s'.queues = s.queues ∧ s'.items = s.items ∧ s'.out = s.out ∧ s'.dead = none := by
  have hm : s.marked q = true := DeleteRace.any_of hj (by rcases hp with e | e | e <;> subst e <;> simp [Proc.marks])
  have hi : i < s.procs.length := (List.getElem?_eq_some_iff.1 hr).1
  have hr' : s.procs[i]? = some ⟨.request op q, .ready⟩ := hr
  refine ⟨s.to i ⟨.request op q, .ready⟩ (.done op.refusal), ?_, ?_, rfl, rfl, rfl, hd⟩
  · simp [DeleteRace.step, hd, hr', DeleteRace.next, hm]
  · unfold Runs DeleteRace.St.to
    simp only
    rw [List.getElem?_set_self hi]
    cases op <;> rfl

/-- An enqueue during a deletion. -/
example : ∃ s, Reach [create 0, go 0 true, go 0 true, delete 0, go 1 true, request .enqueue 0] s ∧ s.dead = none ∧ Runs s 2 (.request .enqueue 0) .ready ∧ Runs s 1 (.delete 0) .marked :=
  DR.has (by decide +kernel)

/-- **C88** How the items that wait in a queue change: an Enqueue that is answered with success adds one, a Dequeue that is answered with success takes one, which is then delivered
and not acknowledged, and a deletion of that very queue removes all of them.  Nothing else changes them: in particular no request on another queue. -/
theorem C88_items_change {ls : List DeleteRace.Label} {s s' : DeleteRace.St} {l : DeleteRace.Label} {q : Nat} (_h : Reach ls s) (hs : DeleteRace.step s l = some s') (hc : s'.items q ≠ s.items q) :
    ∃ i pick, l = .go i pick ∧
      ((Runs s' i (.request .enqueue q) (.done .ok) ∧ s'.items q = s.items q + 1) ∨ (Runs s' i (.request .dequeue q) (.done .ok) ∧ s.items q = s'.items q + 1 ∧ s'.out q = s.out q + 1) ∨
        (Runs s i (.delete q) .wiping ∧ s'.items q = 0 ∧ s'.out q = 0)) := by
  unfold DeleteRace.step at hs
  split at hs
  · cases hs
  cases l with
  | request => cases hs; exact absurd rfl hc
  | create => cases hs; exact absurd rfl hc
  | delete => cases hs; exact absurd rfl hc
  | expire r =>
    simp only at hs
    split at hs
    · cases hs; exact absurd rfl hc
    · cases hs
  | go i pick =>
    refine ⟨i, pick, rfl, ?_⟩
    simp only at hs
    split at hs
    next p hp =>
      have hi : i < s.procs.length := (List.getElem?_eq_some_iff.1 hp).1
      obtain ⟨t, ph⟩ := p
      unfold DeleteRace.next at hs
      split at hs
      next op r e1 e2 => split at hs <;> cases hs <;> exact absurd rfl hc
      next op r e1 e2 =>
        split at hs
        · cases hs
        · split at hs
          · cases hs
            split at hc <;> exact absurd rfl hc
          · cases hs; exact absurd rfl hc
      next op r e1 e2 =>
        simp only at e1 e2
        subst e1; subst e2
        unfold DeleteRace.nextInside at hs
        split at hs
        · cases hs; exact absurd rfl hc
        · cases hs; exact absurd rfl hc
        · split at hs
          · cases hs; exact absurd rfl hc
          · split at hs
            · cases hs
              by_cases e : q = r
              · subst e
                left
                exact ⟨List.getElem?_set_self hi, if_pos rfl⟩
              · exact absurd (if_neg e) hc
            · cases hs; exact absurd rfl hc
        · split at hs
          · split at hs
            next hlt =>
              cases hs
              by_cases e : q = r
              · subst e
                right; left
                refine ⟨List.getElem?_set_self hi, ?_, if_pos rfl⟩
                show s.items q = DeleteRace.upd s.items q (s.items q - 1) q + 1
                unfold DeleteRace.upd
                rw [if_pos rfl]; omega
              · exact absurd (if_neg e) hc
            · cases hs
          · cases hs; exact absurd rfl hc
        · split at hs
          · cases hs; exact absurd rfl hc
          · split at hs
            · split at hs <;> cases hs; exact absurd rfl hc
            · cases hs; exact absurd rfl hc
        · split at hs <;> cases hs <;> exact absurd rfl hc
        · split at hs <;> cases hs <;> exact absurd rfl hc
        · split at hs <;> cases hs <;> exact absurd rfl hc
      next r e1 e2 => split at hs <;> cases hs <;> exact absurd rfl hc
      next r e1 e2 =>
        split at hs
        · cases hs
        · split at hs <;> cases hs <;> exact absurd rfl hc
      next r e1 e2 => split at hs <;> cases hs <;> exact absurd rfl hc
      next r e1 e2 => split at hs <;> cases hs <;> exact absurd rfl hc
      next r e1 e2 => split at hs <;> cases hs <;> exact absurd rfl hc
      next r e1 e2 =>
        split at hs
        · cases hs
        · split at hs <;> cases hs <;> exact absurd rfl hc
      next r e1 e2 => cases hs; exact absurd rfl hc
      next r e1 e2 =>
        simp only at e1 e2
        subst e1; subst e2
        right; right
        by_cases e : q = r
        · subst e
          split at hs <;> cases hs <;> exact ⟨hp, if_pos rfl, if_pos rfl⟩
        · split at hs <;> cases hs <;> exact absurd (if_neg e) hc
      · cases hs
    · cases hs

/-- **C88** An Enqueue that is answered with success has put its item into the queue, and the queue is there. -/
theorem C88_enqueue_counts {ls : List DeleteRace.Label} {s s' : DeleteRace.St} {i q : Nat} {pick : Bool} (h : Reach ls s) (hr : Runs s i (.request .enqueue q) .inside)
    (hs : DeleteRace.step s (.go i pick) = some s') (hd : Runs s' i (.request .enqueue q) (.done .ok)) : s'.items q = s.items q + 1 ∧ s'.queues q = true := by
  have hr' : s.procs[i]? = some ⟨.request .enqueue q, .inside⟩ := hr
  have hi : i < s.procs.length := (List.getElem?_eq_some_iff.1 hr').1
  have hq : s.queues q = true := by
    cases e : s.queues q with
    | true => rfl
    | false =>
      have := (DeleteRace.run_live DeleteRace.excl_init DeleteRace.live_init h q e).2.2 i _ hr'
      simp [Proc.reads] at this
  unfold DeleteRace.step at hs
  split at hs
  · cases hs
  simp only [hr', DeleteRace.next, DeleteRace.nextInside] at hs
  split at hs
  · cases hs
    have hd' : (s.procs.set i (⟨.request .enqueue q, .done .internal⟩ : Proc))[i]? = some ⟨.request .enqueue q, .done .ok⟩ := hd
    rw [List.getElem?_set_self hi] at hd'; cases hd'
  · split at hs
    · cases hs; exact ⟨if_pos rfl, hq⟩
    · cases hs
      have hd' : (s.procs.set i (⟨.request .enqueue q, .done .conflict⟩ : Proc))[i]? = some ⟨.request .enqueue q, .done .ok⟩ := hd
      rw [List.getElem?_set_self hi] at hd'; cases hd'

example : ∃ s s', Reach [create 0, go 0 true, go 0 true, request .enqueue 0, go 1 true, go 1 true] s ∧ DeleteRace.step s (.go 1 true) = some s' ∧ s'.items 0 ≠ s.items 0 ∧
    Runs s 1 (.request .enqueue 0) .inside ∧ Runs s' 1 (.request .enqueue 0) (.done .ok) :=
  ⟨_, _, rfl, rfl, by decide, rfl, rfl⟩

end Willow.Props
