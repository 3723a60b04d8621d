import Verif.Spec.Queue
import Verif.Proofs.Channel
/- The requests of a channel account for all changes of its two counts. -/
namespace Willow.Queue
open Willow.Channel
variable {D : Type}

/-- A request as a change of the count. -/
def upd (κ : Kind) (n : Nat) : Kind × Ask → Nat
  | (κ', a) => if κ' = κ then (match a with | .up => n + 1 | .upRefused => n | .down => n - 1 | .zero => 0) else n

/-- The new events account for the changes. -/
def Acc (s s' : Channel.St D) : Prop := ∃ evs : List (Ev D), s'.log = evs.reverse ++ s.log ∧
  s'.enq = (evs.flatMap asksOf).foldl (upd .enq) s.enq ∧ s'.run = (evs.flatMap asksOf).foldl (upd .run) s.run

theorem Acc.same {s s' : Channel.St D} (h1 : s'.log = s.log) (h2 : s'.enq = s.enq) (h3 : s'.run = s.run) : Acc s s' :=
  ⟨[], by simp [h1], by simp [h2], by simp [h3]⟩

theorem Acc.trans {s s' s'' : Channel.St D} (h1 : Acc s s') (h2 : Acc s' s'') : Acc s s'' := by
  obtain ⟨e1, a1, b1, c1⟩ := h1
  obtain ⟨e2, a2, b2, c2⟩ := h2
  exact ⟨e1 ++ e2, by simp [a2, a1], by simp [b2, b1, List.foldl_append], by simp [c2, c1, List.foldl_append]⟩

theorem Acc.one {s s' : Channel.St D} (e : Ev D) (h1 : s'.log = e :: s.log) (h2 : s'.enq = (asksOf e).foldl (upd .enq) s.enq)
    (h3 : s'.run = (asksOf e).foldl (upd .run) s.run) : Acc s s' :=
  ⟨[e], by simp [h1], by simp [h2], by simp [h3]⟩

theorem Acc.retryBack (s : Channel.St D) (id : Nat) : Acc s (retryBack s id) := by
  unfold Channel.retryBack
  split
  · exact .one (.requeued id) rfl rfl rfl
  · split
    · exact .same rfl rfl rfl
    · split
      · exact ⟨[.superseded _ false, .requeued id], rfl, rfl, rfl⟩
      · exact .one (.requeued id) rfl rfl rfl

theorem Acc.retry (s : Channel.St D) (id : Nat) (it : Item D) : Acc s (retry s id it) := by
  unfold Channel.retry
  simp only
  refine Acc.trans (s' := St.ev { s with items := change s.items id (fun i => { i with hb := .none, retryCount := i.retryCount + 1 }), run := s.run - 1 } (.failed id))
    (.one (.failed id) rfl rfl rfl) ?_
  split
  · exact .one (.exhausted id) rfl rfl rfl
  · split
    · split
      · exact .one (.superseded id false) rfl rfl rfl
      · exact .one (.requeued id) rfl rfl rfl
    · exact Acc.retryBack _ _

theorem Acc.failItem (s : Channel.St D) (id : Nat) (b : Bool) : Acc s (failItem s id b).1 := by
  unfold Channel.failItem
  split
  · exact .same rfl rfl rfl
  · split
    · exact Acc.retry _ _ _
    · exact .same rfl rfl rfl

theorem Acc.unsent (s : Channel.St D) (id : Nat) : Acc s (unsent s id) := by
  unfold Channel.unsent
  split
  · exact .same rfl rfl rfl
  · simp only
    split
    · exact .one (.unsent id false) rfl rfl rfl
    · rename_i it _
      refine Acc.trans (s' := St.ev { s with run := s.run - 1, exec := .idle } (.unsent id it.hb.stops)) (.one (.unsent id it.hb.stops) rfl rfl rfl) ?_
      unfold giveBack
      split
      · simp only
        split
        · exact .one (.superseded id true) rfl rfl rfl
        · exact .same rfl rfl rfl
      · exact .same rfl rfl rfl

theorem retry_exec (s : Channel.St D) (id : Nat) (it : Item D) : (retry s id it).exec = s.exec := by
  unfold Channel.retry
  simp only
  split
  · rfl
  · split
    · split <;> rfl
    · unfold Channel.retryBack
      split
      · rfl
      · split
        · rfl
        · split <;> rfl

theorem failItem_exec (s : Channel.St D) (id : Nat) (b : Bool) : (failItem s id b).1.exec = s.exec := by
  unfold Channel.failItem
  split
  · rfl
  · split
    · exact retry_exec _ _ _
    · rfl

/-- While a dequeue waits for the limiter, nothing else changes that. -/
theorem step_called {s s' : Channel.St D} (hs : Channel.Step s s') (h : s.exec = .called) : (∃ g, s' = count s g) ∨ s'.exec = .called := by
  cases hs with
  | enqueue r g _ =>
    refine .inr ?_
    unfold Channel.enqueue
    split
    · exact h
    · split <;> exact h
  | ackPassed id _ _ =>
    refine .inr ?_
    unfold Channel.ackPassed
    split
    · exact h
    · split
      · simp [St.ev, h, touch]
      · exact h
  | ackFailed id _ _ =>
    refine .inr ?_
    simp [Channel.ackFailed, St.ev, failItem_exec, h, touch]
  | heartbeat id _ _ =>
    refine .inr ?_
    unfold Channel.heartbeat
    simp only
    split <;> simp [St.ev, h, touch]
  | notified he _ => simp [h] at he
  | send he => simp [h] at he
  | count g _ => exact .inl ⟨g, rfl⟩
  | pop he => simp [h] at he
  | find he => simp [h] at he
  | received he => simp [h] at he
  | unsent he => simp [h] at he
  | spinDone he => simp [h] at he
  | fire _ _ => exact .inr h
  | @timeout id _ _ _ =>
    refine .inr ?_
    unfold Channel.timeout
    split
    · exact h
    · rw [failItem_exec]; exact h
  | delete _ =>
    refine .inr ?_
    unfold Channel.delete
    split <;> exact h
  | forceBegin _ => exact .inr h
  | forceMark _ _ => exact .inr h
  | forceEnd _ _ _ => exact .inr h
  | stop _ hl => simp [h, Exec.listens] at hl

/-- All steps but the request of a dequeue. -/
theorem step_acc {s s' : Channel.St D} (hs : Channel.Step s s') (h : s.exec = .called → s'.exec = .called) : Acc s s' := by
  cases hs with
  | enqueue r g _ =>
    unfold Channel.enqueue
    split
    · exact .one (.updated _ r) rfl rfl rfl
    · split
      · exact .one (.enqueued s.nextId r) rfl rfl rfl
      · exact .one .refused rfl rfl rfl
  | ackPassed id _ _ =>
    unfold Channel.ackPassed
    split
    · exact .one (.ackPassed id false) rfl rfl rfl
    · split
      · exact .one (.ackPassed id true) rfl rfl rfl
      · exact .one (.ackPassed id false) rfl rfl rfl
  | ackFailed id _ _ =>
    unfold Channel.ackFailed
    simp only
    refine Acc.trans (s' := { s with exec := touch s.exec id }) (.same rfl rfl rfl) (Acc.trans (Acc.failItem _ id false) ?_)
    exact .one (.ackFailed id _) rfl rfl rfl
  | heartbeat id _ _ =>
    unfold Channel.heartbeat
    simp only
    split <;> exact .one (.beat id _) rfl rfl rfl
  | notified _ _ => exact .same rfl rfl rfl
  | send _ => exact .same rfl rfl rfl
  | count g he => have := h he; unfold Channel.count at this; split at this <;> simp at this
  | pop _ => unfold Channel.pop; split <;> exact .same rfl rfl rfl
  | @find id _ =>
    unfold Channel.find
    split
    · exact .same rfl rfl rfl
    · split
      · exact .same rfl rfl rfl
      · split
        · exact .same rfl rfl rfl
        · exact .one (.taken id _) rfl rfl rfl
  | @received id _ _ =>
    unfold Channel.received
    split
    · exact .same rfl rfl rfl
    · exact .one (.received id) rfl rfl rfl
  | @unsent id _ _ => exact Acc.unsent s id
  | spinDone _ => exact .same rfl rfl rfl
  | fire _ _ => exact .same rfl rfl rfl
  | @timeout id _ _ _ =>
    unfold Channel.timeout
    split
    · exact .same rfl rfl rfl
    · exact Acc.trans (s' := s.ev (.timedOut id)) (.one (.timedOut id) rfl rfl rfl) (Acc.failItem _ id true)
  | delete _ =>
    unfold Channel.delete
    split
    · exact .one .deleted rfl rfl rfl
    · exact .same rfl rfl rfl
  | forceBegin _ => exact .one .forced rfl rfl rfl
  | forceMark _ _ => exact .same rfl rfl rfl
  | forceEnd _ _ _ => exact .same rfl rfl rfl
  | stop _ _ => exact .same rfl rfl rfl

/-- The requests of a step account for the changes of the two counts. -/
theorem step_asks {s s' : Channel.St D} (hs : Channel.Step s s') {evs : List (Ev D)} (hl : s'.log = evs.reverse ++ s.log) :
    s'.enq = (dequeueAsks s s' ++ evs.flatMap asksOf).foldl (upd .enq) s.enq ∧
    s'.run = (dequeueAsks s s' ++ evs.flatMap asksOf).foldl (upd .run) s.run := by
  have other : (s.exec = .called → s'.exec = .called) → s'.enq = (dequeueAsks s s' ++ evs.flatMap asksOf).foldl (upd .enq) s.enq ∧
      s'.run = (dequeueAsks s s' ++ evs.flatMap asksOf).foldl (upd .run) s.run := by
    intro h
    obtain ⟨e2, a, b, c⟩ := step_acc hs h
    have e : e2 = evs := by
      have := List.append_cancel_right (a.symm.trans hl)
      simpa using this
    subst e
    have hd : dequeueAsks s s' = [] := by
      unfold dequeueAsks
      split
      · rename_i h1 h2; have := h h1; simp [h2] at this
      · rename_i h1 h2; have := h h1; simp [h2] at this
      · rfl
    rw [hd]; exact ⟨b, c⟩
  by_cases hc : s.exec = .called
  · rcases step_called hs hc with ⟨g, rfl⟩ | h
    · have hlog : (count s g).log = s.log := by unfold Channel.count; split <;> rfl
      have : evs = [] := by
        rw [hlog] at hl
        have := congrArg List.length hl
        simp at this
        exact this
      subst this
      cases g <;> simp [dequeueAsks, Channel.count, hc, upd]
    · exact other (fun _ => h)
  · exact other (fun h => absurd h hc)

/-- A closed channel without items does nothing with the limiter, except for a dequeue that is under way. -/
theorem step_dead {s s' : Channel.St D} (hs : Channel.Step s s') (hi : s.items = []) (hc : s.closed = true) {evs : List (Ev D)}
    (hl : s'.log = evs.reverse ++ s.log) : evs.flatMap asksOf = [] ∨ ∃ id, evs = [.unsent id false] := by
  have quiet : s'.log = s.log → evs.flatMap asksOf = [] := by
    intro h; rw [h] at hl
    have : evs = [] := by simpa using congrArg List.length hl
    subst this; rfl
  have single : ∀ e, s'.log = e :: s.log → evs = [e] := by
    intro e h; rw [h] at hl
    have : [e] ++ s.log = evs.reverse ++ s.log := hl
    have := List.append_cancel_right this
    have := congrArg List.reverse this
    simpa using this.symm
  cases hs with
  | enqueue r g h => simp [hc] at h
  | ackPassed id h _ => simp [hc] at h
  | ackFailed id h _ => simp [hc] at h
  | heartbeat id h _ => simp [hc] at h
  | notified _ _ => exact .inl (quiet rfl)
  | send _ => exact .inl (quiet rfl)
  | count g he => exact .inl (quiet (by unfold Channel.count; split <;> rfl))
  | pop _ => exact .inl (quiet (by unfold Channel.pop; split <;> rfl))
  | @find id _ =>
    refine .inl (quiet ?_)
    unfold Channel.find
    split
    · rfl
    · simp [hi, lookup]
  | @received id _ _ =>
    by_cases h : s.destroying = true ∧ s.destroyed = false
    · exact .inl (quiet (by simp [Channel.received, h]))
    · have := single (.received id) (by simp [Channel.received, h, St.ev])
      subst this; exact .inl rfl
  | @unsent id _ _ =>
    by_cases h : s.destroying = true ∧ s.destroyed = false
    · exact .inl (quiet (by simp [Channel.unsent, h]))
    · exact .inr ⟨id, single (.unsent id false) (by simp [Channel.unsent, h, St.ev, hi, lookup])⟩
  | spinDone _ => exact .inl (quiet rfl)
  | fire h _ => simp [hi, lookup] at h
  | timeout h _ => simp [hi, lookup] at h
  | delete h => simp [hc] at h
  | forceBegin h => simp [hc] at h
  | forceMark _ _ => exact .inl (quiet rfl)
  | forceEnd _ _ _ => exact .inl (quiet rfl)
  | stop _ _ => exact .inl (quiet rfl)

theorem dead_items {s : Channel.St D} (hi : Channel.Inv s) (hc : s.closed = true) (hd : s.forced = false ∨ s.destroyed = true) : s.items = [] := by
  rcases hd with h | h
  · exact hi.closed hc h
  · exact (hi.destroyed h).2

theorem dead_enq {s s' : Channel.St D} (hi : Channel.Inv s) (hs : Channel.Step s s') (hc : s.closed = true) (hd : s.forced = false ∨ s.destroyed = true)
    {evs : List (Ev D)} (hl : s'.log = evs.reverse ++ s.log) : ∀ a ∈ dequeueAsks s s' ++ evs.flatMap asksOf, a.1 = .run := by
  intro a ha
  rcases List.mem_append.1 ha with h | h
  · unfold dequeueAsks at h
    split at h <;> simp at h <;> rw [h]
  · rcases step_dead hs (dead_items hi hc hd) hc hl with e | ⟨id, rfl⟩
    · rw [e] at h; cases h
    · simp [asksOf] at h; rw [h]

theorem dead_run {s s' : Channel.St D} (hi : Channel.Inv s) (hs : Channel.Step s s') (hc : s.closed = true) (hf : s.forced = false)
    (hn : ∀ id, .unsent id false ∉ s'.log) {evs : List (Ev D)} (hl : s'.log = evs.reverse ++ s.log) :
    dequeueAsks s s' ++ evs.flatMap asksOf = [] := by
  have hit := dead_items hi hc (.inl hf)
  have hd : s.destroyed = false := by
    cases h : s.destroyed with
    | false => rfl
    | true => have := hi.destroying (hi.destroyed h).1; simp [hf] at this
  have hq : s.queue = [] := by
    cases h : s.queue with
    | nil => rfl
    | cons a q => have := hi.queueStored hd a (by simp [h]); simp [hit, keys] at this
  have hx : s.exec ≠ .called := by
    intro h
    have := hi.pending (by simp [h])
    simp [h, hq, Exec.owes] at this
  have h1 : dequeueAsks s s' = [] := by
    unfold dequeueAsks
    split
    · rename_i h _; exact absurd h hx
    · rename_i h _; exact absurd h hx
    · rfl
  rcases step_dead hs hit hc hl with e | ⟨id, rfl⟩
  · rw [h1, e]; rfl
  · exact absurd (by rw [hl]; simp) (hn id)

theorem retry_flags (s : Channel.St D) (id : Nat) (it : Item D) : (retry s id it).forced = s.forced ∧ (retry s id it).closed = s.closed ∧
    (retry s id it).destroyed = s.destroyed := by
  unfold Channel.retry
  simp only
  split
  · exact ⟨rfl, rfl, rfl⟩
  · split
    · split <;> exact ⟨rfl, rfl, rfl⟩
    · unfold Channel.retryBack
      split
      · exact ⟨rfl, rfl, rfl⟩
      · split
        · exact ⟨rfl, rfl, rfl⟩
        · split <;> exact ⟨rfl, rfl, rfl⟩

theorem failItem_flags (s : Channel.St D) (id : Nat) (b : Bool) : (failItem s id b).1.forced = s.forced ∧ (failItem s id b).1.closed = s.closed ∧
    (failItem s id b).1.destroyed = s.destroyed := by
  unfold Channel.failItem
  split
  · exact ⟨rfl, rfl, rfl⟩
  · split
    · exact retry_flags _ _ _
    · exact ⟨rfl, rfl, rfl⟩

/-- Closed stays closed; only an open channel is deleted by force. -/
theorem step_flags {s s' : Channel.St D} (hs : Channel.Step s s') (hc : s.closed = true) : s'.closed = true ∧ s'.forced = s.forced ∧
    (s.destroyed = true → s'.destroyed = true) := by
  have eq : s'.forced = s.forced ∧ s'.closed = s.closed ∧ s'.destroyed = s.destroyed → s'.closed = true ∧ s'.forced = s.forced ∧
      (s.destroyed = true → s'.destroyed = true) := by
    intro ⟨h1, h2, h3⟩; exact ⟨h2 ▸ hc, h1, fun h => h3 ▸ h⟩
  cases hs with
  | enqueue r g h => simp [hc] at h
  | ackPassed id h _ => simp [hc] at h
  | ackFailed id h _ => simp [hc] at h
  | heartbeat id h _ => simp [hc] at h
  | notified _ _ => exact eq ⟨rfl, rfl, rfl⟩
  | send _ => exact eq ⟨rfl, rfl, rfl⟩
  | count g he => apply eq; unfold Channel.count; split <;> exact ⟨rfl, rfl, rfl⟩
  | pop _ => apply eq; unfold Channel.pop; split <;> exact ⟨rfl, rfl, rfl⟩
  | find _ =>
    apply eq; unfold Channel.find
    split
    · exact ⟨rfl, rfl, rfl⟩
    · split
      · exact ⟨rfl, rfl, rfl⟩
      · split <;> exact ⟨rfl, rfl, rfl⟩
  | received _ => apply eq; unfold Channel.received; split <;> exact ⟨rfl, rfl, rfl⟩
  | unsent _ =>
    apply eq; unfold Channel.unsent
    split
    · exact ⟨rfl, rfl, rfl⟩
    · simp only
      split
      · exact ⟨rfl, rfl, rfl⟩
      · unfold giveBack
        split
        · simp only
          split <;> exact ⟨rfl, rfl, rfl⟩
        · exact ⟨rfl, rfl, rfl⟩
  | spinDone _ => exact eq ⟨rfl, rfl, rfl⟩
  | fire _ _ => exact eq ⟨rfl, rfl, rfl⟩
  | timeout _ _ =>
    apply eq; unfold Channel.timeout
    split
    · exact ⟨rfl, rfl, rfl⟩
    · exact failItem_flags _ _ _
  | delete h => simp [hc] at h
  | forceBegin h => simp [hc] at h
  | forceMark _ _ => exact eq ⟨rfl, rfl, rfl⟩
  | forceEnd _ _ _ => exact ⟨hc, rfl, fun _ => rfl⟩
  | stop _ _ => exact eq ⟨rfl, rfl, rfl⟩

theorem live_mono {c : Chan D} {st' : Channel.St D} (hs : Channel.Step c.st st') (h : Chan.live { c with st := st' } = true) : c.live = true := by
  unfold Chan.live at *
  cases hc : c.st.closed with
  | false => simp
  | true =>
    obtain ⟨h1, h2, h3⟩ := step_flags hs hc
    simp only [h1, h2] at h
    cases hf : c.st.forced with
    | false => simp [hf] at h
    | true =>
      cases hd : c.st.destroyed with
      | false => simp
      | true => have := h3 hd; simp [this] at h

end Willow.Queue
