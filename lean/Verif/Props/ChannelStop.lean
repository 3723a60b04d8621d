import Verif.Proofs.ChannelStop
/-
Property C94: willow can be stopped.

One channel, with the consumers that wait for it and the calls on its items; the service ends when all its channels returned and all
requests were answered.  `Reach s`: `s` is a situation of the channel after any history; `Worked s n s'`: `n` things happened inside the
service, nothing arrived; `Later s s'`: `s'` is any later situation.
-/
namespace Willow.Props
open ChanStop (Worked Later Rests AllEnded Over Hangs)

/-- An item was delivered and is being processed, another consumer waits, a second item is in the queue; the service is told to stop. -/
def exChStop : ChanStop.St := { down := true, hbs := [.running], waiting := 1, pending := 1 }

/-- Before the consumers came. -/
theorem exCh_delivered : ChanStop.Reach { hbs := [.running] } :=
  .work (.work (.work (.work (.work (.work (.ask (.ask .init (.enqueue rfl)) .consumer) (.notified rfl (by decide)))
    (.send rfl (by decide))) (.count rfl)) (.pop rfl rfl)) (.accepted rfl rfl)) (.received 0 .waitStart rfl rfl rfl)

theorem exChStop_reach : ChanStop.Reach exChStop := .ask (.ask (.ask exCh_delivered (.enqueue rfl)) .consumer) .shutdown

/-- What can happen inside the service without anything arriving is bounded, but for dequeues that the limiter refuses and that are
tried again. -/
theorem C94_bounded (s : ChanStop.St) : ∃ N, ∀ n s', Worked s n s' → n ≤ N + 4 * (s'.refusals - s.refusals) :=
  ⟨ChanStop.mu s, fun _ _ h => by have := ChanStop.mu_worked h; omega⟩

example : ∃ s', Worked exChStop 5 s' ∧ s'.exec = .called ∧ s'.hbs = [.done] ∧ s'.mgr = .returned ∧ s'.refusals = exChStop.refusals :=
  ⟨_, .step (.step (.step (.step (.step (.refl _) (.notified rfl (by decide))) (.send rfl (by decide))) (.hbStops 0 rfl rfl))
    (.refuses rfl rfl)) (.drained rfl (by decide)), rfl, rfl, rfl, rfl⟩

/-- Told to stop, a channel in which nothing happens any more came to its end, or it hangs in one of two ways: there are no others. -/
theorem C94_ended_or_hangs {s : ChanStop.St} (hr : ChanStop.Reach s) (hd : s.down = true) (hb : Rests s) : AllEnded s ∨ Hangs s := by
  by_cases hs : s.stuck = []
  · exact .inl (ChanStop.rests_ended (ChanStop.inv_of_reach hr) hd hs hb)
  · exact .inr (ChanStop.hangs_iff.2 (ChanStop.stuck_reason hr hs))

/-- Such situations are reached, and ones in which a call hangs. -/
example : (∃ s, ChanStop.Reach s ∧ s.down = true ∧ Rests s ∧ AllEnded s) ∧ ∃ s, ChanStop.Reach s ∧ s.down = true ∧ Rests s ∧ Hangs s := by
  constructor
  · obtain ⟨s', n, hw, hb⟩ := ChanStop.reach_rest (ChanStop.mu exChStop) exChStop (Nat.le_refl _)
    have hr := ChanStop.worked_reach exChStop_reach hw
    have hb := ChanStop.rest_of_no_refusal hb
    obtain ⟨h1, h2, -⟩ := ChanStop.worked_facts hw
    exact ⟨s', hr, h2, hb, ChanStop.rests_ended (ChanStop.inv_of_reach hr) h2 h1 hb⟩
  · let s0 := ChanStop.call { exChStop with hbs := [.firing] } .failed 0 .firing
    have hr0 : ChanStop.Reach s0 := .ask (.work exChStop_reach (.fires 0 rfl)) (.call .failed 0 .firing rfl)
    obtain ⟨s', n, hw, hb⟩ := ChanStop.reach_rest (ChanStop.mu s0) s0 (Nat.le_refl _)
    obtain ⟨h1, h2, -⟩ := ChanStop.worked_facts hw
    exact ⟨s', ChanStop.worked_reach hr0 hw, h2, ChanStop.rest_of_no_refusal hb,
      ChanStop.hangs_iff.2 (ChanStop.stuck_reason (ChanStop.worked_reach hr0 hw) (by rw [h1]; decide))⟩

/-- If no ACK or heartbeat waits inside the channel when it is told to stop, and none arrives after that, then the channel can come to its
end, and wherever it rests, it has: the waiting consumers were answered, the deliveries in progress were completed, all goroutines returned.
Missing for C94: calls that meet a timeout or come before the delivery is completed (`C94_violated_hangs`). -/
theorem C94_stop_completes_partial {s : ChanStop.St} (hr : ChanStop.Reach s) (hd : s.down = true) (hs : s.stuck = []) :
    (∃ n s', Worked s n s' ∧ AllEnded s') ∧ ∀ n s', Worked s n s' → Rests s' → AllEnded s' := by
  have key : ∀ n s', Worked s n s' → Rests s' → AllEnded s' := fun n s' hw hb => by
    obtain ⟨h1, h2, -⟩ := ChanStop.worked_facts hw
    exact ChanStop.rests_ended (ChanStop.inv_of_reach (ChanStop.worked_reach hr hw)) (h2.trans hd) (h1.trans hs) hb
  obtain ⟨s', n, hw, hb⟩ := ChanStop.reach_rest (ChanStop.mu s) s (Nat.le_refl _)
  exact ⟨⟨n, s', hw, key n s' hw (ChanStop.rest_of_no_refusal hb)⟩, key⟩

example : ChanStop.Reach exChStop ∧ exChStop.down = true ∧ exChStop.stuck = [] ∧ ¬ AllEnded exChStop :=
  ⟨exChStop_reach, rfl, rfl, fun h => absurd h.1 (by decide)⟩

/-- The same for a channel that is deleted while the service goes on. -/
theorem C94_deleted_completes_partial {s : ChanStop.St} (hr : ChanStop.Reach s) (hd : s.deleted = true) (hs : s.stuck = []) :
    (∃ n s', Worked s n s' ∧ Over s') ∧ ∀ n s', Worked s n s' → Rests s' → Over s' := by
  have key : ∀ n s', Worked s n s' → Rests s' → Over s' := fun n s' hw hb => by
    obtain ⟨h1, -, h2⟩ := ChanStop.worked_facts hw
    exact ChanStop.rests_over (ChanStop.inv_of_reach (ChanStop.worked_reach hr hw)) (.inr (h2.trans hd)) (h1.trans hs) hb
  obtain ⟨s', n, hw, hb⟩ := ChanStop.reach_rest (ChanStop.mu s) s (Nat.le_refl _)
  exact ⟨⟨n, s', hw, key n s' hw (ChanStop.rest_of_no_refusal hb)⟩, key⟩

/-- The channel of a delivered item is deleted by force. -/
def exChDeleted : ChanStop.St := { deleted := true, hbs := [.done], waiting := 1 }

theorem exChDeleted_reach : ChanStop.Reach exChDeleted := .ask (.ask (.ask exCh_delivered .delete) (.call .passed 0 .running rfl)) .consumer

example : ChanStop.Reach exChDeleted ∧ exChDeleted.deleted = true ∧ exChDeleted.stuck = [] ∧ ¬ Over exChDeleted :=
  ⟨exChDeleted_reach, rfl, rfl, fun h => absurd h.1 (by decide)⟩

/-- **C94 is violated**: a channel that hangs goes on hanging whatever arrives and happens: neither `Execute` nor the manager of its heartbeats
returns, so that the service never ends, and the calls that wait are never answered. -/
theorem C94_violated_hangs {s s' : ChanStop.St} (hr : ChanStop.Reach s) (hh : Hangs s) (h : Later s s') :
    Hangs s' ∧ s'.exec ≠ .returned ∧ s'.mgr ≠ .returned ∧ ∀ c ∈ s.stuck, c ∈ s'.stuck := by
  obtain ⟨h1, h2, h3⟩ := ChanStop.hangs_later hr hh h
  exact ⟨h1, h2, h3, ChanStop.stuck_later h⟩

/-- Every kind of call that comes when the timeout of its item has fired and has not been processed leads there, before or after the stop. -/
theorem C94_violated_call_meets_timeout {s s' : ChanStop.St} (hr : ChanStop.Reach s) (k : ChanStop.Kind) {i : Nat}
    (hf : s.hbs[i]? = some .firing) (h : Later (ChanStop.call s k i .firing) s') : s'.exec ≠ .returned := by
  have hr' : ChanStop.Reach (ChanStop.call s k i .firing) := .ask hr (.call k i .firing hf)
  have e : ChanStop.call s k i .firing = { s with stuck := s.stuck ++ [⟨k, i⟩] } := by simp [ChanStop.call, ChanStop.waits]
  refine (ChanStop.hangs_later hr' (.timeout ⟨k, i⟩ ?_ ?_) h).2.1
  · rw [e]; simp
  · rw [e]; exact hf

example : ∃ s, ChanStop.Reach s ∧ s.down = true ∧ s.hbs[0]? = some .firing ∧ Hangs (ChanStop.call s .passed 0 .firing) :=
  ⟨{ exChStop with hbs := [.firing] }, .work exChStop_reach (.fires 0 rfl), rfl, rfl, .timeout ⟨.passed, 0⟩ (by decide) rfl⟩

/-- A heartbeat that comes before the delivery of its item is completed leads there too. -/
theorem C94_violated_early_heartbeat {s s' : ChanStop.St} (hr : ChanStop.Reach s) {i : Nat}
    (hf : s.hbs[i]? = some .waitStart) (h : Later (ChanStop.call s .beat i .waitStart) s') : s'.exec ≠ .returned := by
  have hr' : ChanStop.Reach (ChanStop.call s .beat i .waitStart) := .ask hr (.call .beat i .waitStart hf)
  have e : ChanStop.call s .beat i .waitStart = { s with stuck := s.stuck ++ [⟨.beat, i⟩] } := by simp [ChanStop.call, ChanStop.waits]
  refine (ChanStop.hangs_later hr' (.early ⟨.beat, i⟩ ?_ ?_ ?_) h).2.1
  · rw [e]; simp
  · rw [e]; exact hf
  · rw [e]; exact (ChanStop.inv_of_reach hr).start i hf

example : ∃ s, ChanStop.Reach s ∧ s.hbs[0]? = some .waitStart :=
  ⟨_, .work (.work (.work (.work (.work (.ask (.ask .init (.enqueue rfl)) .consumer) (.notified rfl (by decide)))
    (.send rfl (by decide))) (.count rfl)) (.pop rfl rfl)) (.accepted rfl rfl), rfl⟩

/-- An item that is handed out after the manager of the heartbeats noticed the stop is watched by nobody: no heartbeat process belongs to it. -/
theorem C94_unwatched {s s' : ChanStop.St} (hm : s.mgr ≠ .accepts) (h : ChanStop.Work s s') (i : Nat) (he : s'.exec = .handed (some i)) :
    s.exec = .handed (some i) := by
  cases h <;> simp_all

example : ∃ s s', ChanStop.Reach s ∧ s.mgr ≠ .accepts ∧ ChanStop.Work s s' ∧ s'.exec = .handed none :=
  ⟨_, _, .work (.work (.work (.work (.work exChStop_reach (.notified rfl (by decide))) (.send rfl (by decide))) (.count rfl)) (.pop rfl rfl))
    (.refuses rfl rfl), by decide, .unwatched rfl (by decide), rfl⟩

end Willow.Props
