import Verif.Proofs.QueueGate
/-
C55: a consumer that waits against requests on queues.
-/
namespace Willow.Props
open Willow.QueueGate Willow.GateSpec

/-- C55 (partial: while no queue is created or deleted): every request can go on, except a dequeue that waits for an item of an empty queue.
In particular items can always be enqueued. -/
theorem C55_reading_partial {s : QueueGate.St} (hr : GateSpec.Reachable s) (hw : ∀ c ∈ s.calls, c.kind ≠ .write) {i : Nat} {c : Call}
    (hc : s.calls[i]? = some c) (hn : ¬ Answered c) : (∃ s', QueueGate.step s (.go i) = some s') ∨ ∃ q, Waits c q ∧ s.items q = 0 := by
  have hk := hw c (List.mem_of_getElem? hc)
  simp only [Answered, hk, if_false] at hn
  obtain ⟨ls, hr⟩ := hr
  have hb := Bounded.run ls (fun c hc => by simp [QueueGate.St.init] at hc) hr c (List.mem_of_getElem? hc) hk
  simp only [QueueGate.step, hc]
  exact readers_go hw hc (by omega)

/-- A state with a consumer of queue 0 that waits and an item for it that arrives. -/
def gateReading : Option QueueGate.St :=
  QueueGate.run QueueGate.St.init [.arrive (.dequeue 0), .go 0, .go 0, .go 0, .arrive (.enqueue 0), .go 1, .go 1, .go 1]

example : gateReading.any (fun s => s.calls == [⟨.dequeue 0, 3, false⟩, ⟨.enqueue 0, 3, false⟩] && s.items 0 == 0) = true ∧
    (gateReading.bind (fun s => QueueGate.run s [.go 1, .go 1, .go 0, .go 0])).any (fun s => s.calls == [⟨.dequeue 0, 5, false⟩, ⟨.enqueue 0, 5, false⟩]) = true := by
  decide +kernel

/-- C55 fails: once a request to create or delete a queue has the tree while a consumer waits for an item of an empty queue and none is on
its way, then for every continuation in which the consumer's client does not give up: the consumer still waits, the create or delete
is not answered, and no request on any queue that had not begun, or arrives later, gets anywhere. -/
theorem C55_violated_all_stall {s : QueueGate.St} {i j q : Nat} {c d : Call} (hc : s.calls[i]? = some c) (hw : Waits c q)
    (hd : s.calls[j]? = some d) (hk : d.kind = .write) (hp : d.pc = 2 ∨ d.pc = 3) (hi : s.items q = 0) (hu : ∀ x ∈ s.calls, ¬ Underway x q)
    {ls : List QueueGate.Label} (hl : ∀ l ∈ ls, l ≠ .close i) {s' : QueueGate.St} (hr : QueueGate.run s ls = some s') :
    (∃ c', s'.calls[i]? = some c' ∧ Waits c' q) ∧ (∃ d', s'.calls[j]? = some d' ∧ d'.kind = .write ∧ ¬ Answered d') ∧ s'.items q = 0 ∧
    ∀ (n : Nat) (x : Call), s'.calls[n]? = some x → x.kind ≠ .write → (∀ y : Call, s.calls[n]? = some y → y.kind ≠ .write → y.pc = 0) → x.pc = 0 ∧ ¬ Answered x := by
  have h : Stuck s i j q := ⟨⟨c, hc, hw⟩, ⟨d, hd, hk, hp⟩, hi, hu⟩
  have h' := h.run ls hl hr
  obtain ⟨d', hd', hk', hp'⟩ := h'.writer
  refine ⟨h'.cons, ⟨d', hd', hk', by simp only [Answered, hk', if_true]; omega⟩, h'.empty, ?_⟩
  intro n x hx hxk hn
  have := Stuck.idle ls h hl hr hn x hx hxk
  exact ⟨this, by simp [Answered, hxk, this]⟩

/-- The request of a consumer, then that to create another queue, then an item for the consumer. -/
def gateHistory : List QueueGate.Label :=
  [.arrive (.dequeue 0), .go 0, .go 0, .go 0, .arrive .write, .go 1, .go 1, .arrive (.enqueue 0)]

/-- C55 fails: three requests are enough. -/
theorem C55_violated : ∃ s, GateSpec.Reachable s ∧ (∃ c, s.calls[0]? = some c ∧ Waits c 0) ∧ s.calls[1]? = some ⟨.write, 2, false⟩ ∧
    s.calls[2]? = some ⟨.enqueue 0, 0, false⟩ ∧
    ∀ ls s', (∀ l ∈ ls, l ≠ QueueGate.Label.close 0) → QueueGate.run s ls = some s' →
      (∃ c, s'.calls[0]? = some c ∧ Waits c 0) ∧ (∃ d, s'.calls[1]? = some d ∧ ¬ Answered d) ∧
        ∀ x, s'.calls[2]? = some x → x.kind ≠ .write → ¬ Answered x := by
  have hrun : (QueueGate.run QueueGate.St.init gateHistory).any (fun s => s.items 0 == 0 &&
      s.calls == [⟨.dequeue 0, 3, false⟩, ⟨.write, 2, false⟩, ⟨.enqueue 0, 0, false⟩]) = true := by decide +kernel
  rcases hs : QueueGate.run QueueGate.St.init gateHistory with _ | s
  · rw [hs] at hrun; cases hrun
  · rw [hs] at hrun
    simp only [Option.any_some, Bool.and_eq_true, beq_iff_eq] at hrun
    obtain ⟨hi, hc⟩ := hrun
    refine ⟨s, ⟨_, hs⟩, ⟨⟨.dequeue 0, 3, false⟩, by rw [hc]; rfl, rfl, rfl, rfl⟩, by rw [hc]; rfl, by rw [hc]; rfl, ?_⟩
    intro ls s' hl hr
    obtain ⟨h1, ⟨d, h2, _, h3⟩, _, h4⟩ := C55_violated_all_stall (s := s) (i := 0) (j := 1) (q := 0) (c := ⟨.dequeue 0, 3, false⟩) (d := ⟨.write, 2, false⟩)
      (by rw [hc]; rfl) ⟨rfl, rfl, rfl⟩ (by rw [hc]; rfl) rfl (.inl rfl) hi
      (by rw [hc]; intro x hx; simp at hx; rcases hx with rfl | rfl | rfl <;> simp [Underway]) hl hr
    exact ⟨h1, ⟨d, h2, h3⟩, fun x hx hk => (h4 2 x hx hk (by rw [hc]; intro y hy _; simp at hy; subst hy; rfl)).2⟩

/-- The consumer's client giving up is what ends it. -/
example : ((QueueGate.run QueueGate.St.init gateHistory).bind (fun s => QueueGate.run s
      [.close 0, .go 0, .go 0, .go 1, .go 1, .go 1, .go 1, .go 2, .go 2, .go 2, .go 2, .go 2])).any
    (fun s => s.calls == [⟨.dequeue 0, 5, true⟩, ⟨.write, 6, false⟩, ⟨.enqueue 0, 5, false⟩]) = true := by decide +kernel

end Willow.Props
