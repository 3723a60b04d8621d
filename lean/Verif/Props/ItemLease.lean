import Verif.Proofs.ItemLeaseCode
/-
Properties C72, C73 and C78: the item objects of consumers against the item on the server (pkg/clients/willow_client/item.go,
internal/willow/brokers/queue_channels/memory/memory_queue_channel.go, internal/heartbeater/heartbeater.go).

`ItemLease.Reach hdr T s`: `s` is reachable by any interleaving with any delays, for an item with timeout `T`.  `hdr` says whether the
heartbeat requests have a Content-Type header; **the code is `hdr = false`** (item.go:91-100), and the service answers 400 to requests
without one (internal/middleware/encoder.go:14-21).  The theorems with `hdr = true` say what remains wrong once the header is added.
`ItemLease.ReachWith hdr T (Timely D R E) s`: reachable with the delays of deliveries (`D`), of heartbeat requests (`R`) and of the
consumers' goroutines (`E`) bounded in every state on the way, no old tick left in the server's ticker and no consumer acknowledging
the item while another one has it.  Requests may fail at any time.
-/
namespace Willow.Props
open ItemLease ItemLeaseSpec

/-- C72, the part that holds.  If a delivery and a heartbeat together never take more than a tenth of the timeout, a consumer learns
that the item was delivered again within a fifth of the timeout and the delays (`T - T/10` and a period of a third of it, which is
`6/5 T`, minus `T`).
Missing for the full property: it fails with longer delays, and even with short ones the consumer learns too late (below). -/
theorem C72_bounded_overlap_partial (hdr : Bool) (T D R E : Nat) (hT : max D R + R ≤ T / 10) (s : ItemLease.St)
    (h : ItemLease.ReachWith hdr T (ItemLease.Timely D R E) s) (x y : Nat) (hx : Believes s x) (hy : DeliveredAfter s x y) :
    s.now + T < deliveredAt s y + (T - T / 10) + (T - T / 10) / 3 + max D R + R + E := by
  obtain ⟨ht, ok, hI⟩ := timely_inv (by unfold adjusted; omega) h
  obtain ⟨tg, ts, ta, tr, tn⟩ := ItemLease.timely_facts hI ht
  unfold Believes at hx
  have h1 := hI.later x y hy.1 hy.2 (.inr hx)
  obtain ⟨a1, a2, a2', a3, a4, a5, a6, a7, a8⟩ := hI.cli x
  have h2 := a2 hx
  have h3 := a3 hx
  have h4 := a4 hx
  unfold deliveredAt
  have e1 : adjusted T = T - T / 10 := rfl
  have e2 : ItemLease.period T = (T - T / 10) / 3 := rfl
  cases hc : (s.cli x).call with
  | idle => have := tr x hx hc; omega
  | sent t => have := ts x t hx hc; have := a6 t hx hc; omega
  | answered c t => have := ta x t c hx hc; have := a7 t c hx hc; omega

/-- C72, still violated if the header is added.  With requests that take at most 1, an item with any timeout `T = 100k` can be with two consumers for almost a fifth of
its timeout: the first consumer looks at the time of its last heartbeat only at its ticks. -/
theorem C72_with_header_fifth (k : Nat) (hk : 0 < k) : ∃ s, ItemLease.ReachWith true (100 * k) (ItemLease.Timely 0 1 0) s ∧
    Believes s 0 ∧ Believes s 1 ∧ DeliveredAfter s 0 1 ∧ s.owner = some 1 ∧ s.now + 1 = deliveredAt s 1 + 20 * k := by
  have hn : ∀ n, CliPrompt 0 1 0 n noCli := fun n => by simp [CliPrompt, noCli]
  have hp := ItemLease.period_100 k
  have ha := adjusted_100 k
  have r0 := run_prefix k 1 hk (Nat.le_refl 1)
  have r1 := two_fail0 (two_tick0 r0 rfl rfl rfl (by simp; omega) (hn _)) rfl (by simp) (hn _)
  have r2 := two_wait (10 * k) r1 (by simp [CliPrompt, hp]; omega) (hn _)
  have e1 : 120 * k + 10 * k = 130 * k := by omega
  rw [e1] at r2
  have r3 := run_second hk r2 (by simp [CliPrompt, hp]; omega)
  have r4 := two_wait (20 * k - 1) r3 (by simp [CliPrompt, hp]; omega) (by simp [CliPrompt]; omega)
  refine ⟨_, r4, rfl, rfl, ⟨by decide, by simp [two]⟩, rfl, ?_⟩
  simp [deliveredAt, two]; omega

/-- C72, still violated if the header is added.  A heartbeat names the item and not the delivery.  If one heartbeat of the first consumer takes a tenth of the
timeout, it can renew the delivery to the second one; then both consumers send heartbeats that are all answered with 200 at once, and
both believe forever: for every number of periods `n`. -/
theorem C72_with_header_shared_heartbeats (k : Nat) (hk : 0 < k) (n : Nat) :
    ∃ s, ItemLease.ReachWith true (100 * k) (ItemLease.Timely 0 (10 * k) 0) s ∧
      Believes s 0 ∧ Believes s 1 ∧ DeliveredAfter s 0 1 ∧ s.owner = some 1 ∧ s.now = deliveredAt s 1 + n * (30 * k) := by
  have hn : ∀ n, CliPrompt 0 (10 * k) 0 n noCli := fun n => by simp [CliPrompt, noCli]
  have hp := ItemLease.period_100 k
  have ha := adjusted_100 k
  have main : ∀ n, ∃ dl l0 s0 n0 l1 s1, 130 * k + n * (30 * k) + 20 * k < dl ∧ 130 * k + n * (30 * k) ≤ l0 + 10 * k ∧
      130 * k + n * (30 * k) ≤ l1 ∧
      ItemLease.ReachWith true (100 * k) (ItemLease.Timely 0 (10 * k) 0) (two (130 * k + n * (30 * k)) (some 1) true dl 2
        ⟨.holding, 0, 130 * k + n * (30 * k) + 20 * k, l0, s0, .idle, n0⟩
        ⟨.holding, 130 * k, 130 * k + n * (30 * k) + 30 * k, l1, s1, .idle, 0⟩) := by
    intro n
    induction n with
    | zero =>
      have r0 := run_prefix k (10 * k) hk (by omega)
      have r1 := two_tick0 r0 rfl rfl rfl (by simp; omega) (hn _)
      have r2 := two_wait (10 * k) r1 (by simp [CliPrompt]) (hn _)
      have e1 : 120 * k + 10 * k = 130 * k := by omega
      rw [e1] at r2
      have r3 := run_second hk r2 (by simp [CliPrompt]; omega)
      have r4 := two_handle0 r3 rfl (by omega) (by simp [CliPrompt]; omega) (by simp [CliPrompt]; omega)
      have r5 := two_receive0 r4 rfl rfl (by simp [CliPrompt]; omega)
      have e2 : 120 * k + ItemLease.period (100 * k) = 130 * k + 0 * (30 * k) + 20 * k := by omega
      have e3 : 160 * k = 130 * k + 0 * (30 * k) + 30 * k := by omega
      have e4 : 130 * k = 130 * k + 0 * (30 * k) := by omega
      simp only [e2, e3] at r5
      refine ⟨130 * k + 100 * k, 130 * k, 130 * k, 2, 130 * k, 130 * k, by omega, by omega, by omega, ?_⟩
      simpa using r5
    | succ n ih =>
      obtain ⟨dl, l0, s0, n0, l1, s1, h1, h2, h3, h4⟩ := ih
      have := run_loop hk h1 h2 h3 h4
      have e : 130 * k + n * (30 * k) + 30 * k = 130 * k + (n + 1) * (30 * k) := by rw [Nat.add_mul]; omega
      rw [e] at this
      exact ⟨_, _, _, _, _, _, by omega, by omega, by omega, this⟩
  obtain ⟨dl, l0, s0, n0, l1, s1, h1, h2, h3, h4⟩ := main n
  exact ⟨_, h4, rfl, rfl, ⟨by decide, by simp [two]⟩, rfl, rfl⟩

/-- A run that meets the hypotheses of the bound: timeout 100, delays 0, 1 and 0, the item is with a second consumer since 130 and the
first one believes until 149. -/
example : ∃ s, ItemLease.ReachWith true 100 (ItemLease.Timely 0 1 0) s ∧ Believes s 0 ∧ DeliveredAfter s 0 1 := by
  obtain ⟨s, h1, h2, _, h3, _⟩ := C72_with_header_fifth 1 (by decide)
  exact ⟨s, h1, h2, h3⟩

/-- C72, the part that holds of the code.  If `T - T/10` is a multiple of 3 (such as every `T = 10k`) and the delays of the delivery,
of a heartbeat and of the consumer's goroutine together stay below a tenth of the timeout, a consumer that believes the item is its own
is the last one it was delivered to.
Missing for the full property: other timeouts, longer delays and ACKs of items that were delivered to somebody else meanwhile (below). -/
theorem C72_no_overlap_partial (T D R E : Nat) (h3 : (T - T / 10) % 3 = 0) (hd : D + R + E < T / 10) (s : ItemLease.St)
    (h : ItemLease.ReachWith false T (fun s => ItemLease.Prompt D R E s ∧ s.foreignAck = false) s) (x y : Nat) (hx : Believes s x) :
    ¬ DeliveredAfter s x y := by
  intro hy
  have hp : ItemLease.period T ≠ 0 := by unfold ItemLease.period adjusted; omega
  have h1 := believes_bound hp h hx
  obtain ⟨hi, -⟩ := code_inv hp h
  have h2 := hi.later x y hy.1 hy.2 (.inr hx)
  have h4 := hi.now y
  have h5 : nextBound T = adjusted T := by unfold nextBound ItemLease.period; rw [if_pos]; unfold adjusted; omega
  rw [h5] at h1
  unfold adjusted at h1
  omega

/-- A run that meets the hypotheses: timeout 100 and no delays; the item is delivered twice, and the second consumer believes after a
heartbeat. -/
example : ∃ s, ItemLease.ReachWith false 100 (fun s => ItemLease.Prompt 0 0 0 s ∧ s.foreignAck = false) s ∧ Believes s 1 ∧
    ¬ Believes s 0 ∧ DeliveredAfter s 0 1 ∧ (s.cli 1).call ≠ .idle := by
  obtain ⟨s, hs, hf⟩ := ItemLease.exec_reach (T := 100) (P := fun s => ItemLease.Prompt 0 0 0 s ∧ s.foreignAck = false)
    [.deliver, .start, .delivered 0, .wait 30, .tick 0, .reject 0, .receive 0, .wait 30, .tick 0, .reject 0, .receive 0, .wait 30, .tick 0,
     .wait 10, .expire, .deliver, .start, .delivered 1, .wait 30, .tick 1]
    (fun s => decide ((s.cli 1).phase = .holding ∧ (s.cli 0).phase = .done ∧ s.next = 2 ∧ (s.cli 1).call ≠ .idle)) (by decide +kernel)
  simp only [decide_eq_true_eq] at hf
  exact ⟨s, hs, hf.1, by unfold Believes; rw [hf.2.1]; decide, ⟨by decide, by omega⟩, hf.2.2.2⟩

/-- C72, violated.  The consumer looks at the time of its last heartbeat only at its ticks, whose period is rounded down: with timeout
101 and no delays at all the item is with two consumers for almost a fifth of the timeout. -/
theorem C72_violated_rounding : ∃ s, ItemLease.ReachWith false 101 (ItemLease.Timely 0 0 0) s ∧
    Believes s 0 ∧ Believes s 1 ∧ DeliveredAfter s 0 1 ∧ s.owner = some 1 ∧ s.now = deliveredAt s 1 + 18 := by
  obtain ⟨s, hs, hf⟩ := ItemLease.exec_reach (T := 101) (P := fun s => ItemLease.Prompt 0 0 0 s ∧ s.stale = false ∧ s.foreignAck = false)
    [.deliver, .start, .delivered 0, .wait 30, .tick 0, .reject 0, .receive 0, .wait 30, .tick 0, .reject 0, .receive 0, .wait 30, .tick 0,
     .reject 0, .receive 0, .wait 11, .expire, .deliver, .start, .delivered 1, .wait 18]
    (fun s => decide ((s.cli 0).phase = .holding ∧ (s.cli 1).phase = .holding ∧ s.next = 2 ∧
      s.owner = some 1 ∧ s.now = (s.cli 1).delivered + 18)) (by decide +kernel)
  simp only [decide_eq_true_eq] at hf
  exact ⟨s, hs, hf.1, hf.2.1, ⟨by decide, by omega⟩, hf.2.2.2.1, hf.2.2.2.2⟩

/-- C72, violated.  The consumer counts from the moment the answer to its dequeue request arrives: if that takes 30 of a timeout of 100,
it believes until 120. -/
theorem C72_violated_late_answer : ∃ s, ItemLease.ReachWith false 100 (ItemLease.Timely 30 0 0) s ∧
    Believes s 0 ∧ Believes s 1 ∧ DeliveredAfter s 0 1 ∧ s.owner = some 1 ∧ s.now = deliveredAt s 1 + 19 := by
  obtain ⟨s, hs, hf⟩ := ItemLease.exec_reach (T := 100) (P := fun s => ItemLease.Prompt 30 0 0 s ∧ s.stale = false ∧ s.foreignAck = false)
    [.deliver, .start, .wait 30, .delivered 0, .wait 30, .tick 0, .reject 0, .receive 0, .wait 30, .tick 0, .reject 0, .receive 0, .wait 10,
     .expire, .deliver, .start, .delivered 1, .wait 19]
    (fun s => decide ((s.cli 0).phase = .holding ∧ (s.cli 1).phase = .holding ∧ s.next = 2 ∧
      s.owner = some 1 ∧ s.now = (s.cli 1).delivered + 19)) (by decide +kernel)
  simp only [decide_eq_true_eq] at hf
  exact ⟨s, hs, hf.1, hf.2.1, ⟨by decide, by omega⟩, hf.2.2.2.1, hf.2.2.2.2⟩

/-- C72, violated.  An ACK also names the item and not the delivery: without any delay of deliveries, heartbeats and goroutines, the
late ACK of a first consumer ends the delivery to a second one, and the item is given to a third while the second believes. -/
theorem C72_violated_foreign_ack : ∃ s, ItemLease.ReachWith false 100 (ItemLease.Prompt 0 0 0) s ∧ s.stale = false ∧
    Believes s 1 ∧ Believes s 2 ∧ DeliveredAfter s 1 2 ∧ s.owner = some 2 ∧ s.now = deliveredAt s 2 + 29 := by
  obtain ⟨s, hs, hf⟩ := ItemLease.exec_reach (T := 100) (P := ItemLease.Prompt 0 0 0)
    [.deliver, .start, .delivered 0, .wait 10, .ack 0, .wait 90, .expire, .deliver, .start, .delivered 1, .acked 0,
     .deliver, .start, .delivered 2, .wait 29]
    (fun s => decide (s.stale = false ∧ (s.cli 1).phase = .holding ∧ (s.cli 2).phase = .holding ∧ s.next = 3 ∧
      s.owner = some 2 ∧ s.now = (s.cli 2).delivered + 29)) (by decide +kernel)
  simp only [decide_eq_true_eq] at hf
  exact ⟨s, hs, hf.1, hf.2.1, hf.2.2.1, ⟨by decide, by omega⟩, hf.2.2.2.2.1, hf.2.2.2.2.2⟩

/-- C73, the part that holds.  With a timeout of at least 3 nanoseconds no item object panics, if Done is never closed while a
heartbeat request is under way. -/
theorem C73_no_crash_partial (hdr : Bool) (T : Nat) (hT : 3 ≤ T) (s : ItemLease.St)
    (h : ItemLease.ReachWith hdr T (fun s => ∀ x, (s.cli x).phase = .done → (s.cli x).call = .idle) s) (x : Nat) :
    (s.cli x).phase ≠ .crashed :=
  (no_crash (by unfold ItemLease.period adjusted; omega) h).2 x

/-- The hypothesis is met by a run in which a consumer has the item. -/
example : ∃ s, ItemLease.ReachWith false 100 (fun s => ∀ x, (s.cli x).phase = .done → (s.cli x).call = .idle) s ∧ Believes s 0 := by
  refine ⟨_, .step (.step .init (.deliver _ rfl) ?_) (.delivered _ 0 rfl) ?_, rfl⟩
  · intro x; simp only [ItemLease.St.deliver]; split <;> simp [ItemLease.init, noCli]
  · intro x; simp only [ItemLease.St.set]; split
    · decide
    · simp only [ItemLease.St.deliver]; split <;> simp [ItemLease.init, noCli]

/-- C73, violated.  A heartbeat request that fails after ACK was called makes the consumer's process panic: the code goes on to use the
missing response. -/
theorem C73_violated_ack_during_heartbeat : ∃ s, ItemLease.Reach false 100 s ∧ (s.cli 0).phase = .crashed := by
  obtain ⟨s, hs, hf⟩ := ItemLease.exec_reach (T := 100) (P := fun _ => True)
    [.deliver, .start, .delivered 0, .wait 30, .tick 0, .ack 0, .failDone 0]
    (fun s => decide ((s.cli 0).phase = .crashed)) (by decide +kernel)
  exact ⟨s, hs, of_decide_eq_true hf⟩

/-- C73, violated.  An item with a timeout below 3 nanoseconds makes the consumer's process panic. -/
theorem C73_violated_tiny_timeout (T : Nat) (hT : T < 3) : ∃ s, ItemLease.Reach false T s ∧ (s.cli 0).phase = .crashed := by
  refine ⟨_, .step (.step .init (.deliver _ rfl) trivial) (.delivered _ 0 rfl) trivial, ?_⟩
  have : ItemLease.period T = 0 := by unfold ItemLease.period adjusted; omega
  simp [ItemLease.St.deliver, ItemLease.St.set, ItemLease.Cli.start, this, ItemLease.init]

/-- C78, violated by every run: no heartbeat of an item is ever answered with 200. -/
theorem C78_violated_never_answered_200 (T : Nat) (s : ItemLease.St) (h : ItemLease.Reach false T s) (x t : Nat) :
    (s.cli x).call ≠ .answered .ok t :=
  (never_ok h).1 x t

/-- C78, violated by every run: whatever heartbeats the consumer sends, as long as the delivery goes on its deadline stays where it was
when the delivery began. -/
theorem C78_violated_never_renewed (T : Nat) (s s' : ItemLease.St) (x : Nat) (hr : ItemLease.Reach false T s) (ho : s.owner = some x)
    (hs : s.started = true) (h : ItemLease.Later false T s s') (ho' : s'.owner = some x) : s'.deadline = s.deadline :=
  ((deadline_fixed h (owner_next hr ho) ho hs).2 ho').2.1

/-- C78, violated by every run: no consumer believes for longer than the adjusted timeout and one period (6/5 of the timeout) and the
delays after the delivery, however many heartbeats it sends. -/
theorem C78_violated_gives_up (T D R E : Nat) (hT : 3 ≤ T) (s : ItemLease.St)
    (h : ItemLease.ReachWith false T (fun s => ItemLease.Prompt D R E s ∧ s.foreignAck = false) s) (x : Nat) (hx : Believes s x) :
    s.now ≤ deliveredAt s x + D + (T - T / 10) + max ((T - T / 10) / 3) R + E := by
  have hp : ItemLease.period T ≠ 0 := by unfold ItemLease.period adjusted; omega
  have h1 := believes_bound hp h hx
  have h2 : nextBound T ≤ adjusted T + ItemLease.period T := by unfold nextBound; split <;> omega
  unfold ItemLease.period adjusted at h2
  unfold adjusted at h1
  unfold deliveredAt
  omega

/-- C78, violated.  A consumer whose heartbeats are all sent in time and answered at once gives up after nine tenths of the timeout while the
item is still its own; a tenth later the item expires and goes to somebody else. -/
theorem C78_violated_run : ∃ s₁ s₂, ItemLease.ReachWith false 100 (ItemLease.Timely 0 0 0) s₁ ∧ ¬ Believes s₁ 0 ∧ s₁.owner = some 0 ∧
    s₁.now = deliveredAt s₁ 0 + 90 ∧ ItemLease.Later false 100 s₁ s₂ ∧ s₂.owner = some 1 ∧ Believes s₂ 1 ∧ s₂.now = deliveredAt s₁ 0 + 100 := by
  obtain ⟨s, hs, hf⟩ := ItemLease.exec_reach (T := 100) (P := fun s => ItemLease.Prompt 0 0 0 s ∧ s.stale = false ∧ s.foreignAck = false)
    [.deliver, .start, .delivered 0, .wait 30, .tick 0, .reject 0, .receive 0, .wait 30, .tick 0, .reject 0, .receive 0, .wait 30, .tick 0]
    (fun s => decide ((s.cli 0).phase = .done ∧ s.owner = some 0 ∧ s.now = (s.cli 0).delivered + 90 ∧
      ((ItemLease.exec 100 (fun _ => True) s [.wait 10, .expire, .deliver, .start, .delivered 1]).any fun s' =>
        decide (s'.owner = some 1 ∧ (s'.cli 1).phase = .holding ∧ s'.now = (s.cli 0).delivered + 100)) = true)) (by decide +kernel)
  simp only [decide_eq_true_eq] at hf
  obtain ⟨h1, h2, h3, h4⟩ := hf
  cases he : ItemLease.exec 100 (fun _ => True) s [.wait 10, .expire, .deliver, .start, .delivered 1] with
  | none => rw [he] at h4; simp at h4
  | some s' =>
    rw [he] at h4
    simp only [Option.any_some, decide_eq_true_eq] at h4
    exact ⟨s, s', hs, by unfold Believes; rw [h1]; decide, h2, h3, exec_later he, h4.1, h4.2.1, h4.2.2⟩

/-- C78, the part that holds.  Until the timeout of the delivery has passed, the item is not taken away from a consumer that has not
given up. -/
theorem C78_first_timeout_partial (T D R E : Nat) (hT : 3 ≤ T) (s : ItemLease.St)
    (h : ItemLease.ReachWith false T (fun s => ItemLease.Prompt D R E s ∧ s.foreignAck = false) s) (x : Nat) (hx : Believes s x)
    (hn : s.now < deliveredAt s x + T) : s.owner = some x := by
  have hp : ItemLease.period T ≠ 0 := by unfold ItemLease.period adjusted; omega
  obtain ⟨hi, -⟩ := code_inv hp h
  apply Classical.byContradiction
  intro ho
  have := hi.lost x (.inr hx) ho
  unfold deliveredAt at hn
  omega

/-- A run that meets the hypotheses, in which a heartbeat was answered. -/
example : ∃ s, ItemLease.ReachWith false 100 (fun s => ItemLease.Prompt 0 0 0 s ∧ s.foreignAck = false) s ∧ Believes s 0 ∧
    s.now = deliveredAt s 0 + 30 ∧ (s.cli 0).since = 30 := by
  obtain ⟨s, hs, hf⟩ := ItemLease.exec_reach (T := 100) (P := fun s => ItemLease.Prompt 0 0 0 s ∧ s.foreignAck = false)
    [.deliver, .start, .delivered 0, .wait 30, .tick 0, .reject 0, .receive 0]
    (fun s => decide ((s.cli 0).phase = .holding ∧ s.now = (s.cli 0).delivered + 30 ∧ (s.cli 0).since = 30)) (by decide +kernel)
  simp only [decide_eq_true_eq] at hf
  exact ⟨s, hs, hf⟩

end Willow.Props
