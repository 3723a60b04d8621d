import Verif.Proofs.Lease
/-
Properties C58 and C71: the lock objects of the clients against the lock of the server (pkg/clients/locker_client/lock.go,
internal/locker/lock_manager/exclusive_lock.go).

`Lease.Reach s`: `s` is reachable by any interleaving with any delays.  `Lease.ReachWith (Timely D R E) s`: reachable with the delays
of the grant (`D`), of heartbeat requests (`R`) and of the client's goroutine (`E`) bounded in every state on the way, and no old
tick left in the server's ticker.
-/
namespace Willow.Props
open Lease LeaseSpec

/-- C58, the part that holds.  If the delays are bounded, a client learns that its lock was granted to someone else within the sum of
the delays: the overlap is at most `max D R + R + E`, whatever the timeouts of the clients are.
Missing for the full property: without bounds on the delays it fails (below). -/
theorem C58_bounded_overlap_partial (D R E : Nat) (s : Lease.St) (h : ReachWith (Timely D R E) s) (x y : Nat) (hx : Believes s x)
    (hy : GrantedAfter s x y) : s.now ≤ grantedAt s y + max D R + R + E := by
  obtain ⟨ht, ok, hI⟩ := timely_inv h
  obtain ⟨tg, ts, ta, tr, tn⟩ := timely_facts hI ht
  unfold Believes at hx
  have h1 := hI.later x y hy.1 hy.2 (by rw [hx]; simp)
  obtain ⟨a1, a2, a3, a4, a5, a6⟩ := hI.cli x
  have h2 := a2 hx
  unfold grantedAt
  cases hc : (s.cli x).call with
  | idle => have := tr x hx hc; omega
  | sent t => have := ts x t hx hc; have := a5 t hx hc; omega
  | answered c t => have := ta x t c hx hc; have := a6 t c hx hc; omega

/-- The bound is met by a run with delays: the answer to the claim takes 2, a request of the first client takes 4 and fails, the
client's goroutine takes up to 3; the lock is granted to a second client at 30 and the first one still believes at 39, when the
bound is 41. -/
example : ∃ s, ReachWith (Timely 2 4 3) s ∧ Believes s 0 ∧ GrantedAfter s 0 1 ∧ grantedAt s 1 = 30 ∧ s.now = 39 := by
  obtain ⟨s, hs, hf⟩ := exec_reach (P := Timely 2 4 3)
    [.claim 30, .wait 2, .granted 0, .wait 28, .expire, .claim 30, .granted 1, .wait 5, .send 0, .wait 4]
    (fun s => decide ((s.cli 0).phase = .holding ∧ s.next = 2 ∧ (s.cli 1).granted = 30 ∧ s.now = 39)) (by decide +kernel)
  simp only [decide_eq_true_eq] at hf
  exact ⟨s, hs, hf.1, ⟨by decide, by omega⟩, hf.2.2.1, hf.2.2.2⟩

/-- C58, violated.  A heartbeat request that does not return keeps the client from looking at its own timeout: for every `X` there is
a run without any other delay in which the client still believes it holds the lock `X` after it was granted to someone else. -/
theorem C58_violated_blocked_heartbeat (X : Nat) : ∃ s, ReachWith (Timely 0 (X + 21) 0) s ∧ Believes s 0 ∧ GrantedAfter s 0 1 ∧
    s.owner = some 1 ∧ s.now = grantedAt s 1 + X := by
  obtain ⟨s, hs, hf⟩ := exec_reach (P := Timely 0 21 0) [.claim 30, .granted 0, .wait 9, .send 0, .wait 21, .expire]
    (fun s => decide (s.cli 0 = ⟨.holding, 30, 0, 18, 30, false, .sent 9, 0, false⟩ ∧ s.next = 1 ∧ s.now = 30 ∧
      s.owner = none)) (by decide +kernel)
  simp only [decide_eq_true_eq] at hf
  obtain ⟨h0, h1, h2, h3⟩ := hf
  have hs : ReachWith (Timely 0 (X + 21) 0) s := hs.mono fun _ h => h.mono (by omega) (by omega) (by omega)
  have h01 : ∀ x, x < 2 → x = 0 ∨ x = 1 := fun x hx => by omega
  have hp : period (X + 30) ≠ 0 := by unfold period; omega
  refine ⟨_, .step (.step (.step hs (.claim s (X + 30) h3 (by omega)) ?_) (.granted _ 1 ?_) ?_) (.wait _ X) ?_, ?_⟩
  · refine ⟨fun x hx => ?_, rfl⟩
    rcases h01 x (by simpa [Lease.St.claim, h1] using hx) with e | e <;>
      simp [e, Lease.St.claim, CliPrompt, h0, h1, h2] <;> omega
  · simp [Lease.St.claim, h1]
  · refine ⟨fun x hx => ?_, rfl⟩
    rcases h01 x (by simpa [Lease.St.claim, Lease.St.set, h1] using hx) with e | e <;>
      simp [e, Lease.St.claim, Lease.St.set, Cli.start, CliPrompt, h0, h1, h2, hp] <;> omega
  · refine ⟨fun x hx => ?_, rfl⟩
    rcases h01 x (by simpa [Lease.St.claim, Lease.St.set, h1] using hx) with e | e <;>
      simp [e, Lease.St.claim, Lease.St.set, Cli.start, CliPrompt, h0, h1, h2, hp] <;> omega
  · simp [Believes, GrantedAfter, grantedAt, Lease.St.set, Lease.St.claim, Cli.start, h0, h1, h2, hp]

/-- C58, violated.  The answer to the claim may arrive after the lock has been given to someone else, and the client then believes
for its whole timeout. -/
theorem C58_violated_late_grant (X : Nat) : ∃ s, Lease.Reach s ∧ Believes s 0 ∧ GrantedAfter s 0 1 ∧ s.owner = some 1 ∧
    s.now = grantedAt s 1 + X ∧ (s.cli 0).call = .idle ∧ (s.cli 0).dead = s.now + 30 := by
  obtain ⟨s, hs, hf⟩ := exec_reach (P := fun _ => True) [.claim 30, .wait 30, .expire, .claim 30]
    (fun s => decide (s.cli 0 = ⟨.pending, 30, 0, 0, 0, false, .idle, 0, false⟩ ∧ s.next = 2 ∧ (s.cli 1).granted = 30 ∧ s.now = 30 ∧
      s.owner = some 1)) (by decide +kernel)
  simp only [decide_eq_true_eq] at hf
  obtain ⟨h0, h1, h2, h3, h4⟩ := hf
  refine ⟨_, .step (.step hs (.wait s X) trivial) (.granted _ 0 (by simp [h0])) trivial, ?_⟩
  simp [Believes, GrantedAfter, grantedAt, Lease.St.set, Cli.start, h0, h1, h2, h3, h4, period]

/-- C58, violated.  Without any delay, a heartbeat that the server handles at the same time as its ticker fires is answered 200 and
does not keep the lock: the client believes for 29 of its 30 units of time after the lock was granted to someone else, although all
its later heartbeats are answered, with 404. -/
theorem C58_violated_old_tick : ∃ s, ReachWith (Prompt 0 0 0) s ∧ Believes s 0 ∧ GrantedAfter s 0 1 ∧ s.owner = some 1 ∧
    s.now = grantedAt s 1 + 29 := by
  obtain ⟨s, hs, hf⟩ := exec_reach (P := Prompt 0 0 0)
    [.claim 30, .granted 0, .wait 30, .send 0, .handle 0 .ok, .receive 0, .expire, .claim 60, .granted 1,
     .wait 6, .send 0, .handle 0 .other, .receive 0, .wait 9, .send 0, .handle 0 .other, .receive 0,
     .wait 9, .send 0, .handle 0 .other, .receive 0, .wait 5]
    (fun s => decide ((s.cli 0).phase = .holding ∧ s.next = 2 ∧ (s.cli 1).granted = 30 ∧ s.now = 59 ∧ s.owner = some 1))
    (by decide +kernel)
  simp only [decide_eq_true_eq] at hf
  exact ⟨s, hs, hf.1, ⟨by decide, by omega⟩, hf.2.2.2.2, by simp [grantedAt, hf.2.2.1, hf.2.2.2.1]⟩

/-- C71.  If heartbeats get through - the answer to the claim arrives within `D`, every request is answered within `R`, every tick of
the heartbeat ticker is looked at within `E` - and the timeout of a claim is longer than `D + E + R` and one heartbeat period, then
its lock is not lost: the server has it for the client until the client's Done is closed, and Done is closed only by the user. -/
theorem C71_heartbeats_keep_the_lock (D R E : Nat) (s : Lease.St) (h : ReachWith (Flowing D R E) s) (x : Nat) (hx : x < s.next)
    (ht : D + ((s.cli x).timeout - (s.cli x).timeout / 10) / 3 + E + R < (s.cli x).timeout) :
    (Believes s x → s.owner = some x) ∧ ((s.cli x).phase = .done → GivenUp s x) := by
  obtain ⟨hf, hI⟩ := flowing_inv h
  exact ⟨fun hb => (hI.safe x ht (.inr hb)).1, hI.ends x hx ht⟩

/-- C71 met: a lock with timeout 30 is kept for 38 units of time by heartbeats every 9 that take up to 3. -/
example : ∃ s, ReachWith (Flowing 2 3 1) s ∧ Believes s 0 ∧ (s.cli 0).timeout = 30 ∧ s.now = 38 := by
  obtain ⟨s, hs, hf⟩ := exec_reach (P := Flowing 2 3 1)
    [.claim 30, .wait 2, .granted 0, .wait 9, .send 0, .wait 1, .handle 0 .ok, .wait 1, .receive 0, .wait 7, .send 0, .handle 0 .ok,
     .wait 3, .receive 0, .wait 6, .send 0, .wait 3, .handle 0 .ok, .receive 0, .wait 6]
    (fun s => decide ((s.cli 0).phase = .holding ∧ (s.cli 0).timeout = 30 ∧ s.now = 38)) (by decide +kernel)
  simp only [decide_eq_true_eq] at hf
  exact ⟨s, hs, hf.1, hf.2.1, hf.2.2⟩

/-- C71, the boundary: with a sum of the delays equal to the timeout the lock can be lost. -/
theorem C71_bound_is_needed : ∃ s, ReachWith (Flowing 0 21 0) s ∧ Believes s 0 ∧ s.owner = some 1 ∧
    0 + ((s.cli 0).timeout - (s.cli 0).timeout / 10) / 3 + 0 + 21 = (s.cli 0).timeout := by
  obtain ⟨s, hs, hf⟩ := exec_reach (P := Flowing 0 21 0) [.claim 30, .granted 0, .wait 9, .send 0, .wait 21, .expire, .claim 30]
    (fun s => decide ((s.cli 0).phase = .holding ∧ s.owner = some 1 ∧
      (s.cli 0).timeout = 30)) (by decide +kernel)
  simp only [decide_eq_true_eq] at hf
  refine ⟨s, hs, hf.1, hf.2.1, by simp [hf.2.2]⟩

/-- C71, violated for tiny timeouts: a timeout of less than 3 nanoseconds, which the service accepts, makes the client panic when it
gets the lock (the period of its heartbeat ticker is 0). -/
theorem C71_violated_tiny_timeout (T : Nat) (h0 : 0 < T) (h3 : T < 3) :
    ∃ s, Lease.Reach s ∧ s.owner = some 0 ∧ (s.cli 0).timeout = T ∧ (s.cli 0).phase = .crashed := by
  refine ⟨_, .step (.step .init (.claim _ T rfl h0) trivial) (.granted _ 0 rfl) trivial, ?_⟩
  have : period T = 0 := by unfold period; omega
  simp [Lease.St.claim, Lease.St.set, Cli.start, this, Lease.init]

end Willow.Props
