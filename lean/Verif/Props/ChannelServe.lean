import Verif.Props.Channel
import Verif.Proofs.ChannelTurns
/-
Properties C97, C98: what waits in a channel is handed out (Model/Channel.lean, Spec/ChannelServe.lean).

`Gone s n s'`: from `s`, `n` changes lead to `s'`, in any order the channel, its consumers, their ACKs and heartbeats and the timeouts can take:
consumers keep asking and take what they are offered (successfully or not: they may fail it, let it time out or keep it alive), the limiter does not
refuse, the channel is not deleted and nothing is enqueued.  `Rests`: no such change is possible any more.
`Then s s'`: anything at all happens after `s`, also enqueues, and leads to `s'`.
-/
namespace Willow.Props
open Channel ChanSpec
variable {D : Type}

/-! ### Running such a script (for the examples) -/

/-- Execute steps that are changes in the sense of `Goes`. -/
def chanGo (s : Channel.St Nat) : List ChanCmd → Option (Channel.St Nat)
  | [] => some s
  | c :: cs => match chanExec1 s c with
    | none => none
    | some s' =>
      if (s'.exec ≠ s.exec ∨ s'.items ≠ s.items) ∧ setbacks s'.log = setbacks s.log ∧ s'.closed = s.closed ∧ (s'.exec = .spin → s.exec = .spin) then
        chanGo s' cs
      else none

theorem chanGo_gone {s0 : Channel.St Nat} (cs : List ChanCmd) : ∀ {n : Nat} {s s' : Channel.St Nat}, Gone s0 n s → chanGo s cs = some s' →
    Gone s0 (n + cs.length) s' := by
  induction cs with
  | nil => intro n s s' h1 h2; simp only [chanGo, Option.some.injEq] at h2; subst h2; exact h1
  | cons c cs ih =>
    intro n s s' h1 h2
    simp only [chanGo] at h2
    split at h2
    · cases h2
    · rename_i s1 hs
      split at h2
      · rename_i hg
        have hst := chanExec1_step hs
        have : Gone s0 (n + 1) s1 := .step h1 ⟨hst, fun e => by
          rcases hg.1 with h | h
          · exact h (show (content s1).exec = (content s).exec by rw [e])
          · exact h (show (content s1).items = (content s).items by rw [e]), hg.2.1, hg.2.2.1, hg.2.2.2⟩
        have := ih this h2
        rwa [List.length_cons, Nat.add_comm cs.length, ← Nat.add_assoc]
      · cases h2

/-- Two items wait, a third one is being processed. -/
def twoWait : Channel.St Nat := chanRun ([.enqueue reqA true, .enqueue reqB true, .enqueue reqA true] ++ takeCmds ++ [.received])

/-- The first one fails and is handed out again; the second times out, is handed out again and is acked. -/
def twoScript : List ChanCmd :=
  [.failed 0] ++ takeCmds ++ [.received] ++ takeCmds ++ [.received, .passed 0, .fire 1] ++ takeCmds ++ [.timeout 1, .received] ++
  takeCmds ++ [.received, .passed 2, .fire 1, .timeout 1]

/-! ### C97 -/

/-- From any state only a bounded number of changes is possible, whatever the schedule. -/
theorem C97_bounded {s : Channel.St D} (hr : Channel.Reach s) (hc : s.closed = false) : ∃ n, ∀ k s', Gone s k s' → k ≤ n :=
  ⟨work s, fun k s' h => by have := (gone_facts hr hc h).2.2.1; omega⟩

/-- When nothing changes any more the channel is empty. -/
theorem C97_rest_empty {s : Channel.St D} (hr : Channel.Reach s) (hc : s.closed = false) (h : Rests s) : stored s = [] ∧ s.queue = [] := by
  obtain ⟨a, b, -⟩ := rests_empty hr hc h
  exact ⟨by simp [stored, a], b⟩

/-- So, in every schedule: it comes to an end, and by then every item that waited was handed out (or a newer one took its place). -/
theorem C97_all_delivered {s : Channel.St D} (hr : Channel.Reach s) (hc : s.closed = false) :
    (∃ k s', Gone s k s' ∧ Rests s') ∧
    ∀ k s', Gone s k s' → Rests s' → stored s' = [] ∧
      ∃ evs, s'.log = evs ++ s.log ∧ ∀ id ∈ stored s, id ∉ processing s → (∃ it, .taken id it ∈ evs) ∨ ∃ b, .superseded id b ∈ evs := by
  refine ⟨gone_end (work s) s (Nat.le_refl _) hr hc, fun k s' hg hq => ?_⟩
  obtain ⟨a, b, -, d⟩ := gone_facts hr hc hg
  have he := rests_empty a b hq
  obtain ⟨evs, hl⟩ := gone_log hr hc hg
  refine ⟨by simp [stored, he.1], evs, hl, fun id hs hp => ?_⟩
  obtain ⟨it, h1⟩ := lookup_some_of_mem (l := s.items) (id := id) hs
  have hw : Waiting s id := by
    refine ⟨it, h1, ?_⟩
    apply Classical.byContradiction
    intro hb
    exact hp ((mem_processing (inv_reach hr) id).2 ⟨it, h1, hb⟩)
  obtain ⟨evs', h2, h3⟩ := d id hw
  have : evs' = evs := List.append_cancel_right (h2.symm.trans hl)
  subst this
  rcases h3 with ⟨i, h3, -⟩ | h3
  · rw [he.1] at h3; simp [lookup_nil] at h3
  · exact h3

example : ∃ s', Gone twoWait twoScript.length s' ∧ Rests s' ∧ Channel.Reach twoWait ∧ twoWait.closed = false ∧ stored twoWait = [0, 1, 2] ∧
    processing twoWait = [0] ∧ s'.log.length = twoWait.log.length + 19 := by
  have h : ∃ s', chanGo twoWait twoScript = some s' ∧ s'.items.isEmpty ∧ s'.pending = 0 ∧ s'.exec = .idle ∧ s'.closed = false ∧
      s'.log.length = twoWait.log.length + 19 := by
    have h1 : (chanGo twoWait twoScript).any (fun s' => s'.items.isEmpty && s'.pending == 0 && s'.exec == .idle && s'.closed == false &&
        s'.log.length == twoWait.log.length + 19) = true := by decide +kernel
    obtain ⟨s', h2, h3⟩ := (Option.any_eq_true _ _).1 h1
    simp only [Bool.and_eq_true, beq_iff_eq] at h3
    exact ⟨s', h2, h3.1.1.1.1, h3.1.1.1.2, h3.1.1.2, h3.1.2, h3.2⟩
  obtain ⟨s', h1, h2, h3, h4, h5, h6⟩ := h
  have hg := chanGo_gone twoScript (.refl twoWait) h1
  rw [Nat.zero_add] at hg
  have hr : Channel.Reach twoWait := chanRun_reach _
  have hc : twoWait.closed = false := by decide +kernel
  refine ⟨s', hg, fun s'' hx => ?_, hr, hc, by decide +kernel, by decide +kernel, h6⟩
  have := work_goes (inv_reach (gone_facts hr hc hg).1) h5 hx
  have h0 : work s' = 0 := by
    rw [List.isEmpty_iff] at h2
    simp [work, h2, h3, h4, isum, ew]
  omega

/-- The condition on the limiter is needed: over its limit a channel goes on for ever without handing anything out (and the consumer gets nothing). -/
theorem C97_violated_limited : ∃ s : Channel.St Nat, Channel.Reach s ∧ s.closed = false ∧ s.queue = [0] ∧ s.exec = .idle ∧
    Channel.Step s { s with exec := .offering, pending := 0 } ∧
    Channel.Step { s with exec := .offering, pending := 0 } { s with exec := .called, pending := 0 } ∧
    Channel.Step { s with exec := .called, pending := 0 } { s with exec := .spin, pending := 1 } ∧
    Channel.Step { s with exec := .spin, pending := 1 } s := by
  refine ⟨chanRun [.enqueue reqA true], chanRun_reach _, by decide +kernel, by decide +kernel, by decide +kernel, .notified rfl (by decide), .send rfl,
    .count false rfl, ?_⟩
  exact .spinDone rfl

/-! ### C98 -/

/-- No item starves: as long as it waits, other items are handed out at most `turns` times, a number that depends only on what is in front of it and what is
being processed when one starts to count, and not on what is enqueued, retried or superseded afterwards; plus once for each delivery that fails because the
consumer is gone. -/
theorem C98_no_starvation {s s' : Channel.St D} (hr : Channel.Reach s) (h : Then s s') (hc : s'.closed = false) {id : Nat} (hs : id ∈ stored s)
    (hp : id ∉ processing s) :
    ∃ evs, s'.log = evs ++ s.log ∧
      ((∃ it, .taken id it ∈ evs) ∨ (∃ b, .superseded id b ∈ evs) ∨ deliveries evs ≤ turns s id + losses evs) := by
  obtain ⟨it, h1⟩ := lookup_some_of_mem (l := s.items) (id := id) hs
  have hw : Waiting s id := by
    refine ⟨it, h1, ?_⟩
    apply Classical.byContradiction
    intro hb
    exact hp ((mem_processing (inv_reach hr) id).2 ⟨it, h1, hb⟩)
  obtain ⟨-, evs, h2, h3⟩ := then_facts hr h hc hw
  refine ⟨evs, h2, ?_⟩
  rcases h3 with h3 | ⟨-, h3⟩
  · rcases h3 with h3 | h3
    · exact .inl h3
    · exact .inr (.inl h3)
  · refine .inr (.inr ?_)
    have := before_le s id
    rw [h2] at h3
    simp only [deliveries, losses, List.countP_append] at h3 ⊢
    omega

theorem chanThen {s0 : Channel.St Nat} (cs : List ChanCmd) : ∀ {s s' : Channel.St Nat}, Then s0 s → chanExec s cs = some s' → Then s0 s' := by
  induction cs with
  | nil => intro s s' h1 h2; simp only [chanExec, Option.some.injEq] at h2; subst h2; exact h1
  | cons c cs ih =>
    intro s s' h1 h2
    simp only [chanExec] at h2
    split at h2
    · cases h2
    · rename_i hcr
      split at h2
      · cases h2
      · rename_i s1 hs
        exact ih (.step h1 (by simpa using hcr) (chanExec1_step hs)) h2

/-- Items 1 and 2 wait, item 0 is being processed; each can be retried once, at the front. -/
def threeA : Channel.St Nat := chanRun ([.enqueue reqA true, .enqueue reqA true, .enqueue reqA true] ++ takeCmds ++ [.received])

/-- Both others use up all their chances, one delivery is lost, and more items are enqueued. -/
def threeScript : List ChanCmd :=
  [.failed 0, .enqueue reqA true] ++ takeCmds ++ [.received, .passed 0] ++ takeCmds ++ [.unsent, .enqueue reqB true] ++ takeCmds ++
  [.received, .failed 1] ++ takeCmds ++ [.received, .enqueue reqU true]

/-- Non-vacuity; and the bound is reached: 4 deliveries (3 turns, one loss) and item 2 still waits, at the front of the list. -/
example : ∃ s', Then threeA s' ∧ Channel.Reach threeA ∧ s'.closed = false ∧ stored threeA = [0, 1, 2] ∧ processing threeA = [0] ∧ turns threeA 2 = 3 ∧
    deliveries s'.log = deliveries threeA.log + 4 ∧ losses s'.log = losses threeA.log + 1 ∧ s'.queue = [2, 3, 4, 5] := by
  have h1 : (chanExec threeA threeScript).any (fun s' => s'.closed == false && deliveries s'.log == deliveries threeA.log + 4 &&
      losses s'.log == losses threeA.log + 1 && s'.queue == [2, 3, 4, 5]) = true := by decide +kernel
  obtain ⟨s', h2, h3⟩ := (Option.any_eq_true _ _).1 h1
  simp only [Bool.and_eq_true, beq_iff_eq] at h3
  exact ⟨s', chanThen _ (.refl _) h2, chanRun_reach _, h3.1.1.1, by decide +kernel, by decide +kernel, by decide +kernel, h3.1.1.2, h3.1.2, h3.2⟩

end Willow.Props
