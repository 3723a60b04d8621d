import Verif.Proofs.ChannelLocks
/-
Property C60: every ack, heartbeat and dequeue of an item is answered.

`Reach s`: `s` is a situation that any number of calls (acks, heartbeats, the callbacks of the dequeue) can be in, at any time after the
item was taken from the queue for a client.  `Run s s'`: `s'` is a later situation, after any calls and steps.
-/
namespace Willow.Props
open ChanLocks

/-! ### Scripts (for the examples) -/

/-- A script step. -/
inductive LkCmd
  | call (k : Kind)
  | fire
  | go (i : Nat)

/-- Execute a script step. -/
def lkExec1 (s : ChanLocks.St) : LkCmd → Option ChanLocks.St
  | .call k => if k = .timeout then none else some { s with calls := s.calls ++ [⟨k, .new⟩] }
  | .fire => if s.phase = .running then some { s with phase := .inTimeout, calls := s.calls ++ [⟨.timeout, .new⟩] } else none
  | .go i => match s.calls.drop i with
    | [] => none
    | c :: b => match ChanLocks.advance s (s.calls.take i ++ b) c with
      | none => none
      | some (s', c') => some { s' with calls := s.calls.take i ++ c' :: b }

/-- Execute a script. -/
def lkExec (s : ChanLocks.St) : List LkCmd → Option ChanLocks.St
  | [] => some s
  | c :: cs => match lkExec1 s c with | none => none | some s' => lkExec s' cs

theorem lkExec1_step {s s' : ChanLocks.St} {c : LkCmd} (h : lkExec1 s c = some s') : ChanLocks.Step s s' := by
  cases c with
  | call k =>
    simp only [lkExec1] at h
    split at h <;> simp at h
    subst h; rename_i hk; exact .call k hk
  | fire =>
    simp only [lkExec1] at h
    split at h <;> simp at h
    subst h; rename_i hk; exact .fire hk
  | go i =>
    simp only [lkExec1] at h
    split at h
    · simp at h
    · rename_i c b hd
      split at h
      · simp at h
      · rename_i s1 c' ha
        simp at h; subst h
        refine .go (c := c) ?_ ha
        rw [← hd, List.take_append_drop]

theorem lkExec_run {l : List LkCmd} {s0 s s' : ChanLocks.St} (h0 : ChanLocks.Run s0 s) (h : lkExec s l = some s') : ChanLocks.Run s0 s' := by
  induction l generalizing s with
  | nil => simp [lkExec] at h; exact h ▸ h0
  | cons c cs ih =>
    simp only [lkExec] at h
    split at h
    · simp at h
    · rename_i s1 h1; exact ih (.tail h0 (lkExec1_step h1)) h

theorem lkExec_reach {l : List LkCmd} {s' : ChanLocks.St} (h : lkExec {} l = some s') : ChanLocks.Reach s' := lkExec_run .refl h

/-! ### What happens -/

/-- The call number `i` is not answered in `s`. -/
def Unanswered (s : ChanLocks.St) (i : Nat) : Prop := ∃ c, s.calls[i]? = some c ∧ c.at_ ≠ .answered

/-- **C60 is violated**: whenever a call with the id of the item holds its locks while the timeout of the item has fired (`inTimeout`) and it
must still hear from the timeout process, none of the calls that are unanswered then is ever answered, nor is the timeout ever processed. -/
theorem C60_violated_meets_timeout {s : ChanLocks.St} (hr : ChanLocks.Reach s) {i : Nat} {c : Call} (hc : s.calls[i]? = some c) (hat : c.at_ = .hb)
    (hk : c.kind = .passed ∨ c.kind = .failed ∨ c.kind = .unsent ∨ c.kind = .beat) (hp : s.phase = .inTimeout) (hptr : s.ptr = true) :
    ∀ s', ChanLocks.Run s s' → s'.phase = .inTimeout ∧ ∀ j, Unanswered s j → Unanswered s' j := by
  intro s' h
  have hf : finish s c.kind = none := by rcases hk with e | e | e | e <;> simp [finish, e, hp, hptr]
  have hst := stuck_of_reach hr hc hat hf
  obtain ⟨h1, h2⟩ := hst.run h
  refine ⟨?_, fun j ⟨x, hx, hxa⟩ => h2 j x hx hxa⟩
  clear h2 h1
  induction h with
  | refl => exact hp
  | tail h1 h2 ih =>
    rename_i s1 s2
    have hs1 := (hst.run h1).1
    have hp1 := ih
    obtain ⟨ci, hci, hati, hfi⟩ := hs1.call
    cases h2 with
    | call k _ => exact hp1
    | fire e => simp [hp1] at e
    | @go s3 a b x x' hcs ha =>
      rcases advance_phase ha with ⟨_, e⟩ | ⟨e, p, q, hf', _⟩
      · subst e; exact hp1
      · have hx : s1.calls[a.length]? = some x := by rw [hcs]; simp
        have := hs1.only _ x hx e
        rw [← this, hx] at hci
        simp at hci; subst hci
        rw [hfi] at hf'; simp at hf'

/-- such a situation: the item was delivered, its timeout fires while an ack is about to stop the timeout -/
def ackMeetsTimeout : List LkCmd := [.call .success, .go 0, .go 0, .go 0, .call .passed, .go 1, .go 1, .fire, .call .beat]

example : ∃ s, lkExec {} ackMeetsTimeout = some s ∧ s.phase = .inTimeout ∧ s.ptr = true ∧ s.calls[1]? = some ⟨.passed, .hb⟩ ∧
    s.calls[2]? = some ⟨.timeout, .new⟩ ∧ s.calls[3]? = some ⟨.beat, .new⟩ := ⟨_, rfl, by decide +kernel⟩

/-- **C60 is violated**, closed form: there is a reachable situation with an ack, a timeout and a heartbeat none of which is ever answered,
whatever else is called. -/
theorem C60_violated_ack_never_answered : ∃ s, ChanLocks.Reach s ∧ s.calls[1]? = some ⟨.passed, .hb⟩ ∧
    ∀ s', ChanLocks.Run s s' → Unanswered s' 1 ∧ Unanswered s' 2 ∧ Unanswered s' 3 := by
  obtain ⟨s, hs, hp, hq, h1, h2, h3⟩ : ∃ s, lkExec {} ackMeetsTimeout = some s ∧ s.phase = .inTimeout ∧ s.ptr = true ∧
      s.calls[1]? = some ⟨.passed, .hb⟩ ∧ s.calls[2]? = some ⟨.timeout, .new⟩ ∧ s.calls[3]? = some ⟨.beat, .new⟩ := ⟨_, rfl, by decide +kernel⟩
  refine ⟨s, lkExec_reach hs, h1, fun s' h => ?_⟩
  obtain ⟨_, hu⟩ := C60_violated_meets_timeout (lkExec_reach hs) h1 rfl (.inl rfl) hp hq s' h
  exact ⟨hu 1 ⟨_, h1, by simp⟩, hu 2 ⟨_, h2, by simp⟩, hu 3 ⟨_, h3, by simp⟩⟩

/-- The same for a failed ack and for a heartbeat that meet the timeout. -/
theorem C60_violated_failed_and_heartbeat : ∀ k, k = Kind.failed ∨ k = Kind.beat →
    ∃ s, ChanLocks.Reach s ∧ s.calls[1]? = some ⟨k, .hb⟩ ∧ ∀ s', ChanLocks.Run s s' → Unanswered s' 1 ∧ Unanswered s' 2 := by
  intro k hk
  obtain ⟨s, hr, hp, hq, h1, h2⟩ : ∃ s, ChanLocks.Reach s ∧ s.phase = .inTimeout ∧ s.ptr = true ∧
      s.calls[1]? = some ⟨k, .hb⟩ ∧ s.calls[2]? = some ⟨.timeout, .new⟩ := by
    rcases hk with rfl | rfl
    · exact ⟨_, lkExec_reach (l := [.call .success, .go 0, .go 0, .go 0, .call .failed, .go 1, .go 1, .go 1, .fire]) rfl, by decide +kernel⟩
    · exact ⟨_, lkExec_reach (l := [.call .success, .go 0, .go 0, .go 0, .call .beat, .go 1, .go 1, .fire]) rfl, by decide +kernel⟩
  refine ⟨s, hr, h1, fun s' h => ?_⟩
  obtain ⟨_, hu⟩ := C60_violated_meets_timeout hr h1 rfl (by rcases hk with e | e <;> simp [e]) hp hq s' h
  exact ⟨hu 1 ⟨_, h1, by simp⟩, hu 2 ⟨_, h2, by simp⟩⟩

/-- **C60 is violated** without any timeout: a heartbeat that arrives before the success callback of the dequeue (the client is quicker than the
service's own bookkeeping) is never answered; nor are the success callback - so the dequeue of that client never ends - and any call after it. -/
theorem C60_violated_early_heartbeat {s : ChanLocks.St} (hr : ChanLocks.Reach s) {i : Nat} (hc : s.calls[i]? = some ⟨.beat, .hb⟩)
    (hp : s.phase = .waitStart) (hptr : s.ptr = true) : ∀ s', ChanLocks.Run s s' → ∀ j, Unanswered s j → Unanswered s' j := by
  intro s' h j hu
  have hst := stuck_of_reach hr hc rfl (by simp [finish, hp, hptr])
  obtain ⟨x, hx, hxa⟩ := hu
  exact (hst.run h).2 j x hx hxa

/-- such a situation: the heartbeat comes first, then the success callback and an ack -/
example : ∃ s, ChanLocks.Reach s ∧ s.calls[0]? = some ⟨.beat, .hb⟩ ∧ s.phase = .waitStart ∧ s.ptr = true ∧
    s.calls[1]? = some ⟨.success, .node⟩ ∧ s.calls[2]? = some ⟨.passed, .new⟩ :=
  ⟨_, lkExec_reach (l := [.call .beat, .go 0, .go 0, .call .success, .go 1, .call .passed]) rfl, by decide +kernel⟩

/-- **C60 (partial).**  If no unanswered ack, heartbeat or failed delivery can meet a timeout that has fired, and no unanswered heartbeat a timeout that
was not started (`Calm`), then, as long as no new call arrives and no timeout fires, the calls go on for at most four steps each, in any order, and
when none of them can go on, all of them are answered.  Missing: `Calm`, without which the claim is false (above). -/
theorem C60_partial {s : ChanLocks.St}
    (calm : ∀ c ∈ s.calls, c.at_ ≠ .answered → s.ptr = true →
      ¬ (s.phase = .inTimeout ∧ (c.kind = .passed ∨ c.kind = .failed ∨ c.kind = .unsent ∨ c.kind = .beat)) ∧ ¬ (s.phase = .waitStart ∧ c.kind = .beat)) :
    (∀ n s', GoRun n s s' → n ≤ 4 * s.calls.length) ∧
    (∀ n s', GoRun n s s' → (¬ ∃ s'', GoRun (n+1) s s'') → ∀ c ∈ s'.calls, c.at_ = .answered) ∧
    (∃ n s', GoRun n s s' ∧ ∀ c ∈ s'.calls, c.at_ = .answered) := by
  have hcalm : Calm s := fun c hc ha hp hw => by
    obtain ⟨h1, h2⟩ := calm c hc ha hp
    rcases hw with h | h
    · exact h1 h
    · exact h2 h
  refine ⟨?_, ?_, hcalm.finishes⟩
  · intro n s' h
    have := h.total
    have := total_le s.calls
    omega
  · intro n s' h hno c hc
    refine Classical.byContradiction fun hn => hno ?_
    obtain ⟨a, x, b, s1, x', h1, h2⟩ := (hcalm.goRun h).progress ⟨c, hc, hn⟩
    exact ⟨_, .tail h h1 h2⟩

/-- a delivered item with two acks, a heartbeat and a failed ack under way: all of them are answered, in any order -/
example : ∃ s, ChanLocks.Reach s ∧ s.calls.length = 5 ∧ s.phase = .running ∧ s.ptr = true ∧
    (∀ c ∈ s.calls, c.at_ ≠ .answered → s.ptr = true →
      ¬ (s.phase = .inTimeout ∧ (c.kind = .passed ∨ c.kind = .failed ∨ c.kind = .unsent ∨ c.kind = .beat)) ∧ ¬ (s.phase = .waitStart ∧ c.kind = .beat)) :=
  ⟨_, lkExec_reach (l := [.call .success, .go 0, .go 0, .go 0, .call .passed, .call .beat, .go 2, .call .failed, .go 3, .call .passed]) rfl,
    by decide +kernel⟩

/-- **C60 (partial), what remains of it without `Calm`.**  In every reachable situation with unanswered calls, either one of them can go on, or one
of them is an ack, heartbeat or failed delivery that meets the timeout, or a heartbeat that came before the start: there is no other deadlock. -/
theorem C60_only_deadlocks_partial {s : ChanLocks.St} (hu : ∃ j, Unanswered s j) :
    (∃ a c b s' c', s.calls = a ++ c :: b ∧ ChanLocks.advance s (a ++ b) c = some (s', c')) ∨
    (∃ c ∈ s.calls, c.at_ = .hb ∧ s.ptr = true ∧
      ((s.phase = .inTimeout ∧ (c.kind = .passed ∨ c.kind = .failed ∨ c.kind = .unsent ∨ c.kind = .beat)) ∨ (s.phase = .waitStart ∧ c.kind = .beat))) := by
  by_cases h : ∀ c ∈ s.calls, c.at_ = .hb → finish s c.kind ≠ none
  · obtain ⟨j, x, hx, hxa⟩ := hu
    exact .inl (progress ⟨x, List.mem_of_getElem? hx, hxa⟩ h)
  · right
    obtain ⟨c, hc⟩ : ∃ c, ¬ (c ∈ s.calls → c.at_ = .hb → finish s c.kind ≠ none) := by
      refine Classical.byContradiction fun hn => h fun c => Classical.byContradiction fun h' => hn ⟨c, h'⟩
    have hm : c ∈ s.calls := Classical.byContradiction fun hn => hc fun e => absurd e hn
    have hat : c.at_ = .hb := Classical.byContradiction fun hn => hc fun _ e => absurd e hn
    have hf : finish s c.kind = none := Classical.byContradiction fun hn => hc fun _ _ => hn
    refine ⟨c, hm, hat, (finish_none hf).1, ?_⟩
    rcases (finish_none hf).2 with h2 | h2
    · left; refine ⟨h2, ?_⟩
      revert hf; cases c.kind <;> simp [finish, h2]
    · exact .inr h2

example : ∃ s : ChanLocks.St, ChanLocks.Reach s ∧ ∃ j, Unanswered s j :=
  ⟨_, lkExec_reach (l := [.call .success]) rfl, 0, ⟨_, rfl, by simp⟩⟩

end Willow.Props
