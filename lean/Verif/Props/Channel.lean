import Verif.Proofs.ChannelLog
/-
Properties C43-C52, C54, C61, C62: one queue channel (Model/Channel.lean).

`Reach s`: any number of enqueues, dequeues, ACKs, heartbeats and timeouts, interleaved in any way, lead to `s`.  `s.log` is the history, newest
first; the words used about it are in Spec/Channel.lean.
-/
namespace Willow.Props
open Channel ChanSpec
variable {D : Type}

/-! ### Running a script (for the examples) -/

/-- One step of a channel. -/
inductive ChanCmd
  | enqueue (r : Channel.Req Nat) (grant : Bool)
  | passed (id : Nat)
  | failed (id : Nat)
  | beat (id : Nat)
  | notified
  | send
  | count (grant : Bool)
  | pop
  | find
  | received
  | unsent
  | spinDone
  | fire (id : Nat)
  | timeout (id : Nat)
  | delete
  | forceBegin
  | forceMark
  | forceEnd
  | stop

/-- Execute one step, if it is possible. -/
def chanExec1 (s : Channel.St Nat) : ChanCmd → Option (Channel.St Nat)
  | .enqueue r g => if s.closed then none else some (Channel.enqueue s r g)
  | .passed id => if s.closed || (lookup s.items id).any (·.hb == .firing) then none else some (Channel.ackPassed s id)
  | .failed id => if s.closed || (lookup s.items id).any (·.hb == .firing) then none else some (Channel.ackFailed s id)
  | .beat id => if s.closed || (lookup s.items id).any (fun i => !(i.hb == .none || i.hb == .running)) then none else some (Channel.heartbeat s id)
  | .notified => if s.exec = .idle ∧ 0 < s.pending then some { s with exec := .offering, pending := s.pending - 1 } else none
  | .send => if s.exec = .offering then some { s with exec := .called } else none
  | .count g => if s.exec = .called then some (Channel.count s g) else none
  | .pop => if s.exec = .counted then some (Channel.pop s) else none
  | .find => match s.exec with | .popped id => some (Channel.find s id) | _ => none
  | .received => match s.exec with | .handed id _ => some (Channel.received s id) | _ => none
  | .unsent => match s.exec with | .handed id _ => some (Channel.unsent s id) | _ => none
  | .spinDone => if s.exec = .spin then some { s with exec := .idle } else none
  | .fire id => match lookup s.items id with
    | some it => if it.hb = .running then some { s with items := Channel.change s.items id (fun i => { i with hb := .firing }) } else none
    | none => none
  | .timeout id => match lookup s.items id with
    | some it => if it.hb = .firing then some (Channel.timeout s id) else none
    | none => none
  | .delete => if s.closed then none else some (Channel.delete s)
  | .forceBegin => if s.closed then none else some (Channel.forceBegin s)
  | .forceMark => if s.forced = true ∧ s.destroying = false then some { s with destroying := true } else none
  | .forceEnd => if s.destroying = true ∧ s.destroyed = false ∧ noneFiring s = true then some { s with items := [], destroyed := true } else none
  | .stop => if s.closed = true ∧ s.exec.listens = true then some { s with exec := .stopped } else none

theorem chanExec1_step {s s' : Channel.St Nat} {c : ChanCmd} (h : chanExec1 s c = some s') : Channel.Step s s' := by
  cases c <;> simp only [chanExec1] at h
  case enqueue r g => split at h <;> simp at h; subst h; exact .enqueue r g (by simp_all)
  case passed id =>
    split at h <;> simp at h; subst h
    rename_i hc; simp at hc
    exact .ackPassed id hc.1 (fun it hl e => by have := hc.2; simp [hl, e] at this)
  case failed id =>
    split at h <;> simp at h; subst h
    rename_i hc; simp at hc
    exact .ackFailed id hc.1 (fun it hl e => by have := hc.2; simp [hl, e] at this)
  case beat id =>
    split at h <;> simp at h; subst h
    rename_i hc; simp at hc
    refine .heartbeat id hc.1 (fun it hl => ?_)
    have := hc.2; simp only [hl, Option.any_some] at this
    cases hb : it.hb <;> simp_all
  case notified => split at h <;> simp at h; subst h; rename_i hc; exact .notified hc.1 hc.2
  case send => split at h <;> simp at h; subst h; rename_i hc; exact .send hc
  case count g => split at h <;> simp at h; subst h; rename_i hc; exact .count g hc
  case pop => split at h <;> simp at h; subst h; rename_i hc; exact .pop hc
  case find => split at h <;> simp at h; subst h; rename_i hc; exact .find hc
  case received => split at h <;> simp at h; subst h; rename_i hc; exact .received hc
  case unsent => split at h <;> simp at h; subst h; rename_i hc; exact .unsent hc
  case spinDone => split at h <;> simp at h; subst h; rename_i hc; exact .spinDone hc
  case fire id =>
    split at h
    · split at h <;> simp at h; subst h; rename_i hl hb; exact .fire hl hb
    · simp at h
  case timeout id =>
    split at h
    · split at h <;> simp at h; subst h; rename_i hl hb; exact .timeout hl hb
    · simp at h
  case delete => split at h <;> simp at h; subst h; exact .delete (by simp_all)
  case forceBegin => split at h <;> simp at h; subst h; exact .forceBegin (by simp_all)
  case forceMark => split at h <;> simp at h; subst h; rename_i hc; exact .forceMark hc.1 hc.2
  case forceEnd => split at h <;> simp at h; subst h; rename_i hc; exact .forceEnd hc.1 hc.2.1 hc.2.2
  case stop => split at h <;> simp at h; subst h; rename_i hc; exact .stop hc.1 hc.2

/-- Execute a script. -/
def chanExec (s : Channel.St Nat) : List ChanCmd → Option (Channel.St Nat)
  | [] => some s
  | c :: cs => if s.crashed then none else match chanExec1 s c with | none => none | some s' => chanExec s' cs

theorem chanExec_reach {s' : Channel.St Nat} : ∀ {cs : List ChanCmd} {s : Channel.St Nat}, Channel.Reach s → chanExec s cs = some s' →
    Channel.Reach s'
  | [], s, hr, h => by simp [chanExec] at h; subst h; exact hr
  | c :: cs, s, hr, h => by
    simp only [chanExec] at h
    split at h
    · simp at h
    · rename_i hc
      split at h
      · simp at h
      · rename_i s1 h1
        exact chanExec_reach (hr.step (by simpa using hc) (chanExec1_step h1)) h

/-- The state after a script. -/
def chanRun (cs : List ChanCmd) : Channel.St Nat := (chanExec Channel.init cs).getD Channel.init

theorem chanRun_reach (cs : List ChanCmd) : Channel.Reach (chanRun cs) := by
  unfold chanRun
  cases h : chanExec Channel.init cs with
  | none => exact .init
  | some s => exact chanExec_reach .init h

/-- A dequeue up to the answer. -/
def takeCmds : List ChanCmd := [.notified, .send, .count true, .pop, .find]

/-- Requests for the examples. -/
def reqA : Channel.Req Nat := ⟨10, false, 1, .front, 5⟩
def reqB : Channel.Req Nat := ⟨20, false, 1, .back, 6⟩
def reqU : Channel.Req Nat := ⟨30, true, 1, .back, 7⟩
def reqV : Channel.Req Nat := ⟨40, true, 1, .front, 8⟩

/-! ### C43 -/

/-- C43: a dequeue takes the item at the front of the list. -/
theorem C43_front {s s' : Channel.St D} {id : Nat} (hs : Channel.Step s s') (h0 : ∀ i, s.exec ≠ .popped i)
    (h : s'.exec = .popped id) : s.queue = id :: s'.queue ∧ s'.items = s.items := by
  have hexec : ∀ (s : Channel.St D) i it, (Channel.retry s i it).exec = s.exec := by
    intro s i it
    unfold Channel.retry
    simp only
    split
    · rfl
    · split
      · split <;> rfl
      · unfold retryBack
        simp only [St.ev, pushBack]
        split
        · rfl
        · split
          · rfl
          · split <;> rfl
  cases hs with
  | pop he =>
    unfold Channel.pop at h ⊢
    split at h
    · exact absurd h (h0 id)
    · rename_i i q hq
      simp only [Exec.popped.injEq] at h
      simp [hq, h]
  | enqueue r g hc =>
    exfalso; unfold Channel.enqueue at h
    split at h
    · exact h0 id h
    · split at h <;> exact h0 id h
  | ackPassed i _ _ =>
    exfalso; unfold Channel.ackPassed at h
    split at h
    · exact h0 id h
    · split at h
      · exact h0 id (touch_popped.1 h)
      · exact h0 id h
  | ackFailed i _ _ =>
    exfalso
    have h : (failItem { s with exec := touch s.exec i } i false).1.exec = .popped id := h
    unfold failItem at h
    split at h
    · exact h0 id (touch_popped.1 h)
    · split at h
      · rw [hexec] at h; exact h0 id (touch_popped.1 h)
      · exact h0 id (touch_popped.1 h)
  | heartbeat i _ _ =>
    exfalso; unfold Channel.heartbeat at h
    simp only at h
    split at h <;> exact h0 id (touch_popped.1 h)
  | notified _ _ => simp at h
  | send _ => simp at h
  | count g _ => unfold Channel.count at h; split at h <;> simp at h
  | @find i he => exact absurd he (h0 i)
  | received he => unfold Channel.received at h; split at h <;> simp [he, St.ev] at h
  | unsent he =>
    exfalso; unfold Channel.unsent at h
    split at h
    · simp [he] at h
    · simp only at h
      split at h
      · simp [St.ev] at h
      · unfold giveBack at h
        split at h
        · simp only at h; split at h <;> simp [St.ev] at h
        · simp [St.ev] at h
  | spinDone _ => simp at h
  | fire _ _ => exact absurd h (h0 id)
  | @timeout i it hl hb =>
    exfalso; unfold Channel.timeout at h
    split at h
    · exact h0 id h
    · unfold failItem at h
      have hl' : lookup (s.ev (.timedOut i)).items i = some it := hl
      rw [hl'] at h
      simp only [Bool.true_or, ↓reduceIte] at h
      rw [hexec] at h; exact h0 id h
  | delete _ => exfalso; unfold Channel.delete at h; split at h <;> exact h0 id h
  | forceBegin _ => exact absurd h (h0 id)
  | forceMark _ _ => exact absurd h (h0 id)
  | forceEnd _ _ _ => exact absurd h (h0 id)
  | stop _ _ => simp at h

/-- Every hand-out in the history satisfies what holds whenever an item is about to be handed out. -/
theorem C43_order_aux {s : Channel.St D} (hr : Channel.Reach s) :
    Always (fun pre y _ => fails y pre = 0 → ∀ x, x < y → fails x pre = 0 → 0 < takes x pre ∨ .superseded x false ∈ pre) s.log := by
  refine always_reach ?_ hr
  intro s hr y it he hl hn fy x hxy fx
  have hi := inv_reach hr
  have hh := hist_reach hr
  have ho := ord_reach hr
  have hd : s.destroyed = false := by
    cases hd : s.destroyed with
    | false => rfl
    | true => simp [(hi.destroyed hd).2, lookup_nil] at hl
  cases hx : lookup s.items x with
  | none =>
    have hlt : x < s.nextId := Nat.lt_trans hxy (hi.popped y he).2.1
    have := (hh x).rem hd
    rw [hx] at this
    exact (hh x).why (by rw [this]; simp [hlt, one])
  | some ix =>
    by_cases hb : ix.hb = .none
    · exfalso
      rcases hi.idleQueued hd x ix hx hb with hq | hq
      · have := ho.2 y (.inl he) (by simp [fresh, fy]) x hq (by simp [fresh, fx]); omega
      · rw [he] at hq; simp at hq; omega
    · exact .inl ((hh x).taken ix hx hb)

/-- C43: if item `y` is handed out, then every item `x` that was enqueued before `y` was handed out before or was dropped in favour of another
item - unless one of them already failed (and so was put back in the list). -/
theorem C43_order {s : Channel.St D} (hr : Channel.Reach s) {post mid pre : List (Ev D)} {x y : Nat} {it : Item D} {rx ry : Channel.Req D}
    (h : s.log = post ++ .taken y it :: (mid ++ .enqueued y ry :: pre)) (hx : .enqueued x rx ∈ pre)
    (fx : .failed x ∉ mid ++ .enqueued y ry :: pre) (fy : .failed y ∉ mid ++ .enqueued y ry :: pre) :
    (∃ ix, .taken x ix ∈ mid ++ .enqueued y ry :: pre) ∨ .superseded x false ∈ mid ++ .enqueued y ry :: pre := by
  have hlt := enqueued_order hr (post := post ++ .taken y it :: mid) (y := y) (ry := ry) (pre := pre) (by rw [h]; simp) hx
  have hf : ∀ (z : Nat) (l : List (Ev D)), .failed z ∉ l → fails z l = 0 := by
    intro z l hz; unfold fails; rw [List.countP_eq_zero]
    intro e he hp
    cases e <;> simp at hp
    subst hp; exact hz he
  rcases C43_order_aux hr post _ y it h (hf y _ fy) x hlt (hf x _ fx) with h1 | h1
  · exact .inl (takes_pos.1 h1)
  · exact .inr h1

/-- Non-vacuity: three items are enqueued and two handed out, in order. -/
example : (chanRun ([.enqueue reqA true, .enqueue reqB true, .enqueue reqA true] ++ takeCmds ++ [.received] ++ takeCmds)).log =
    [.taken 1 (newItem reqB), .received 0, .taken 0 (newItem reqA), .enqueued 2 reqA, .enqueued 1 reqB, .enqueued 0 reqA] := by
  decide +kernel

/-! ### C44 -/

theorem mem_processing {s : Channel.St D} (hi : Channel.Inv s) (id : Nat) :
    id ∈ processing s ↔ ∃ it, lookup s.items id = some it ∧ it.hb ≠ .none := by
  unfold processing
  simp only [List.mem_map, List.mem_filter, bne_iff_ne, ne_eq]
  constructor
  · rintro ⟨⟨a, b⟩, ⟨hm, hb⟩, rfl⟩
    exact ⟨b, (mem_iff_lookup hi.keysNodup).1 hm, hb⟩
  · rintro ⟨it, hl, hb⟩
    exact ⟨(id, it), ⟨(mem_iff_lookup hi.keysNodup).2 hl, hb⟩, rfl⟩

/-- C44: an item is at every time in exactly one place.  It was stored once, and it was removed, or it waits (once), or it is the one that is
just being taken from the list, or it is being processed. -/
theorem C44_one_place {s : Channel.St D} (hr : Channel.Reach s) (hd : s.destroyed = false) (id : Nat) :
    enqueues id s.log =
      removals id s.log + s.queue.count id + (if s.exec = .popped id then 1 else 0) + (processing s).count id ∧
    enqueues id s.log ≤ 1 ∧ (id ∈ stored s ↔ enqueues id s.log = 1 ∧ removals id s.log = 0) := by
  have hi := inv_reach hr
  have hg := hist_reach hr id
  have h1 := hg.enq
  have h2 := hg.rem hd
  have hpn : (processing s).Nodup := (hi.keysNodup.sublist (List.filter_sublist.map _))
  have hpm := mem_processing hi id
  have hqc := count_nodup hi.queueNodup id
  have hpc := count_nodup hpn id
  rw [hqc, hpc, h1, h2]
  have hsm : id ∈ stored s ↔ id ∈ keys s.items := Iff.rfl
  cases hl : lookup s.items id with
  | none =>
    have hk := lookup_none.1 hl
    have a1 : id ∉ s.queue := fun hm => hk (hi.queueStored hd id hm)
    have a2 : s.exec ≠ .popped id := fun e => hk (hi.poppedStored hd id (.inl e))
    have a3 : id ∉ processing s := by rw [hpm]; simp [hl]
    refine ⟨by simp [a1, a2, a3], by unfold one; split <;> omega, ?_⟩
    rw [hsm]; constructor
    · intro h; exact absurd h hk
    · rintro ⟨h3, h4⟩; simp at h3 h4; rw [h3] at h4; simp at h4
  | some it =>
    have hlt := hg.lt it hl
    have hk := lookup_mem_keys hl
    have hs' : (id ∈ stored s ↔ one (decide (id < s.nextId)) = 1 ∧ one (decide (id < s.nextId ∧ some it = none)) = 0) := by
      rw [hsm]; simp [hk, hlt, one]
    refine ⟨?_, by unfold one; split <;> omega, hs'⟩
    simp only [hlt, decide_true, one_true, reduceCtorEq, and_false, decide_false, one_false, Nat.zero_add]
    by_cases hb : it.hb = .none
    · have a3 : id ∉ processing s := by rw [hpm, hl]; simp [hb]
      rw [if_neg a3]
      rcases hi.idleQueued hd id it hl hb with hq | hq
      · have a2 : s.exec ≠ .popped id := fun e => (hi.popped id e).1 hq
        simp [hq, a2]
      · have a1 := (hi.popped id hq).1
        simp [hq, a1]
    · have a3 : id ∈ processing s := hpm.2 ⟨it, hl, hb⟩
      have a1 : id ∉ s.queue := fun hm => hb (hi.queueIdle id hm it hl)
      have a2 : s.exec ≠ .popped id := fun e => hb ((hi.popped id e).2.2 it hl)
      simp [a1, a2, a3]

/-- C44: whenever an item is handed out, nobody else is processing it: each earlier hand-out has failed (by an ACK or a timeout) or could not
be sent.  And the client gets the content of the last request stored for the item. -/
theorem C44_handed_to_one {s : Channel.St D} (hr : Channel.Reach s) {post pre : List (Ev D)} {id : Nat} {it : Item D}
    (h : s.log = post ++ .taken id it :: pre) :
    takes id pre = unsents id pre + fails id pre ∧ removals id pre = 0 ∧ ∃ r, lastReq id pre = some r ∧ Content it r := by
  refine always_reach (P := fun pre id it => takes id pre = unsents id pre + fails id pre ∧ removals id pre = 0 ∧
    ∃ r, lastReq id pre = some r ∧ Content it r) ?_ hr post pre id it h
  intro s hr id it he hl hn
  have hi := inv_reach hr
  have hg := hist_reach hr id
  have hd : s.destroyed = false := by
    cases hd : s.destroyed with
    | false => rfl
    | true => simp [(hi.destroyed hd).2, lookup_nil] at hl
  refine ⟨?_, ?_, hg.req it hl⟩
  · have := hg.all it hl; simpa [hn, one] using this
  · have := hg.rem hd; rw [this, hl]; simp [one]

/-- C44: an item leaves the channel only by a successful ACK while it is processed, by a failure that used up its retries, or, if it is
updateable, by being superseded.  (`s0` is the channel just before.) -/
theorem C44_reasons {s : Channel.St D} (hr : Channel.Reach s) {post pre : List (Ev D)} {e : Ev D} {id : Nat} (h : s.log = post ++ e :: pre)
    (he : removals id [e] = 1) : ∃ s0, Channel.Reach s0 ∧ (∃ l, s.log = l ++ s0.log) ∧
      ∃ it, lookup s0.items id = some it ∧
        ((e = .ackPassed id true ∧ id ∈ processing s0) ∨
         (e = .exhausted id ∧ id ∈ processing s0 ∧ it.maxRetry < it.retryCount + 1) ∨
         ((∃ b, e = .superseded id b) ∧ it.updateable = true)) := by
  obtain ⟨s0, s1, evs, hr0, _, _, hg, front, mid, h1, h2⟩ := event_reach hr h
  have hf := hg.fits e (by rw [h1]; simp)
  have hmem : ∀ it, lookup s0.items id = some it → it.hb ≠ .none → id ∈ processing s0 := by
    intro it hl hb
    exact (mem_processing (inv_reach hr0) id).2 ⟨it, hl, hb⟩
  refine ⟨s0, hr0, ⟨post ++ e :: mid, by rw [h, h2]; simp⟩, ?_⟩
  cases e with
  | ackPassed i b =>
    cases b with
    | false => simp [removals] at he
    | true =>
      have : i = id := by simpa [removals, List.countP_cons] using he
      subst this
      obtain ⟨it, hl, hb⟩ := hf.1 rfl
      exact ⟨it, hl, .inl ⟨rfl, hmem it hl hb⟩⟩
  | exhausted i =>
    have : i = id := by simpa [removals, List.countP_cons] using he
    subst this
    obtain ⟨it, hl, hb, hm⟩ := hf
    exact ⟨it, hl, .inr (.inl ⟨rfl, hmem it hl hb, hm⟩)⟩
  | superseded i b =>
    have : i = id := by simpa [removals, List.countP_cons] using he
    subst this
    obtain ⟨it, hl, hu⟩ := hf
    exact ⟨it, hl, .inr (.inr ⟨⟨b, rfl⟩, hu⟩)⟩
  | _ => simp [removals] at he

/-- Non-vacuity: item 0 is processed, item 1 waits, item 2 is being taken while an item was removed before. -/
example : let s := chanRun ([.enqueue reqA true] ++ takeCmds ++ [.received, .passed 0, .enqueue reqB true] ++ takeCmds ++
      [.received, .enqueue reqA true, .enqueue reqB true, .notified, .send, .count true, .pop])
    s.destroyed = false ∧ removals 0 s.log = 1 ∧ processing s = [1] ∧ s.exec = .popped 2 ∧ s.queue = [3] ∧
      (List.range 4).map (fun i => enqueues i s.log) = [1, 1, 1, 1] := by
  decide +kernel

/-! ### C45 -/

/-- C45: if the last waiting item is updateable, an enqueue stores the data and the settings in it (and resets its retries); nothing else
changes, also not the number of items or the counters in the limiter. -/
theorem C45_update {s : Channel.St D} {id : Nat} {it : Item D} (r : Channel.Req D) (grant : Bool)
    (hq : s.queue.getLast? = some id) (hl : lookup s.items id = some it) (hu : it.updateable = true) :
    let s' := Channel.enqueue s r grant
    (∃ it', lookup s'.items id = some it' ∧ Content it' r ∧ it'.retryCount = 0 ∧ it'.hb = it.hb) ∧
    (∀ x, x ≠ id → lookup s'.items x = lookup s.items x) ∧ stored s' = stored s ∧
    s'.queue = s.queue ∧ s'.enq = s.enq ∧ s'.run = s.run ∧ s'.pending = s.pending := by
  have h : updatableLast s = some id := by simp [updatableLast, hq, hl, hu]
  simp only [Channel.enqueue, h, St.ev]
  refine ⟨⟨update r it, by simp [lookup_change, hl], ⟨rfl, rfl, rfl, rfl⟩, rfl, rfl⟩, ?_, ?_, by trivial, by trivial, by trivial, by trivial⟩
  · intro x hx; rw [lookup_change, if_neg (fun e => hx e.symm)]
  · exact keys_change ..

/-- C45: otherwise the enqueue asks the limiter; if it agrees the item is stored under a new id at the end of the list and both counts grow,
if it does not agree nothing changes. -/
theorem C45_append {s : Channel.St D} (hr : Channel.Reach s) (r : Channel.Req D) (grant : Bool)
    (hq : ∀ id it, s.queue.getLast? = some id → lookup s.items id = some it → it.updateable = false) :
    let s' := Channel.enqueue s r grant
    if grant then
      ∃ id, id ∉ stored s ∧ enqueues id s.log = 0 ∧ s'.queue = s.queue ++ [id] ∧ lookup s'.items id = some (newItem r) ∧
        (∀ x, x ≠ id → lookup s'.items x = lookup s.items x) ∧ s'.enq = s.enq + 1 ∧ s'.run = s.run ∧ s'.pending = s.pending + 1
    else s' = { s with log := .refused :: s.log } := by
  have hi := inv_reach hr
  have h : updatableLast s = none := by
    unfold updatableLast
    split
    · rfl
    · rename_i id hid
      split
      · rfl
      · rename_i it hl; simp [hq id it hid hl]
  simp only [Channel.enqueue, h, St.ev]
  cases grant with
  | false => rfl
  | true =>
    simp only [↓reduceIte]
    have hne : s.nextId ∉ keys s.items := fun hm => Nat.lt_irrefl _ (hi.keysLt _ hm)
    refine ⟨s.nextId, hne, ?_, by trivial, ?_, ?_, by trivial, by trivial, by trivial⟩
    · have := (hist_reach hr s.nextId).enq; simpa [one] using this
    · rw [lookup_append, lookup_none.2 hne]; simp [lookup_cons]
    · intro x hx; rw [lookup_append]
      have : s.nextId ≠ x := fun e => hx e.symm
      simp [lookup_cons, lookup_nil, this]

/-- Non-vacuity: an updateable item is updated, an item that is not updateable is not. -/
example : (chanRun [.enqueue reqA true, .enqueue reqU true, .enqueue reqV true, .enqueue reqB true, .enqueue reqA true, .enqueue reqA false]).log =
    [.refused, .enqueued 2 reqA, .updated 1 reqB, .updated 1 reqV, .enqueued 1 reqU, .enqueued 0 reqA] := by
  decide +kernel

/-! ### C46 -/

/-- C46: a passed ACK of an item that is being processed (and whose timeout is not running) is answered with success, removes the item and
nothing else, and gives one running and one enqueued item back to the limiter. -/
theorem C46_removes {s : Channel.St D} (hr : Channel.Reach s) {id : Nat} (hp : id ∈ processing s)
    (hf : ∀ it, lookup s.items id = some it → it.hb ≠ .firing) :
    let s' := Channel.ackPassed s id
    s'.log = .ackPassed id true :: s.log ∧ id ∉ stored s' ∧ (∀ x, x ≠ id → lookup s'.items x = lookup s.items x) ∧
    s'.queue = s.queue ∧ s'.pending = s.pending ∧ s'.run = s.run - 1 ∧ s'.enq = s.enq - 1 := by
  obtain ⟨it, hl, hb⟩ := (mem_processing (inv_reach hr) id).1 hp
  have hst : it.hb.stops = true := by have := hf it hl; cases h : it.hb <;> simp_all [HB.stops]
  simp only [Channel.ackPassed, hl, hst, ↓reduceIte, St.ev]
  refine ⟨by trivial, ?_, ?_, by trivial, by trivial, by trivial, by trivial⟩
  · intro hm; exact (mem_keys_remove.1 hm).2 rfl
  · intro x hx; rw [lookup_remove, if_neg (fun e => hx e.symm)]

/-- C46: for every other id the answer is not-found and nothing changes. -/
theorem C46_not_found {s : Channel.St D} (hr : Channel.Reach s) {id : Nat} (hp : id ∉ processing s) :
    Channel.ackPassed s id = { s with log := .ackPassed id false :: s.log } := by
  unfold Channel.ackPassed
  split
  · rfl
  · rename_i it hl
    have : it.hb = .none := by
      apply Classical.byContradiction
      intro hb; exact hp ((mem_processing (inv_reach hr) id).2 ⟨it, hl, hb⟩)
    simp [this, HB.stops, St.ev]

/-- Non-vacuity. -/
example : let s := chanRun ([.enqueue reqA true, .enqueue reqB true] ++ takeCmds ++ [.received])
    processing s = [0] ∧ (chanExec1 s (.passed 0)).map (fun s => (stored s, s.log.head?)) = some ([1], some (.ackPassed 0 true)) ∧
      (chanExec1 s (.passed 1)).map (fun s => (stored s, s.log.head?)) = some ([0, 1], some (.ackPassed 1 false)) ∧
      (chanExec1 s (.passed 7)).map (fun s => (stored s, s.log.head?)) = some ([0, 1], some (.ackPassed 7 false)) := by
  decide +kernel

/-! ### C47 -/

/-- C47: since the last request for an item (its enqueue or its last update), it was handed out at most RetryAttempts + 1 times, not counting
the times it could not be sent to the client. -/
theorem C47_at_most {s : Channel.St D} (hr : Channel.Reach s) {id : Nat} {r : Channel.Req D} (h : lastReq id s.log = some r) :
    takes id (since id s.log) ≤ unsents id (since id s.log) + (r.maxRetry + 1) := by
  have := (hist_reach hr id).bound r h; omega

/-- C47: an item that failed more than RetryAttempts times since the last request is not stored any more; one that is still stored failed at
most RetryAttempts times. -/
theorem C47_removed {s : Channel.St D} (hr : Channel.Reach s) {id : Nat} {r : Channel.Req D} (h : lastReq id s.log = some r)
    (hf : r.maxRetry < fails id (since id s.log)) : id ∉ stored s := by
  intro hm
  obtain ⟨it, hl⟩ := lookup_some_of_mem (l := s.items) hm
  have hg := hist_reach hr id
  obtain ⟨r', h1, _, _, h2, _⟩ := hg.req it hl
  rw [h1] at h; simp at h; subst h
  have := hg.fails it hl
  have := hg.le it hl
  omega

/-- C47: it is not removed for this reason before: when an item is given up, it had been handed out and failed RetryAttempts times before, and
this was the next failure.  (`s0` is the channel just before.) -/
theorem C47_not_before {s : Channel.St D} (hr : Channel.Reach s) {post pre : List (Ev D)} {id : Nat} (h : s.log = post ++ .exhausted id :: pre) :
    ∃ s0 r, Channel.Reach s0 ∧ (∃ l, s.log = l ++ s0.log) ∧ lastReq id s0.log = some r ∧ fails id (since id s0.log) = r.maxRetry ∧
      id ∈ processing s0 := by
  obtain ⟨s0, h1, h2, it, hl, h3⟩ := C44_reasons hr h (id := id) (by simp [removals])
  rcases h3 with h3 | ⟨_, hp, hm⟩ | ⟨⟨b, h3⟩, _⟩
  · simp at h3
  · have hg := hist_reach h1 id
    obtain ⟨r, h4, _, _, h5, _⟩ := hg.req it hl
    refine ⟨s0, r, h1, h2, h4, ?_, hp⟩
    have := hg.fails it hl
    have := hg.le it hl
    omega
  · simp at h3

/-- Non-vacuity: with RetryAttempts = 1 the item is handed out, fails, is handed out again, fails and is given up. -/
example : (chanRun ([.enqueue reqA true] ++ takeCmds ++ [.received, .failed 0] ++ takeCmds ++ [.received, .fire 0, .timeout 0])).log.take 5 =
    [.exhausted 0, .failed 0, .timedOut 0, .received 0, .taken 0 { newItem reqA with retryCount := 1 }] := by
  decide +kernel

/-! ### C48 -/

/-- What a failure of an item being processed does to the waiting list: `q` before, `q'` after, `up x`: is the waiting item `x` updateable. -/
inductive Requeued (up : Nat → Bool) (id : Nat) (updateable : Bool) : Pos → List Nat → List Nat → Prop
  /-- front: at the front -/
  | front {q} : (q = [] ∨ updateable = false) → Requeued up id updateable .front q (id :: q)
  /-- front, but something newer waits and the item is updateable: it is dropped -/
  | dropped {q} : q ≠ [] → updateable = true → Requeued up id updateable .front q q
  /-- back: at the back -/
  | back {q} : (∀ b, q.getLast? = some b → up b = false) → Requeued up id updateable .back q (q ++ [id])
  /-- back, and the last item is updateable: it takes its place -/
  | replaces {q b} : up b = true → Requeued up id updateable .back (q ++ [b]) (q ++ [id])

/-- C48: a failed item with retries left goes where its owner said; the item dropped for it, or dropped itself, is removed. -/
theorem C48_position {s : Channel.St D} (hr : Channel.Reach s) {id : Nat} {it : Item D} (hl : lookup s.items id = some it) (hb : it.hb ≠ .none)
    (hle : it.retryCount + 1 ≤ it.maxRetry) :
    let s' := Channel.retry s id it
    Requeued (fun b => (lookup s.items b).any (·.updateable)) id it.updateable it.pos s.queue s'.queue ∧
    (∀ x, x ∈ stored s' ↔ x ∈ stored s ∧ (x = id ∨ x ∈ s.queue → x ∈ s'.queue)) ∧
    (∀ x i, x ≠ id → x ∈ stored s' → (lookup s'.items x = some i ↔ lookup s.items x = some i)) ∧
    (id ∈ stored s' → lookup s'.items id = some { it with hb := .none, retryCount := it.retryCount + 1 }) := by
  have hi := inv_reach hr
  have hd : s.destroyed = false := by
    cases hd : s.destroyed with
    | false => rfl
    | true => simp [(hi.destroyed hd).2, lookup_nil] at hl
  have hk := lookup_mem_keys hl
  have hnq : id ∉ s.queue := fun hm => hb (hi.queueIdle id hm it hl)
  have hlk : ∀ x, x ≠ id → lookup (Channel.change s.items id (fun i => { i with hb := .none, retryCount := i.retryCount + 1 })) x = lookup s.items x := by
    intro x hx; rw [lookup_change, if_neg (fun e => hx e.symm)]
  have hli : lookup (Channel.change s.items id (fun i => { i with hb := .none, retryCount := i.retryCount + 1 })) id =
      some { it with hb := .none, retryCount := it.retryCount + 1 } := by simp [lookup_change, hl]
  have hrem : ∀ x y, x ≠ y → lookup (Channel.remove (Channel.change s.items id (fun i => { i with hb := .none, retryCount := i.retryCount + 1 })) y) x =
      lookup (Channel.change s.items id (fun i => { i with hb := .none, retryCount := i.retryCount + 1 })) x := by
    intro x y hx; rw [lookup_remove, if_neg (fun e => hx e.symm)]
  have hst : ∀ (s' : Channel.St D) x, x ∈ stored s' ↔ x ∈ keys s'.items := fun _ _ => Iff.rfl
  have hpush : ∀ q : List Nat, (∀ x, x ∈ q ↔ x = id ∨ x ∈ s.queue) → ∀ x, x ∈ keys s.items ↔ x ∈ keys s.items ∧ (x = id ∨ x ∈ s.queue → x ∈ q) := by
    intro q hq x; simp [hq]
  simp only [Channel.retry]
  rw [if_neg (by omega)]
  cases hpos : it.pos with
  | front =>
    rw [hpos] at hli
    simp only
    split
    · rename_i hu
      refine ⟨.dropped hu.1 hu.2, ?_, ?_, ?_⟩
      · intro x
        simp only [hst, St.ev, mem_keys_remove, keys_change]
        constructor
        · rintro ⟨h1, h2⟩; exact ⟨h1, fun h => h.resolve_left h2⟩
        · rintro ⟨h1, h2⟩; exact ⟨h1, fun e => hnq (e ▸ h2 (.inl e))⟩
      · intro x i hx _; simp only [St.ev]; rw [hrem x id hx, hlk x hx]
      · intro hm; exact absurd rfl (mem_keys_remove.1 hm).2
    · rename_i hu
      refine ⟨.front ?_, ?_, ?_, ?_⟩
      · by_cases hq : s.queue = []
        · exact .inl hq
        · exact .inr (by cases h : it.updateable with | false => rfl | true => exact absurd ⟨hq, h⟩ hu)
      · intro x
        simp only [hst, St.ev, pushFront, keys_change]
        exact hpush (id :: s.queue) (by simp) x
      · intro x i hx _; simp only [St.ev, pushFront]; rw [hlk x hx]
      · intro _; exact hli
  | back =>
    rw [hpos] at hli
    simp only [retryBack, St.ev, pushBack]
    split
    · rename_i hq
      refine ⟨.back (by simp [hq]), ?_, ?_, ?_⟩
      · intro x
        simp only [hst, keys_change]
        exact hpush (s.queue ++ [id]) (by simp [or_comm]) x
      · intro x i hx _; simp only; rw [hlk x hx]
      · intro _; exact hli
    · rename_i b hq
      have hbq : b ∈ s.queue := List.mem_of_getLast? hq
      have hbid : b ≠ id := fun e => hnq (e ▸ hbq)
      obtain ⟨bi, hbl⟩ := lookup_some_of_mem (hi.queueStored hd b hbq)
      rw [hlk b hbid, hbl]
      simp only
      split
      · rename_i hu
        have hqq : s.queue = s.queue.dropLast ++ [b] := by
          obtain ⟨ys, hys⟩ := List.getLast?_eq_some_iff.1 hq
          rw [hys]; simp
        have hbd : b ∉ s.queue.dropLast := by
          have hn := hi.queueNodup
          rw [hqq, List.nodup_append] at hn
          intro hm; exact hn.2.2 b hm b (by simp) rfl
        refine ⟨?_, ?_, ?_, ?_⟩
        · simp only
          have := Requeued.replaces (up := fun b => (lookup s.items b).any (·.updateable)) (id := id) (updateable := it.updateable)
            (q := s.queue.dropLast) (b := b) (by simp [hbl, hu])
          rw [← hqq] at this; exact this
        · intro x
          simp only [hst, mem_keys_remove, keys_change]
          constructor
          · rintro ⟨h1, h2⟩
            refine ⟨h1, ?_⟩
            rintro (h3 | h3)
            · simp [h3]
            · rw [hqq] at h3; simp at h3 ⊢
              rcases h3 with h3 | h3
              · exact .inl h3
              · exact absurd h3 h2
          · rintro ⟨h1, h2⟩
            refine ⟨h1, ?_⟩
            rintro rfl
            have := h2 (.inr hbq)
            simp at this
            rcases this with h3 | h3
            · exact hbd h3
            · exact hbid h3
        · intro x i hx hm
          simp only [hst, mem_keys_remove] at hm
          simp only; rw [hrem x b hm.2, hlk x hx]
        · intro _; simp only; rw [hrem id b (fun e => hbid e.symm)]; exact hli
      · rename_i hu
        refine ⟨.back ?_, ?_, ?_, ?_⟩
        · intro b' hb'; rw [hq] at hb'; simp at hb'; subst hb'; simpa [hbl] using hu
        · intro x
          simp only [hst, keys_change]
          exact hpush (s.queue ++ [id]) (by simp [or_comm]) x
        · intro x i hx _; simp only; rw [hlk x hx]
        · intro _; exact hli

/-- C48: a failed ACK and a timeout do this, if the item is being processed. -/
theorem C48_when {s : Channel.St D} {id : Nat} {it : Item D} (hl : lookup s.items id = some it) :
    (it.hb.stops = true → Channel.ackFailed s id = (Channel.retry { s with exec := touch s.exec id } id it).ev (.ackFailed id true)) ∧
    (s.destroying = false → Channel.timeout s id = Channel.retry (s.ev (.timedOut id)) id it) := by
  constructor
  · intro hst
    simp only [Channel.ackFailed, failItem, hl, hst, Bool.or_true, ↓reduceIte]
  · intro hd
    have hl' : lookup (s.ev (.timedOut id)).items id = some it := hl
    simp only [Channel.timeout, hd, Bool.false_eq_true, ↓reduceIte, failItem, hl', Bool.true_or]

/-- Non-vacuity: front, back and taking the place of the last item. -/
example : (chanRun ([.enqueue reqA true, .enqueue reqB true] ++ takeCmds ++ [.received, .failed 0])).queue = [0, 1] ∧
    (chanRun ([.enqueue reqB true, .enqueue reqA true] ++ takeCmds ++ [.received, .failed 0])).queue = [1, 0] ∧
    (chanRun ([.enqueue reqB true, .enqueue reqA true, .enqueue reqU true] ++ takeCmds ++ [.received, .failed 0])).queue = [1, 0] ∧
    stored (chanRun ([.enqueue reqB true, .enqueue reqA true, .enqueue reqU true] ++ takeCmds ++ [.received, .failed 0])) = [0, 1] ∧
    (chanRun ([.enqueue reqV true] ++ takeCmds ++ [.received, .enqueue reqA true, .failed 0])).queue = [1] := by
  decide +kernel

/-! ### C49 -/

/-- Removals of items that did not reduce the count in the limiter. -/
def uncounted (h : List (Ev D)) : Nat := h.countP (fun | .superseded _ false => true | _ => false)

/-- C49, exact: the enqueued count is the number of stored items plus the number of items that were dropped in favour of another item when
an item failed. -/
theorem C49_exact {s : Channel.St D} (hr : Channel.Reach s) (hf : s.forced = false) : s.enq = (stored s).length + uncounted s.log := by
  have := (inv_reach hr).enq hf
  have e : uncounted s.log = leaks s.log := by
    unfold uncounted leaks
    congr 1
  rw [e, this]; simp [stored]

/-- C49, the part that holds: the count is never too small, and it is right if no item was dropped by a failure.  (Missing: it is right in all
histories, see `C49_violated`.) -/
theorem C49_partial {s : Channel.St D} (hr : Channel.Reach s) (hf : s.forced = false) :
    (stored s).length ≤ s.enq ∧ ((∀ id, .superseded id false ∉ s.log) → s.enq = (stored s).length) := by
  have h := C49_exact hr hf
  refine ⟨by omega, fun hn => ?_⟩
  have : uncounted s.log = 0 := by
    unfold uncounted; rw [List.countP_eq_zero]
    intro e he hp
    cases e with
    | superseded id b => cases b <;> simp at hp; exact hn id he
    | _ => simp at hp
  omega

/-- Non-vacuity. -/
example : let s := chanRun ([.enqueue reqA true, .enqueue reqU true] ++ takeCmds ++ [.received, .failed 0])
    s.forced = false ∧ s.enq = 2 ∧ (stored s).length = 2 := by
  decide +kernel

/-! ### After a forced deletion -/

theorem retry_enq (s : Channel.St D) (id : Nat) (it : Item D) :
    (Channel.retry s id it).enq ≤ s.enq ∧ (Channel.retry s id it).forced = s.forced ∧ (Channel.retry s id it).closed = s.closed := by
  unfold Channel.retry
  simp only
  by_cases h1 : it.retryCount + 1 > it.maxRetry
  · rw [if_pos h1]; exact ⟨Nat.sub_le _ _, rfl, rfl⟩
  · rw [if_neg h1]
    cases it.pos with
    | front =>
      simp only
      split
      · exact ⟨Nat.le_refl _, rfl, rfl⟩
      · exact ⟨Nat.le_refl _, rfl, rfl⟩
    | back =>
      simp only [retryBack]
      split
      · exact ⟨Nat.le_refl _, rfl, rfl⟩
      · split
        · exact ⟨Nat.le_refl _, rfl, rfl⟩
        · split <;> exact ⟨Nat.le_refl _, rfl, rfl⟩

theorem failItem_enq (s : Channel.St D) (id : Nat) (b : Bool) :
    (failItem s id b).1.enq ≤ s.enq ∧ (failItem s id b).1.forced = s.forced ∧ (failItem s id b).1.closed = s.closed := by
  unfold failItem
  split
  · exact ⟨Nat.le_refl _, rfl, rfl⟩
  · split
    · exact retry_enq s id _
    · exact ⟨Nat.le_refl _, rfl, rfl⟩

theorem step_forced {s s' : Channel.St D} (hs : Channel.Step s s') (h : s.forced = true → s.closed = true ∧ s.enq = 0) :
    s'.forced = true → s'.closed = true ∧ s'.enq = 0 := by
  have mono : ∀ t : Channel.St D, t.enq ≤ s.enq ∧ t.forced = s.forced ∧ t.closed = s.closed → t.forced = true → t.closed = true ∧ t.enq = 0 := by
    intro t ⟨h1, h2, h3⟩ hf
    obtain ⟨h4, h5⟩ := h (h2 ▸ hf)
    exact ⟨h3 ▸ h4, by omega⟩
  have hcl : s.closed = false → s.forced = false := by
    intro hc
    cases hf : s.forced with
    | false => rfl
    | true => rw [(h hf).1] at hc; cases hc
  cases hs with
  | enqueue r g hc =>
    have := hcl hc
    intro hf
    exfalso
    revert hf
    unfold Channel.enqueue
    split
    · simp [St.ev, this]
    · split <;> simp [St.ev, this]
  | ackPassed id hc _ =>
    have := hcl hc
    intro hf; exfalso; revert hf
    unfold Channel.ackPassed
    split
    · simp [St.ev, this]
    · split <;> simp [St.ev, this]
  | ackFailed id hc _ =>
    apply mono
    have := failItem_enq { s with exec := touch s.exec id } id false
    exact this
  | heartbeat id hc _ =>
    have := hcl hc
    intro hf; exfalso; revert hf
    unfold Channel.heartbeat
    simp only
    split <;> simp [St.ev, this]
  | notified _ _ => exact h
  | send _ => exact h
  | count g _ => apply mono; unfold Channel.count; split <;> exact ⟨Nat.le_refl _, rfl, rfl⟩
  | pop _ => apply mono; unfold Channel.pop; split <;> exact ⟨Nat.le_refl _, rfl, rfl⟩
  | find _ =>
    apply mono; unfold Channel.find
    split
    · exact ⟨Nat.le_refl _, rfl, rfl⟩
    · split
      · exact ⟨Nat.le_refl _, rfl, rfl⟩
      · split <;> exact ⟨Nat.le_refl _, rfl, rfl⟩
  | received _ => apply mono; unfold Channel.received; split <;> exact ⟨Nat.le_refl _, rfl, rfl⟩
  | unsent _ =>
    apply mono; unfold Channel.unsent
    split
    · exact ⟨Nat.le_refl _, rfl, rfl⟩
    · simp only
      split
      · exact ⟨Nat.le_refl _, rfl, rfl⟩
      · unfold giveBack
        split
        · simp only
          split
          · exact ⟨by simp [St.ev], rfl, rfl⟩
          · exact ⟨Nat.le_refl _, rfl, rfl⟩
        · exact ⟨Nat.le_refl _, rfl, rfl⟩
  | spinDone _ => exact h
  | fire _ _ => exact h
  | @timeout id _ _ _ =>
    apply mono; unfold Channel.timeout
    split
    · exact ⟨Nat.le_refl _, rfl, rfl⟩
    · have := failItem_enq (s.ev (.timedOut id)) id true
      exact this
  | delete hc =>
    have := hcl hc
    intro hf; exfalso; revert hf
    unfold Channel.delete
    split <;> simp [St.ev, this]
  | forceBegin _ => intro _; exact ⟨rfl, rfl⟩
  | forceMark _ _ => exact h
  | forceEnd _ _ _ => exact h
  | stop _ _ => exact h

/-- C49, deleted channels: from the moment a channel is forcibly deleted (with its queue) the limiter counts none of its items, whatever timeouts and
failing deliveries follow. -/
theorem C49_after_delete {s : Channel.St D} (hr : Channel.Reach s) (hf : s.forced = true) : s.enq = 0 := by
  suffices s.forced = true → s.closed = true ∧ s.enq = 0 from (this hf).2
  clear hf
  induction hr with
  | init => intro h; simp [Channel.init] at h
  | step _ _ hs ih => exact step_forced hs ih

/-- Non-vacuity: two items, one of them handed out; deletion; the delivery fails. -/
example : let s := chanRun ([.enqueue reqA true, .enqueue reqU true] ++ takeCmds ++ [.forceBegin, .unsent])
    s.forced = true ∧ (stored s).length = 2 := by
  decide +kernel

/-- The round of `C49_violated`: an updateable item is handed out, another one is enqueued, the first fails and is dropped; the second is handed
out and acked. -/
def leakRound (k : Nat) : List ChanCmd :=
  [.enqueue reqV true] ++ takeCmds ++ [.received, .enqueue reqA true, .failed k] ++ takeCmds ++ [.received, .passed (k + 1)]

/-- C49 fails without bound: for every number there is a history after which the channel is empty, nothing is being processed and the limiter
counts this number of enqueued items - so this capacity of the queue is lost. -/
theorem C49_violated (n : Nat) : ∃ s : Channel.St Nat, Channel.Reach s ∧ s.forced = false ∧ stored s = [] ∧ s.exec = .idle ∧ s.enq = n := by
  have main : ∀ n, ∃ s : Channel.St Nat, Channel.Reach s ∧ s.crashed = false ∧ s.forced = false ∧ s.closed = false ∧ s.destroying = false ∧
      s.items = [] ∧ s.queue = [] ∧ s.pending = 0 ∧ s.exec = .idle ∧ s.enq = n := by
    intro n
    induction n with
    | zero => exact ⟨Channel.init, .init, rfl, rfl, rfl, rfl, rfl, rfl, rfl, rfl, rfl⟩
    | succ n ih =>
      obtain ⟨s, hr, h1, h2, h3, h4, h5, h6, h7, h8, h9⟩ := ih
      cases s with
      | mk items queue nextId pending enq run exec closed forced destroying destroyed crashed log =>
        simp only at h1 h2 h3 h4 h5 h6 h7 h8 h9
        subst h1 h2 h3 h4 h5 h6 h7 h8 h9
        have hx : ∃ s', chanExec (Channel.St.mk [] [] nextId 0 enq run .idle false false false destroyed false log) (leakRound nextId) = some s' ∧
            s'.crashed = false ∧ s'.forced = false ∧ s'.closed = false ∧ s'.destroying = false ∧
            s'.items = [] ∧ s'.queue = [] ∧ s'.pending = 0 ∧ s'.exec = .idle ∧ s'.enq = enq + 1 := by
          simp [leakRound, takeCmds, chanExec, chanExec1, Channel.enqueue, updatableLast, St.ev, Channel.count, Channel.pop, Channel.find, lookup,
            Channel.change, Channel.received, Channel.ackFailed, failItem, Channel.retry, Channel.remove, newItem, reqV, reqA, HB.stops, HB.start, touch,
            Channel.ackPassed]
        obtain ⟨s', h1, h2⟩ := hx
        exact ⟨s', chanExec_reach hr h1, h2⟩
  obtain ⟨s, hr, _, h2, _, _, h5, _, _, h8, h9⟩ := main n
  exact ⟨s, hr, h2, by simp [stored, h5], h8, h9⟩

/-! ### C50 -/

/-- A client has just been counted and its item is not handed out yet. -/
def inFlight (s : Channel.St D) : Nat := match s.exec with | .counted | .popped _ => 1 | _ => 0

/-- C50, the part that holds: as long as the channel is not being deleted by force, and no hand-out failed after somebody had already acked the
item, the running count is the number of items being processed, plus one while a dequeue has counted its item but not handed it out.
(Missing: the same in all histories, see `C50_violated_stale_ack` and `C50_violated_delete`.) -/
theorem C50_partial {s : Channel.St D} (hr : Channel.Reach s) (hf : s.forced = false) (hn : ∀ id, .unsent id false ∉ s.log) :
    s.run = (processing s).length + inFlight s := by
  have := (inv_reach hr).run hf hn
  rw [this]
  congr 1
  simp [processing, procs]

/-- Non-vacuity. -/
example : let s := chanRun ([.enqueue reqA true, .enqueue reqU true, .enqueue reqA true] ++ takeCmds ++ [.received] ++ takeCmds ++
      [.unsent] ++ takeCmds ++ [.received, .enqueue reqB true, .notified, .send, .count true])
    s.forced = false ∧ s.run = 3 ∧ processing s = [0, 1] ∧ inFlight s = 1 ∧ s.log.all (fun | .unsent _ false => false | _ => true) = true := by
  decide +kernel

/-- The history of `C50_violated_stale_ack`: items 0 and 1 are handed out; item 0 times out and is handed out again, but before it could be sent
the first client acks it. -/
def staleAck : List ChanCmd :=
  [.enqueue reqA true, .enqueue reqA true] ++ takeCmds ++ [.received] ++ takeCmds ++ [.received, .fire 0, .timeout 0] ++ takeCmds ++
    [.passed 0, .unsent]

/-- C50 fails: nothing is being handed out or deleted, item 1 is being processed, and the running count is 0. -/
theorem C50_violated_stale_ack : ∃ s : Channel.St Nat, Channel.Reach s ∧ s.closed = false ∧ s.exec = .idle ∧ processing s = [1] ∧ s.run = 0 :=
  ⟨chanRun staleAck, chanRun_reach _, by decide +kernel⟩

/-- The history of `C50_violated_delete`: the counters are deleted while a dequeue is about to increment the running count. -/
def deleteRace : List ChanCmd :=
  [.enqueue reqA true, .notified, .send, .forceBegin, .count true, .pop, .find, .received, .forceMark, .forceEnd, .stop]

/-- C50 fails: the channel is deleted completely, but the limiter still counts one running item. -/
theorem C50_violated_delete : ∃ s : Channel.St Nat, Channel.Reach s ∧ s.destroyed = true ∧ s.exec = .stopped ∧ stored s = [] ∧ s.run = 1 :=
  ⟨chanRun deleteRace, chanRun_reach _, by decide +kernel⟩

/-! ### C51 -/

/-- C51: when a dequeue takes the first item, there is one. -/
theorem C51_never_empty {s : Channel.St D} (hr : Channel.Reach s) (h : s.exec = .counted) : s.queue ≠ [] := by
  have := (inv_reach hr).pending (by simp [h])
  intro e; simp [h, e, Exec.owes] at this

/-- C51: as long as the channel is not deleted by force, it does not crash. -/
theorem C51_no_crash {s : Channel.St D} (hr : Channel.Reach s) (hf : s.forced = false) : s.crashed = false := by
  have hi := inv_reach hr
  cases hc : s.crashed with
  | false => rfl
  | true => have := hi.destroying (hi.crash hc); simp [hf] at this

/-- C51: there is exactly one notification for each waiting item, except for the one that is being offered or taken. -/
theorem C51_notifications {s : Channel.St D} (hr : Channel.Reach s) (h : s.exec ≠ .stopped) :
    s.pending + (if s.exec = .offering ∨ s.exec = .called ∨ s.exec = .counted then 1 else 0) = s.queue.length := by
  have := (inv_reach hr).pending h
  rw [← this]; congr 1
  cases s.exec <;> simp [Exec.owes]

/-- Non-vacuity. -/
example : let s := chanRun ([.enqueue reqA true, .enqueue reqA true, .notified, .send, .count true])
    s.exec = .counted ∧ s.queue = [0, 1] ∧ s.pending = 1 ∧ s.forced = false := by
  decide +kernel

/-! ### C52 -/

/-- C52: a channel that closes without being deleted by force has no waiting items and none being processed, and stays so. -/
theorem C52_only_empty {s : Channel.St D} (hr : Channel.Reach s) (hc : s.closed = true) (hf : s.forced = false) :
    stored s = [] ∧ s.queue = [] ∧ processing s = [] := by
  have hi := inv_reach hr
  have h := hi.closed hc hf
  have hd : s.destroyed = false := by
    cases hd : s.destroyed with
    | false => rfl
    | true => have := hi.destroying (hi.destroyed hd).1; simp [hf] at this
  refine ⟨by simp [stored, h], ?_, by simp [processing, h]⟩
  cases hq : s.queue with
  | nil => rfl
  | cons a q => have := hi.queueStored hd a (by simp [hq]); simp [keys, h] at this

/-- C52: the automatic deletion says no (and does nothing) if there are items. -/
theorem C52_refuses {s : Channel.St D} (h : stored s ≠ []) : Channel.delete s = s := by
  have : s.items ≠ [] := fun e => h (by simp [stored, e])
  simp [Channel.delete, this]

/-- Non-vacuity: it is refused with an item, and it is done without. -/
example : (chanRun ([.enqueue reqA true, .delete])).closed = false ∧
    (chanRun ([.enqueue reqA true] ++ takeCmds ++ [.received, .passed 0, .delete])).closed = true := by
  decide +kernel

/-! ### C54 -/

/-- C54 fails: a failed ACK of an item that waits (and was never handed out) is answered with success. -/
theorem C54_violated : ∃ s : Channel.St Nat, Channel.Reach s ∧ 0 ∉ processing s ∧ s.queue = [0] ∧
    ∃ s', Channel.Step s s' ∧ s'.log = .ackFailed 0 true :: s.log ∧ s'.queue = [0] :=
  ⟨chanRun [.enqueue reqA true], chanRun_reach _, by decide +kernel, by decide +kernel,
    Channel.ackFailed (chanRun [.enqueue reqA true]) 0,
    .ackFailed 0 (by decide +kernel) (fun it h => by
      have : lookup (chanRun [.enqueue reqA true]).items 0 = some (newItem reqA) := by decide +kernel
      rw [this] at h; simp at h; subst h; simp [newItem]), by decide +kernel, by decide +kernel⟩

/-- C54, the part that holds: a failed ACK is answered with not-found for an id that is not stored, and it changes the items only if the item is
being processed - and then it is the failure described by C47 and C48.  (Missing: not-found for items that are not being processed.) -/
theorem C54_partial {s : Channel.St D} (hr : Channel.Reach s) (id : Nat) (hf : ∀ it, lookup s.items id = some it → it.hb ≠ .firing) :
    let s' := Channel.ackFailed s id
    (∃ evs, s'.log = .ackFailed id (decide (id ∈ stored s)) :: evs ++ s.log ∧ (.failed id ∈ evs ↔ id ∈ processing s)) ∧
    (id ∉ processing s → s'.items = s.items ∧ s'.queue = s.queue ∧ s'.run = s.run ∧ s'.enq = s.enq ∧ s'.pending = s.pending) := by
  have hi := inv_reach hr
  have hp := mem_processing hi id
  have hst : id ∈ stored s ↔ id ∈ keys s.items := Iff.rfl
  cases hl : lookup s.items id with
  | none =>
    have h1 : id ∉ stored s := lookup_none.1 hl
    have h2 : id ∉ processing s := by rw [hp]; simp [hl]
    simp only [Channel.ackFailed, failItem, hl, St.ev]
    exact ⟨⟨[], by simp [h1], by simp [h2]⟩, fun _ => by trivial⟩
  | some it =>
    have h1 : id ∈ stored s := lookup_mem_keys hl
    have hnf := hf it hl
    cases hs : it.hb.stops with
    | false =>
      have hn : it.hb = .none := by cases h : it.hb <;> simp_all [HB.stops]
      have h2 : id ∉ processing s := by rw [hp, hl]; simp [hn]
      simp only [Channel.ackFailed, failItem, hl, hs, Bool.or_self, Bool.false_eq_true, ↓reduceIte, St.ev]
      exact ⟨⟨[], by simp [h1], by simp [h2]⟩, fun _ => by trivial⟩
    | true =>
      have h2 : id ∈ processing s := hp.2 ⟨it, hl, fun e => by simp [e, HB.stops] at hs⟩
      simp only [Channel.ackFailed, failItem, hl, hs, Bool.or_true, ↓reduceIte, St.ev]
      refine ⟨?_, fun h => absurd h2 h⟩
      have : ∃ evs, (Channel.retry { s with exec := touch s.exec id } id it).log = evs ++ s.log ∧ .failed id ∈ evs := by
        unfold Channel.retry
        simp only
        split
        · exact ⟨[.exhausted id, .failed id], rfl, by simp⟩
        · split
          · split
            · exact ⟨[.superseded id false, .failed id], rfl, by simp⟩
            · exact ⟨[.requeued id, .failed id], rfl, by simp⟩
          · unfold retryBack
            simp only [St.ev, pushBack]
            split
            · exact ⟨[.requeued id, .failed id], rfl, by simp⟩
            · split
              · exact ⟨[.failed id], rfl, by simp⟩
              · split
                · rename_i b _ _ _ _ _
                  exact ⟨_ :: _ :: [.failed id], rfl, by simp⟩
                · exact ⟨[.requeued id, .failed id], rfl, by simp⟩
      obtain ⟨evs, h3, h4⟩ := this
      exact ⟨evs, by rw [h3]; simp [h1], by simp [h4, h2]⟩

/-- Non-vacuity of `C54_partial`: an item being processed fails; an unknown id is not found. -/
example : let s := chanRun ([.enqueue reqA true] ++ takeCmds ++ [.received])
    processing s = [0] ∧ (Channel.ackFailed s 0).log.take 3 = [.ackFailed 0 true, .requeued 0, .failed 0] ∧
      (Channel.ackFailed s 5).log.take 1 = [.ackFailed 5 false] := by
  decide +kernel

/-! ### C63 -/

/-- C63: a heartbeat that is answered is answered with success exactly if the item is being processed, and changes neither the items nor their order
nor the counters. -/
theorem C63_heartbeat {s : Channel.St D} (hr : Channel.Reach s) (id : Nat)
    (hb : ∀ it, lookup s.items id = some it → it.hb = .none ∨ it.hb = .running) :
    let s' := Channel.heartbeat s id
    s'.log = .beat id (decide (id ∈ processing s)) :: s.log ∧ s'.items = s.items ∧ s'.queue = s.queue ∧ s'.enq = s.enq ∧ s'.run = s.run ∧
      s'.pending = s.pending := by
  have hi := inv_reach hr
  have hp := mem_processing hi id
  simp only [Channel.heartbeat]
  cases hl : lookup s.items id with
  | none =>
    have h2 : id ∉ processing s := by rw [hp]; simp [hl]
    simp [St.ev, h2]
  | some it =>
    rcases hb it hl with e | e
    · have h2 : id ∉ processing s := by rw [hp]; simp [hl, e]
      simp [St.ev, h2, e]
    · have h2 : id ∈ processing s := by rw [hp]; simp [hl, e]
      simp [St.ev, h2, e]

/-- Non-vacuity: a heartbeat of an item that is being processed, of one that waits, and of an unknown one. -/
example : let s := chanRun ([.enqueue reqA true, .enqueue reqU true] ++ takeCmds ++ [.received])
    processing s = [0] ∧ (∀ id ∈ [0, 1, 5], ∀ it, lookup s.items id = some it → it.hb = .none ∨ it.hb = .running) ∧
      (Channel.heartbeat s 0).log.head? = some (.beat 0 true) ∧ (Channel.heartbeat s 1).log.head? = some (.beat 1 false) ∧
      (Channel.heartbeat s 5).log.head? = some (.beat 5 false) := by
  refine ⟨by decide +kernel, ?_, by decide +kernel, by decide +kernel, by decide +kernel⟩
  intro id hid it hl
  have h : ∀ id ∈ [0, 1, 5], (lookup (chanRun ([.enqueue reqA true, .enqueue reqU true] ++ takeCmds ++ [.received])).items id).all
      (fun it => it.hb == .none || it.hb == .running) = true := by decide +kernel
  have := h id hid
  rw [hl] at this; simpa using this

/-! ### C61 -/

/-- The history of `C61_violated`: an item times out while the channel is being deleted. -/
def timeoutInDelete : List ChanCmd :=
  [.enqueue reqA true] ++ takeCmds ++ [.received, .fire 0, .forceBegin, .forceMark, .timeout 0]

/-- C61 fails: the timeout of an item during a deletion of the channel crashes the process. -/
theorem C61_violated : ∃ s : Channel.St Nat, Channel.Reach s ∧ s.crashed = true :=
  ⟨chanRun timeoutInDelete, chanRun_reach _, by decide +kernel⟩

/-- C61, the part that holds: it crashes only while the items of a channel deleted by force are being destroyed.  (Missing: never.) -/
theorem C61_partial {s : Channel.St D} (hr : Channel.Reach s) (hc : s.crashed = true) : s.forced = true ∧ s.destroying = true ∧ .forced ∈ s.log := by
  have hi := inv_reach hr
  refine ⟨hi.destroying (hi.crash hc), hi.crash hc, ?_⟩
  exact forced_logged hr (hi.destroying (hi.crash hc))

/-! ### C62 -/

/-- C62 fails: after an update the item still has the timeout of the request it was enqueued with. -/
theorem C62_violated : ∃ s : Channel.St Nat, Channel.Reach s ∧ ∃ it r, lookup s.items 0 = some it ∧ lastReq 0 s.log = some r ∧ it.timeout ≠ r.timeout :=
  ⟨chanRun [.enqueue reqU true, .enqueue reqV true], chanRun_reach _, { newItem reqV with timeout := 7 }, reqV, by decide +kernel⟩

/-- C62, the part that holds: the timeout is the one the item was enqueued with, so it is the requested one if the item was not updated.
(Missing: also after an update.) -/
theorem C62_partial {s : Channel.St D} (hr : Channel.Reach s) {id : Nat} {it : Item D} {r : Channel.Req D} (hl : lookup s.items id = some it)
    (h : .enqueued id r ∈ s.log) : it.timeout = r.timeout :=
  (hist_reach hr id).orig it r hl h

/-- Non-vacuity. -/
example : (lookup (chanRun [.enqueue reqA true, .enqueue reqB true]).items 1).map (·.timeout) = some 6 := by decide +kernel

end Willow.Props
