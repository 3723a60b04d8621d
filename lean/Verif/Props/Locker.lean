import Verif.Proofs.LockerFacts
/-
Properties C27-C32: the locker service.

The theorems about one set of key-values are stated for `Reach acc {} s`, all the states this set of key-values can get
into; `acc` are the timeouts requests may carry (any predicate).  `LReach.proj` says that in every state of the whole
service each set of key-values is in such a state.
-/
namespace Willow.Props
open Willow.Locker Willow.LockerSpec

/-! ### Example runs -/

/-- Timeouts the example requests carry. -/
abbrev posT : Int → Prop := fun t => 0 < t

/-- Two clients ask for the lock, the first one gets it. -/
def exHeld : St :=
  let s0 : St := {}
  let s1 := { (s0.upd 0 { phase := .outer, count := 1 }).thr [.waiting 0 5] with tree := some 0, next := 1 }
  let s2 := (s1.upd 0 { s1.objs 0 with phase := .claiming }).thr [.claimed 0 5]
  let s3 := ((s2.upd 0 (claim (s2.objs 0) 7 5)).thr []).log (.granted 0 7)
  (s3.upd 0 { s3.objs 0 with count := (s3.objs 0).count + 1 }).thr [.waiting 0 9]

theorem exHeld_reach : Reach posT {} exHeld :=
  .step (.step (.step (.step .refl (.obtainCreate {} 5 (by decide) rfl (by decide)))
    (.claimSend _ [] [] 0 5 rfl rfl))
    (.claimDone _ [] [] 0 5 7 rfl rfl (by intro l s' h; cases h)))
    (.obtainFind _ 0 9 (by decide) rfl (by decide))

/-- The first client heartbeats, then its time runs out. -/
def exExpired : St :=
  let s1 := exHeld.thr [.hbIn 0 7, .waiting 0 9]
  let s2 := ((s1.upd 0 (heartbeat (s1.objs 0) 7)).thr [.hbResp 0 7, .waiting 0 9]).log (.renewed 0 7)
  let s3 := ((s2.upd 0 { s2.objs 0 with phase := .held }).thr [.waiting 0 9]).log (.hbOk 7)
  ((s3.upd 0 (tick (s3.objs 0))).thr [.toWant 0, .waiting 0 9]).log (.expired 0 (some 7))

theorem exExpired_reach : Reach posT {} exExpired :=
  .step (.step (.step (.step exHeld_reach (.hbEnter _ 0 7 (by decide) rfl))
    (.hbSend _ [] [.waiting 0 9] 0 7 rfl rfl))
    (.hbAnswer _ [] [.waiting 0 9] 0 7 true rfl rfl))
    (.tick _ 0 rfl rfl)

/-- The timeout is processed and the second client gets the lock. -/
def exNext : St :=
  let s0 := exExpired.thr [.toIn 0, .waiting 0 9]
  let s1 := (s0.upd 0 (timedOut (s0.objs 0))).thr [.toResp 0, .waiting 0 9]
  let s2 := ((((s1.upd 0 { s1.objs 0 with phase := if false then .exited else .outer }).thr [.waiting 0 9]).drop false).log
    (.timeoutDone 0 false))
  let s3 := (s2.upd 0 { s2.objs 0 with phase := .claiming }).thr [.claimed 0 9]
  ((s3.upd 0 (claim (s3.objs 0) 8 9)).thr []).log (.granted 0 8)

theorem exNext_reach : Reach posT {} exNext :=
  .step (.step (.step (.step (.step exExpired_reach (.toEnter _ [] [.waiting 0 9] 0 0 rfl (by decide) rfl))
    (.toSend _ [] [.waiting 0 9] 0 rfl rfl))
    (.toAnswer _ [] [.waiting 0 9] 0 false rfl rfl))
    (.claimSend _ [] [] 0 9 rfl rfl))
    (.claimDone _ [] [] 0 9 8 rfl rfl (by
      intro l s' h
      have : Ev.granted l s' ∈ [Ev.timeoutDone 0 false, .expired 0 (some 7), .hbOk 7, .renewed 0 7, .granted 0 7] := h
      simp at this; rw [this.2]; decide))

/-! ### C27 -/

/-- At any time at most one session is live for a set of key-values, for all numbers of clients, all timeouts and all
schedules. -/
theorem C27_one_holder {K : Type} [DecidableEq K] {acc : Int → Prop} {g : Locker K} (h : LReach acc g) (k : K) :
    (live (g k).tr).length ≤ 1 := live_length (h.proj k)

/-- Between two grants of the same key-values the earlier session ended (released or out of time). -/
theorem C27_grants_separated {K : Type} [DecidableEq K] {acc : Int → Prop} {g : Locker K} (h : LReach acc g) (k : K)
    {l1 l2 : LockId} {x1 x2 : Sess} {post mid pre : List Ev}
    (htr : (g k).tr = post ++ .granted l2 x2 :: (mid ++ .granted l1 x1 :: pre)) : Ended mid x1 := by
  obtain ⟨s1, s2, r1, st, _, t1, t2⟩ := event_step (h.proj k) _ _ _ htr
  have := (grant_free r1 st (l := l2) (x := x2) (by rw [t2, t1])).1
  rw [t1] at this
  exact ended_of_not_live (l := l1) (pre := pre) (by rw [this]; simp)

/-- No session id is granted twice, neither for the same nor for different key-values. -/
theorem C27_sessions_unique {K : Type} [DecidableEq K] {acc : Int → Prop} {g : Locker K} (h : LReach acc g) :
    (∀ k, (grants (g k).tr).Nodup) ∧ ∀ k k' x, WasGranted (g k).tr x → WasGranted (g k').tr x → k = k' :=
  ⟨fun k => grants_nodup (h.proj k), h.sessions⟩

/-- A run of one set of key-values is a run of the service. -/
theorem lreach_of_reach {acc : Int → Prop} {s : St} (h : Reach acc {} s) :
    LReach (K := Unit) acc (fun _ => s) := by
  induction h with
  | refl => exact .init
  | @step a b hr hs ih =>
    have := LStep.mk (K := Unit) (fun _ => a) () b hs (fun l x he _ => (grant_fresh hs he).1)
    exact .step ih (by simpa using this)

example : LReach (K := Unit) posT (fun _ => exNext) ∧ live exNext.tr = [8] ∧ grants exNext.tr = [8, 7] ∧
    exNext.tr = [] ++ .granted 0 8 ::
      ([.timeoutDone 0 false, .expired 0 (some 7), .hbOk 7, .renewed 0 7] ++ .granted 0 7 :: []) :=
  ⟨lreach_of_reach exNext_reach, rfl, rfl, rfl⟩

/-! ### C28 -/

/-- A heartbeat or release only succeeds for the session that is live at that time: the accepted request, and the 200 answer of
a heartbeat. -/
theorem C28_success_needs_session {K : Type} [DecidableEq K] {acc : Int → Prop} {g : Locker K} (h : LReach acc g) (k : K)
    {post pre : List Ev} {e : Ev} {x : Sess} (htr : (g k).tr = post ++ e :: pre)
    (he : UsesSession e x ∨ e = .hbOk x) : live pre = [x] := by
  obtain ⟨s1, s2, r1, st, _, t1, t2⟩ := event_step (h.proj k) _ _ _ htr
  rw [← t1]
  exact uses_live r1 st (by rw [t2, t1]) he

example : exNext.tr = [.granted 0 8, .timeoutDone 0 false, .expired 0 (some 7)] ++ .hbOk 7 :: [.renewed 0 7, .granted 0 7] ∧
    live [Ev.renewed 0 7, .granted 0 7] = [7] := ⟨rfl, rfl⟩

/-- The success answer to a release is given only after that session really was released. -/
theorem C28_release_success_is_real {K : Type} [DecidableEq K] {acc : Int → Prop} {g : Locker K} (h : LReach acc g) (k : K)
    {post pre : List Ev} {x : Sess} {b : Bool} (htr : (g k).tr = post ++ .relOk x b :: pre) :
    ∃ l, Ev.released l x ∈ pre := by
  obtain ⟨s1, s2, r1, st, _, t1, t2⟩ := event_step (h.proj k) _ _ _ htr
  rw [← t1]
  exact relOk_released r1 st (b := b) (by rw [t2, t1])

/-- Session ids of earlier holders stay refused for ever. -/
theorem C28_old_sessions_refused {K : Type} [DecidableEq K] {acc : Int → Prop} {g : Locker K} (h : LReach acc g) (k : K)
    {post pre : List Ev} {e : Ev} {x : Sess} (htr : (g k).tr = post ++ e :: pre) (hx : Ended pre x) :
    ¬ UsesSession e x ∧ e ≠ .hbOk x := by
  obtain ⟨s1, s2, r1, st, _, t1, t2⟩ := event_step (h.proj k) _ _ _ htr
  have hd := (ended_dead r1 (x := x) (by rw [t1]; exact hx)).2
  constructor
  · intro hu
    have := uses_live r1 st (x := x) (by rw [t2, t1]) (.inl hu)
    rw [this] at hd; simp at hd
  · intro hu
    have := uses_live r1 st (x := x) (by rw [t2, t1]) (.inr hu)
    rw [this] at hd; simp at hd

example : exNext.tr = [] ++ .granted 0 8 :: [.timeoutDone 0 false, .expired 0 (some 7), .hbOk 7, .renewed 0 7, .granted 0 7] ∧
    Ended [.timeoutDone 0 false, .expired 0 (some 7), .hbOk 7, .renewed 0 7, .granted 0 7] 7 :=
  ⟨rfl, 0, .inr (by simp)⟩

/-- A heartbeat with a session that is not live, taken by the lock, is answered with a conflict and changes nothing: locks,
tree and session are what they were. -/
theorem C28_refused_heartbeat {acc : Int → Prop} {s : St} {pre post : List Thread} {l : LockId} {x : Sess}
    (hr : Reach acc {} s) (ht : s.threads = pre ++ .hbIn l x :: post) (hp : (s.objs l).phase = .held)
    (hx : x ∉ live s.tr) :
    ∃ s1 s2, Step acc s s1 ∧ Step acc s1 s2 ∧ s2 = { s with threads := pre ++ post, tr := .hbConflict x :: s.tr } := by
  have hs : (s.objs l).session ≠ some x := fun h => hx (by rw [live_of_session hr h]; simp)
  have st := Step.hbSend (acc := acc) s pre post l x ht hp
  have e : heartbeat (s.objs l) x = { s.objs l with phase := .hbReply false } := by simp [heartbeat, hs]
  rw [e] at st
  simp only [Phase.hbReply.injEq, Bool.false_eq_true, if_false] at st
  refine ⟨_, _, st, Step.hbAnswer _ pre post l x false rfl (by simp [St.upd, St.thr]), ?_⟩
  simp only [St.upd, St.thr, St.log, if_true, Bool.false_eq_true, if_false]
  congr 1
  funext i
  split
  · rename_i hi; subst hi; rw [← hp]
  · rfl

/-- The lock can only take that heartbeat in this way: whatever step the lock's answer comes from, it is the conflict. -/
theorem C28_refused_heartbeat_only {acc : Int → Prop} {s s1 : St} {pre post : List Thread} {l : LockId} {x : Sess} {b : Bool}
    (hr : Reach acc {} s) (ht : s.threads = pre ++ .hbResp l x :: post) (hp : (s.objs l).phase = .hbReply b)
    (hx : x ∉ live s.tr) (_ : Step acc s s1) : b = false := by
  have := (good_of_reach hr).i2.hb l x (by rw [ht]; simp)
  rw [hp] at this
  cases b with
  | false => rfl
  | true =>
    have h1 : (s.objs l).session = some x := by simpa using this
    rw [live_of_session hr h1] at hx; simp at hx

/-- The same for a release: refused, nothing changes. -/
theorem C28_refused_release {acc : Int → Prop} {s : St} {pre post : List Thread} {l : LockId} {x : Sess}
    (hr : Reach acc {} s) (ht : s.threads = pre ++ .relIn l x :: post) (hp : (s.objs l).phase = .held)
    (hx : x ∉ live s.tr) :
    ∃ s1 s2, Step acc s s1 ∧ Step acc s1 s2 ∧ s2 = { s with threads := pre ++ post, tr := .relConflict x :: s.tr } := by
  have hs : (s.objs l).session ≠ some x := fun h => hx (by rw [live_of_session hr h]; simp)
  have st := Step.relSend (acc := acc) s pre post l x ht hp
  have e : release (s.objs l) x = { s.objs l with phase := .relReply .failed } := by simp [release, hs]
  rw [e] at st
  simp only [if_true] at st
  refine ⟨_, _, st, Step.relAnswer _ pre post l x .failed rfl (by simp [St.upd, St.thr]), ?_⟩
  simp only [St.upd, St.thr, St.log, St.drop, if_true, reduceCtorEq, decide_false, Bool.false_eq_true, if_false, afterRelease]
  congr 1
  funext i
  split
  · rename_i hi; subst hi; rw [← hp]
  · rfl

/-- A client uses a wrong session: such a state is reachable. -/
example : Reach posT {} (exHeld.thr [.hbIn 0 3, .waiting 0 9]) ∧ Reach posT {} (exHeld.thr [.relIn 0 3, .waiting 0 9]) ∧
    (exHeld.objs 0).phase = .held ∧ 3 ∉ live exHeld.tr :=
  ⟨.step exHeld_reach (.hbEnter _ 0 3 (by decide) rfl),
   .step (.step exHeld_reach (.relLookup _ 0 3 (by decide) rfl)) (.relEnter _ [] [.waiting 0 9] 0 3 0 rfl (by decide) rfl),
   rfl, by decide⟩

/-- The conflict does not reach the client of a release: the handler answers 204 to a refused release exactly as to a
successful one. -/
theorem C28_violated_release_status (x : Sess) (b : Bool) :
    releaseStatus (.relConflict x) = releaseStatus (.relOk x b) ∧ releaseStatus (.relConflict x) = 204 := ⟨rfl, rfl⟩

/-- Heartbeats are answered as claimed. -/
theorem C28_heartbeat_status (x : Sess) :
    heartbeatStatus (.hbOk x) = 200 ∧ heartbeatStatus (.hbConflict x) = 409 ∧ heartbeatStatus (.hbNotFound x) = 404 :=
  ⟨rfl, rfl, rfl⟩

/-! ### C29 -/

/-- The client count of a running lock is the number of clients waiting for it plus one if it is held (or its timeout is
being processed). -/
theorem C29_count_exact {acc : Int → Prop} {s : St} (hr : Reach acc {} s) (l : LockId)
    (h : running (s.objs l).phase = true) :
    (s.objs l).count = s.threads.countP (waitsFor l) + if occupied (s.objs l).phase then 1 else 0 := by
  have hc := (good_of_reach hr).i1.cnt l (by revert h; cases (s.objs l).phase <;> simp [running, counted])
  have e1 : waitsFor l = pend l := by funext t; cases t <;> rfl
  have e2 : hold (s.objs l).phase = if occupied (s.objs l).phase then 1 else 0 := by
    revert h; cases (s.objs l).phase <;> simp [running, hold, occupied]
    rename_i c; cases c <;> simp
  rw [hc, e1, e2]

example : (exHeld.objs 0).count = 2 ∧ running (exHeld.objs 0).phase = true := ⟨rfl, rfl⟩

/-- A step changes the count by at most one; in particular it never wraps below zero. -/
theorem C29_never_underflows {acc : Int → Prop} {s s' : St} (hr : Reach acc {} s) (hs : Step acc s s') (l : LockId) :
    (s'.objs l).count = (s.objs l).count ∨ (s'.objs l).count = (s.objs l).count + 1 ∨
      ((s.objs l).count ≠ 0 ∧ (s'.objs l).count = (s.objs l).count - 1) := count_step hr hs l

/-- The panic "lost client is at 0 while a lock is heald" is unreachable, for all timeouts: when the disconnect of a waiting
client meets a held lock, the count stays positive and the lock goes on. -/
theorem C29_lost_client_no_panic {acc : Int → Prop} {s : St} (hr : Reach acc {} s) {l l' : LockId}
    (ht : .leavingIn l l' ∈ s.threads) (hp : (s.objs l').phase = .held) :
    (lostHeld (s.objs l')).phase = .heldReply ∧ (lostHeld (s.objs l')).count = (s.objs l').count - 1 ∧
      1 < (s.objs l').count := by
  have g := good_of_reach hr
  have hc := g.i1.cnt l' (by rw [hp]; rfl)
  obtain ⟨rfl, _⟩ := g.i1.refs _ ht
  have : 0 < s.threads.countP (pend l') := List.countP_pos_iff.mpr ⟨_, ht, by simp [pend]⟩
  rw [hp] at hc
  simp only [hold] at hc
  have h2 : 1 < (s.objs l').count := by omega
  have h3 : dec (s.objs l').count = (s.objs l').count - 1 := dec_pos (by omega)
  refine ⟨?_, by simp [lostHeld, h3], h2⟩
  have h4 : dec (s.objs l').count ≠ 0 := by rw [h3]; omega
  simp [lostHeld, h4]

example : Reach posT {} (exHeld.thr [.leavingIn 0 0]) ∧ (exHeld.objs 0).phase = .held :=
  ⟨.step (.step exHeld_reach (.disconnect _ [] [] 0 9 rfl)) (.leaveEnter _ [] [] 0 0 rfl (by decide) rfl), rfl⟩

/-! ### C30 -/

/-- Release, disconnect (while the service runs) and timeout report that the lock was removed exactly when nobody waits for it,
nobody holds it and no timeout is pending; and it is removed exactly then. -/
theorem C30_removed_iff_unused {acc : Int → Prop} {s s' : St} (hr : Reach acc {} s) (hs : Step acc s s') {e : Ev} {b : Bool}
    (he : s'.tr = e :: s.tr)
    (hb : (∃ x, e = .relOk x b) ∨ (∃ l, e = .left l b ∧ s.down = false) ∨ ∃ l, e = .timeoutDone l b) :
    (b = true ↔ (∀ t ∈ s'.threads, waits t = false) ∧ live s'.tr = [] ∧ pendingTimeout s'.tr = false) ∧
      (b = true ↔ s'.tree = none) := by
  refine removed_iff hr hs he ?_
  rcases hb with ⟨x, rfl⟩ | ⟨l, rfl, hd⟩ | ⟨l, rfl⟩
  · rfl
  · exact ⟨rfl, hd⟩
  · rfl

/-- A lock nobody waits for, holds or works on does not exist, while the service runs. -/
theorem C30_no_unused_lock {acc : Int → Prop} (hpos : ∀ t, acc t → 0 < t) {s : St} (hr : Reach acc {} s)
    (hd : s.down = false) (hw : ∀ t ∈ s.threads, waits t = false)
    (hh : ∀ t ∈ s.threads, t.holdsW = false ∧ t.holdsR = false) (hl : live s.tr = []) (hp : pendingTimeout s.tr = false) :
    s.tree = none :=
  nobody_gone hr hd (no_panic hpos (Good.init acc) hr (by simp)) hw hh hl hp

/-- While a client waits, the service runs and requests carry positive timeouts, a continuation exists in which exactly this
client is granted the lock. -/
theorem C30_waiting_client_can_claim_partial {acc : Int → Prop} (hpos : ∀ t, acc t → 0 < t) {s : St} (hr : Reach acc {} s)
    (hd : s.down = false) {l : LockId} {i : Int} (hw : .waiting l i ∈ s.threads) :
    ∃ s1 s2 pre post x, Reach acc s s1 ∧ Step acc s1 s2 ∧ s1.threads = pre ++ .claimed l i :: post ∧
      s2.threads = pre ++ post ∧ s2.tr = .granted l x :: s1.tr := can_be_granted hpos hr hd hw

example : Reach posT {} exExpired ∧ exExpired.down = false ∧ .waiting 0 9 ∈ exExpired.threads :=
  ⟨exExpired_reach, rfl, by decide⟩

/-- The only client releases its lock: it is removed. -/
def exAlone : St :=
  let s0 : St := {}
  let s1 := { (s0.upd 0 { phase := .outer, count := 1 }).thr [.waiting 0 5] with tree := some 0, next := 1 }
  let s2 := (s1.upd 0 { s1.objs 0 with phase := .claiming }).thr [.claimed 0 5]
  let s3 := ((s2.upd 0 (claim (s2.objs 0) 7 5)).thr []).log (.granted 0 7)
  let s4 := s3.thr [.relIn 0 7]
  ((s4.upd 0 (release (s4.objs 0) 7)).thr [.relResp 0 7]).log (.released 0 7)

theorem exAlone_reach : Reach posT {} exAlone :=
  .step (.step (.step (.step (.step (.step .refl (.obtainCreate {} 5 (by decide) rfl (by decide)))
    (.claimSend _ [] [] 0 5 rfl rfl))
    (.claimDone _ [] [] 0 5 7 rfl rfl (by intro l s' h; cases h)))
    (.relLookup _ 0 7 (by decide) rfl))
    (.relEnter _ [] [] 0 7 0 rfl (by decide) rfl))
    (.relSend _ [] [] 0 7 rfl rfl)

example : ∃ s', Step posT exAlone s' ∧ s'.tr = .relOk 7 true :: exAlone.tr ∧ s'.tree = none :=
  ⟨_, .relAnswer _ [] [] 0 7 .destroy rfl rfl, rfl, rfl⟩

/-- A second release of the same session arrives while the lock is free and its last waiting client is disconnecting: the release
blocks on the lock (nobody receives), the disconnect blocks on the release. -/
def exStuck : St :=
  let s0 := exHeld.thr [.relFound 0 7, .relFound 0 7, .leaving 0]
  let s1 := s0.thr [.relIn 0 7, .relFound 0 7, .leaving 0]
  let s2 := ((s1.upd 0 (release (s1.objs 0) 7)).thr [.relResp 0 7, .relFound 0 7, .leaving 0]).log (.released 0 7)
  let s3 := (((s2.upd 0 { s2.objs 0 with phase := .outer }).thr [.relFound 0 7, .leaving 0]).drop false).log (.relOk 7 false)
  s3.thr [.relIn 0 7, .leaving 0]

theorem exStuck_reach : Reach posT {} exStuck :=
  .step (.step (.step (.step (.step (.step (.step exHeld_reach
    (.disconnect _ [] [] 0 9 rfl))
    (.relLookup _ 0 7 (by decide) rfl))
    (.relLookup _ 0 7 (by decide) rfl))
    (.relEnter _ [] [.relFound 0 7, .leaving 0] 0 7 0 rfl (by decide) rfl))
    (.relSend _ [] [.relFound 0 7, .leaving 0] 0 7 rfl rfl))
    (.relAnswer _ [] [.relFound 0 7, .leaving 0] 0 7 .processed rfl rfl))
    (.relEnter _ [] [.leaving 0] 0 7 0 rfl (by decide) rfl)

theorem exStuck_phase (i : LockId) : (exStuck.objs i).phase = .outer ∧ i = 0 ∨ (exStuck.objs i).phase = .absent := by
  by_cases h : i = 0
  · subst h; exact .inl ⟨rfl, rfl⟩
  · right
    simp [exStuck, exHeld, St.upd, St.thr, St.log, St.drop, h]

theorem stuck_step {acc : Int → Prop} {s s' : St} (h1 : s.objs = exStuck.objs) (h2 : s.threads = [.relIn 0 7, .leaving 0])
    (h3 : s.tree = some 0) (hs : Step acc s s') :
    s'.objs = exStuck.objs ∧ s'.threads = [.relIn 0 7, .leaving 0] ∧ s'.tree = some 0 ∧ s'.tr = s.tr := by
  have hp : ∀ i, (s.objs i).phase = .outer ∧ i = 0 ∨ (s.objs i).phase = .absent := by rw [h1]; exact exStuck_phase
  have hr : ¬ readable s.threads := by rw [h2]; decide
  have hcases : ∀ {pre post : List Thread} {t : Thread}, s.threads = pre ++ t :: post →
      (pre = [] ∧ t = .relIn 0 7 ∧ post = [.leaving 0]) ∨ (pre = [.relIn 0 7] ∧ t = .leaving 0 ∧ post = []) := by
    intro pre post t e
    rw [h2] at e
    match pre with
    | [] => cases e; exact .inl ⟨rfl, rfl, rfl⟩
    | [a] => cases e; exact .inr ⟨rfl, rfl, rfl⟩
    | a :: b :: pre => simp at e
  have ho : ∀ {i : LockId}, (s.objs i).phase = .outer → i = 0 := fun {i} h => by
    rcases hp i with h' | h'
    · exact h'.2
    · rw [h] at h'; cases h'
  have hno : ∀ {i : LockId} {p : Phase}, (s.objs i).phase = p → p ≠ .outer → p ≠ .absent → False := fun {i} {p} h a b => by
    rcases hp i with h' | h'
    · exact a (h ▸ h'.1)
    · exact b (h ▸ h')
  cases hs
  case shutdown => exact ⟨h1, h2, h3, rfl⟩
  all_goals first
    | exact absurd ‹readable s.threads› hr
    | grind
    | (have hx := hcases ‹s.threads = _ ++ _ :: _›
       rcases hx with ⟨h', h, h''⟩ | ⟨h', h, h''⟩ <;> first | (cases h; done) | skip
       subst h' h''
       exact absurd ‹free _› (by decide))

/-- From this reachable state of a running service, nothing observable ever happens again for these key-values: no request is
answered, no client gets the lock, whatever requests, disconnects, ticks and even a shutdown follow. -/
theorem C30_violated_stale_release_blocks_for_ever :
    Reach posT {} exStuck ∧ exStuck.down = false ∧ live exStuck.tr = [] ∧ pendingTimeout exStuck.tr = false ∧
      ∀ s', Reach posT exStuck s' → s'.tr = exStuck.tr ∧ s'.threads = exStuck.threads ∧ s'.tree = some 0 := by
  refine ⟨exStuck_reach, rfl, rfl, rfl, fun s' h => ?_⟩
  have : s'.objs = exStuck.objs ∧ s'.threads = [.relIn 0 7, .leaving 0] ∧ s'.tree = some 0 ∧ s'.tr = exStuck.tr := by
    induction h with
    | refl => exact ⟨rfl, rfl, rfl, rfl⟩
    | step _ hs ih =>
      obtain ⟨a, b, c, d⟩ := stuck_step ih.1 ih.2.1 ih.2.2.1 hs
      exact ⟨a, b, c, d.trans ih.2.2.2⟩
  exact ⟨this.2.2.2, this.2.1, this.2.2.1⟩

/-! ### C31 -/

/-- When the time of a session runs out, it is the live session that ends, and no session is live afterwards. -/
theorem C31_expiry_ends_session {acc : Int → Prop} {s s' : St} {l : LockId} {o : Option Sess} (hr : Reach acc {} s)
    (hs : Step acc s s') (he : s'.tr = .expired l o :: s.tr) :
    ∃ x, o = some x ∧ live s.tr = [x] ∧ live s'.tr = [] := by
  obtain ⟨x, rfl, h⟩ := expired_live hr hs he
  exact ⟨x, rfl, h, by rw [he]; simp [live, h]⟩

example : exExpired.tr = .expired 0 (some 7) :: [.hbOk 7, .renewed 0 7, .granted 0 7] ∧ live exExpired.tr = [] := ⟨rfl, rfl⟩

/-- No client is granted the lock before the timeout was processed, nor while another session is live. -/
theorem C31_no_grant_before_timeout_done {acc : Int → Prop} {s s' : St} {l : LockId} {x : Sess} (hr : Reach acc {} s)
    (hs : Step acc s s') (he : s'.tr = .granted l x :: s.tr) : live s.tr = [] ∧ pendingTimeout s.tr = false :=
  grant_free hr hs he

/-- Once the timeout was processed, no session is live and the lock is gone, or it is free for the next client (unless the service
is being stopped). -/
theorem C31_timeout_frees {acc : Int → Prop} {s s' : St} {l : LockId} {b : Bool} (hr : Reach acc {} s) (hs : Step acc s s')
    (he : s'.tr = .timeoutDone l b :: s.tr) :
    live s'.tr = [] ∧ ((b = true ∧ s'.tree = none) ∨
      (b = false ∧ s'.tree = some l ∧ ((s'.objs l).phase = .outer ∨ s.down = true))) := timeout_free hr hs he

/-- A pending timeout can always be processed while the service runs, whatever threads are in the way. -/
theorem C31_timeout_can_finish {acc : Int → Prop} {s : St} (hr : Reach acc {} s) (hd : s.down = false)
    (ht : pendingTimeout s.tr = true) : ∃ s' l b, Reach acc s s' ∧ s'.tr.head? = some (.timeoutDone l b) :=
  timeout_can_finish (good_of_reach hr) hd ht

example : Reach posT {} exExpired ∧ pendingTimeout exExpired.tr = true ∧ exExpired.down = false := ⟨exExpired_reach, rfl, rfl⟩

/-- A live session can always run out of time: its ticker runs whenever the lock is at its select. -/
theorem C31_live_session_has_ticker {acc : Int → Prop} {s : St} (hr : Reach acc {} s) {l : LockId} {x : Sess}
    (hp : (s.objs l).phase = .held) (hx : (s.objs l).session = some x) :
    ∃ s', Step acc s s' ∧ s'.tr = .expired l (some x) :: s.tr :=
  ⟨_, .tick s l hp ((good_of_reach hr).i3.armedI l (by rw [hp]; rfl) (by simp [hx])), by simp [St.log, St.thr, St.upd, hx]⟩

example : (exHeld.objs 0).phase = .held ∧ (exHeld.objs 0).session = some 7 := ⟨rfl, rfl⟩

/-! ### C32 -/

/-- With positive timeouts the service never crashes, for any number of clients and any schedule.  Missing for C32: validation
also accepts negative timeouts (see `C32_violated_negative_timeout`). -/
theorem C32_positive_timeouts_no_crash_partial {K : Type} [DecidableEq K] {acc : Int → Prop} (hpos : ∀ t, acc t → 0 < t)
    {g : Locker K} (h : LReach acc g) (k : K) (l : LockId) : ((g k).objs l).phase ≠ .panicked :=
  no_panic hpos (Good.init acc) (h.proj k) (by simp) l

/-- Crashes have no other cause: every crash needs a request whose timeout is not positive. -/
theorem C32_crash_needs_bad_timeout {K : Type} [DecidableEq K] {acc : Int → Prop} {g : Locker K} (h : LReach acc g) (k : K)
    (l : LockId) (hp : ((g k).objs l).phase = .panicked) : ∃ t, acc t ∧ t ≤ 0 := by
  by_cases hx : ∃ t, acc t ∧ t ≤ 0
  · exact hx
  · exact absurd hp (C32_positive_timeouts_no_crash_partial (fun t ht => by
      by_cases h0 : 0 < t
      · exact h0
      · exact absurd ⟨t, ht, by omega⟩ hx) h k l)

example : LReach (K := Unit) posT (fun _ => exHeld) ∧ ∀ t, posT t → 0 < t := ⟨lreach_of_reach exHeld_reach, fun _ h => h⟩

/-- Validation accepts a negative timeout, and one such request crashes the service. -/
theorem C32_violated_negative_timeout : validTimeout (some (-1)) = true ∧
    ∃ s, Reach (fun t => ∃ r d, validTimeout r = true ∧ 0 < d ∧ t = effectiveTimeout d r) {} s ∧
      (s.objs 0).phase = .panicked :=
  ⟨rfl, _, .step (.step (.step .refl (.obtainCreate {} (-1) ⟨some (-1), 1, rfl, by decide, rfl⟩ rfl (by decide)))
    (.claimSend _ [] [] 0 (-1) rfl rfl))
    (.claimDone _ [] [] 0 (-1) 7 rfl rfl (by intro l s' h; cases h)), rfl⟩

end Willow.Props
