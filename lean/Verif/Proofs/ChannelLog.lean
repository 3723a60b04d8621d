import Verif.Proofs.ChannelOrder
/- What each step of Model/Channel.lean records, and when. -/
namespace Willow.Channel
open Willow.ChanSpec
variable {D : Type}

/-- The event can happen in this state. -/
def Fits (s : St D) : Ev D → Prop
  | .taken id it => s.exec = .popped id ∧ lookup s.items id = some it ∧ it.hb = .none
  | .failed id => ∃ it, lookup s.items id = some it ∧ it.hb ≠ .none
  | .exhausted id => ∃ it, lookup s.items id = some it ∧ it.hb ≠ .none ∧ it.maxRetry < it.retryCount + 1
  | .requeued id => ∃ it, lookup s.items id = some it ∧ it.hb ≠ .none ∧ it.retryCount + 1 ≤ it.maxRetry
  | .superseded id _ => ∃ it, lookup s.items id = some it ∧ it.updateable = true
  | .ackPassed id ok => ok = true ↔ ∃ it, lookup s.items id = some it ∧ it.hb ≠ .none
  | .updated id r => s.queue.getLast? = some id ∧ ∃ it, lookup s.items id = some it ∧ it.updateable = true
  | .deleted => s.items = []
  | _ => True

/-- The events of a step. -/
structure Grows (s s' : St D) (evs : List (Ev D)) : Prop where
  log : s'.log = evs ++ s.log
  fits : ∀ e ∈ evs, Fits s e
  new : (∃ r, evs = [.enqueued s.nextId r]) ∨ ∀ e ∈ evs, ∀ x r, e ≠ .enqueued x r

theorem Grows.none {s s' : St D} (h : s'.log = s.log) : Grows s s' [] := ⟨by simp [h], by simp, .inr (by simp)⟩

theorem Grows.one {s s' : St D} {e : Ev D} (h : s'.log = e :: s.log) (hf : Fits s e) (hn : ∀ x r, e ≠ .enqueued x r) : Grows s s' [e] :=
  ⟨by simp [h], by simpa using hf, .inr (by simpa using hn)⟩

theorem Grows.retry {s0 s : St D} {id : Nat} {it : Item D} (pre : List (Ev D)) (hs : s.items = s0.items) (hl : s.log = pre ++ s0.log)
    (hpf : ∀ e ∈ pre, Fits s0 e) (hpn : ∀ e ∈ pre, ∀ x r, e ≠ .enqueued x r)
    (hi : lookup s.items id = some it) (hb : it.hb ≠ .none) : ∃ evs, Grows s0 (retry s id it) evs := by
  have hi0 : lookup s0.items id = some it := by rw [← hs]; exact hi
  have build : ∀ (tl : List (Ev D)) (s' : St D), s'.log = tl ++ s.log → (∀ e ∈ tl, Fits s0 e) → (∀ e ∈ tl, ∀ x r, e ≠ .enqueued x r) →
      ∃ evs, Grows s0 s' evs := by
    intro tl s' h1 h2 h3
    refine ⟨tl ++ pre, by rw [h1, hl, List.append_assoc], ?_, .inr ?_⟩
    · intro e he; rcases List.mem_append.1 he with h | h
      · exact h2 e h
      · exact hpf e h
    · intro e he; rcases List.mem_append.1 he with h | h
      · exact h3 e h
      · exact hpn e h
  have hfail : Fits s0 (.failed id) := ⟨it, hi0, hb⟩
  unfold Channel.retry
  simp only
  split
  · rename_i hlt
    refine build [.exhausted id, .failed id] _ rfl ?_ (by simp)
    simp only [List.mem_cons, List.not_mem_nil, or_false, forall_eq_or_imp, forall_eq]
    exact ⟨⟨it, hi0, hb, by omega⟩, hfail⟩
  · rename_i hle
    have hreq : Fits s0 (.requeued id) := ⟨it, hi0, hb, by omega⟩
    split
    · split
      · rename_i hu
        refine build [.superseded id false, .failed id] _ rfl ?_ (by simp)
        simp only [List.mem_cons, List.not_mem_nil, or_false, forall_eq_or_imp, forall_eq]
        exact ⟨⟨it, hi0, hu.2⟩, hfail⟩
      · refine build [.requeued id, .failed id] _ rfl ?_ (by simp)
        simp only [List.mem_cons, List.not_mem_nil, or_false, forall_eq_or_imp, forall_eq]
        exact ⟨hreq, hfail⟩
    · have hpb : ∃ evs, Grows s0 (pushBack (St.ev { s with
          items := change s.items id (fun i => { i with hb := .none, retryCount := i.retryCount + 1 }), run := s.run - 1 } (.failed id)) id) evs := by
        refine build [.requeued id, .failed id] _ rfl ?_ (by simp)
        simp only [List.mem_cons, List.not_mem_nil, or_false, forall_eq_or_imp, forall_eq]
        exact ⟨hreq, hfail⟩
      unfold retryBack
      split
      · exact hpb
      · rename_i b hgl
        split
        · exact build [.failed id] _ rfl (by simpa using hfail) (by simp)
        · rename_i bi hbl
          split
          · rename_i hu
            refine build [.requeued id, .superseded b false, .failed id] _ rfl ?_ (by simp)
            simp only [List.mem_cons, List.not_mem_nil, or_false, forall_eq_or_imp, forall_eq]
            refine ⟨hreq, ?_, hfail⟩
            simp only [St.ev, lookup_change] at hbl
            split at hbl
            · rename_i hbe; rw [← hbe, hi] at hbl; simp at hbl
              exact ⟨it, by rw [← hbe]; exact hi0, by rw [← hbl] at hu; exact hu⟩
            · exact ⟨bi, by rw [← hs]; exact hbl, hu⟩
          · exact hpb

theorem step_grows {s s' : St D} (hi : Inv s) (hs : Step s s') : ∃ evs, Grows s s' evs := by
  cases hs with
  | enqueue r g hc =>
    unfold Channel.enqueue
    split
    · rename_i id hu
      exact ⟨_, .one rfl (updatableLast_spec hu) (by simp)⟩
    · split
      · exact ⟨[.enqueued s.nextId r], rfl, by simp [Fits], .inl ⟨r, rfl⟩⟩
      · exact ⟨_, .one rfl trivial (by simp)⟩
  | ackPassed id _ hc =>
    unfold Channel.ackPassed
    split
    · rename_i hl; exact ⟨_, .one rfl (by simp [Fits, hl]) (by simp)⟩
    · rename_i it hl
      have := hc it hl
      split
      · rename_i hst
        exact ⟨_, .one rfl (by simp [Fits, hl]; intro e; simp [e, HB.stops] at hst) (by simp)⟩
      · rename_i hst
        exact ⟨_, .one rfl (by simp only [Fits, hl]; cases hb : it.hb <;> simp_all [HB.stops]) (by simp)⟩
  | ackFailed id _ hc =>
    have : ∃ evs, Grows s (failItem { s with exec := touch s.exec id } id false).1 evs := by
      unfold failItem
      split
      · exact ⟨_, .none rfl⟩
      · rename_i it hl
        split
        · rename_i hst
          exact Grows.retry [] rfl rfl (by simp) (by simp) hl (fun e => by simp [e, HB.stops] at hst)
        · exact ⟨_, .none rfl⟩
    obtain ⟨evs, h1, h2, h3⟩ := this
    refine ⟨.ackFailed id (failItem { s with exec := touch s.exec id } id false).2 :: evs, ?_, ?_, ?_⟩
    · show _ :: (failItem { s with exec := touch s.exec id } id false).1.log = _
      rw [h1]; rfl
    · intro e he; simp only [List.mem_cons] at he
      rcases he with rfl | he
      · trivial
      · exact h2 e he
    · rcases h3 with ⟨r, h3⟩ | h3
      · -- a failed ACK enqueues nothing
        exfalso
        have hn : ∀ s'' : St D, s''.log = s.log → (∀ it, .enqueued s.nextId r ∉ ((retry s'' id it).log.take ((retry s'' id it).log.length - s.log.length))) := by
          intro s'' hl it hm
          unfold Channel.retry at hm
          simp only at hm
          split at hm
          · simp [St.ev, hl, Nat.add_sub_cancel_left, show s.log.length + 1 + 1 - s.log.length = 2 by omega] at hm
          · split at hm
            · split at hm <;> simp [St.ev, pushFront, hl, show s.log.length + 1 + 1 - s.log.length = 2 by omega] at hm
            · unfold retryBack at hm
              simp only [St.ev, pushBack] at hm
              split at hm
              · simp [hl, show s.log.length + 1 + 1 - s.log.length = 2 by omega] at hm
              · split at hm
                · simp [hl, show s.log.length + 1 - s.log.length = 1 by omega] at hm
                · split at hm
                  · simp [hl, show s.log.length + 1 + 1 + 1 - s.log.length = 3 by omega] at hm
                  · simp [hl, show s.log.length + 1 + 1 - s.log.length = 2 by omega] at hm
        unfold failItem at h1
        split at h1
        · simp [h3] at h1
        · split at h1
          · rename_i it _ _
            apply hn { s with exec := touch s.exec id } rfl it
            simp only at h1
            rw [h1, h3]; simp
          · simp [h3] at h1
      · right
        intro e he; simp only [List.mem_cons] at he
        rcases he with rfl | he
        · simp
        · exact h3 e he
  | heartbeat id _ _ =>
    unfold Channel.heartbeat
    simp only
    split <;> exact ⟨_, .one rfl trivial (by simp)⟩
  | notified he hp => exact ⟨_, .none rfl⟩
  | send he => exact ⟨_, .none rfl⟩
  | count g he => unfold Channel.count; split <;> exact ⟨_, .none rfl⟩
  | pop he => unfold Channel.pop; split <;> exact ⟨_, .none rfl⟩
  | @find id he =>
    unfold Channel.find
    split
    · exact ⟨_, .none rfl⟩
    · split
      · exact ⟨_, .none rfl⟩
      · rename_i it hl
        split
        · exact ⟨_, .none rfl⟩
        · rename_i hb
          exact ⟨_, .one rfl ⟨he, hl, by simpa using hb⟩ (by simp)⟩
  | received he =>
    unfold Channel.received
    split
    · exact ⟨_, .none rfl⟩
    · exact ⟨_, .one rfl trivial (by simp)⟩
  | @unsent id t he =>
    unfold Channel.unsent
    split
    · exact ⟨_, .none rfl⟩
    · simp only
      split
      · exact ⟨_, .one rfl trivial (by simp)⟩
      · rename_i it hl
        unfold giveBack
        split
        · simp only
          split
          · rename_i hu
            refine ⟨[.superseded id true, .unsent id it.hb.stops], rfl, ?_, .inr (by simp)⟩
            simp only [List.mem_cons, List.not_mem_nil, or_false, forall_eq_or_imp, forall_eq]
            exact ⟨⟨it, hl, hu.1⟩, trivial⟩
          · exact ⟨[.unsent id it.hb.stops], rfl, by simp [Fits], .inr (by simp)⟩
        · exact ⟨[.unsent id it.hb.stops], rfl, by simp [Fits], .inr (by simp)⟩
  | spinDone he => exact ⟨_, .none rfl⟩
  | fire hl hb => exact ⟨_, .none rfl⟩
  | @timeout id it hl hb =>
    unfold Channel.timeout
    split
    · exact ⟨_, .none rfl⟩
    · unfold failItem
      have hl' : lookup (s.ev (.timedOut id)).items id = some it := hl
      rw [hl']
      simp only [Bool.true_or, ↓reduceIte]
      exact Grows.retry (s := s.ev (.timedOut id)) [.timedOut id] rfl rfl (by simp [Fits]) (by simp) hl' (by simp [hb])
  | delete hc =>
    unfold Channel.delete
    split
    · rename_i he; exact ⟨_, .one rfl (by simpa [Fits] using he) (by simp)⟩
    · exact ⟨_, .none rfl⟩
  | forceBegin hc => exact ⟨_, .one rfl trivial (by simp)⟩
  | forceMark _ _ => exact ⟨_, .none rfl⟩
  | forceEnd _ _ _ => exact ⟨_, .none rfl⟩
  | stop _ _ => exact ⟨_, .none rfl⟩

/-- Every event in the history happened in a step from a reachable state in which it fits. -/
theorem event_reach {s : St D} (h : Reach s) : ∀ {post pre : List (Ev D)} {e : Ev D}, s.log = post ++ e :: pre →
    ∃ s0 s1 evs, Reach s0 ∧ s0.crashed = false ∧ Step s0 s1 ∧ Grows s0 s1 evs ∧ ∃ front mid, evs = front ++ e :: mid ∧ pre = mid ++ s0.log := by
  induction h with
  | init => intro post pre e hl; simp [Channel.init] at hl
  | @step s s' h1 hc hs ih =>
    intro post pre e hl
    obtain ⟨evs, hg⟩ := step_grows (inv_reach h1) hs
    have hl' := hg.log
    rw [hl] at hl'
    rw [List.append_eq_append_iff] at hl'
    rcases hl' with ⟨as, h2, h3⟩ | ⟨bs, h2, h3⟩
    · -- the event is new
      cases as with
      | nil => simp at h3; exact ih (post := []) (by simp [h3])
      | cons a as =>
        simp only [List.cons_append, List.cons.injEq] at h3
        obtain ⟨rfl, h3⟩ := h3
        exact ⟨s, s', evs, h1, hc, hs, hg, post, as, h2, h3⟩
    · exact ih h3

/-- ids are given in the order of the enqueues -/
theorem enqueued_order {s : St D} (h : Reach s) {post pre : List (Ev D)} {x y : Nat} {rx ry : Req D}
    (hl : s.log = post ++ .enqueued y ry :: pre) (hx : .enqueued x rx ∈ pre) : x < y := by
  obtain ⟨s0, s1, evs, hr, _, _, hg, front, mid, hm, hp⟩ := event_reach h hl
  rcases hg.new with ⟨r, he⟩ | hn
  · rw [he] at hm
    have hm : front = [] ∧ mid = [] ∧ s0.nextId = y := by
      cases front with
      | nil => simp at hm; exact ⟨rfl, hm.2, hm.1.1⟩
      | cons a f => simp at hm
    obtain ⟨rfl, rfl, hy⟩ := hm
    simp at hp
    subst hp
    have := (hist_reach hr x).enq
    have h2 := enqueues_pos hx
    rw [this] at h2; rw [← hy]
    cases hd : decide (x < s0.nextId) with
    | true => simpa using hd
    | false => rw [hd] at h2; simp [one] at h2
  · exact absurd rfl (hn (.enqueued y ry) (by simp [hm]) y ry)

theorem retry_forced (s : St D) (id : Nat) (it : Item D) : (retry s id it).forced = s.forced := by
  unfold Channel.retry
  simp only
  split
  · rfl
  · split
    · split <;> rfl
    · unfold retryBack
      simp only [St.ev, pushBack]
      split
      · rfl
      · split
        · rfl
        · split <;> rfl

theorem failItem_forced (s : St D) (id : Nat) (b : Bool) : (failItem s id b).1.forced = s.forced := by
  unfold failItem
  split
  · rfl
  · split
    · exact retry_forced ..
    · rfl

/-- a forced deletion is recorded -/
theorem forced_logged {s : St D} (h : Reach s) : s.forced = true → .forced ∈ s.log := by
  induction h with
  | init => simp [Channel.init]
  | @step s s' h1 _ hs ih =>
    intro hf
    obtain ⟨evs, hg⟩ := step_grows (inv_reach h1) hs
    have keep : s.forced = true → .forced ∈ s'.log := fun h => by rw [hg.log]; simp [ih h]
    cases hs with
    | forceBegin _ => simp [Channel.forceBegin, St.ev]
    | enqueue r g _ =>
      apply keep
      unfold Channel.enqueue at hf
      split at hf
      · exact hf
      · split at hf <;> exact hf
    | ackPassed i _ _ =>
      apply keep
      unfold Channel.ackPassed at hf
      split at hf
      · exact hf
      · split at hf <;> exact hf
    | ackFailed i _ _ =>
      apply keep
      have hf : (failItem { s with exec := touch s.exec i } i false).1.forced = true := hf
      rw [failItem_forced] at hf; exact hf
    | heartbeat i _ _ =>
      apply keep
      unfold Channel.heartbeat at hf
      simp only at hf
      split at hf <;> exact hf
    | count g _ => apply keep; unfold Channel.count at hf; split at hf <;> exact hf
    | pop _ => apply keep; unfold Channel.pop at hf; split at hf <;> exact hf
    | find _ =>
      apply keep; unfold Channel.find at hf
      split at hf
      · exact hf
      · split at hf
        · exact hf
        · split at hf <;> exact hf
    | received _ => apply keep; unfold Channel.received at hf; split at hf <;> exact hf
    | unsent _ =>
      apply keep; unfold Channel.unsent at hf
      split at hf
      · exact hf
      · simp only at hf
        split at hf
        · exact hf
        · unfold giveBack at hf
          split at hf
          · simp only at hf; split at hf <;> exact hf
          · exact hf
    | timeout _ _ =>
      apply keep; unfold Channel.timeout at hf
      split at hf
      · exact hf
      · rw [failItem_forced] at hf; exact hf
    | delete _ => apply keep; unfold Channel.delete at hf; split at hf <;> exact hf
    | _ => exact keep hf

end Willow.Channel
