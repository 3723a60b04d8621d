import Verif.Spec.ChannelServe
import Verif.Proofs.ChannelLog
namespace Willow.Channel
open Willow.ChanSpec
variable {D : Type}

def hbW : HB → Nat
  | .none => 6
  | .created => 3
  | .running => 2
  | .firing => 1

def itemW (it : Item D) : Nat := 20 * (it.maxRetry + 1 - it.retryCount) + hbW it.hb + 1

def isum (l : List (Nat × Item D)) : Nat := (l.map fun e => itemW e.2).sum

def ew : Exec → Nat
  | .idle | .stopped => 0
  | .offering => 4
  | .called => 3
  | .counted => 2
  | .popped _ => 1
  | .handed _ false => 2
  | .handed _ true => 1
  | .spin => 1

/-- What the channel can still do by itself. -/
def work (s : St D) : Nat := isum s.items + 5 * s.pending + ew s.exec

theorem isum_cons (a : Nat) (it : Item D) (l : List (Nat × Item D)) : isum ((a, it) :: l) = itemW it + isum l := by simp [isum]

theorem isum_change {l : List (Nat × Item D)} {id : Nat} {it : Item D} (hn : (keys l).Nodup) (h : lookup l id = some it)
    (f : Item D → Item D) : isum (change l id f) + itemW it = isum l + itemW (f it) := by
  induction l with
  | nil => simp [lookup_nil] at h
  | cons e l ih =>
    obtain ⟨a, i⟩ := e
    rw [lookup_cons] at h
    simp only [keys, List.map_cons, List.nodup_cons] at hn
    by_cases ha : a = id
    · subst ha
      simp only [↓reduceIte, Option.some.injEq] at h; subst h
      have : change ((a, i) :: l) a f = (a, f i) :: l := by
        have := change_notin hn.1 f
        simp only [change, List.map_cons, beq_self_eq_true, ↓reduceIte] at this ⊢
        rw [this]
      rw [this, isum_cons, isum_cons]; omega
    · rw [if_neg ha] at h
      have : change ((a, i) :: l) id f = (a, i) :: change l id f := by simp [change, ha]
      rw [this, isum_cons, isum_cons]
      have := ih hn.2 h; omega

theorem isum_remove_le (l : List (Nat × Item D)) (id : Nat) : isum (remove l id) ≤ isum l := by
  induction l with
  | nil => exact Nat.le_refl _
  | cons e l ih =>
    obtain ⟨a, i⟩ := e
    simp only [remove, List.filter_cons] at ih ⊢
    split <;> simp only [isum_cons] <;> omega

theorem isum_remove {l : List (Nat × Item D)} {id : Nat} {it : Item D} (h : lookup l id = some it) :
    isum (remove l id) + itemW it ≤ isum l := by
  induction l with
  | nil => simp [lookup_nil] at h
  | cons e l ih =>
    obtain ⟨a, i⟩ := e
    rw [lookup_cons] at h
    by_cases ha : a = id
    · subst ha
      simp only [↓reduceIte, Option.some.injEq] at h; subst h
      have := isum_remove_le l a
      simp only [remove, List.filter_cons, bne_self_eq_false, Bool.false_eq_true, ↓reduceIte] at this ⊢
      rw [isum_cons]; omega
    · rw [if_neg ha] at h
      have h1 := ih h
      have : remove ((a, i) :: l) id = (a, i) :: remove l id := by simp [remove, ha]
      rw [this, isum_cons, isum_cons]; omega

theorem itemW_pos (it : Item D) : 0 < itemW it := by unfold itemW; omega

theorem hbW_pos (h : HB) : 0 < hbW h := by cases h <;> simp [hbW]

theorem work_ev (s : St D) (e : Ev D) : work (s.ev e) = work s := rfl

theorem work_content {s s' : St D} (h : work s' ≠ work s) : content s' ≠ content s := fun e => h (by
  have : work (content s') = work (content s) := by rw [e]
  exact this)

theorem work_pushBack (s : St D) (id : Nat) : work (pushBack s id) = work s + 5 := by
  simp only [pushBack, work, St.ev]; omega
theorem work_pushFront (s : St D) (id : Nat) : work (pushFront s id) = work s + 5 := by
  simp only [pushFront, work, St.ev]; omega

theorem work_retryBack (s : St D) (id : Nat) : work (retryBack s id) ≤ work s + 5 := by
  unfold retryBack
  split
  · rw [work_pushBack]; exact Nat.le_refl _
  · split
    · omega
    · split
      · rename_i b _ _ _ _ _
        have := isum_remove_le s.items b
        simp only [work, St.ev]; omega
      · rw [work_pushBack]; exact Nat.le_refl _

theorem work_retry {s : St D} (hn : (keys s.items).Nodup) {id : Nat} {it : Item D} (h : lookup s.items id = some it) :
    work (retry s id it) < work s := by
  have hc := isum_change hn h (fun i => { i with hb := .none, retryCount := i.retryCount + 1 })
  have hl : lookup (change s.items id (fun i => { i with hb := .none, retryCount := i.retryCount + 1 })) id =
      some { it with hb := .none, retryCount := it.retryCount + 1 } := by rw [lookup_change, if_pos rfl, h]; rfl
  have hp := hbW_pos it.hb
  simp only [retry]
  split
  · have := isum_remove hl
    have := itemW_pos it
    simp only [work, St.ev]
    simp only [itemW, hbW] at *
    omega
  · rename_i hle
    have h6 : hbW .none = 6 := rfl
    simp only [itemW, h6] at hc
    have key : isum (change s.items id (fun i => { i with hb := .none, retryCount := i.retryCount + 1 })) + 15 ≤ isum s.items := by omega
    split
    · split
      · have := isum_remove_le (change s.items id (fun i => { i with hb := .none, retryCount := i.retryCount + 1 })) id
        simp only [work, St.ev]
        omega
      · rw [work_pushFront]; simp only [work, St.ev]; omega
    · refine Nat.lt_of_le_of_lt (work_retryBack _ _) ?_
      simp only [work, St.ev]; omega

theorem ew_touch (e : Exec) (id : Nat) : ew (touch e id) ≤ ew e ∧ (ew (touch e id) = ew e → touch e id = e) := by
  cases e with
  | handed i t => cases t <;> simp only [touch, Bool.false_or, Bool.true_or, ew] <;> cases (i == id) <;> simp [ew]
  | _ => exact ⟨Nat.le_refl _, fun _ => rfl⟩

/-- A call that only may have touched the delivery. -/
theorem work_touch {s : St D} (id : Nat) (hne : content { s with exec := touch s.exec id } ≠ content s) :
    work { s with exec := touch s.exec id } < work s := by
  have h := ew_touch s.exec id
  have : ew (touch s.exec id) ≠ ew s.exec := fun e => hne (by rw [h.2 e])
  simp only [work]; omega

theorem setbacks_ev (s : St D) (e : Ev D) : setbacks (s.ev e).log = setbacks s.log +
    (match e with | .enqueued .. | .updated .. | .refused | .unsent .. => 1 | _ => 0) := by
  simp only [setbacks, St.ev, List.countP_cons]
  cases e <;> simp

/-- Whatever changes in the channel leaves it less to do. -/
theorem work_goes {s s' : St D} (hi : Inv s) (hc : s.closed = false) (hg : Goes s s') : work s' < work s := by
  have hnf : s.forced = false := by
    cases h : s.forced with
    | false => rfl
    | true => have := hi.forced h; simp [hc] at this
  have hnd : s.destroying = false := by
    cases h : s.destroying with
    | false => rfl
    | true => have := hi.destroying h; simp [hnf] at this
  have hnx : s.destroyed = false := by
    cases h : s.destroyed with
    | false => rfl
    | true => have := (hi.destroyed h).1; simp [hnd] at this
  obtain ⟨hs, hne, hq, hst, hal⟩ := hg
  cases hs with
  | enqueue r g _ =>
    exfalso
    unfold enqueue at hq
    split at hq
    · rw [setbacks_ev] at hq; simp at hq
    · split at hq
      · rw [setbacks_ev] at hq; simp at hq
      · rw [setbacks_ev] at hq; simp at hq
  | ackPassed id _ _ =>
    unfold ackPassed at hne ⊢
    cases hl : lookup s.items id with
    | none => rw [hl] at hne; exact absurd rfl hne
    | some it =>
      rw [hl] at hne
      dsimp only at hne ⊢
      split
      · have := isum_remove hl
        have := itemW_pos it
        have := (ew_touch s.exec id).1
        simp only [work, St.ev]; omega
      · rename_i h; rw [if_neg h] at hne; exact absurd rfl hne
  | ackFailed id _ _ =>
    unfold ackFailed failItem at hne ⊢
    dsimp only at hne ⊢
    cases hl : lookup s.items id with
    | none => rw [hl] at hne; exact work_touch (s := s) id hne
    | some it =>
      rw [hl] at hne
      dsimp only at hne ⊢
      split
      · rw [work_ev]
        refine Nat.lt_of_lt_of_le (work_retry (s := { s with exec := touch s.exec id }) hi.keysNodup hl) ?_
        have := (ew_touch s.exec id).1
        simp only [work]; omega
      · rename_i h; rw [if_neg h] at hne; exact work_touch (s := s) id hne
  | heartbeat id _ _ =>
    unfold heartbeat at hne ⊢
    dsimp only at hne ⊢
    cases hl : lookup s.items id with
    | none => rw [hl] at hne; exact work_touch (s := s) id hne
    | some it => rw [hl] at hne; exact work_touch (s := s) id hne
  | notified he hp => simp only [work, he, ew]; omega
  | send he => simp only [work, he, ew]; omega
  | count g he =>
    unfold count at hal ⊢
    cases g with
    | true => simp only [work, he, ew, if_true]; omega
    | false => have := hal (by simp); rw [he] at this; cases this
  | pop he =>
    unfold pop
    cases hqu : s.queue with
    | nil => have := hi.pending (by simp [he]); simp [he, hqu, Exec.owes] at this
    | cons i q => simp only [work, he, ew]; omega
  | @find id he =>
    have hpp := hi.popped id he
    unfold find
    rw [if_neg (by simp [hnd])]
    have hk := hi.poppedStored hnx id (.inl he)
    obtain ⟨it, hl⟩ := lookup_some_of_mem hk
    have hb := hpp.2.2 it hl
    simp only [hl, hb]
    simp only [ne_eq, not_true_eq_false, ↓reduceIte, St.ev, work]
    have := isum_change hi.keysNodup hl (fun i => { i with hb := .created })
    simp only [itemW, hb, hbW] at this
    simp only [he, ew]; omega
  | @received id t he =>
    unfold received
    rw [if_neg (by simp [hnd])]
    simp only [work, St.ev]
    have h1 : isum (change s.items id (fun i => { i with hb := i.hb.start })) ≤ isum s.items := by
      cases hl : lookup s.items id with
      | none => rw [change_notin (lookup_none.1 hl)]; exact Nat.le_refl _
      | some it =>
        have := isum_change hi.keysNodup hl (fun i => { i with hb := i.hb.start })
        have h2 : hbW it.hb.start ≤ hbW it.hb := by cases it.hb <;> simp [HB.start, hbW]
        simp only [itemW] at this; omega
    cases t <;> simp only [he, ew] <;> omega
  | @unsent id t he =>
    exfalso
    unfold unsent at hq
    rw [if_neg (by simp [hnd])] at hq
    dsimp only at hq
    cases hl : lookup s.items id with
    | none => rw [hl] at hq; rw [setbacks_ev] at hq; simp at hq
    | some it =>
      rw [hl] at hq
      dsimp only [giveBack] at hq
      split at hq
      · split at hq
        · rw [setbacks_ev] at hq; simp only [setbacks_ev] at hq; simp at hq
        · simp only [setbacks_ev] at hq; simp at hq
      · simp only [setbacks_ev] at hq; simp at hq
  | spinDone he => simp only [work, he, ew]; omega
  | @fire id it hl hb =>
    have := isum_change hi.keysNodup hl (fun i => { i with hb := .firing })
    simp only [itemW, hb, hbW] at this
    simp only [work]; omega
  | @timeout id it hl hb =>
    unfold timeout
    rw [if_neg (by simp [hnd])]
    unfold failItem
    have hl' : lookup (s.ev (.timedOut id)).items id = some it := hl
    rw [hl']
    simp only [Bool.true_or, if_true]
    exact Nat.lt_of_lt_of_le (work_retry (s := s.ev (.timedOut id)) hi.keysNodup hl') (Nat.le_refl _)
  | delete _ =>
    exfalso
    unfold delete at hst hne
    split at hst
    · simp only [St.ev] at hst; rw [hc] at hst; cases hst
    · rename_i h; rw [if_neg h] at hne; exact hne rfl
  | forceBegin _ => exfalso; simp only [forceBegin, St.ev] at hst; rw [hc] at hst; cases hst
  | forceMark hf _ => rw [hnf] at hf; cases hf
  | forceEnd hd _ _ => rw [hnd] at hd; cases hd
  | stop h _ => rw [hc] at h; cases h

theorem retryBack_exec (s : St D) (id : Nat) : (retryBack s id).exec = s.exec ∧ (retryBack s id).closed = s.closed := by
  unfold retryBack pushBack St.ev; grind
theorem retry_exec (s : St D) (id : Nat) (it : Item D) : (retry s id it).exec = s.exec ∧ (retry s id it).closed = s.closed := by
  have := retryBack_exec (D := D)
  unfold retry pushFront St.ev
  grind
theorem failItem_exec (s : St D) (id : Nat) (b : Bool) : (failItem s id b).1.exec = s.exec ∧ (failItem s id b).1.closed = s.closed := by
  have := retry_exec (D := D)
  unfold failItem
  grind
theorem touch_stopped {e : Exec} {id : Nat} : touch e id = .stopped ↔ e = .stopped := by cases e <;> simp [touch]

theorem step_stopped {s s' : St D} (hs : Step s s') (h : s'.exec = .stopped) : s.exec = .stopped ∨ s.closed = true := by
  cases hs with
  | enqueue r g _ => unfold enqueue St.ev at h; grind
  | ackPassed id _ _ => unfold ackPassed St.ev at h; grind [touch_stopped]
  | ackFailed id _ _ =>
    unfold ackFailed at h
    have := (failItem_exec { s with exec := touch s.exec id } id false).1
    simp only [St.ev] at h
    rw [this] at h
    exact .inl (touch_stopped.1 h)
  | heartbeat id _ _ => unfold heartbeat St.ev at h; grind [touch_stopped]
  | count g _ => unfold count at h; grind
  | pop _ => unfold pop at h; grind
  | find _ => unfold find St.ev at h; grind
  | received _ => unfold received St.ev at h; grind
  | unsent _ => unfold unsent giveBack St.ev at h; grind
  | timeout _ _ =>
    unfold timeout at h
    split at h
    · exact .inl h
    · rw [(failItem_exec _ _ _).1] at h; exact .inl h
  | delete _ => unfold delete St.ev at h; grind
  | forceBegin _ => exact .inl h
  | forceMark _ _ => exact .inl h
  | forceEnd _ _ _ => exact .inl h
  | stop hc _ => exact .inr hc
  | notified _ _ => cases h
  | send _ => cases h
  | spinDone _ => cases h
  | fire _ _ => exact .inl h

theorem step_closed {s s' : St D} (hs : Step s s') (h : s.closed = true) : s'.closed = true := by
  cases hs with
  | enqueue r g hc => rw [hc] at h; cases h
  | ackPassed id hc _ => rw [hc] at h; cases h
  | ackFailed id hc _ => rw [hc] at h; cases h
  | heartbeat id hc _ => rw [hc] at h; cases h
  | count g _ => unfold count; grind
  | pop _ => unfold pop; grind
  | find _ => unfold find St.ev; grind
  | received _ => unfold received St.ev; grind
  | unsent _ => unfold unsent giveBack St.ev; grind
  | timeout _ _ =>
    unfold timeout
    split
    · exact h
    · rw [(failItem_exec _ _ _).2]; exact h
  | delete hc => rw [hc] at h; cases h
  | forceBegin hc => rw [hc] at h; cases h
  | forceMark _ _ => exact h
  | forceEnd _ _ _ => exact h
  | stop hc _ => exact hc
  | notified _ _ => exact h
  | send _ => exact h
  | spinDone _ => exact h
  | fire _ _ => exact h

/-- `Execute` ends only after a deletion. -/
theorem stopped_closed {s : St D} (hr : Reach s) (h : s.exec = .stopped) : s.closed = true := by
  induction hr with
  | init => cases h
  | @step s s' hr hcr hs ih =>
    rcases step_stopped hs h with h' | h'
    · exact step_closed hs (ih h')
    · exact step_closed hs h'

/-! ### Waiting items -/

def Waiting (s : St D) (x : Nat) : Prop := ∃ it, lookup s.items x = some it ∧ it.hb = .none

def Served (x : Nat) (evs : List (Ev D)) : Prop := (∃ it, .taken x it ∈ evs) ∨ ∃ b, .superseded x b ∈ evs

def Keeps (x : Nat) (s s' : St D) : Prop := ∃ evs, s'.log = evs ++ s.log ∧ (Waiting s' x ∨ Served x evs)

theorem keeps_same {x : Nat} {s s' : St D} (h : Waiting s x) (hi : s'.items = s.items) (evs : List (Ev D)) (hl : s'.log = evs ++ s.log) :
    Keeps x s s' := ⟨evs, hl, .inl (by unfold Waiting; rw [hi]; exact h)⟩

theorem waiting_change {s s' : St D} {x id : Nat} {f : Item D → Item D} (h : Waiting s x) (hi : s'.items = change s.items id f)
    (hf : id = x → ∀ it, it.hb = .none → (f it).hb = .none) : Waiting s' x := by
  obtain ⟨it, h1, h2⟩ := h
  unfold Waiting
  rw [hi, lookup_change]
  split
  · exact ⟨f it, by simp [h1], hf ‹_› it h2⟩
  · exact ⟨it, h1, h2⟩

theorem waiting_remove {s s' : St D} {x id : Nat} (h : Waiting s x) (hi : s'.items = remove s.items id) (hx : id ≠ x) : Waiting s' x := by
  obtain ⟨it, h1, h2⟩ := h
  unfold Waiting
  rw [hi, lookup_remove, if_neg hx]
  exact ⟨it, h1, h2⟩

theorem keeps_retry {s : St D} {x id : Nat} {it : Item D} (h : Waiting s x) (hx : id ≠ x) : Keeps x s (retry s id it) := by
  have h1 : Waiting (St.ev { s with
      items := change s.items id (fun i => { i with hb := .none, retryCount := i.retryCount + 1 }), run := s.run - 1 } (.failed id)) x :=
    waiting_change (f := fun i => { i with hb := .none, retryCount := i.retryCount + 1 }) h rfl (fun e => absurd e hx)
  unfold retry
  dsimp only
  split
  · exact ⟨[.exhausted id, .failed id], rfl, .inl (waiting_remove h1 rfl hx)⟩
  · split
    · split
      · exact ⟨[.superseded id false, .failed id], rfl, .inl (waiting_remove h1 rfl hx)⟩
      · exact ⟨[.requeued id, .failed id], rfl, .inl h1⟩
    · unfold retryBack
      split
      · exact ⟨[.requeued id, .failed id], rfl, .inl h1⟩
      · rename_i b _
        split
        · exact ⟨[.failed id], rfl, .inl h1⟩
        · split
          · refine ⟨[.requeued id, .superseded b false, .failed id], rfl, ?_⟩
            by_cases hb : b = x
            · subst hb; exact .inr (.inr ⟨false, by simp⟩)
            · exact .inl (waiting_remove h1 rfl hb)
          · exact ⟨[.requeued id, .failed id], rfl, .inl h1⟩

theorem stops_ne {h : HB} (hs : h.stops = true) : h ≠ .none := by intro e; subst e; cases hs

/-- An item that waits goes on waiting, or is handed out, or gives way to a newer one. -/
theorem step_keeps {s s' : St D} (hi : Inv s) (hc : s.closed = false) {x : Nat} (h : Waiting s x) (hs : Step s s') : Keeps x s s' := by
  have hnf : s.forced = false := by
    cases h : s.forced with
    | false => rfl
    | true => have := hi.forced h; simp [hc] at this
  have hnd : s.destroying = false := by
    cases h : s.destroying with
    | false => rfl
    | true => have := hi.destroying h; simp [hnf] at this
  obtain ⟨it0, hl0, hb0⟩ := id h
  cases hs with
  | enqueue r g _ =>
    unfold enqueue
    split
    · exact ⟨[_], rfl, .inl (waiting_change h rfl (fun _ it e => by rw [update_hb]; exact e))⟩
    · split
      · refine ⟨[_], rfl, .inl ⟨it0, ?_, hb0⟩⟩
        simp only [St.ev, lookup_append, hl0, Option.some_or]
      · exact keeps_same h rfl [_] rfl
  | ackPassed id _ _ =>
    unfold ackPassed
    split
    · exact keeps_same h rfl [_] rfl
    · rename_i it hl
      split
      · rename_i hst
        refine ⟨[_], rfl, .inl (waiting_remove h rfl ?_)⟩
        rintro rfl
        rw [hl0, Option.some.injEq] at hl; subst hl; exact stops_ne hst hb0
      · exact keeps_same h rfl [_] rfl
  | ackFailed id _ _ =>
    unfold ackFailed failItem
    dsimp only
    split
    · exact keeps_same h rfl [_] rfl
    · rename_i it hl
      split
      · rename_i hst
        have hx : id ≠ x := by
          rintro rfl
          rw [hl0, Option.some.injEq] at hl; subst hl; exact stops_ne (by simpa using hst) hb0
        obtain ⟨evs, h1, h2⟩ := keeps_retry (s := { s with exec := touch s.exec id }) (it := it) h hx
        refine ⟨.ackFailed id true :: evs, by simp only [St.ev, h1, List.cons_append], ?_⟩
        rcases h2 with h2 | ⟨i, h2⟩ | ⟨b, h2⟩
        · exact .inl h2
        · exact .inr (.inl ⟨i, List.mem_cons_of_mem _ h2⟩)
        · exact .inr (.inr ⟨b, List.mem_cons_of_mem _ h2⟩)
      · exact keeps_same h rfl [_] rfl
  | heartbeat id _ _ =>
    unfold heartbeat
    dsimp only
    split <;> exact keeps_same h rfl [_] rfl
  | notified he hp => exact keeps_same h rfl [] rfl
  | send he => exact keeps_same h rfl [] rfl
  | count g he => unfold count; split <;> exact keeps_same h rfl [] rfl
  | pop he => unfold pop; split <;> exact keeps_same h rfl [] rfl
  | @find id he =>
    unfold find
    rw [if_neg (by simp [hnd])]
    split
    · exact keeps_same h rfl [] rfl
    · rename_i it hl
      split
      · exact keeps_same h rfl [] rfl
      · refine ⟨[.taken id it], rfl, ?_⟩
        by_cases hx : id = x
        · subst hx; exact .inr (.inl ⟨it, by simp⟩)
        · exact .inl (waiting_change (f := fun i => { i with hb := .created }) h rfl (fun e => absurd e hx))
  | @received id t he =>
    unfold received
    rw [if_neg (by simp [hnd])]
    exact ⟨[_], rfl, .inl (waiting_change (id := id) (f := fun i => { i with hb := i.hb.start }) h rfl (fun _ i e => by simp only [e, HB.start]))⟩
  | @unsent id t he =>
    unfold unsent
    rw [if_neg (by simp [hnd])]
    dsimp only
    split
    · exact keeps_same h rfl [_] rfl
    · rename_i it hl
      unfold giveBack
      split
      · rename_i hst
        have hx : id ≠ x := by
          rintro rfl
          rw [hl0, Option.some.injEq] at hl; subst hl; exact stops_ne hst hb0
        dsimp only
        split
        · refine ⟨[_, _], rfl, .inl ?_⟩
          unfold Waiting
          simp only [St.ev, lookup_remove, lookup_change, if_neg hx]
          exact h
        · exact ⟨[_], rfl, .inl (waiting_change (f := fun i => { i with hb := .none }) h rfl (fun e => absurd e hx))⟩
      · exact keeps_same h rfl [_] rfl
  | spinDone he => exact keeps_same h rfl [] rfl
  | @fire id it hl hb =>
    refine ⟨[], rfl, .inl (waiting_change (id := id) (f := fun i => { i with hb := .firing }) h rfl ?_)⟩
    rintro rfl
    rw [hl0, Option.some.injEq] at hl; subst hl; rw [hb0] at hb; cases hb
  | @timeout id it hl hb =>
    unfold timeout
    rw [if_neg (by simp [hnd])]
    unfold failItem
    have hl' : lookup (s.ev (.timedOut id)).items id = some it := hl
    rw [hl']
    simp only [Bool.true_or, if_true]
    have hx : id ≠ x := by
      rintro rfl
      rw [hl0, Option.some.injEq] at hl; subst hl; rw [hb0] at hb; cases hb
    obtain ⟨evs, h1, h2⟩ := keeps_retry (s := s.ev (.timedOut id)) (it := it) h hx
    refine ⟨evs ++ [.timedOut id], by rw [h1, List.append_assoc]; rfl, ?_⟩
    rcases h2 with h2 | ⟨i, h2⟩ | ⟨b, h2⟩
    · exact .inl h2
    · exact .inr (.inl ⟨i, List.mem_append_left _ h2⟩)
    · exact .inr (.inr ⟨b, List.mem_append_left _ h2⟩)
  | delete _ => unfold delete; split <;> first | exact keeps_same h rfl [_] rfl | exact keeps_same h rfl [] rfl
  | forceBegin _ => exact keeps_same h rfl [_] rfl
  | forceMark hf _ => rw [hnf] at hf; cases hf
  | forceEnd hd _ _ => rw [hnd] at hd; cases hd
  | stop h' _ => rw [hc] at h'; cases h'

/-! ### Until nothing changes any more -/

theorem gone_facts {s s' : St D} {n : Nat} (hr : Reach s) (hc : s.closed = false) (h : Gone s n s') :
    Reach s' ∧ s'.closed = false ∧ work s' + n ≤ work s ∧
    ∀ x, Waiting s x → Keeps x s s' := by
  induction h with
  | refl => exact ⟨hr, hc, Nat.le_refl _, fun x hx => keeps_same hx rfl [] rfl⟩
  | @step n s1 s2 h1 hg ih =>
    obtain ⟨a, b, c, d⟩ := ih
    have hi := inv_reach a
    have hcr : s1.crashed = false := by
      cases h : s1.crashed with
      | false => rfl
      | true => have := hi.forced (hi.destroying (hi.crash h)); simp [b] at this
    have hw := work_goes hi b hg
    refine ⟨.step a hcr hg.step, by rw [hg.still]; exact b, by omega, fun x hx => ?_⟩
    obtain ⟨evs, h2, h3⟩ := d x hx
    rcases h3 with h3 | h3
    · obtain ⟨evs', h4, h5⟩ := step_keeps hi b h3 hg.step
      refine ⟨evs' ++ evs, by rw [h4, h2, List.append_assoc], ?_⟩
      rcases h5 with h5 | ⟨i, h5⟩ | ⟨b, h5⟩
      · exact .inl h5
      · exact .inr (.inl ⟨i, List.mem_append_left _ h5⟩)
      · exact .inr (.inr ⟨b, List.mem_append_left _ h5⟩)
    · obtain ⟨evs', hgr⟩ := step_grows hi hg.step
      refine ⟨evs' ++ evs, by rw [hgr.log, h2, List.append_assoc], .inr ?_⟩
      rcases h3 with ⟨i, h5⟩ | ⟨b, h5⟩
      · exact .inl ⟨i, List.mem_append_right _ h5⟩
      · exact .inr ⟨b, List.mem_append_right _ h5⟩

theorem gone_log {s s' : St D} {n : Nat} (hr : Reach s) (hc : s.closed = false) (h : Gone s n s') : ∃ evs, s'.log = evs ++ s.log := by
  induction h with
  | refl => exact ⟨[], rfl⟩
  | step h1 hg ih =>
    obtain ⟨evs, h2⟩ := ih
    obtain ⟨evs', hgr⟩ := step_grows (inv_reach (gone_facts hr hc h1).1) hg.step
    exact ⟨evs' ++ evs, by rw [hgr.log, h2, List.append_assoc]⟩

theorem gone_end (n : Nat) : ∀ s : St D, work s ≤ n → Reach s → s.closed = false → ∃ k s', Gone s k s' ∧ Rests s' := by
  induction n with
  | zero =>
    intro s hn hr hc
    refine ⟨0, s, .refl s, fun s' hg => ?_⟩
    have := work_goes (inv_reach hr) hc hg
    omega
  | succ n ih =>
    intro s hn hr hc
    by_cases h : Rests s
    · exact ⟨0, s, .refl s, h⟩
    · obtain ⟨s1, hg⟩ := Classical.not_forall.1 h
      have hg := Classical.not_not.1 hg
      have := work_goes (inv_reach hr) hc hg
      obtain ⟨a, b, -, -⟩ := gone_facts hr hc (.step (.refl s) hg)
      obtain ⟨k, s2, h2, h3⟩ := ih s1 (by omega) a b
      refine ⟨k + 1, s2, ?_, h3⟩
      clear h3
      induction h2 with
      | refl => exact .step (.refl s) hg
      | step _ hg' ih' => exact .step ih' hg'

theorem retry_setbacks (s : St D) (id : Nat) (it : Item D) : setbacks (retry s id it).log = setbacks s.log := by
  unfold retry
  dsimp only
  split
  · simp [setbacks_ev]
  · split
    · split
      · simp [setbacks_ev]
      · simp [pushFront, setbacks_ev]
    · unfold retryBack
      split
      · simp [pushBack, setbacks_ev]
      · split
        · simp [setbacks_ev]
        · split
          · simp [setbacks_ev]
          · simp [pushBack, setbacks_ev]

/-- A step of `Execute`. -/
theorem goes_exec {s s' : St D} (hs : Step s s') (he : s'.exec ≠ s.exec) (hq : setbacks s'.log = setbacks s.log) (hc : s'.closed = s.closed)
    (ha : s'.exec ≠ .spin) : Goes s s' := ⟨hs, fun e => he (show (content s').exec = (content s).exec by rw [e]), hq, hc, fun e => absurd e ha⟩

theorem rests_empty {s : St D} (hr : Reach s) (hc : s.closed = false) (h : Rests s) : s.items = [] ∧ s.queue = [] ∧ s.pending = 0 ∧ s.exec = .idle := by
  have hi := inv_reach hr
  have hnf : s.forced = false := by
    cases h : s.forced with
    | false => rfl
    | true => have := hi.forced h; simp [hc] at this
  have hnd : s.destroying = false := by
    cases h : s.destroying with
    | false => rfl
    | true => have := hi.destroying h; simp [hnf] at this
  have hnx : s.destroyed = false := by
    cases h : s.destroyed with
    | false => rfl
    | true => have := (hi.destroyed h).1; simp [hnd] at this
  have hidle : s.exec = .idle := by
    cases he : s.exec with
    | idle => rfl
    | stopped => have := stopped_closed hr he; rw [hc] at this; cases this
    | offering => exact absurd (goes_exec (.send he) (by simp [he]) rfl rfl (by simp)) (h _)
    | called => exact absurd (goes_exec (.count true he) (by simp [he, count]) rfl rfl (by simp [count])) (h _)
    | counted =>
      have hq := hi.pending (by simp [he])
      cases hqu : s.queue with
      | nil => simp [he, hqu, Exec.owes] at hq
      | cons i q =>
        refine absurd (goes_exec (.pop he) ?_ ?_ ?_ ?_) (h _) <;> simp [pop, hqu, he]
    | popped id =>
      obtain ⟨it, hl⟩ := lookup_some_of_mem (hi.poppedStored hnx id (.inl he))
      have hb := (hi.popped id he).2.2 it hl
      refine absurd (goes_exec (.find he) ?_ ?_ ?_ ?_) (h _) <;> simp [find, hnd, hl, hb, he, St.ev, setbacks]
    | handed id t =>
      refine absurd (goes_exec (.received he) ?_ ?_ ?_ ?_) (h _) <;> simp [received, hnd, he, St.ev, setbacks]
    | spin => exact absurd (goes_exec (.spinDone he) (by simp [he]) rfl rfl (by simp)) (h _)
  have hp : s.pending = 0 := by
    apply Classical.byContradiction
    intro hp
    exact absurd (goes_exec (.notified hidle (by omega)) (by simp [hidle]) rfl rfl (by simp)) (h _)
  have hq : s.queue = [] := by
    have := hi.pending (by simp [hidle])
    simp only [hidle, hp, Exec.owes] at this
    exact List.eq_nil_of_length_eq_zero (by omega)
  refine ⟨?_, hq, hp, hidle⟩
  cases hit : s.items with
  | nil => rfl
  | cons e l =>
    exfalso
    obtain ⟨id, it⟩ := e
    have hl : lookup s.items id = some it := (mem_iff_lookup hi.keysNodup).1 (by rw [hit]; simp)
    cases hb : it.hb with
    | none => have := hi.idleQueued hnx id it hl hb; simp [hq, hidle] at this
    | created => obtain ⟨t, ht⟩ := hi.created id it hl hb; rw [hidle] at ht; cases ht
    | running =>
      refine h _ ⟨.fire hl hb, fun e => ?_, rfl, rfl, fun e => e⟩
      have e : change s.items id (fun i => { i with hb := .firing }) = s.items := congrArg (fun (x : St D) => x.items) e
      have := lookup_change s.items id id (fun i => { i with hb := .firing })
      rw [e, if_pos rfl, hl] at this
      simp only [Option.map_some, Option.some.injEq] at this
      rw [this] at hb; cases hb
    | firing =>
      have hs : Step s _ := .timeout hl hb
      refine h _ ⟨hs, work_content ?_, ?_, ?_, fun e => ?_⟩
      all_goals
        have hl' : lookup (s.ev (.timedOut id)).items id = some it := hl
        unfold timeout failItem at *
        simp only [hnd, hl', Bool.true_or, if_true, Bool.false_eq_true, if_false] at *
      · exact Nat.ne_of_lt (work_retry (s := s.ev (.timedOut id)) hi.keysNodup hl)
      · rw [retry_setbacks]; simp [setbacks_ev]
      · exact (retry_exec _ _ _).2
      · rw [(retry_exec _ _ _).1] at e; exact e

end Willow.Channel
