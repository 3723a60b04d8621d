import Verif.Proofs.ChannelHist
/- The order in which items leave a channel (Model/Channel.lean). -/
namespace Willow.Channel
open Willow.ChanSpec
variable {D : Type}

/-! ### A call that ends the processing of an item that is just being handed out -/

def Touched (l : List (Nat × Item D)) (e : Exec) : Prop := ∀ id it, e = .handed id true → lookup l id = some it → it.hb = .none

theorem Touched.none (l : List (Nat × Item D)) (e : Exec) (he : ∀ id, e ≠ .handed id true) : Touched l e :=
  fun id _ h => absurd h (he id)

theorem Touched.change {l : List (Nat × Item D)} {e : Exec} (h : Touched l e) (id : Nat) (f : Item D → Item D)
    (hf : ∀ it, lookup l id = some it → it.hb = .none → (f it).hb = .none) : Touched (change l id f) e := by
  intro x it he hl
  rw [lookup_change] at hl
  split at hl
  · rename_i hx; subst hx
    cases hi : lookup l id with
    | none => simp [hi] at hl
    | some i => simp only [hi, Option.map_some, Option.some.injEq] at hl; rw [← hl]; exact hf i hi (h _ _ he hi)
  · exact h x it he hl

theorem Touched.remove {l : List (Nat × Item D)} {e : Exec} (h : Touched l e) (id : Nat) : Touched (remove l id) e := by
  intro x it he hl
  rw [lookup_remove] at hl
  split at hl
  · simp at hl
  · exact h x it he hl

/-- the id of the call, if its item is not being processed after it -/
theorem Touched.touch {l : List (Nat × Item D)} {e : Exec} (h : Touched l e) (id : Nat)
    (hid : ∀ it, lookup l id = some it → e = .handed id false → it.hb = .none) : Touched l (touch e id) := by
  intro x it he hl
  cases e with
  | handed i t =>
    simp only [Channel.touch, Exec.handed.injEq] at he
    obtain ⟨rfl, ht⟩ := he
    cases t with
    | true => exact h i it rfl hl
    | false => simp at ht; subst ht; exact hid it hl rfl
  | _ => simp [Channel.touch] at he

theorem Touched.retry {s : St D} (h : Touched s.items s.exec) (id : Nat) (it : Item D) :
    Touched (retry s id it).items (retry s id it).exec := by
  have h1 : Touched (Channel.change s.items id (fun i => { i with hb := .none, retryCount := i.retryCount + 1 })) s.exec :=
    h.change id _ (fun _ _ _ => rfl)
  unfold Channel.retry
  simp only
  split
  · exact h1.remove id
  · split
    · split
      · exact h1.remove id
      · exact h1
    · unfold retryBack
      simp only [St.ev]
      split
      · exact h1
      · split
        · exact h1
        · split
          · exact h1.remove _
          · exact h1

theorem Touched.step {s s' : St D} (hi : Inv s) (h : Touched s.items s.exec) (hs : Step s s') : Touched s'.items s'.exec := by
  cases hs with
  | enqueue r g hc =>
    unfold Channel.enqueue
    split
    · exact h.change _ _ (fun _ _ hn => hn)
    · split
      · intro x it he hl
        simp only [St.ev, lookup_append] at hl
        cases hx : lookup s.items x with
        | some i => rw [hx] at hl; simp at hl; subst hl; exact h x i he hx
        | none =>
          rw [hx] at hl
          simp only [lookup_cons, Option.none_or] at hl
          split at hl
          · simp at hl; subst hl; rfl
          · simp [lookup_nil] at hl
      · exact h
  | ackPassed id _ _ =>
    unfold Channel.ackPassed
    split
    · exact h
    · split
      · refine (h.remove id).touch id ?_
        intro i hl; rw [lookup_remove] at hl; simp at hl
      · exact h
  | ackFailed id _ hc =>
    show Touched (failItem { s with exec := Channel.touch s.exec id } id false).1.items (failItem { s with exec := Channel.touch s.exec id } id false).1.exec
    unfold Channel.failItem
    split
    · rename_i hl
      refine h.touch id ?_
      intro i hi'; rw [hi'] at hl; simp at hl
    · rename_i it hl
      have hl : lookup s.items id = some it := hl
      split
      · have h1 : Touched (Channel.change s.items id (fun i => { i with hb := .none })) (Channel.touch s.exec id) := by
          refine (h.change id _ (fun _ _ _ => rfl)).touch id ?_
          intro i hi' _; rw [lookup_change] at hi'; simp [hl] at hi'; rw [← hi']
        have h2 : Touched (Channel.change s.items id (fun i => { i with hb := .none, retryCount := i.retryCount + 1 })) (Channel.touch s.exec id) := by
          refine (h.change id _ (fun _ _ _ => rfl)).touch id ?_
          intro i hi' _; rw [lookup_change] at hi'; simp [hl] at hi'; rw [← hi']
        unfold Channel.retry
        simp only
        split
        · exact h2.remove id
        · split
          · split
            · exact h2.remove id
            · exact h2
          · unfold retryBack
            simp only [St.ev]
            split
            · exact h2
            · split
              · exact h2
              · split
                · exact h2.remove _
                · exact h2
      · rename_i hn
        refine h.touch id ?_
        intro i hi' _
        rw [hl] at hi'; simp at hi'; subst hi'
        have := hc it hl
        simp only [Bool.false_or, Bool.not_eq_true] at hn
        cases hb : it.hb <;> simp_all [HB.stops]
  | heartbeat id _ hc =>
    have h1 : Touched s.items (Channel.touch s.exec id) := by
      refine h.touch id ?_
      intro i hl he
      have := (hi.handed id he).2.2 i hl
      rcases hc i hl with h2 | h2 <;> simp_all
    unfold Channel.heartbeat
    simp only
    split <;> exact h1
  | notified he hp => exact .none _ _ (by simp)
  | send he => exact .none _ _ (by simp)
  | count g he => unfold Channel.count; split <;> exact .none _ _ (by simp)
  | pop he =>
    unfold Channel.pop
    split
    · exact h
    · exact .none _ _ (by simp)
  | @find id he =>
    unfold Channel.find
    split
    · exact h
    · split
      · exact .none _ _ (by simp)
      · split
        · exact h
        · exact .none _ _ (by simp [St.ev])
  | @received id t he =>
    unfold Channel.received
    split
    · exact h
    · exact .none _ _ (by simp [St.ev])
  | @unsent id t he =>
    unfold Channel.unsent
    split
    · exact h
    · simp only
      split
      · exact .none _ _ (by simp [St.ev])
      · unfold giveBack
        split
        · simp only
          split <;> exact .none _ _ (by simp [St.ev])
        · exact .none _ _ (by simp [St.ev])
  | spinDone he => exact .none _ _ (by simp)
  | @fire id it hl hb =>
    refine Touched.change (l := s.items) h id (fun i => { i with hb := .firing }) ?_
    intro i hi' hn; rw [hl] at hi'; simp at hi'; subst hi'; simp [hb] at hn
  | @timeout id it hl hb =>
    unfold Channel.timeout
    split
    · exact h
    · unfold failItem
      have hl' : lookup (s.ev (.timedOut id)).items id = some it := hl
      rw [hl']
      simp only [Bool.true_or, ↓reduceIte]
      exact Touched.retry (s := s.ev (.timedOut id)) h id it
  | delete hc =>
    unfold Channel.delete
    split <;> exact h
  | forceBegin hc => exact h
  | forceMark _ _ => exact h
  | forceEnd _ _ _ => intro x it _ hl; simp [lookup_nil] at hl
  | stop _ _ => exact .none _ _ (by simp)

theorem touched_reach {s : St D} (h : Reach s) : Touched s.items s.exec := by
  induction h with
  | init => exact .none _ _ (by simp [Channel.init])
  | step h1 _ hs ih => exact ih.step (inv_reach h1) hs

/-! ### Order -/

/-- the item never failed -/
def fresh (l : List (Ev D)) (x : Nat) : Bool := fails x l == 0

/-- taken from the list and possibly given back -/
def Exec.holds (e : Exec) (x : Nat) : Prop := e = .popped x ∨ e = .handed x false

def Ord (q : List Nat) (l : List (Ev D)) (e : Exec) : Prop :=
  (q.filter (fresh l)).Pairwise (· < ·) ∧ ∀ x, e.holds x → fresh l x = true → ∀ y ∈ q, fresh l y = true → x < y

theorem fresh_cons (x : Nat) (e : Ev D) (l : List (Ev D)) : fresh (e :: l) x = true ↔ fresh l x = true ∧ e ≠ .failed x := by
  simp only [fresh, fails_cons, beq_iff_eq]
  cases e <;> simp [one]

theorem fresh_ev {e : Ev D} (he : ∀ x, e ≠ .failed x) (l : List (Ev D)) : fresh (e :: l) = fresh l := by
  funext x; rw [Bool.eq_iff_iff, fresh_cons]; simp [he x]

theorem Ord.shrink {q q' : List Nat} {l l' : List (Ev D)} {e e' : Exec} (h : Ord q l e)
    (hq : (q'.filter (fresh l')).Sublist (q.filter (fresh l))) (hf : ∀ x, fresh l' x = true → fresh l x = true)
    (he : ∀ x, e'.holds x → e.holds x) : Ord q' l' e' := by
  refine ⟨h.1.sublist hq, fun x hx fx y hy fy => ?_⟩
  have := hq.subset (List.mem_filter.2 ⟨hy, fy⟩)
  exact h.2 x (he x hx) (hf x fx) y (List.mem_filter.1 this).1 (List.mem_filter.1 this).2

theorem Ord.ev {q : List Nat} {l : List (Ev D)} {e : Exec} (h : Ord q l e) {v : Ev D} (hv : ∀ x, v ≠ .failed x) : Ord q (v :: l) e := by
  unfold Ord; rw [fresh_ev hv]; exact h

theorem Ord.exec {q : List Nat} {l : List (Ev D)} {e : Exec} (h : Ord q l e) (e' : Exec) (he : ∀ x, e'.holds x → e.holds x) : Ord q l e' :=
  h.shrink (List.Sublist.refl _) (fun _ h => h) he

theorem Ord.exec_none {q : List Nat} {l : List (Ev D)} {e : Exec} (h : Ord q l e) (e' : Exec) (he : ∀ x, ¬ e'.holds x) : Ord q l e' :=
  h.exec e' (fun x hx => absurd hx (he x))

theorem touch_holds {e : Exec} {id x : Nat} (h : (touch e id).holds x) : e.holds x := by
  rcases h with h | h
  · exact .inl (touch_popped.1 h)
  · exact .inr (touch_handed_false.1 h).1

theorem Ord.failedEv {q : List Nat} {l : List (Ev D)} {e : Exec} (h : Ord q l e) (id : Nat) : Ord q (.failed id :: l) e := by
  refine h.shrink ?_ (fun x hx => ((fresh_cons ..).1 hx).1) (fun _ h => h)
  have : q.filter (fresh (.failed id :: l)) = (q.filter (fresh l)).filter (fresh (.failed id :: l)) := by
    rw [List.filter_filter]; congr 1; funext x
    rw [Bool.eq_iff_iff, Bool.and_eq_true]
    exact ⟨fun hx => ⟨hx, ((fresh_cons ..).1 hx).1⟩, fun hx => hx.1⟩
  rw [this]; exact List.filter_sublist

/-- an item that failed does not count -/
theorem Ord.stale {q q' : List Nat} {l : List (Ev D)} {e : Exec} (h : Ord q l e) (id : Nat) (hid : fresh l id = false)
    (hq : (q'.filter (· != id)).Sublist q) : Ord q' l e := by
  refine h.shrink ?_ (fun _ h => h) (fun _ h => h)
  have : q'.filter (fresh l) = (q'.filter (· != id)).filter (fresh l) := by
    rw [List.filter_filter]; apply List.filter_congr; intro x _
    by_cases hx : x = id
    · subst hx; simp [hid]
    · simp [hx]
  rw [this]; exact hq.filter _

theorem filter_ne_append {q : List Nat} {id : Nat} : ((q ++ [id]).filter (· != id)).Sublist q := by
  rw [List.filter_append]; simp [List.filter_sublist]

theorem Ord.retry {s : St D} (h : Ord s.queue s.log s.exec) (id : Nat) (it : Item D) :
    Ord (retry s id it).queue (retry s id it).log (retry s id it).exec := by
  have h1 : Ord s.queue (.failed id :: s.log) s.exec := h.failedEv id
  have hid : fresh (Ev.failed id :: s.log) id = false := by simp [fresh, fails_cons, one]
  unfold Channel.retry
  simp only
  split
  · exact h1.ev (by simp)
  · split
    · split
      · exact h1.ev (by simp)
      · exact (h1.stale (q' := id :: s.queue) id hid (by simp [List.filter_sublist])).ev (by simp)
    · unfold retryBack
      simp only [St.ev]
      split
      · exact (h1.stale (q' := s.queue ++ [id]) id hid filter_ne_append).ev (by simp)
      · split
        · exact h1
        · split
          · exact ((h1.stale (q' := s.queue.dropLast ++ [id]) id hid
              (filter_ne_append.trans (List.dropLast_sublist _))).ev (v := .superseded _ false) (by simp)).ev (by simp)
          · exact (h1.stale (q' := s.queue ++ [id]) id hid filter_ne_append).ev (by simp)

theorem Ord.step {s s' : St D} (hi : Inv s) (ht : Touched s.items s.exec) (h : Ord s.queue s.log s.exec) (hs : Step s s') : Ord s'.queue s'.log s'.exec := by
  have idle : ∀ (e : Exec), (∀ x, e ≠ .popped x) → (∀ x, e ≠ .handed x false) → ∀ x, ¬ e.holds x := by
    intro e h1 h2 x hx; rcases hx with hx | hx
    · exact h1 x hx
    · exact h2 x hx
  cases hs with
  | enqueue r g hc =>
    unfold Channel.enqueue
    split
    · exact h.ev (by simp)
    · split
      · show Ord (s.queue ++ [s.nextId]) (_ :: s.log) s.exec
        refine Ord.ev ?_ (by simp)
        refine ⟨?_, ?_⟩
        · rw [List.filter_append, List.pairwise_append]
          refine ⟨h.1, ?_, ?_⟩
          · simp only [List.filter_cons, List.filter_nil]; split <;> simp
          · intro a ha b hb
            have ha := (List.mem_filter.1 ha).1
            have hb := (List.mem_filter.1 hb).1
            simp only [List.mem_singleton] at hb; subst hb; exact hi.queueLt a ha
        · intro x hx fx y hy fy
          simp only [List.mem_append, List.mem_singleton] at hy
          rcases hy with hy | rfl
          · exact h.2 x hx fx y hy fy
          · rcases hx with hx | hx
            · exact (hi.popped x hx).2.1
            · exact (hi.handed x hx).2.1
      · exact h.ev (by simp)
  | ackPassed id _ _ =>
    unfold Channel.ackPassed
    split
    · exact h.ev (by simp)
    · split
      · exact (h.exec _ (fun _ => touch_holds)).ev (by simp)
      · exact h.ev (by simp)
  | ackFailed id _ _ =>
    show Ord (failItem { s with exec := touch s.exec id } id false).1.queue
      (_ :: (failItem { s with exec := touch s.exec id } id false).1.log) (failItem { s with exec := touch s.exec id } id false).1.exec
    refine Ord.ev ?_ (by simp)
    have ht := h.exec (touch s.exec id) (fun _ => touch_holds)
    unfold Channel.failItem
    split
    · exact ht
    · split
      · exact Ord.retry (s := { s with exec := touch s.exec id }) ht id _
      · exact ht
  | heartbeat id _ _ =>
    unfold Channel.heartbeat
    simp only
    split <;> exact (h.exec _ (fun _ => touch_holds)).ev (by simp)
  | notified he hp => exact h.exec_none _ (idle _ (by simp) (by simp))
  | send he => exact h.exec_none _ (idle _ (by simp) (by simp))
  | count g he => unfold Channel.count; split <;> exact h.exec_none _ (idle _ (by simp) (by simp))
  | pop he =>
    unfold Channel.pop
    split
    · exact h
    · rename_i id q hq
      rw [hq] at h
      refine ⟨h.1.sublist ((List.sublist_cons_self id q).filter _), ?_⟩
      intro x hx fx y hy fy
      rcases hx with hx | hx
      · simp only [Exec.popped.injEq] at hx; subst hx
        have := h.1
        rw [List.filter_cons, if_pos fx, List.pairwise_cons] at this
        exact this.1 y (List.mem_filter.2 ⟨hy, fy⟩)
      · simp at hx
  | @find id he =>
    unfold Channel.find
    have h1 : Ord s.queue s.log (.handed id false) := h.exec _ (fun x hx => by
      rcases hx with hx | hx
      · simp at hx
      · simp only [Exec.handed.injEq, and_true] at hx; subst hx; exact .inl he)
    split
    · exact h
    · split
      · exact h1
      · split
        · exact h
        · exact h1.ev (by simp)
  | received he =>
    unfold Channel.received
    split
    · exact h
    · exact (h.exec_none .idle (idle _ (by simp) (by simp))).ev (by simp)
  | @unsent id t he =>
    unfold Channel.unsent
    have h1 := fun b => (h.exec_none (.idle) (idle _ (by simp) (by simp))).ev (v := .unsent id b) (by simp)
    split
    · exact h
    · simp only
      split
      · exact h1 _
      · rename_i it hl
        unfold giveBack
        split
        · simp only
          split
          · exact (h1 _).ev (by simp)
          · refine ⟨?_, ?_⟩
            · simp only [St.ev]; rw [fresh_ev (by simp), List.filter_cons]
              split
              · rename_i hst _ hf
                have he : s.exec = .handed id false := by
                  cases t with
                  | false => exact he
                  | true => have := ht id it he hl; simp [this, HB.stops] at hst
                rw [List.pairwise_cons]
                exact ⟨fun y hy => h.2 id (.inr he) hf y (List.mem_filter.1 hy).1 (List.mem_filter.1 hy).2, h.1⟩
              · exact h.1
            · intro x hx; exact absurd hx (idle _ (by simp [St.ev]) (by simp [St.ev]) x)
        · exact h1 _
  | spinDone he => exact h.exec_none _ (idle _ (by simp) (by simp))
  | fire hl hb => exact h
  | @timeout id it hl hb =>
    unfold Channel.timeout
    split
    · exact h
    · unfold failItem
      have hl' : lookup (s.ev (.timedOut id)).items id = some it := hl
      rw [hl']
      simp only [Bool.true_or, ↓reduceIte]
      exact Ord.retry (s := s.ev (.timedOut id)) (h.ev (by simp)) id it
  | delete hc =>
    unfold Channel.delete
    split
    · exact h.ev (by simp)
    · exact h
  | forceBegin hc => exact h.ev (by simp)
  | forceMark _ _ => exact h
  | forceEnd _ _ _ => exact h
  | stop _ _ => exact h.exec_none _ (idle _ (by simp) (by simp))

theorem ord_reach {s : St D} (h : Reach s) : Ord s.queue s.log s.exec := by
  induction h with
  | init => exact ⟨by simp [Channel.init], fun x hx => by rcases hx with hx | hx <;> simp [Channel.init] at hx⟩
  | step h1 _ hs ih => exact ih.step (inv_reach h1) (touched_reach h1) hs

/-! ### What was true when an item was handed out -/

/-- Every hand-out in the history satisfied `P` (of the history before it, the item and its content). -/
def Always (P : List (Ev D) → Nat → Item D → Prop) (log : List (Ev D)) : Prop :=
  ∀ post pre y it, log = post ++ .taken y it :: pre → P pre y it

theorem Always.cons {P : List (Ev D) → Nat → Item D → Prop} {log : List (Ev D)} (h : Always P log) {e : Ev D}
    (he : ∀ y it, e = .taken y it → P log y it) : Always P (e :: log) := by
  intro post pre y it hl
  cases post with
  | nil => simp only [List.nil_append, List.cons.injEq] at hl; obtain ⟨rfl, rfl⟩ := hl; exact he y it rfl
  | cons e' post => simp only [List.cons_append, List.cons.injEq] at hl; exact h post pre y it hl.2

theorem Always.ev {P : List (Ev D) → Nat → Item D → Prop} {log : List (Ev D)} (h : Always P log) {e : Ev D}
    (he : ∀ y it, e ≠ .taken y it) : Always P (e :: log) := h.cons (fun y it hy => absurd hy (he y it))

/-- only `find` hands out -/
theorem Always.step {P : List (Ev D) → Nat → Item D → Prop} {s s' : St D} (h : Always P s.log) (hs : Step s s')
    (hf : ∀ id it, s.exec = .popped id → lookup s.items id = some it → it.hb = .none → P s.log id it) : Always P s'.log := by
  have hretry : ∀ (s : St D) id it, Always P s.log → Always P (retry s id it).log := by
    intro s id it h
    have h1 : Always P (.failed id :: s.log) := h.ev (by simp)
    unfold Channel.retry
    simp only
    split
    · exact h1.ev (by simp)
    · split
      · split
        · exact h1.ev (by simp)
        · exact h1.ev (by simp)
      · unfold retryBack
        simp only [St.ev]
        split
        · exact h1.ev (by simp)
        · split
          · exact h1
          · split
            · exact (h1.ev (e := .superseded _ false) (by simp)).ev (by simp)
            · exact h1.ev (by simp)
  cases hs with
  | enqueue r g hc =>
    unfold Channel.enqueue
    split
    · exact h.ev (by simp)
    · split
      · exact h.ev (by simp)
      · exact h.ev (by simp)
  | ackPassed id _ _ =>
    unfold Channel.ackPassed
    split
    · exact h.ev (by simp)
    · split <;> exact h.ev (by simp)
  | ackFailed id _ _ =>
    refine Always.ev ?_ (by simp)
    unfold Channel.failItem
    split
    · exact h
    · split
      · exact hretry _ _ _ h
      · exact h
  | heartbeat id _ _ =>
    unfold Channel.heartbeat
    simp only
    split <;> exact h.ev (by simp)
  | notified he hp => exact h
  | send he => exact h
  | count g he => unfold Channel.count; split <;> exact h
  | pop he => unfold Channel.pop; split <;> exact h
  | @find id he =>
    unfold Channel.find
    split
    · exact h
    · split
      · exact h
      · rename_i it hl
        split
        · exact h
        · rename_i hb
          simp only [ne_eq, Classical.not_not] at hb
          refine h.cons ?_
          intro y i hy
          simp only [Ev.taken.injEq] at hy; obtain ⟨rfl, rfl⟩ := hy; exact hf _ _ he hl hb
  | received he =>
    unfold Channel.received
    split
    · exact h
    · exact h.ev (by simp)
  | @unsent id t he =>
    unfold Channel.unsent
    have h1 : ∀ b, Always P (.unsent id b :: s.log) := fun b => h.ev (by simp)
    split
    · exact h
    · simp only
      split
      · exact h1 _
      · unfold giveBack
        split
        · simp only
          split
          · exact (h1 _).ev (by simp)
          · exact h1 _
        · exact h1 _
  | spinDone he => exact h
  | fire hl hb => exact h
  | @timeout id it hl hb =>
    unfold Channel.timeout
    split
    · exact h
    · unfold failItem
      have hl' : lookup (s.ev (.timedOut id)).items id = some it := hl
      rw [hl']
      simp only [Bool.true_or, ↓reduceIte]
      exact hretry _ _ _ (h.ev (by simp))
  | delete hc =>
    unfold Channel.delete
    split
    · exact h.ev (by simp)
    · exact h
  | forceBegin hc => exact h.ev (by simp)
  | forceMark _ _ => exact h
  | forceEnd _ _ _ => exact h
  | stop _ _ => exact h

theorem always_reach {P : List (Ev D) → Nat → Item D → Prop}
    (hP : ∀ s : St D, Reach s → ∀ id it, s.exec = .popped id → lookup s.items id = some it → it.hb = .none → P s.log id it)
    {s : St D} (h : Reach s) : Always P s.log := by
  induction h with
  | init => intro post pre y it hl; simp [Channel.init] at hl
  | step h1 _ hs ih => exact ih.step hs (hP _ h1)

end Willow.Channel
