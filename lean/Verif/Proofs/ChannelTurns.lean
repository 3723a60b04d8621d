import Verif.Proofs.ChannelServe
/- Whose turn comes before (Spec/ChannelServe.lean). -/
namespace Willow.Channel
open Willow.ChanSpec
variable {D : Type}

def wsum (W : Nat × Item D → Nat) (l : List (Nat × Item D)) : Nat := (l.map W).sum

theorem wsum_cons (W : Nat × Item D → Nat) (e) (l : List (Nat × Item D)) : wsum W (e :: l) = W e + wsum W l := by simp [wsum]

theorem wsum_append (W : Nat × Item D → Nat) (l l' : List (Nat × Item D)) : wsum W (l ++ l') = wsum W l + wsum W l' := by simp [wsum]

theorem wsum_le {W W' : Nat × Item D → Nat} {l : List (Nat × Item D)} (h : ∀ e ∈ l, W' e ≤ W e) : wsum W' l ≤ wsum W l := by
  induction l with
  | nil => exact Nat.le_refl _
  | cons e l ih =>
    rw [wsum_cons, wsum_cons]
    have := h e (by simp)
    have := ih (fun e he => h e (by simp [he]))
    omega

theorem wsum_change {W : Nat × Item D → Nat} {l : List (Nat × Item D)} {id : Nat} {it : Item D} (hn : (keys l).Nodup) (h : lookup l id = some it)
    (f : Item D → Item D) : wsum W (change l id f) + W (id, it) = wsum W l + W (id, f it) := by
  induction l with
  | nil => simp [lookup_nil] at h
  | cons e l ih =>
    obtain ⟨a, i⟩ := e
    rw [lookup_cons] at h
    simp only [keys, List.map_cons, List.nodup_cons] at hn
    by_cases ha : a = id
    · subst ha
      simp only [↓reduceIte, Option.some.injEq] at h; subst h
      have : change ((a, i) :: l) a f = (a, f i) :: l := by
        have := change_notin hn.1 f
        simp only [change, List.map_cons, beq_self_eq_true, ↓reduceIte] at this ⊢
        rw [this]
      rw [this, wsum_cons, wsum_cons]; omega
    · rw [if_neg ha] at h
      have : change ((a, i) :: l) id f = (a, i) :: change l id f := by simp [change, ha]
      rw [this, wsum_cons, wsum_cons]
      have := ih hn.2 h; omega

theorem wsum_remove_le (W : Nat × Item D → Nat) (l : List (Nat × Item D)) (id : Nat) : wsum W (remove l id) ≤ wsum W l := by
  induction l with
  | nil => exact Nat.le_refl _
  | cons e l ih =>
    simp only [remove, List.filter_cons] at ih ⊢
    split <;> simp only [wsum_cons] <;> omega

def turnW (q : List Nat) (x : Nat) (e : Nat × Item D) : Nat :=
  if e.1 = x ∨ (e.1 ∈ q ∧ e.1 ∉ q.takeWhile (· != x)) then 0 else chances e.2

theorem turns_eq (s : St D) (x : Nat) : turns s x = wsum (turnW s.queue x) s.items := rfl

theorem takeWhile_mem_append {x : Nat} {q : List Nat} (h : x ∈ q) (r : List Nat) : (q ++ r).takeWhile (· != x) = q.takeWhile (· != x) := by
  induction q with
  | nil => cases h
  | cons a q ih =>
    simp only [List.cons_append, List.takeWhile_cons]
    by_cases ha : a = x
    · simp [ha]
    · rcases List.mem_cons.1 h with e | e
      · exact absurd e.symm ha
      · simp [ha, ih e]

theorem mem_of_takeWhile {x y : Nat} {q : List Nat} (h : y ∈ q.takeWhile (· != x)) : y ∈ q := (List.takeWhile_sublist _).subset h

theorem last_notin {x b : Nat} {q : List Nat} (hn : q.Nodup) (hx : x ∈ q) (hb : q.getLast? = some b) : b ∉ q.takeWhile (· != x) := by
  induction q with
  | nil => cases hx
  | cons a q ih =>
    simp only [List.takeWhile_cons]
    by_cases ha : a = x
    · simp [ha]
    · have hx' : x ∈ q := by
        rcases List.mem_cons.1 hx with e | e
        · exact absurd e.symm ha
        · exact e
      cases q with
      | nil => cases hx'
      | cons c q =>
        rw [List.getLast?_cons_cons] at hb
        have := ih (List.nodup_cons.1 hn).2 hx' hb
        have hbm : b ∈ c :: q := List.mem_of_getLast? hb
        have hab : b ≠ a := by rintro rfl; exact (List.nodup_cons.1 hn).1 hbm
        simp only [bne_iff_ne, ne_eq, ha, not_false_eq_true, ↓reduceIte, List.mem_cons, not_or]
        exact ⟨hab, this⟩

theorem deliveries_ev (s : St D) (e : Ev D) : deliveries (s.ev e).log = deliveries s.log + (match e with | .taken .. => 1 | _ => 0) := by
  simp only [deliveries, St.ev, List.countP_cons]
  cases e <;> simp

theorem losses_ev (s : St D) (e : Ev D) : losses (s.ev e).log = losses s.log + (match e with | .unsent _ true => 1 | _ => 0) := by
  simp only [losses, St.ev, List.countP_cons]
  cases e with
  | unsent i b => cases b <;> simp
  | _ => simp

theorem retry_logs (s : St D) (id : Nat) (it : Item D) : deliveries (retry s id it).log = deliveries s.log ∧ losses (retry s id it).log = losses s.log := by
  unfold retry
  dsimp only
  split
  · simp [deliveries_ev, losses_ev]
  · split
    · split
      · simp [deliveries_ev, losses_ev]
      · simp [pushFront, deliveries_ev, losses_ev]
    · unfold retryBack
      split
      · simp [pushBack, deliveries_ev, losses_ev]
      · split
        · simp [deliveries_ev, losses_ev]
        · split
          · simp [deliveries_ev, losses_ev]
          · simp [pushBack, deliveries_ev, losses_ev]

theorem turnW_append {q : List Nat} {x : Nat} (hx : x ∈ q) (r : List Nat) (e : Nat × Item D) : turnW (q ++ r) x e ≤ turnW q x e := by
  unfold turnW
  rw [takeWhile_mem_append hx]
  grind

theorem turnW_cons {q : List Nat} {x a : Nat} (ha : a ≠ x) (hn : a ∉ q) (e : Nat × Item D) : turnW (a :: q) x e = turnW q x e := by
  unfold turnW
  have h1 : (a :: q).takeWhile (· != x) = a :: q.takeWhile (· != x) := by simp [ha]
  rw [h1]
  have h2 : a ∉ q.takeWhile (· != x) := fun h => hn (mem_of_takeWhile h)
  grind

theorem turnW_notin {q : List Nat} {x y : Nat} (hx : y ≠ x) (hy : y ∉ q) (it : Item D) : turnW q x (y, it) = chances it := by
  unfold turnW; rw [if_neg]; rintro (h | ⟨h, -⟩)
  · exact hx h
  · exact hy h

theorem turns_retry {s : St D} {x id : Nat} {it : Item D} (hn : (keys s.items).Nodup) (hq : s.queue.Nodup) (hx : x ∈ s.queue) (hid : id ≠ x)
    (hnq : id ∉ s.queue) (hl : lookup s.items id = some it) (hb : it.hb ≠ .none) (hle : it.retryCount ≤ it.maxRetry)
    (hw : Waiting (retry s id it) x) : turns (retry s id it) x ≤ turns s x := by
  have h1 : wsum (turnW s.queue x) (change s.items id (fun i => { i with hb := .none, retryCount := i.retryCount + 1 })) = wsum (turnW s.queue x) s.items := by
    have := wsum_change (W := turnW s.queue x) hn hl (fun i => { i with hb := .none, retryCount := i.retryCount + 1 })
    rw [turnW_notin hid hnq, turnW_notin hid hnq] at this
    have h2 : chances { it with hb := .none, retryCount := it.retryCount + 1 } = chances it := by
      unfold chances; rw [if_pos rfl, if_neg hb]; dsimp only; omega
    omega
  simp only [turns_eq]
  rw [← h1]
  unfold retry at hw ⊢
  dsimp only at hw ⊢
  split
  · exact wsum_remove_le _ _ _
  · rename_i hnx
    rw [if_neg hnx] at hw
    split
    · rename_i hp
      split
      · exact wsum_remove_le _ _ _
      · refine wsum_le (fun e _ => ?_)
        exact Nat.le_of_eq (turnW_cons hid hnq e)
    · rename_i hp
      rw [hp] at hw
      dsimp only at hw
      unfold retryBack at hw ⊢
      split
      · exact wsum_le (fun e _ => turnW_append hx _ e)
      · rename_i b hgl
        rw [hgl] at hw
        dsimp only at hw
        split
        · exact Nat.le_refl _
        · rename_i bi hbl
          rw [hbl] at hw
          dsimp only at hw
          split
          · rename_i hu
            rw [if_pos hu] at hw
            have hgl : s.queue.getLast? = some b := hgl
            have hbx : b ≠ x := by
              rintro rfl
              obtain ⟨i, h2, -⟩ := hw
              simp only [St.ev, lookup_remove, if_true] at h2
              cases h2
            have hdl : s.queue.dropLast ++ [b] = s.queue := by
              have hne : s.queue ≠ [] := by intro e; rw [e] at hx; cases hx
              rw [List.getLast?_eq_some_getLast hne] at hgl
              simp only [Option.some.injEq] at hgl
              rw [← hgl]; exact List.dropLast_concat_getLast hne
            have hxd : x ∈ s.queue.dropLast := by
              rw [← hdl] at hx
              rcases List.mem_append.1 hx with h | h
              · exact h
              · simp only [List.mem_singleton] at h; exact absurd h.symm hbx
            have htw : s.queue.dropLast.takeWhile (· != x) = s.queue.takeWhile (· != x) := by
              rw [← takeWhile_mem_append hxd [b], hdl]
            refine Nat.le_trans (wsum_le (W := turnW s.queue x) (fun e he => ?_)) (wsum_remove_le _ _ b)
            have heb : e.1 ≠ b := by
              have := (mem_keys_remove (l := change s.items id (fun i => { i with hb := .none, retryCount := i.retryCount + 1 })) (id := b) (x := e.1)).1
                (List.mem_map_of_mem he)
              exact this.2
            show turnW (s.queue.dropLast ++ [id]) x e ≤ _
            refine Nat.le_trans (turnW_append hxd _ e) (Nat.le_of_eq ?_)
            unfold turnW
            rw [htw]
            have hm : e.1 ∈ s.queue.dropLast ↔ e.1 ∈ s.queue := by
              conv => rhs; rw [← hdl]
              simp [heb]
            simp only [hm]
          · exact wsum_le (fun e _ => turnW_append hx _ e)

/-- What else can be handed out before `x`: nothing if it is just being looked up. -/
def before (s : St D) (x : Nat) : Nat := if s.exec = .popped x then 0 else turns s x

theorem before_le (s : St D) (x : Nat) : before s x ≤ turns s x := by unfold before; split <;> omega

theorem chances_hb {it : Item D} {b : HB} (h : b ≠ .none) (hb : it.hb ≠ .none) : chances { it with hb := b } = chances it := by
  unfold chances; rw [if_neg h, if_neg hb]

/-- `x` is just being looked up: nothing else is handed out. -/
theorem popped_step {s s' : St D} (hi : Inv s) (hc : s.closed = false) {x : Nat} (he : s.exec = .popped x) (hs : Step s s') (hw : Waiting s' x) (hwx : Waiting s x) :
    s'.exec = .popped x ∧ deliveries s'.log = deliveries s.log ∧ losses s.log ≤ losses s'.log := by
  have hnf : s.forced = false := by
    cases h : s.forced with
    | false => rfl
    | true => have := hi.forced h; simp [hc] at this
  have hnd : s.destroying = false := by
    cases h : s.destroying with
    | false => rfl
    | true => have := hi.destroying h; simp [hnf] at this
  have ht : ∀ id, touch s.exec id = .popped x := fun id => touch_popped.2 he
  cases hs with
  | enqueue r g _ =>
    unfold enqueue
    split
    · exact ⟨he, by simp [deliveries_ev, losses_ev]⟩
    · split <;> exact ⟨he, by simp [deliveries_ev, losses_ev]⟩
  | ackPassed id _ _ =>
    unfold ackPassed
    split
    · exact ⟨he, by simp [deliveries_ev, losses_ev]⟩
    · split
      · exact ⟨ht id, by simp [deliveries_ev, losses_ev]⟩
      · exact ⟨he, by simp [deliveries_ev, losses_ev]⟩
  | ackFailed id _ _ =>
    unfold ackFailed
    refine ⟨?_, ?_⟩
    · show (failItem _ id false).1.exec = _
      rw [(failItem_exec _ _ _).1]; exact ht id
    · dsimp only
      rw [deliveries_ev, losses_ev]
      unfold failItem
      split
      · simp
      · split
        · dsimp only; rw [(retry_logs _ _ _).1, (retry_logs _ _ _).2]; simp
        · simp
  | heartbeat id _ _ =>
    unfold heartbeat
    dsimp only
    split <;> exact ⟨ht id, by simp [deliveries_ev, losses_ev]⟩
  | notified h _ => rw [he] at h; cases h
  | send h => rw [he] at h; cases h
  | count g h => rw [he] at h; cases h
  | pop h => rw [he] at h; cases h
  | @find id h =>
    exfalso
    rw [he, Exec.popped.injEq] at h; subst h
    obtain ⟨it, h1, h2⟩ := hwx
    obtain ⟨it', h3, h4⟩ := hw
    unfold find at h3
    rw [if_neg (by simp [hnd]), h1] at h3
    simp only [h2, ne_eq, not_true_eq_false, if_false, St.ev, lookup_change, if_true, h1, Option.map_some, Option.some.injEq] at h3
    rw [← h3] at h4; cases h4
  | received h => rw [he] at h; cases h
  | unsent h => rw [he] at h; cases h
  | spinDone h => rw [he] at h; cases h
  | fire _ _ => exact ⟨he, rfl, Nat.le_refl _⟩
  | @timeout id it hl hb =>
    unfold timeout
    rw [if_neg (by simp [hnd])]
    refine ⟨by rw [(failItem_exec _ _ _).1]; exact he, ?_⟩
    unfold failItem
    have hl' : lookup (s.ev (.timedOut id)).items id = some it := hl
    rw [hl']
    simp only [Bool.true_or, if_true]
    rw [(retry_logs _ _ _).1, (retry_logs _ _ _).2]
    simp [deliveries_ev, losses_ev]
  | delete _ => unfold delete; split <;> exact ⟨he, by simp [deliveries_ev, losses_ev]⟩
  | forceBegin _ => exact ⟨he, by simp [forceBegin, deliveries_ev, losses_ev]⟩
  | forceMark hf _ => rw [hnf] at hf; cases hf
  | forceEnd hd _ _ => rw [hnd] at hd; cases hd
  | stop h _ => rw [hc] at h; cases h

/-- Each delivery of another item takes one turn away; only a delivery that fails gives one back. -/
theorem turns_step {s s' : St D} (hi : Inv s) (hh : Hist s) (hc : s.closed = false) (hc' : s'.closed = false) {x : Nat} (hwx : Waiting s x)
    (hs : Step s s') (hw : Waiting s' x) :
    deliveries s'.log + before s' x + losses s.log ≤ deliveries s.log + before s x + losses s'.log := by
  have hnf : s.forced = false := by
    cases h : s.forced with
    | false => rfl
    | true => have := hi.forced h; simp [hc] at this
  have hnd : s.destroying = false := by
    cases h : s.destroying with
    | false => rfl
    | true => have := hi.destroying h; simp [hnf] at this
  have hnx : s.destroyed = false := by
    cases h : s.destroyed with
    | false => rfl
    | true => have := (hi.destroyed h).1; simp [hnd] at this
  by_cases he : s.exec = .popped x
  · obtain ⟨a, b, c⟩ := popped_step hi hc he hs hw hwx
    rw [before, before, if_pos a, if_pos he]; omega
  have hb0 : before s x = turns s x := by rw [before, if_neg he]
  rw [hb0]
  have hxq : x ∈ s.queue := by
    obtain ⟨it, h1, h2⟩ := hwx
    rcases hi.idleQueued hnx x it h1 h2 with h | h
    · exact h
    · exact absurd h he
  have main : deliveries s'.log + turns s' x + losses s.log ≤ deliveries s.log + turns s x + losses s'.log →
      deliveries s'.log + before s' x + losses s.log ≤ deliveries s.log + turns s x + losses s'.log := by
    intro h; have := before_le s' x; omega
  -- the ids that are being processed are not in the list
  have hnq : ∀ id it, lookup s.items id = some it → it.hb ≠ .none → id ∉ s.queue ∧ id ≠ x := by
    intro id it hl hb
    refine ⟨fun h => hb (hi.queueIdle id h it hl), fun e => ?_⟩
    obtain ⟨i, h1, h2⟩ := hwx
    rw [e, h1, Option.some.injEq] at hl; subst hl; exact hb h2
  cases hs with
  | enqueue r g _ =>
    apply main
    unfold enqueue
    split
    · rename_i id hu
      obtain ⟨h1, it, h2, h3⟩ := updatableLast_spec hu
      simp only [deliveries_ev, losses_ev]
      have := wsum_change (W := turnW s.queue x) hi.keysNodup h2 (update r)
      have hz : ∀ i : Item D, turnW s.queue x (id, i) = 0 := fun i => by
        unfold turnW
        rw [if_pos (.inr ⟨List.mem_of_getLast? h1, last_notin hi.queueNodup hxq h1⟩)]
      rw [hz, hz] at this
      simp only [turns_eq, St.ev]
      omega
    · split
      · rw [deliveries_ev, losses_ev]
        simp only [turns_eq, St.ev]
        have h1 : wsum (turnW (s.queue ++ [s.nextId]) x) s.items ≤ wsum (turnW s.queue x) s.items := wsum_le (fun e _ => turnW_append hxq _ e)
        have hnn : s.nextId ∉ s.queue := fun h => absurd (hi.queueLt _ h) (Nat.lt_irrefl _)
        have h2 : turnW (s.queue ++ [s.nextId]) x (s.nextId, newItem r) = 0 := by
          unfold turnW
          rw [if_pos]
          refine .inr ⟨by simp, ?_⟩
          rw [takeWhile_mem_append hxq]
          exact fun h => hnn (mem_of_takeWhile h)
        rw [wsum_append]
        have h3 : wsum (turnW (s.queue ++ [s.nextId]) x) [(s.nextId, newItem r)] = 0 := by rw [wsum_cons, h2]; rfl
        omega
      · simp only [deliveries_ev, losses_ev]; exact Nat.le_refl _
  | ackPassed id _ _ =>
    apply main
    unfold ackPassed
    split
    · simp only [deliveries_ev, losses_ev]; exact Nat.le_refl _
    · split
      · rw [deliveries_ev, losses_ev]
        simp only [turns_eq, St.ev]
        have := wsum_remove_le (turnW s.queue x) s.items id
        omega
      · simp only [deliveries_ev, losses_ev]; exact Nat.le_refl _
  | ackFailed id _ _ =>
    apply main
    unfold ackFailed failItem at hw ⊢
    dsimp only at hw ⊢
    cases hl : lookup s.items id with
    | none => simp only [deliveries_ev, losses_ev]; exact Nat.le_refl _
    | some it =>
      rw [hl] at hw
      dsimp only at hw ⊢
      split
      · rename_i hst
        rw [if_pos hst] at hw
        have hb : it.hb ≠ .none := stops_ne (by simpa using hst)
        obtain ⟨a, b⟩ := hnq id it hl hb
        have := turns_retry (s := { s with exec := touch s.exec id }) hi.keysNodup hi.queueNodup hxq b a hl hb ((hh id).le it hl) hw
        have hr := retry_logs { s with exec := touch s.exec id } id it
        simp only [deliveries_ev, losses_ev]
        rw [hr.1, hr.2]
        exact Nat.add_le_add_right (Nat.add_le_add_left this _) _
      · simp only [deliveries_ev, losses_ev]; exact Nat.le_refl _
  | heartbeat id _ _ =>
    apply main
    unfold heartbeat
    dsimp only
    split <;> simp only [deliveries_ev, losses_ev] <;> exact Nat.le_refl _
  | notified h _ => apply main; exact Nat.le_refl _
  | send h => apply main; exact Nat.le_refl _
  | count g h => apply main; unfold count; split <;> exact Nat.le_refl _
  | pop h =>
    cases hq : s.queue with
    | nil => rw [hq] at hxq; cases hxq
    | cons y q =>
      have hp : pop s = { s with queue := q, exec := .popped y } := by simp [pop, hq]
      by_cases hy : y = x
      · subst hy
        rw [hp]
        unfold before
        rw [if_pos rfl]
        dsimp only; omega
      · apply main
        rw [hp]
        have hn := hi.queueNodup
        rw [hq] at hn
        have : turns { s with queue := q, exec := .popped y } x ≤ turns s x := by
          rw [turns_eq, turns_eq, hq]
          exact wsum_le (fun e _ => Nat.le_of_eq (turnW_cons hy (List.nodup_cons.1 hn).1 e).symm)
        dsimp only; omega
  | @find id h =>
    apply main
    have hidx : id ≠ x := fun e => he (e ▸ h)
    obtain ⟨hpq, -, hpb⟩ := hi.popped id h
    unfold find
    rw [if_neg (by simp [hnd])]
    split
    · exact Nat.le_refl _
    · rename_i it hl
      rw [if_neg (by simp [hpb it hl])]
      rw [deliveries_ev, losses_ev]
      simp only [turns_eq, St.ev]
      have := wsum_change (W := turnW s.queue x) hi.keysNodup hl (fun i => { i with hb := .created })
      rw [turnW_notin hidx hpq, turnW_notin hidx hpq] at this
      have h1 : chances { it with hb := .created } + 1 = chances it := by
        have := (hh id).le it hl
        unfold chances
        rw [if_pos (hpb it hl), if_neg (by simp)]
        dsimp only; omega
      omega
  | @received id t h =>
    apply main
    unfold received
    rw [if_neg (by simp [hnd])]
    rw [deliveries_ev, losses_ev]
    simp only [turns_eq, St.ev]
    have : wsum (turnW s.queue x) (change s.items id (fun i => { i with hb := i.hb.start })) = wsum (turnW s.queue x) s.items := by
      cases hl : lookup s.items id with
      | none => rw [change_notin (lookup_none.1 hl)]
      | some it =>
        have := wsum_change (W := turnW s.queue x) hi.keysNodup hl (fun i => { i with hb := i.hb.start })
        have h1 : chances { it with hb := it.hb.start } = chances it := by
          by_cases hb : it.hb = .none
          · unfold chances; rw [hb]; rfl
          · exact chances_hb (by intro e; cases hx : it.hb <;> simp [hx, HB.start] at e hb) hb
        have h2 : turnW s.queue x (id, { it with hb := it.hb.start }) = turnW s.queue x (id, it) := by
          unfold turnW; rw [h1]
        rw [h2] at this; omega
    omega
  | @unsent id t h =>
    apply main
    unfold unsent
    rw [if_neg (by simp [hnd])]
    dsimp only
    split
    · simp only [deliveries_ev, losses_ev]; exact Nat.le_refl _
    · rename_i it hl
      unfold giveBack
      split
      · rename_i hst
        have hb := stops_ne hst
        obtain ⟨hq1, hx1⟩ := hnq id it hl hb
        have := wsum_change (W := turnW s.queue x) hi.keysNodup hl (fun i => { i with hb := .none })
        rw [turnW_notin hx1 hq1, turnW_notin hx1 hq1] at this
        have h1 : chances { it with hb := .none } = chances it + 1 := by
          have := (hh id).le it hl
          unfold chances
          rw [if_pos rfl, if_neg hb]; dsimp only; omega
        have hlog : deliveries (.unsent id it.hb.stops :: s.log) = deliveries s.log := by simp [deliveries]
        have hlos : losses (.unsent id it.hb.stops :: s.log) = losses s.log + 1 := by simp [losses, hst]
        dsimp only
        split
        · simp only [deliveries_ev, losses_ev, turns_eq]
          simp only [St.ev]
          have h2 := wsum_remove_le (turnW s.queue x) (change s.items id (fun i => { i with hb := .none })) id
          simp only [hst]; omega
        · have h2 : wsum (turnW (id :: s.queue) x) (change s.items id (fun i => { i with hb := .none })) ≤
              wsum (turnW s.queue x) (change s.items id (fun i => { i with hb := .none })) :=
            wsum_le (fun e _ => Nat.le_of_eq (turnW_cons hx1 hq1 e))
          simp only [turns_eq, St.ev]
          rw [hlog, hlos]; omega
      · rename_i hst
        have hst : it.hb.stops = false := by simpa using hst
        rw [hst]
        simp only [deliveries_ev, losses_ev]; exact Nat.le_refl _
  | spinDone h => apply main; exact Nat.le_refl _
  | @fire id it hl hb =>
    apply main
    obtain ⟨hq1, hx1⟩ := hnq id it hl (by simp [hb])
    have := wsum_change (W := turnW s.queue x) hi.keysNodup hl (fun i => { i with hb := .firing })
    rw [turnW_notin hx1 hq1, turnW_notin hx1 hq1, chances_hb (b := .firing) (by simp) (by simp [hb])] at this
    simp only [turns_eq]; omega
  | @timeout id it hl hb =>
    apply main
    unfold timeout at hw ⊢
    rw [if_neg (by simp [hnd])] at hw ⊢
    unfold failItem at hw ⊢
    have hl' : lookup (s.ev (.timedOut id)).items id = some it := hl
    rw [hl'] at hw ⊢
    simp only [Bool.true_or, if_true] at hw ⊢
    obtain ⟨a, b⟩ := hnq id it hl (by simp [hb])
    have := turns_retry (s := s.ev (.timedOut id)) hi.keysNodup hi.queueNodup hxq b a hl (by simp [hb]) ((hh id).le it hl) hw
    rw [(retry_logs _ _ _).1, (retry_logs _ _ _).2]
    simp only [deliveries_ev, losses_ev]
    exact Nat.add_le_add_right (Nat.add_le_add_left this _) _
  | delete _ =>
    apply main; unfold delete
    split
    · simp only [deliveries_ev, losses_ev]; exact Nat.le_refl _
    · exact Nat.le_refl _
  | forceBegin _ => simp [forceBegin, St.ev] at hc'
  | forceMark hf _ => rw [hnf] at hf; cases hf
  | forceEnd hd _ _ => rw [hnd] at hd; cases hd
  | stop h _ => rw [hc] at h; cases h

theorem then_closed {s s' : St D} (h : Then s s') (hc : s'.closed = false) : s.closed = false := by
  induction h with
  | refl => exact hc
  | step h1 hcr hs ih =>
    refine ih ?_
    cases h : (_ : St D).closed with
    | false => rfl
    | true => have := step_closed hs h; rw [hc] at this; cases this

theorem then_facts {s s' : St D} (hr : Reach s) (h : Then s s') (hc : s'.closed = false) {x : Nat} (hw : Waiting s x) :
    Reach s' ∧ ∃ evs, s'.log = evs ++ s.log ∧
      (Served x evs ∨ (Waiting s' x ∧ deliveries s'.log + before s' x + losses s.log ≤ deliveries s.log + before s x + losses s'.log)) := by
  induction h with
  | refl => exact ⟨hr, [], rfl, .inr ⟨hw, Nat.le_refl _⟩⟩
  | @step s1 s2 h1 hcr hs ih =>
    have hc1 : s1.closed = false := by
      cases h : s1.closed with
      | false => rfl
      | true => have := step_closed hs h; rw [hc] at this; cases this
    obtain ⟨a, evs, h2, h3⟩ := ih hc1
    refine ⟨.step a hcr hs, ?_⟩
    rcases h3 with h3 | ⟨h3, h4⟩
    · obtain ⟨evs', hgr⟩ := step_grows (inv_reach a) hs
      refine ⟨evs' ++ evs, by rw [hgr.log, h2, List.append_assoc], .inl ?_⟩
      rcases h3 with ⟨i, h5⟩ | ⟨b, h5⟩
      · exact .inl ⟨i, List.mem_append_right _ h5⟩
      · exact .inr ⟨b, List.mem_append_right _ h5⟩
    · obtain ⟨evs', h5, h6⟩ := step_keeps (inv_reach a) hc1 h3 hs
      refine ⟨evs' ++ evs, by rw [h5, h2, List.append_assoc], ?_⟩
      rcases h6 with h6 | ⟨i, h6⟩ | ⟨b, h6⟩
      · have := turns_step (inv_reach a) (hist_reach a) hc1 hc h3 hs h6
        exact .inr ⟨h6, by omega⟩
      · exact .inl (.inl ⟨i, List.mem_append_left _ h6⟩)
      · exact .inl (.inr ⟨b, List.mem_append_left _ h6⟩)

end Willow.Channel
