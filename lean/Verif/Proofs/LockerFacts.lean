import Verif.Proofs.LockerCount
namespace Willow.Locker
open Willow.LockerSpec

section
variable {acc : Int → Prop} {s s' : St}

/-- Phases in which the count is decremented have a positive count. -/
theorem count_pos (hr : Reach acc {} s) {l : LockId}
    (hp : (s.objs l).phase = .outer ∨ (s.objs l).phase = .held ∨ (s.objs l).phase = .ctxWait) : (s.objs l).count ≠ 0 := by
  have g := good_of_reach hr
  rcases hp with hp | hp | hp
  · exact (inv4_of_reach hr).outerC l hp
  · rw [g.i1.cnt l (by rw [hp]; rfl), hp]; simp [hold]
  · rw [g.i1.cnt l (by rw [hp]; rfl), hp]; simp [hold]

theorem dec_pos {n : Nat} (h : n ≠ 0) : dec n = n - 1 := by simp [dec, h]

theorem count_step (hr : Reach acc {} s) (hs : Step acc s s') (l : LockId) :
    (s'.objs l).count = (s.objs l).count ∨ (s'.objs l).count = (s.objs l).count + 1 ∨
      ((s.objs l).count ≠ 0 ∧ (s'.objs l).count = (s.objs l).count - 1) := by
  have hc : ∀ l, _ := fun l => count_pos (l := l) hr
  have h0 := (good_of_reach hr).i1.absent s.next (Nat.le_refl _)
  cases hs <;> simp only [St.upd, St.thr, St.log, St.drop, claim, lostOuter, lostHeld, heartbeat, release, tick, timedOut,
    ctxDone, ctxTimedOut]
  case hbSend => split <;> grind
  case relSend => split <;> grind [dec]
  all_goals grind [dec]

/-- No timeout is pending unless the lock waits for one. -/
theorem no_pending (g : Good acc s) {l : LockId} (ht : s.tree = some l) (hi : inner (s.objs l).phase = false)
    (hc : (s.objs l).phase ≠ .ctxWait) (hr : isToReply (s.objs l).phase = false) : pendingTimeout s.tr = false := by
  have h3 := g.i3.toAny
  have hb : (s.objs l).blockDone = false := by
    cases hb : (s.objs l).blockDone with
    | false => rfl
    | true => have := (g.i1.bd l hb).1; simp [hi] at this
  have hN := g.i1.toN l
  rw [if_neg (by simp [hc, hb])] at hN
  have hz : s.threads.countP isToAny = 0 := by
    refine List.countP_eq_zero.mpr fun t hm => ?_
    have h1 := List.countP_eq_zero.mp hN t hm
    have h2 := g.i1.refs t hm
    cases t <;> simp [isToAny]
    · simp [refOk, ht] at h2; simp [isTo, h2] at h1
    · simp [refOk, ht] at h2; simp [isTo, h2] at h1
    · simp [refOk, ht] at h2; have := g.i2.to _ hm; simp [← h2, hr] at this
  rw [hz] at h3
  cases hp : pendingTimeout s.tr with
  | false => rfl
  | true => simp [hp] at h3

theorem live_nil (g : Good acc s) {l : LockId} (ht : s.tree = some l) (hs : sessOk (s.objs l).phase = false) :
    live s.tr = [] := by
  rw [g.lv, liveSt_eq, ht, liveOf_some]
  cases hx : (s.objs l).session with
  | none => rfl
  | some x => have := (g.i1.sess l (by simp [hx])).1; simp [hs] at this

/-- Nobody waits iff nobody counts as pending or has the claim function. -/
theorem no_waits (g : Good acc s) {l : LockId} (ht : s.tree = some l) (hp : (s.objs l).phase ≠ .claiming) :
    (∀ t ∈ s.threads, waits t = false) ↔ s.threads.countP (pend l) = 0 := by
  have hN := g.i1.claimedN l
  rw [if_neg hp] at hN
  rw [List.countP_eq_zero]
  constructor
  · intro h t hm
    have := h t hm
    cases t <;> simp_all [waits, pend]
  · intro h t hm
    have h1 := h t hm
    have h2 := List.countP_eq_zero.mp hN t hm
    have h3 := g.i1.refs t hm
    cases t <;> simp_all [waits, pend, refOk, isClaimed]

/-- Events that report whether the lock was removed. -/
def reports (down : Bool) (b : Bool) : Ev → Prop
  | .relOk _ b' => b' = b
  | .left _ b' => b' = b ∧ down = false
  | .timeoutDone _ b' => b' = b
  | _ => False

theorem waits_append {pre post : List Thread} {t : Thread} (ht : waits t = false) :
    (∀ x ∈ pre ++ post, waits x = false) ↔ (∀ x ∈ pre ++ t :: post, waits x = false) := by
  simp only [List.mem_append, List.mem_cons]
  constructor
  · rintro h x (h1 | h1 | h1)
    · exact h x (.inl h1)
    · rw [h1]; exact ht
    · exact h x (.inr h1)
  · rintro h x (h1 | h1)
    · exact h x (.inl h1)
    · exact h x (.inr (.inr h1))

theorem removed_iff (hr : Reach acc {} s) (hs : Step acc s s') {e : Ev} {b : Bool} (he : s'.tr = e :: s.tr)
    (hb : reports s.down b e) :
    (b = true ↔ (∀ t ∈ s'.threads, waits t = false) ∧ live s'.tr = [] ∧ pendingTimeout s'.tr = false) ∧
      (b = true ↔ s'.tree = none) := by
  have g := good_of_reach hr
  have ne : ∀ {e : Ev} {tr : List Ev}, tr = e :: tr → False := fun h => by
    have := congrArg List.length h; simp at this
  have key : ∀ l, replyW (s.objs l).phase = some b → s.tree = some l ∧ sessOk (s.objs l).phase = false ∧
      (b = true ↔ ∀ t ∈ s.threads, waits t = false) := by
    intro l hp
    have ha := replyW_alive hp
    have ht := g.i1.one l ha
    have hc := g.i1.cnt l (replyW_counted hp)
    have hh : hold (s.objs l).phase = 0 := by
      revert hp; cases (s.objs l).phase <;> simp [replyW, hold]
      rename_i c; cases c <;> simp
    refine ⟨ht, ?_, ?_⟩
    · revert hp; cases (s.objs l).phase <;> simp [replyW, sessOk]
      rename_i c; cases c <;> simp
    · rw [(g.i1.reply l b hp).1, no_waits g ht, hc, hh, Nat.add_zero]
      intro h; rw [h] at hp; simp [replyW] at hp
  cases hs <;> simp only [St.upd, St.thr, St.log, St.drop] at he ⊢
  case lostOuterReply pre post l l' b' ht hp =>
    injection he with he _
    subst he
    obtain ⟨rfl, hd⟩ := hb
    obtain ⟨k1, k2, k3⟩ := key l' (by rw [hp]; rfl)
    have hpe := no_pending g k1 (by rw [hp]; rfl) (by rw [hp]; simp) (by rw [hp]; rfl)
    have hlv := live_nil g k1 k2
    rw [ht] at k3
    constructor
    · rw [k3, ← waits_append (t := .leavingResp l l') rfl]
      simp [live, pendingTimeout, hlv, hpe]
    · cases b' <;> simp [k1]
  case lostHeldReply pre post l l' ht hp =>
    injection he with he _
    subst he
    obtain ⟨rfl, hd⟩ := hb
    have k1 := g.i1.one l' (by rw [hp]; rfl)
    constructor
    · simp only [Bool.false_eq_true, false_iff]
      rintro ⟨-, h2, h3⟩
      simp only [live, pendingTimeout] at h2 h3
      have hs : (s.objs l').session = none := by
        cases hx : (s.objs l').session with
        | none => rfl
        | some x => rw [live_of_session hr hx] at h2; simp at h2
      have hbd := g.i3.bdI l' (by rw [hp]; rfl) hs
      have hN := g.i1.toN l'
      rw [if_pos (.inl hbd)] at hN
      have := isTo_le l' s.threads
      rw [hN, g.i3.toAny, h3] at this
      simp at this
    · simp [k1]
  case lostClosed pre post l l' ht hp =>
    injection he with he _
    subst he
    obtain ⟨rfl, hd⟩ := hb
    have := g.i1.refs (.leavingIn l l') (by rw [ht]; simp)
    obtain ⟨rfl, h2⟩ := this
    have := g.i3.down l' (.inl ⟨h2, by rw [hp]; rfl⟩)
    simp [hd] at this
  case leaveNone pre post l ht hf h =>
    have := g.i1.refs (.leaving l) (by rw [ht]; simp)
    simp [refOk, h] at this
  case relAnswer pre post l' x c ht hp =>
    injection he with he _
    subst he
    cases c
    · exact hb.elim
    · simp [reports] at hb
      subst hb
      obtain ⟨k1, k2, k3⟩ := key l' (by rw [hp]; rfl)
      have hpe := no_pending g k1 (by rw [hp]; rfl) (by rw [hp]; simp) (by rw [hp]; rfl)
      have hlv := live_nil g k1 k2
      rw [ht] at k3
      constructor
      · rw [k3, ← waits_append (t := .relResp l' x) rfl]
        simp [live, pendingTimeout, hlv, hpe]
      · simp [k1]
    · simp [reports] at hb
      subst hb
      obtain ⟨k1, k2, k3⟩ := key l' (by rw [hp]; rfl)
      have hpe := no_pending g k1 (by rw [hp]; rfl) (by rw [hp]; simp) (by rw [hp]; rfl)
      have hlv := live_nil g k1 k2
      rw [ht] at k3
      constructor
      · rw [k3, ← waits_append (t := .relResp l' x) rfl]
        simp [live, pendingTimeout, hlv, hpe]
      · simp
  case toAnswer pre post l' b' ht hp =>
    injection he with he _
    subst he
    simp [reports] at hb
    subst hb
    obtain ⟨k1, k2, k3⟩ := key l' (by rw [hp]; rfl)
    have hlv := live_nil g k1 k2
    rw [ht] at k3
    constructor
    · rw [k3, ← waits_append (t := .toResp l') rfl]
      simp [live, pendingTimeout, hlv]
    · cases b' <;> simp [k1]
  case ctxAnswer pre post l' b' ht hp =>
    injection he with he _
    subst he
    simp [reports] at hb
    subst hb
    obtain ⟨k1, k2, k3⟩ := key l' (by rw [hp]; rfl)
    have hlv := live_nil g k1 k2
    rw [ht] at k3
    constructor
    · rw [k3, ← waits_append (t := .toResp l') rfl]
      simp [live, pendingTimeout, hlv]
    · cases b' <;> simp [k1]
  case hbSend => split at he <;> first | exact (ne he).elim | (cases he; exact hb.elim)
  case relSend => split at he <;> first | exact (ne he).elim | (cases he; exact hb.elim)
  case hbAnswer b _ _ => cases b <;> (cases he; exact hb.elim)
  all_goals first | exact (ne he).elim | (cases he; exact hb.elim)

/-- A lock that is neither held nor waited for nor worked on is gone. -/
theorem nobody_gone (hr : Reach acc {} s) (hd : s.down = false) (hn : ∀ l, (s.objs l).phase ≠ .panicked)
    (hw : ∀ t ∈ s.threads, waits t = false)
    (hh : ∀ t ∈ s.threads, t.holdsW = false ∧ t.holdsR = false) (hl : live s.tr = []) (hp : pendingTimeout s.tr = false) :
    s.tree = none := by
  have g := good_of_reach hr
  cases ht : s.tree with
  | none => rfl
  | some l =>
    exfalso
    have ha : alive (s.objs l).phase = true := by
      cases ha : alive (s.objs l).phase with
      | true => rfl
      | false => have := g.i3.down l (.inl ⟨ht, ha⟩); simp [hd] at this
    have hdn := g.i3.down l
    simp only [hd, Bool.false_eq_true, imp_false, not_or] at hdn
    have hcl : (s.objs l).phase ≠ .claiming := by
      intro hc
      have hN := g.i1.claimedN l
      rw [if_pos hc] at hN
      obtain ⟨t, hm, h⟩ := List.countP_pos_iff.mp (by rw [hN]; exact Nat.one_pos : 0 < s.threads.countP (isClaimed l))
      have := hw t hm
      cases t <;> simp_all [isClaimed, waits]
    have hc := g.i1.cnt l (counted_of_up g hd ht)
    rw [(no_waits g ht hcl).mp hw, Nat.zero_add] at hc
    have hnr : isReply (s.objs l).phase = false := by
      cases h : isReply (s.objs l).phase with
      | false => rfl
      | true =>
        have hN := g.i2.respN l
        rw [if_pos h] at hN
        obtain ⟨t, hm, h⟩ := List.countP_pos_iff.mp (by rw [hN]; exact Nat.one_pos : 0 < s.threads.countP (isResp l))
        have := hh t hm
        cases t <;> simp_all [isResp, Thread.holdsW, Thread.holdsR]
    have hb : (s.objs l).phase = .held → (s.objs l).session = none → False := by
      intro hq hs
      have hbd := g.i3.bdI l (by rw [hq]; rfl) hs
      have hN := g.i1.toN l
      rw [if_pos (.inl hbd)] at hN
      have := isTo_le l s.threads
      rw [hN, g.i3.toAny, hp] at this
      simp at this
    cases hq : (s.objs l).phase <;> simp [hq, alive, isReply, downOnly] at ha hnr hdn hcl
    · have := (inv4_of_reach hr).outerC l hq
      simp [hc, hq, hold] at this
    · cases hx : (s.objs l).session with
      | none => exact hb hq hx
      | some x => rw [live_of_session hr hx] at hl; simp at hl
    · exact hn l hq

/-- A grant is only made when nobody has the lock and no timeout is being processed. -/
theorem grant_free (hr : Reach acc {} s) (hs : Step acc s s') {l : LockId} {x : Sess}
    (he : s'.tr = .granted l x :: s.tr) : live s.tr = [] ∧ pendingTimeout s.tr = false := by
  have g := good_of_reach hr
  have hp := (grant_fresh hs he).2
  have ht := g.i1.one l (by rw [hp]; rfl)
  exact ⟨live_nil g ht (by rw [hp]; rfl), no_pending g ht (by rw [hp]; rfl) (by rw [hp]; simp) (by rw [hp]; rfl)⟩

/-- After a processed timeout the lock is gone or free. -/
theorem timeout_free (hr : Reach acc {} s) (hs : Step acc s s') {l : LockId} {b : Bool}
    (he : s'.tr = .timeoutDone l b :: s.tr) :
    live s'.tr = [] ∧ ((b = true ∧ s'.tree = none) ∨
      (b = false ∧ s'.tree = some l ∧ ((s'.objs l).phase = .outer ∨ s.down = true))) := by
  have g := good_of_reach hr
  have ne : ∀ {e : Ev} {tr : List Ev}, tr = e :: tr → False := fun h => by
    have := congrArg List.length h; simp at this
  have key : ∀ l, isToReply (s.objs l).phase = true → s.tree = some l ∧ live s.tr = [] := by
    intro l hp
    have ht : s.tree = some l := g.i1.one l (by revert hp; cases (s.objs l).phase <;> simp [isToReply, alive])
    exact ⟨ht, live_nil g ht (by revert hp; cases (s.objs l).phase <;> simp [isToReply, sessOk])⟩
  cases hs <;> simp only [St.upd, St.thr, St.log, St.drop] at he ⊢
  case toAnswer pre post l' b' ht hp =>
    cases he
    obtain ⟨k1, k2⟩ := key l (by rw [hp]; rfl)
    refine ⟨k2, ?_⟩
    cases b <;> simp [k1]
  case ctxAnswer pre post l' b' ht hp =>
    cases he
    obtain ⟨k1, k2⟩ := key l (by rw [hp]; rfl)
    refine ⟨k2, ?_⟩
    have := g.i3.down l (.inr (by rw [hp]; rfl))
    cases b <;> simp [k1, this]
  case hbSend => split at he <;> first | exact (ne he).elim | cases he
  case relSend => split at he <;> first | exact (ne he).elim | cases he
  case hbAnswer b _ _ => cases b <;> cases he
  case relAnswer c _ _ => cases c <;> cases he
  all_goals first | exact (ne he).elim | cases he

/-- The success answer to a release comes after the release of that session. -/
theorem relOk_released (hr : Reach acc {} s) (hs : Step acc s s') {x : Sess} {b : Bool}
    (he : s'.tr = .relOk x b :: s.tr) : ∃ l, Ev.released l x ∈ s.tr := by
  have h4 := inv4_of_reach hr
  have ne : ∀ {e : Ev} {tr : List Ev}, tr = e :: tr → False := fun h => by
    have := congrArg List.length h; simp at this
  cases hs <;> simp only [St.upd, St.thr, St.log, St.drop] at he ⊢
  case relAnswer pre post l' x c ht hp =>
    cases c
    · cases he
    all_goals
      cases he
      rcases h4.relR l' x (by rw [ht]; simp) with h | h
      · simp [hp] at h
      · exact h
  case hbSend => split at he <;> first | exact (ne he).elim | cases he
  case relSend => split at he <;> first | exact (ne he).elim | cases he
  case hbAnswer b _ _ => cases b <;> cases he
  all_goals first | exact (ne he).elim | cases he

/-- A waiting client can get its lock. -/
theorem can_be_granted (hpos : ∀ x, acc x → 0 < x) (hr : Reach acc {} s) (hd : s.down = false) {l : LockId} {i : Int}
    (hw : .waiting l i ∈ s.threads) :
    ∃ s1 s2 pre post x, Reach acc s s1 ∧ Step acc s1 s2 ∧ s1.threads = pre ++ .claimed l i :: post ∧
      s2.threads = pre ++ post ∧ s2.tr = .granted l x :: s1.tr := by
  obtain ⟨s1, r, _, hw1, hp⟩ := can_get hpos (good_of_reach hr) hd
    (no_panic hpos (Good.init acc) hr (by simp)) hw
  obtain ⟨pre, post, e⟩ := List.append_of_mem hw1
  obtain ⟨x, hx⟩ := exists_fresh s1.tr
  have st := Step.claimSend (acc := acc) s1 pre post l i e hp
  exact ⟨_, _, pre, post, x, r.trans (.one st),
    Step.claimDone _ pre post l i x rfl (by simp [St.upd, St.thr]) hx, rfl, rfl, rfl⟩

end

/-- Sessions are never shared between different key-values. -/
theorem LReach.sessions {K : Type} [DecidableEq K] {acc : Int → Prop} {g : Locker K} (h : LReach acc g) :
    ∀ k k' x, WasGranted (g k).tr x → WasGranted (g k').tr x → k = k' := by
  induction h with
  | init => rintro _ _ _ ⟨l, h⟩; cases h
  | @step g g' hr hs ih =>
    cases hs with
    | mk k s' h hf =>
      have main : ∀ x, WasGranted s'.tr x → ∀ k', k ≠ k' → WasGranted (g k').tr x → False := by
        intro x hx k' hk ⟨l', hl'⟩
        rcases tr_step h with h1 | ⟨e, h1⟩
        · rw [h1] at hx; exact hk (ih k k' x hx ⟨l', hl'⟩)
        · obtain ⟨l, hl⟩ := hx
          rw [h1] at hl
          rcases List.mem_cons.mp hl with e1 | e1
          · rw [← e1] at h1; exact hf l x h1 k' l' x hl' rfl
          · exact hk (ih k k' x ⟨l, e1⟩ ⟨l', hl'⟩)
      intro k1 k2 x h1 h2
      dsimp only at h1 h2
      split at h1 <;> split at h2
      · simp_all
      · rename_i e1 e2; exact (main x h1 k2 (fun h => e2 h.symm) h2).elim
      · rename_i e1 e2; exact (main x h2 k1 (fun h => e1 h.symm) h1).elim
      · exact ih _ _ _ h1 h2

end Willow.Locker
