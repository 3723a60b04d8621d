import Verif.Proofs.LockerTrace
namespace Willow.Locker
open Willow.LockerSpec

/-- Releases that were not refused took effect; a free lock has clients. -/
structure Inv4 (s : St) : Prop where
  relR : ∀ l x, .relResp l x ∈ s.threads → (s.objs l).phase = .relReply .failed ∨ ∃ l', Ev.released l' x ∈ s.tr
  outerC : ∀ l, (s.objs l).phase = .outer → (s.objs l).count ≠ 0

theorem Inv4.init : Inv4 {} := by
  constructor <;> intros <;> simp_all

attribute [local grind →] lv_pos hb_pos rel_pos to_pos
attribute [local grind =] isReply isLvReply isRelReply isToReply
attribute [local grind =] hold alive counted inner sessOk replyW 
attribute [local grind] dec tickerPhase afterRelease
attribute [local grind cases] Phase RelCode
macro "norm" loc:(Lean.Parser.Tactic.location)? : tactic => `(tactic| simp only [St.upd, St.thr, St.log, St.drop, claim,
  lostOuter, lostHeld, heartbeat, release, tick, timedOut, ctxDone, ctxTimedOut, free_iff, readable_iff, List.countP_append, List.countP_cons, List.mem_append, List.mem_cons, or_imp, forall_and, forall_eq, refOk_waiting, refOk_claimed, refOk_leaving, refOk_leavingIn, refOk_leavingResp, refOk_hbIn, refOk_hbResp, refOk_relFound, refOk_relIn, refOk_relResp, refOk_toWant, refOk_toIn, refOk_toResp, pend, isClaimed, isTo, isResp, isToAny, reqTimeout, pendingTimeout, Thread.holdsW, Thread.holdsR, Bool.false_eq_true, if_false, if_true, Nat.add_zero, Nat.zero_add] $[$loc]?)
macro "fin" : tactic => `(tactic| (intros; (try norm); (try norm at *); first | done | grind | (split <;> grind) | skip))
macro "finr" : tactic => `(tactic| ((try norm); first | done | grind | skip))
set_option linter.unusedSimpArgs false in
set_option maxHeartbeats 4000000 in
theorem Inv4.step {acc : Int → Prop} {s s' : St} (h : Inv s) (h2 : Inv2 s) (h4 : Inv4 s) (hs : Step acc s s') : Inv4 s' := by
  obtain ⟨r1,r2⟩ := h4
  have q1 := h2.respN
  have q2 := h2.rel
  have h0 := h.absent s.next (Nat.le_refl _)
  obtain ⟨-,-,-,-,h5,-,-,h8,h9,-,-,-,-,-,h15⟩ := h
  cases hs
  case shutdown =>
    (try norm at h5 h9 h15 r1 q1 q2)
    (try norm at *)
    constructor
    case relR => fin
    case outerC => fin
  case obtainFind =>
    (try norm at h5 h9 h15 r1 q1 q2)
    (try norm at *)
    constructor
    case relR => fin
    case outerC => fin
  case obtainCreate =>
    (try norm at h5 h9 h15 r1 q1 q2)
    (try norm at *)
    constructor
    case relR => fin
    case outerC => fin
  case obtainRefused =>
    (try norm at h5 h9 h15 r1 q1 q2)
    (try norm at *)
    constructor
    case relR => fin
    case outerC => fin
  case obtainRefusedLost =>
    (try norm at h5 h9 h15 r1 q1 q2)
    (try norm at *)
    constructor
    case relR => fin
    case outerC => fin
  case obtainClosed =>
    simp only [‹s.threads = _›] at h5 h9 h15 r1 q1 q2
    (try norm at h5 h9 h15 r1 q1 q2)
    (try norm at *)
    constructor
    case relR => fin
    case outerC => fin
  case claimSend =>
    simp only [‹s.threads = _›] at h5 h9 h15 r1 q1 q2
    (try norm at h5 h9 h15 r1 q1 q2)
    (try norm at *)
    constructor
    case relR => fin
    case outerC => fin
  case claimDone =>
    simp only [‹s.threads = _›] at h5 h9 h15 r1 q1 q2
    (try norm at h5 h9 h15 r1 q1 q2)
    (try norm at *)
    constructor
    case relR => fin
    case outerC => fin
  case disconnect =>
    simp only [‹s.threads = _›] at h5 h9 h15 r1 q1 q2
    (try norm at h5 h9 h15 r1 q1 q2)
    (try norm at *)
    constructor
    case relR => fin
    case outerC => fin
  case leaveEnter =>
    simp only [‹s.threads = _›] at h5 h9 h15 r1 q1 q2
    (try norm at h5 h9 h15 r1 q1 q2)
    (try norm at *)
    constructor
    case relR => fin
    case outerC => fin
  case leaveNone =>
    simp only [‹s.threads = _›] at h5 h9 h15 r1 q1 q2
    (try norm at h5 h9 h15 r1 q1 q2)
    (try norm at *)
    constructor
    case relR => fin
    case outerC => fin
  case lostOuter =>
    simp only [‹s.threads = _›] at h5 h9 h15 r1 q1 q2
    (try norm at h5 h9 h15 r1 q1 q2)
    (try norm at *)
    constructor
    case relR => fin
    case outerC => fin
  case lostOuterReply =>
    rename_i _ _ _ l0 b0 _ hp0
    have hx := (h15 l0 b0 (by rw [hp0]; rfl)).1
    simp only [‹s.threads = _›] at h5 h9 h15 r1 q1 q2
    (try norm at h5 h9 h15 r1 q1 q2)
    (try norm at *)
    constructor
    case relR => fin
    case outerC => cases b0 <;> fin
  case lostHeld =>
    simp only [‹s.threads = _›] at h5 h9 h15 r1 q1 q2
    (try norm at h5 h9 h15 r1 q1 q2)
    (try norm at *)
    constructor
    case relR => fin
    case outerC => fin
  case lostHeldReply =>
    simp only [‹s.threads = _›] at h5 h9 h15 r1 q1 q2
    (try norm at h5 h9 h15 r1 q1 q2)
    (try norm at *)
    constructor
    case relR => fin
    case outerC => fin
  case lostClosed =>
    simp only [‹s.threads = _›] at h5 h9 h15 r1 q1 q2
    (try norm at h5 h9 h15 r1 q1 q2)
    (try norm at *)
    constructor
    case relR => fin
    case outerC => fin
  case hbMissing =>
    (try norm at h5 h9 h15 r1 q1 q2)
    (try norm at *)
    constructor
    case relR => fin
    case outerC => fin
  case hbEnter =>
    (try norm at h5 h9 h15 r1 q1 q2)
    (try norm at *)
    constructor
    case relR => fin
    case outerC => fin
  case hbSend =>
    simp only [‹s.threads = _›] at h5 h9 h15 r1 q1 q2
    (try norm at h5 h9 h15 r1 q1 q2)
    (try norm at *)
    rename_i l0 sess0 _ _
    by_cases hb : (s.objs l0).session = some sess0 <;> simp only [hb, if_true, if_false, reduceCtorEq, Phase.hbReply.injEq, Phase.relReply.injEq]
    all_goals constructor <;> fin
  case hbAnswer =>
    simp only [‹s.threads = _›] at h5 h9 h15 r1 q1 q2
    (try norm at h5 h9 h15 r1 q1 q2)
    (try norm at *)
    rename_i b _ _
    cases b <;> constructor <;> fin
  case hbClosed =>
    simp only [‹s.threads = _›] at h5 h9 h15 r1 q1 q2
    (try norm at h5 h9 h15 r1 q1 q2)
    (try norm at *)
    constructor
    case relR => fin
    case outerC => fin
  case relMissing =>
    (try norm at h5 h9 h15 r1 q1 q2)
    (try norm at *)
    constructor
    case relR => fin
    case outerC => fin
  case relLookup =>
    (try norm at h5 h9 h15 r1 q1 q2)
    (try norm at *)
    constructor
    case relR => fin
    case outerC => fin
  case relGone =>
    simp only [‹s.threads = _›] at h5 h9 h15 r1 q1 q2
    (try norm at h5 h9 h15 r1 q1 q2)
    (try norm at *)
    constructor
    case relR => fin
    case outerC => fin
  case relEnter =>
    simp only [‹s.threads = _›] at h5 h9 h15 r1 q1 q2
    (try norm at h5 h9 h15 r1 q1 q2)
    (try norm at *)
    constructor
    case relR => fin
    case outerC => fin
  case relSend =>
    simp only [‹s.threads = _›] at h5 h9 h15 r1 q1 q2
    (try norm at h5 h9 h15 r1 q1 q2)
    (try norm at *)
    rename_i l0 sess0 _ _
    by_cases hb : (s.objs l0).session = some sess0 <;> simp only [hb, if_true, if_false, reduceCtorEq, Phase.hbReply.injEq, Phase.relReply.injEq]
    · by_cases hc : dec (s.objs l0).count = 0 <;> simp only [hc, if_true, if_false, reduceCtorEq] <;> constructor
      case pos.relR | neg.relR =>
        intro l x hm
        norm at hm ⊢
        by_cases hx : x = sess0
        · subst hx; exact .inr ⟨l0, .inl rfl⟩
        · have : (s.objs l).phase = .relReply .failed ∨ ∃ l', Ev.released l' x ∈ s.tr := by grind
          rcases this with h | ⟨l', h⟩
          · left; grind
          · exact .inr ⟨l', .inr h⟩
      all_goals fin
    · constructor <;> fin
  case relAnswer =>
    simp only [‹s.threads = _›] at h5 h9 h15 r1 q1 q2
    (try norm at h5 h9 h15 r1 q1 q2)
    (try norm at *)
    rename_i pre0 post0 l0 _ code _ _
    cases code <;> simp only [afterRelease, reduceCtorEq, if_true, if_false, decide_true, decide_false, Bool.false_eq_true]
    all_goals constructor
    case processed.outerC => have hx := (h15.1 l0 false (by rw [‹(s.objs l0).phase = _›]; rfl)); fin
    all_goals fin
  case relClosed =>
    simp only [‹s.threads = _›] at h5 h9 h15 r1 q1 q2
    (try norm at h5 h9 h15 r1 q1 q2)
    (try norm at *)
    constructor
    case relR => fin
    case outerC => fin
  case tick =>
    (try norm at h5 h9 h15 r1 q1 q2)
    (try norm at *)
    constructor
    case relR => fin
    case outerC => fin
  case toEnter =>
    simp only [‹s.threads = _›] at h5 h9 h15 r1 q1 q2
    (try norm at h5 h9 h15 r1 q1 q2)
    (try norm at *)
    constructor
    case relR => fin
    case outerC => fin
  case toNone =>
    simp only [‹s.threads = _›] at h5 h9 h15 r1 q1 q2
    (try norm at h5 h9 h15 r1 q1 q2)
    (try norm at *)
    constructor
    case relR => fin
    case outerC => fin
  case toSend =>
    simp only [‹s.threads = _›] at h5 h9 h15 r1 q1 q2
    (try norm at h5 h9 h15 r1 q1 q2)
    (try norm at *)
    constructor
    case relR => fin
    case outerC => fin
  case toAnswer =>
    rename_i _ _ l0 b0 _ hp0
    have hx := (h15 l0 b0 (by rw [hp0]; rfl)).1
    simp only [‹s.threads = _›] at h5 h9 h15 r1 q1 q2
    (try norm at h5 h9 h15 r1 q1 q2)
    (try norm at *)
    constructor
    case relR => fin
    case outerC => cases b0 <;> fin
  case ctx =>
    (try norm at h5 h9 h15 r1 q1 q2)
    (try norm at *)
    constructor
    case relR => fin
    case outerC => fin
  case ctxSend =>
    simp only [‹s.threads = _›] at h5 h9 h15 r1 q1 q2
    (try norm at h5 h9 h15 r1 q1 q2)
    (try norm at *)
    constructor
    case relR => fin
    case outerC => fin
  case ctxAnswer =>
    simp only [‹s.threads = _›] at h5 h9 h15 r1 q1 q2
    (try norm at h5 h9 h15 r1 q1 q2)
    (try norm at *)
    constructor
    case relR => fin
    case outerC => fin

theorem inv4_of_reach {acc : Int → Prop} {s : St} (hr : Reach acc {} s) : Inv4 s := by
  induction hr with
  | refl => exact .init
  | step hr hs ih => exact ih.step (good_of_reach hr).i1 (good_of_reach hr).i2 hs

end Willow.Locker
