import Verif.Proofs.LockerResp
namespace Willow.Locker
open Willow.LockerSpec


def reqTimeout : Thread → Option Int
  | .waiting _ t | .claimed _ t => some t
  | _ => none

/-- Phases only reached after the service was told to stop. -/
def downOnly : Phase → Bool
  | .notRunning | .ctxWait | .ctxReply _ => true
  | _ => false

/-- A timeout that the clock announced and that has not been processed. -/
def isToAny : Thread → Bool
  | .toWant _ | .toIn _ | .toResp _ => true
  | _ => false

structure Inv3 (acc : Int → Prop) (s : St) : Prop where
  armedI : ∀ l, inner (s.objs l).phase = true → (s.objs l).session ≠ none → (s.objs l).armed = true
  bdI : ∀ l, inner (s.objs l).phase = true → (s.objs l).session = none → (s.objs l).blockDone = true
  down : ∀ l, (s.tree = some l ∧ alive (s.objs l).phase = false) ∨ downOnly (s.objs l).phase = true → s.down = true
  accI : ∀ t ∈ s.threads, ∀ x, reqTimeout t = some x → acc x
  toAny : s.threads.countP isToAny = if pendingTimeout s.tr = true then 1 else 0

theorem Inv3.init (acc : Int → Prop) : Inv3 acc {} := by
  constructor <;> intros <;> simp_all [inner, downOnly, pendingTimeout]

theorem isTo_le (l : LockId) (ts : List Thread) : ts.countP (isTo l) ≤ ts.countP isToAny := by
  apply List.countP_mono_left
  intro t _ h
  cases t <;> simp_all [isTo, isToAny]

theorem isToAny_zero {s : St} {l : LockId} (h : Inv s) (h2 : Inv2 s) (hp : (s.objs l).phase = .held)
    (hb : (s.objs l).blockDone = false) : s.threads.countP isToAny = 0 := by
  refine List.countP_eq_zero.mpr fun t hm => ?_
  have ht : s.tree = some l := h.one l (by simp [hp, alive])
  have h1 := h.toN l
  rw [if_neg (by simp [hp, hb])] at h1
  have h4 := (List.countP_eq_zero.mp h1) t hm
  have h5 := h.refs t hm
  cases t <;> simp_all [isTo, isToAny, refOk]
  case toResp => subst h5; have := h2.to _ hm; simp [hp, isToReply] at this

attribute [local grind =] downOnly
attribute [local grind =] hold alive counted inner sessOk replyW 
attribute [local grind] dec tickerPhase afterRelease
attribute [local grind cases] Phase RelCode
macro "norm" loc:(Lean.Parser.Tactic.location)? : tactic => `(tactic| simp only [St.upd, St.thr, St.log, St.drop, claim,
  lostOuter, lostHeld, heartbeat, release, tick, timedOut, ctxDone, ctxTimedOut, free_iff, readable_iff, List.countP_append, List.countP_cons, List.mem_append, List.mem_cons, or_imp, forall_and, forall_eq, refOk_waiting, refOk_claimed, refOk_leaving, refOk_leavingIn, refOk_leavingResp, refOk_hbIn, refOk_hbResp, refOk_relFound, refOk_relIn, refOk_relResp, refOk_toWant, refOk_toIn, refOk_toResp, pend, isClaimed, isTo, isToAny, reqTimeout, pendingTimeout, Thread.holdsW, Thread.holdsR, Bool.false_eq_true, if_false, if_true, Nat.add_zero, Nat.zero_add] $[$loc]?)
macro "fin" : tactic => `(tactic| (intros; (try norm); (try norm at *); first | done | grind | (split <;> grind) | skip))
macro "finr" : tactic => `(tactic| ((try norm); first | done | grind | skip))
set_option linter.unusedSimpArgs false in
set_option maxHeartbeats 4000000 in
theorem Inv3.step {acc : Int → Prop} {s s' : St} (h : Inv s) (h2 : Inv2 s) (h3 : Inv3 acc s) (hs : Step acc s s') : Inv3 acc s' := by
  obtain ⟨r1,r2,r3,r4,r5⟩ := h3
  have h0 := h.absent s.next (Nat.le_refl _)
  have hst := h.notStuck
  have hta := fun l => isToAny_zero (l := l) h h2
  obtain ⟨-,-,-,-,h5,-,-,h8,h9,-,h11,h12,h13,h14,-⟩ := h
  cases hs
  case shutdown =>
    (try norm at h5 h9 h11 r4 r5)
    (try norm at *)
    constructor
    case armedI => fin
    case bdI => fin
    case down => fin
    case accI => fin
    case toAny => fin
  case obtainFind =>
    (try norm at h5 h9 h11 r4 r5)
    (try norm at *)
    constructor
    case armedI => fin
    case bdI => fin
    case down => fin
    case accI => fin
    case toAny => fin
  case obtainCreate =>
    (try norm at h5 h9 h11 r4 r5)
    (try norm at *)
    constructor
    case armedI => fin
    case bdI => fin
    case down => fin
    case accI => fin
    case toAny => fin
  case obtainRefused =>
    (try norm at h5 h9 h11 r4 r5)
    (try norm at *)
    constructor
    case armedI => fin
    case bdI => fin
    case down => fin
    case accI => fin
    case toAny => fin
  case obtainRefusedLost =>
    (try norm at h5 h9 h11 r4 r5)
    (try norm at *)
    constructor
    case armedI => fin
    case bdI => fin
    case down => fin
    case accI => fin
    case toAny => fin
  case obtainClosed =>
    simp only [‹s.threads = _›] at h5 h9 h11 r4 r5
    (try norm at h5 h9 h11 r4 r5)
    (try norm at *)
    constructor
    case armedI => fin
    case bdI => fin
    case down => fin
    case accI => fin
    case toAny => fin
  case claimSend =>
    simp only [‹s.threads = _›] at h5 h9 h11 r4 r5
    (try norm at h5 h9 h11 r4 r5)
    (try norm at *)
    constructor
    case armedI => fin
    case bdI => fin
    case down => fin
    case accI => fin
    case toAny => fin
  case claimDone =>
    simp only [‹s.threads = _›] at h5 h9 h11 r4 r5
    (try norm at h5 h9 h11 r4 r5)
    (try norm at *)
    constructor
    case armedI => fin
    case bdI => fin
    case down => fin
    case accI => fin
    case toAny => fin
  case disconnect =>
    simp only [‹s.threads = _›] at h5 h9 h11 r4 r5
    (try norm at h5 h9 h11 r4 r5)
    (try norm at *)
    constructor
    case armedI => fin
    case bdI => fin
    case down => fin
    case accI => fin
    case toAny => fin
  case leaveEnter =>
    simp only [‹s.threads = _›] at h5 h9 h11 r4 r5
    (try norm at h5 h9 h11 r4 r5)
    (try norm at *)
    constructor
    case armedI => fin
    case bdI => fin
    case down => fin
    case accI => fin
    case toAny => fin
  case leaveNone =>
    simp only [‹s.threads = _›] at h5 h9 h11 r4 r5
    (try norm at h5 h9 h11 r4 r5)
    (try norm at *)
    constructor
    case armedI => fin
    case bdI => fin
    case down => fin
    case accI => fin
    case toAny => fin
  case lostOuter =>
    simp only [‹s.threads = _›] at h5 h9 h11 r4 r5
    (try norm at h5 h9 h11 r4 r5)
    (try norm at *)
    constructor
    case armedI => fin
    case bdI => fin
    case down => fin
    case accI => fin
    case toAny => fin
  case lostOuterReply =>
    simp only [‹s.threads = _›] at h5 h9 h11 r4 r5
    (try norm at h5 h9 h11 r4 r5)
    (try norm at *)
    constructor
    case armedI => fin
    case bdI => fin
    case down => fin
    case accI => fin
    case toAny => fin
  case lostHeld =>
    simp only [‹s.threads = _›] at h5 h9 h11 r4 r5
    (try norm at h5 h9 h11 r4 r5)
    (try norm at *)
    constructor
    case armedI => fin
    case bdI => fin
    case down => fin
    case accI => fin
    case toAny => fin
  case lostHeldReply =>
    simp only [‹s.threads = _›] at h5 h9 h11 r4 r5
    (try norm at h5 h9 h11 r4 r5)
    (try norm at *)
    constructor
    case armedI => fin
    case bdI => fin
    case down => fin
    case accI => fin
    case toAny => fin
  case lostClosed =>
    simp only [‹s.threads = _›] at h5 h9 h11 r4 r5
    (try norm at h5 h9 h11 r4 r5)
    (try norm at *)
    constructor
    case armedI => fin
    case bdI => fin
    case down => fin
    case accI => fin
    case toAny => fin
  case hbMissing =>
    (try norm at h5 h9 h11 r4 r5)
    (try norm at *)
    constructor
    case armedI => fin
    case bdI => fin
    case down => fin
    case accI => fin
    case toAny => fin
  case hbEnter =>
    (try norm at h5 h9 h11 r4 r5)
    (try norm at *)
    constructor
    case armedI => fin
    case bdI => fin
    case down => fin
    case accI => fin
    case toAny => fin
  case hbSend =>
    simp only [‹s.threads = _›] at h5 h9 h11 r4 r5
    (try norm at h5 h9 h11 r4 r5)
    (try norm at *)
    rename_i l0 sess0 _ _
    by_cases hb : (s.objs l0).session = some sess0 <;> simp only [hb, if_true, if_false, reduceCtorEq, Phase.hbReply.injEq, Phase.relReply.injEq]
    all_goals constructor <;> fin
  case hbAnswer =>
    simp only [‹s.threads = _›] at h5 h9 h11 r4 r5
    (try norm at h5 h9 h11 r4 r5)
    (try norm at *)
    rename_i b _ _
    cases b <;> constructor <;> fin
  case hbClosed =>
    simp only [‹s.threads = _›] at h5 h9 h11 r4 r5
    (try norm at h5 h9 h11 r4 r5)
    (try norm at *)
    constructor
    case armedI => fin
    case bdI => fin
    case down => fin
    case accI => fin
    case toAny => fin
  case relMissing =>
    (try norm at h5 h9 h11 r4 r5)
    (try norm at *)
    constructor
    case armedI => fin
    case bdI => fin
    case down => fin
    case accI => fin
    case toAny => fin
  case relLookup =>
    (try norm at h5 h9 h11 r4 r5)
    (try norm at *)
    constructor
    case armedI => fin
    case bdI => fin
    case down => fin
    case accI => fin
    case toAny => fin
  case relGone =>
    simp only [‹s.threads = _›] at h5 h9 h11 r4 r5
    (try norm at h5 h9 h11 r4 r5)
    (try norm at *)
    constructor
    case armedI => fin
    case bdI => fin
    case down => fin
    case accI => fin
    case toAny => fin
  case relEnter =>
    simp only [‹s.threads = _›] at h5 h9 h11 r4 r5
    (try norm at h5 h9 h11 r4 r5)
    (try norm at *)
    constructor
    case armedI => fin
    case bdI => fin
    case down => fin
    case accI => fin
    case toAny => fin
  case relSend =>
    simp only [‹s.threads = _›] at h5 h9 h11 r4 r5
    (try norm at h5 h9 h11 r4 r5)
    (try norm at *)
    rename_i l0 sess0 _ _
    by_cases hb : (s.objs l0).session = some sess0 <;> simp only [hb, if_true, if_false, reduceCtorEq, Phase.hbReply.injEq, Phase.relReply.injEq]
    · by_cases hc : dec (s.objs l0).count = 0 <;> simp only [hc, if_true, if_false, reduceCtorEq] <;> constructor <;> fin
    · constructor <;> fin
  case relAnswer =>
    simp only [‹s.threads = _›] at h5 h9 h11 r4 r5
    (try norm at h5 h9 h11 r4 r5)
    (try norm at *)
    rename_i pre0 post0 l0 _ code _ _
    cases code <;> simp only [afterRelease, reduceCtorEq, if_true, if_false, decide_true, decide_false, Bool.false_eq_true]
    all_goals constructor <;> fin
  case relClosed =>
    simp only [‹s.threads = _›] at h5 h9 h11 r4 r5
    (try norm at h5 h9 h11 r4 r5)
    (try norm at *)
    constructor
    case armedI => fin
    case bdI => fin
    case down => fin
    case accI => fin
    case toAny => fin
  case tick =>
    (try norm at h5 h9 h11 r4 r5)
    (try norm at *)
    constructor
    case armedI => fin
    case bdI => fin
    case down => fin
    case accI => fin
    case toAny => fin
  case toEnter =>
    simp only [‹s.threads = _›] at h5 h9 h11 r4 r5
    (try norm at h5 h9 h11 r4 r5)
    (try norm at *)
    constructor
    case armedI => fin
    case bdI => fin
    case down => fin
    case accI => fin
    case toAny => fin
  case toNone =>
    simp only [‹s.threads = _›] at h5 h9 h11 r4 r5
    (try norm at h5 h9 h11 r4 r5)
    (try norm at *)
    constructor
    case armedI => fin
    case bdI => fin
    case down => fin
    case accI => fin
    case toAny => fin
  case toSend =>
    simp only [‹s.threads = _›] at h5 h9 h11 r4 r5
    (try norm at h5 h9 h11 r4 r5)
    (try norm at *)
    constructor
    case armedI => fin
    case bdI => fin
    case down => fin
    case accI => fin
    case toAny => fin
  case toAnswer =>
    simp only [‹s.threads = _›] at h5 h9 h11 r4 r5
    (try norm at h5 h9 h11 r4 r5)
    (try norm at *)
    constructor
    case armedI => fin
    case bdI => fin
    case down => fin
    case accI => fin
    case toAny => fin
  case ctx =>
    (try norm at h5 h9 h11 r4 r5)
    (try norm at *)
    constructor
    case armedI => fin
    case bdI => fin
    case down => fin
    case accI => fin
    case toAny => fin
  case ctxSend =>
    simp only [‹s.threads = _›] at h5 h9 h11 r4 r5
    (try norm at h5 h9 h11 r4 r5)
    (try norm at *)
    constructor
    case armedI => fin
    case bdI => fin
    case down => fin
    case accI => fin
    case toAny => fin
  case ctxAnswer =>
    simp only [‹s.threads = _›] at h5 h9 h11 r4 r5
    (try norm at h5 h9 h11 r4 r5)
    (try norm at *)
    constructor
    case armedI => fin
    case bdI => fin
    case down => fin
    case accI => fin
    case toAny => fin
end Willow.Locker
