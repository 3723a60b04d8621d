import Verif.Proofs.LockerLive
namespace Willow.Locker
open Willow.LockerSpec


def isResp (l : LockId) : Thread → Bool
  | .leavingResp _ l' | .hbResp l' _ | .relResp l' _ | .toResp l' => l' == l
  | _ => false

def isReply : Phase → Bool
  | .outerReply _ | .heldReply | .hbReply _ | .relReply _ | .toReply _ | .ctxReply _ => true
  | _ => false

def isLvReply : Phase → Bool
  | .outerReply _ | .heldReply => true
  | _ => false
def isRelReply : Phase → Bool
  | .relReply _ => true
  | _ => false
def isToReply : Phase → Bool
  | .toReply _ | .ctxReply _ => true
  | _ => false

/-- Answers that are due go to the thread that waits for them. -/
structure Inv2 (s : St) : Prop where
  respN : ∀ l, s.threads.countP (isResp l) = if isReply (s.objs l).phase = true then 1 else 0
  lv : ∀ l l', .leavingResp l l' ∈ s.threads → isLvReply (s.objs l').phase = true
  hb : ∀ l x, .hbResp l x ∈ s.threads → (s.objs l).phase = .hbReply (decide ((s.objs l).session = some x))
  rel : ∀ l x, .relResp l x ∈ s.threads → isRelReply (s.objs l).phase = true
  to : ∀ l, .toResp l ∈ s.threads → isToReply (s.objs l).phase = true

theorem Inv2.init : Inv2 {} := by
  constructor <;> intros <;> simp_all [isReply]

theorem resp_pos {t : Thread} {l : LockId} {ts : List Thread} (h : t ∈ ts) (hr : isResp l t = true) :
    0 < ts.countP (isResp l) := List.countP_pos_iff.mpr ⟨t, h, hr⟩

theorem lv_pos {l l' : LockId} {ts : List Thread} (h : .leavingResp l l' ∈ ts) : 0 < ts.countP (isResp l') :=
  resp_pos h (by simp [isResp])
theorem hb_pos {l : LockId} {x : Sess} {ts : List Thread} (h : .hbResp l x ∈ ts) : 0 < ts.countP (isResp l) :=
  resp_pos h (by simp [isResp])
theorem rel_pos {l : LockId} {x : Sess} {ts : List Thread} (h : .relResp l x ∈ ts) : 0 < ts.countP (isResp l) :=
  resp_pos h (by simp [isResp])
theorem to_pos {l : LockId} {ts : List Thread} (h : .toResp l ∈ ts) : 0 < ts.countP (isResp l) :=
  resp_pos h (by simp [isResp])

attribute [local grind →] lv_pos hb_pos rel_pos to_pos
attribute [local grind =] isReply isLvReply isRelReply isToReply
attribute [local grind =] hold alive counted inner sessOk replyW 
attribute [local grind] dec tickerPhase afterRelease
attribute [local grind cases] Phase RelCode
macro "norm" loc:(Lean.Parser.Tactic.location)? : tactic => `(tactic| simp only [St.upd, St.thr, St.log, St.drop, claim,
  lostOuter, lostHeld, heartbeat, release, tick, timedOut, ctxDone, ctxTimedOut, free_iff, readable_iff, List.countP_append, List.countP_cons, List.mem_append, List.mem_cons, or_imp, forall_and, forall_eq, refOk_waiting, refOk_claimed, refOk_leaving, refOk_leavingIn, refOk_leavingResp, refOk_hbIn, refOk_hbResp, refOk_relFound, refOk_relIn, refOk_relResp, refOk_toWant, refOk_toIn, refOk_toResp, pend, isClaimed, isTo, isResp, Thread.holdsW, Thread.holdsR, Bool.false_eq_true, if_false, if_true, Nat.add_zero, Nat.zero_add] $[$loc]?)
macro "fin" : tactic => `(tactic| (intros; (try norm); (try norm at *); first | done | grind | (split <;> grind) | skip))
macro "finr" : tactic => `(tactic| ((try norm); first | done | grind | skip))
set_option linter.unusedSimpArgs false in
set_option maxHeartbeats 4000000 in
theorem Inv2.step {acc : Int → Prop} {s s' : St} (h : Inv s) (h2 : Inv2 s) (hs : Step acc s s') : Inv2 s' := by
  obtain ⟨r1,r2,r3,r4,r5⟩ := h2
  have h0 := h.absent s.next (Nat.le_refl _)
  obtain ⟨-,-,-,-,h5,-,-,h8,h9,-,h11,h12,-,-,-⟩ := h
  cases hs
  case shutdown =>
    (try norm at h5 h9 h11 r1 r2 r3 r4 r5)
    (try norm at *)
    constructor
    case respN => fin
    case lv => fin
    case hb => fin
    case rel => fin
    case to => fin
  case obtainFind =>
    (try norm at h5 h9 h11 r1 r2 r3 r4 r5)
    (try norm at *)
    constructor
    case respN => fin
    case lv => fin
    case hb => fin
    case rel => fin
    case to => fin
  case obtainCreate =>
    (try norm at h5 h9 h11 r1 r2 r3 r4 r5)
    (try norm at *)
    constructor
    case respN => fin
    case lv => fin
    case hb => fin
    case rel => fin
    case to => fin
  case obtainRefused =>
    (try norm at h5 h9 h11 r1 r2 r3 r4 r5)
    (try norm at *)
    constructor
    case respN => fin
    case lv => fin
    case hb => fin
    case rel => fin
    case to => fin
  case obtainRefusedLost =>
    (try norm at h5 h9 h11 r1 r2 r3 r4 r5)
    (try norm at *)
    constructor
    case respN => fin
    case lv => fin
    case hb => fin
    case rel => fin
    case to => fin
  case obtainClosed =>
    simp only [‹s.threads = _›] at h5 h9 h11 r1 r2 r3 r4 r5
    (try norm at h5 h9 h11 r1 r2 r3 r4 r5)
    (try norm at *)
    constructor
    case respN => fin
    case lv => fin
    case hb => fin
    case rel => fin
    case to => fin
  case claimSend =>
    simp only [‹s.threads = _›] at h5 h9 h11 r1 r2 r3 r4 r5
    (try norm at h5 h9 h11 r1 r2 r3 r4 r5)
    (try norm at *)
    constructor
    case respN => fin
    case lv => fin
    case hb => fin
    case rel => fin
    case to => fin
  case claimDone =>
    simp only [‹s.threads = _›] at h5 h9 h11 r1 r2 r3 r4 r5
    (try norm at h5 h9 h11 r1 r2 r3 r4 r5)
    (try norm at *)
    constructor
    case respN => fin
    case lv => fin
    case hb => fin
    case rel => fin
    case to => fin
  case disconnect =>
    simp only [‹s.threads = _›] at h5 h9 h11 r1 r2 r3 r4 r5
    (try norm at h5 h9 h11 r1 r2 r3 r4 r5)
    (try norm at *)
    constructor
    case respN => fin
    case lv => fin
    case hb => fin
    case rel => fin
    case to => fin
  case leaveEnter =>
    simp only [‹s.threads = _›] at h5 h9 h11 r1 r2 r3 r4 r5
    (try norm at h5 h9 h11 r1 r2 r3 r4 r5)
    (try norm at *)
    constructor
    case respN => fin
    case lv => fin
    case hb => fin
    case rel => fin
    case to => fin
  case leaveNone =>
    simp only [‹s.threads = _›] at h5 h9 h11 r1 r2 r3 r4 r5
    (try norm at h5 h9 h11 r1 r2 r3 r4 r5)
    (try norm at *)
    constructor
    case respN => fin
    case lv => fin
    case hb => fin
    case rel => fin
    case to => fin
  case lostOuter =>
    simp only [‹s.threads = _›] at h5 h9 h11 r1 r2 r3 r4 r5
    (try norm at h5 h9 h11 r1 r2 r3 r4 r5)
    (try norm at *)
    constructor
    case respN => fin
    case lv => fin
    case hb => fin
    case rel => fin
    case to => fin
  case lostOuterReply =>
    simp only [‹s.threads = _›] at h5 h9 h11 r1 r2 r3 r4 r5
    (try norm at h5 h9 h11 r1 r2 r3 r4 r5)
    (try norm at *)
    constructor
    case respN => fin
    case lv => fin
    case hb => fin
    case rel => fin
    case to => fin
  case lostHeld =>
    simp only [‹s.threads = _›] at h5 h9 h11 r1 r2 r3 r4 r5
    (try norm at h5 h9 h11 r1 r2 r3 r4 r5)
    (try norm at *)
    constructor
    case respN => fin
    case lv => fin
    case hb => fin
    case rel => fin
    case to => fin
  case lostHeldReply =>
    simp only [‹s.threads = _›] at h5 h9 h11 r1 r2 r3 r4 r5
    (try norm at h5 h9 h11 r1 r2 r3 r4 r5)
    (try norm at *)
    constructor
    case respN => fin
    case lv => fin
    case hb => fin
    case rel => fin
    case to => fin
  case lostClosed =>
    simp only [‹s.threads = _›] at h5 h9 h11 r1 r2 r3 r4 r5
    (try norm at h5 h9 h11 r1 r2 r3 r4 r5)
    (try norm at *)
    constructor
    case respN => fin
    case lv => fin
    case hb => fin
    case rel => fin
    case to => fin
  case hbMissing =>
    (try norm at h5 h9 h11 r1 r2 r3 r4 r5)
    (try norm at *)
    constructor
    case respN => fin
    case lv => fin
    case hb => fin
    case rel => fin
    case to => fin
  case hbEnter =>
    (try norm at h5 h9 h11 r1 r2 r3 r4 r5)
    (try norm at *)
    constructor
    case respN => fin
    case lv => fin
    case hb => fin
    case rel => fin
    case to => fin
  case hbSend =>
    simp only [‹s.threads = _›] at h5 h9 h11 r1 r2 r3 r4 r5
    (try norm at h5 h9 h11 r1 r2 r3 r4 r5)
    (try norm at *)
    rename_i l0 sess0 _ _
    by_cases hb : (s.objs l0).session = some sess0 <;> simp only [hb, if_true, if_false, reduceCtorEq, Phase.hbReply.injEq, Phase.relReply.injEq]
    all_goals constructor <;> fin
  case hbAnswer =>
    simp only [‹s.threads = _›] at h5 h9 h11 r1 r2 r3 r4 r5
    (try norm at h5 h9 h11 r1 r2 r3 r4 r5)
    (try norm at *)
    constructor
    case respN => fin
    case lv => fin
    case hb => fin
    case rel => fin
    case to => fin
  case hbClosed =>
    simp only [‹s.threads = _›] at h5 h9 h11 r1 r2 r3 r4 r5
    (try norm at h5 h9 h11 r1 r2 r3 r4 r5)
    (try norm at *)
    constructor
    case respN => fin
    case lv => fin
    case hb => fin
    case rel => fin
    case to => fin
  case relMissing =>
    (try norm at h5 h9 h11 r1 r2 r3 r4 r5)
    (try norm at *)
    constructor
    case respN => fin
    case lv => fin
    case hb => fin
    case rel => fin
    case to => fin
  case relLookup =>
    (try norm at h5 h9 h11 r1 r2 r3 r4 r5)
    (try norm at *)
    constructor
    case respN => fin
    case lv => fin
    case hb => fin
    case rel => fin
    case to => fin
  case relGone =>
    simp only [‹s.threads = _›] at h5 h9 h11 r1 r2 r3 r4 r5
    (try norm at h5 h9 h11 r1 r2 r3 r4 r5)
    (try norm at *)
    constructor
    case respN => fin
    case lv => fin
    case hb => fin
    case rel => fin
    case to => fin
  case relEnter =>
    simp only [‹s.threads = _›] at h5 h9 h11 r1 r2 r3 r4 r5
    (try norm at h5 h9 h11 r1 r2 r3 r4 r5)
    (try norm at *)
    constructor
    case respN => fin
    case lv => fin
    case hb => fin
    case rel => fin
    case to => fin
  case relSend =>
    simp only [‹s.threads = _›] at h5 h9 h11 r1 r2 r3 r4 r5
    (try norm at h5 h9 h11 r1 r2 r3 r4 r5)
    (try norm at *)
    rename_i l0 sess0 _ _
    by_cases hb : (s.objs l0).session = some sess0 <;> simp only [hb, if_true, if_false, reduceCtorEq, Phase.hbReply.injEq, Phase.relReply.injEq]
    · by_cases hc : dec (s.objs l0).count = 0 <;> simp only [hc, if_true, if_false, reduceCtorEq] <;> constructor <;> fin
    · constructor <;> fin
  case relAnswer =>
    simp only [‹s.threads = _›] at h5 h9 h11 r1 r2 r3 r4 r5
    (try norm at h5 h9 h11 r1 r2 r3 r4 r5)
    (try norm at *)
    rename_i pre0 post0 l0 _ code _ _
    cases code <;> simp only [afterRelease, reduceCtorEq, if_true, if_false, decide_true, decide_false, Bool.false_eq_true]
    all_goals constructor <;> fin
  case relClosed =>
    simp only [‹s.threads = _›] at h5 h9 h11 r1 r2 r3 r4 r5
    (try norm at h5 h9 h11 r1 r2 r3 r4 r5)
    (try norm at *)
    constructor
    case respN => fin
    case lv => fin
    case hb => fin
    case rel => fin
    case to => fin
  case tick =>
    (try norm at h5 h9 h11 r1 r2 r3 r4 r5)
    (try norm at *)
    constructor
    case respN => fin
    case lv => fin
    case hb => fin
    case rel => fin
    case to => fin
  case toEnter =>
    simp only [‹s.threads = _›] at h5 h9 h11 r1 r2 r3 r4 r5
    (try norm at h5 h9 h11 r1 r2 r3 r4 r5)
    (try norm at *)
    constructor
    case respN => fin
    case lv => fin
    case hb => fin
    case rel => fin
    case to => fin
  case toNone =>
    simp only [‹s.threads = _›] at h5 h9 h11 r1 r2 r3 r4 r5
    (try norm at h5 h9 h11 r1 r2 r3 r4 r5)
    (try norm at *)
    constructor
    case respN => fin
    case lv => fin
    case hb => fin
    case rel => fin
    case to => fin
  case toSend =>
    simp only [‹s.threads = _›] at h5 h9 h11 r1 r2 r3 r4 r5
    (try norm at h5 h9 h11 r1 r2 r3 r4 r5)
    (try norm at *)
    constructor
    case respN => fin
    case lv => fin
    case hb => fin
    case rel => fin
    case to => fin
  case toAnswer =>
    simp only [‹s.threads = _›] at h5 h9 h11 r1 r2 r3 r4 r5
    (try norm at h5 h9 h11 r1 r2 r3 r4 r5)
    (try norm at *)
    constructor
    case respN => fin
    case lv => fin
    case hb => fin
    case rel => fin
    case to => fin
  case ctx =>
    (try norm at h5 h9 h11 r1 r2 r3 r4 r5)
    (try norm at *)
    constructor
    case respN => fin
    case lv => fin
    case hb => fin
    case rel => fin
    case to => fin
  case ctxSend =>
    simp only [‹s.threads = _›] at h5 h9 h11 r1 r2 r3 r4 r5
    (try norm at h5 h9 h11 r1 r2 r3 r4 r5)
    (try norm at *)
    constructor
    case respN => fin
    case lv => fin
    case hb => fin
    case rel => fin
    case to => fin
  case ctxAnswer =>
    simp only [‹s.threads = _›] at h5 h9 h11 r1 r2 r3 r4 r5
    (try norm at h5 h9 h11 r1 r2 r3 r4 r5)
    (try norm at *)
    constructor
    case respN => fin
    case lv => fin
    case hb => fin
    case rel => fin
    case to => fin
end Willow.Locker
