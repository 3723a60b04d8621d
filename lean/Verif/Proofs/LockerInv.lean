import Verif.Proofs.Locker
namespace Willow.Locker
open Willow.LockerSpec

attribute [local grind =] hold alive counted inner sessOk replyW 
attribute [local grind] dec tickerPhase afterRelease
attribute [local grind cases] Phase RelCode
macro "norm" loc:(Lean.Parser.Tactic.location)? : tactic => `(tactic| simp only [St.upd, St.thr, St.log, St.drop, claim,
  lostOuter, lostHeld, heartbeat, release, tick, timedOut, ctxDone, ctxTimedOut, free_iff, readable_iff, List.countP_append, List.countP_cons, List.mem_append, List.mem_cons, or_imp, forall_and, forall_eq, refOk_waiting, refOk_claimed, refOk_leaving, refOk_leavingIn, refOk_leavingResp, refOk_hbIn, refOk_hbResp, refOk_relFound, refOk_relIn, refOk_relResp, refOk_toWant, refOk_toIn, refOk_toResp, pend, isClaimed, isTo, Thread.holdsW, Thread.holdsR, Bool.false_eq_true, if_false, if_true, Nat.add_zero, Nat.zero_add] $[$loc]?)
macro "fin" : tactic => `(tactic| (intros; (try norm); (try norm at *); first | done | grind | (split <;> grind) | skip))
macro "finr" : tactic => `(tactic| ((try norm); first | done | grind | skip))
set_option linter.unusedSimpArgs false in
set_option maxHeartbeats 4000000 in
theorem Inv.step {acc : Int → Prop} {s s' : St} (h : Inv s) (hs : Step acc s s') : Inv s' := by
  obtain ⟨h1,h2,h3,h4,h5,h6,h7,h8,h9,h10,h11,h12,h13,h14,h15⟩ := h
  have h16 : ∀ l b, replyW (s.objs l).phase = some b → s.tree = some l := fun l b hb => h8 l (replyW_alive hb)
  have h17 := pend_next h4 h5
  cases hs
  case shutdown =>
    (try norm at h5 h6 h7 h9 h10 h11 h15)
    (try norm at *)
    constructor
    case absent => fin
    case born => fin
    case notStuck => fin
    case treeLt => fin
    case refs => finr
    case excl => fin
    case exclR => fin
    case one => fin
    case cnt => fin
    case claimedN => fin
    case toN => fin
    case sess => fin
    case armed => fin
    case bd => fin
    case reply => fin
  case obtainFind =>
    (try norm at h5 h6 h7 h9 h10 h11 h15)
    (try norm at *)
    constructor
    case absent => fin
    case born => fin
    case notStuck => fin
    case treeLt => fin
    case refs => finr
    case excl => fin
    case exclR => fin
    case one => fin
    case cnt => fin
    case claimedN => fin
    case toN => fin
    case sess => fin
    case armed => fin
    case bd => fin
    case reply => fin
  case obtainCreate =>
    (try norm at h5 h6 h7 h9 h10 h11 h15)
    (try norm at *)
    constructor
    case refs => first | (exact refs_new ‹s.tree = none› h5) | (norm; refine ⟨trivial, ?_⟩; exact refs_new ‹s.tree = none› h5)
    case absent => fin
    case born => fin
    case notStuck => fin
    case treeLt => fin
    case excl => fin
    case exclR => fin
    case one => fin
    case cnt => fin
    case claimedN => fin
    case toN => fin
    case sess => fin
    case armed => fin
    case bd => fin
    case reply => fin
  case obtainRefused =>
    (try norm at h5 h6 h7 h9 h10 h11 h15)
    (try norm at *)
    constructor
    case refs => first | (exact refs_new ‹s.tree = none› h5) | (norm; refine ⟨trivial, ?_⟩; exact refs_new ‹s.tree = none› h5)
    case absent => fin
    case born => fin
    case notStuck => fin
    case treeLt => fin
    case excl => fin
    case exclR => fin
    case one => fin
    case cnt => fin
    case claimedN => fin
    case toN => fin
    case sess => fin
    case armed => fin
    case bd => fin
    case reply => fin
  case obtainRefusedLost =>
    (try norm at h5 h6 h7 h9 h10 h11 h15)
    (try norm at *)
    constructor
    case refs => first | (exact refs_new ‹s.tree = none› h5) | (norm; refine ⟨trivial, ?_⟩; exact refs_new ‹s.tree = none› h5)
    case absent => fin
    case born => fin
    case notStuck => fin
    case treeLt => fin
    case excl => fin
    case exclR => fin
    case one => fin
    case cnt => fin
    case claimedN => fin
    case toN => fin
    case sess => fin
    case armed => fin
    case bd => fin
    case reply => fin
  case obtainClosed =>
    simp only [‹s.threads = _›] at h5 h6 h7 h9 h10 h11 h15
    (try norm at h5 h6 h7 h9 h10 h11 h15)
    (try norm at *)
    constructor
    case absent => fin
    case born => fin
    case notStuck => fin
    case treeLt => fin
    case refs => finr
    case excl => fin
    case exclR => fin
    case one => fin
    case cnt => fin
    case claimedN => fin
    case toN => fin
    case sess => fin
    case armed => fin
    case bd => fin
    case reply => fin
  case claimSend =>
    simp only [‹s.threads = _›] at h5 h6 h7 h9 h10 h11 h15
    (try norm at h5 h6 h7 h9 h10 h11 h15)
    (try norm at *)
    constructor
    case absent => fin
    case born => fin
    case notStuck => fin
    case treeLt => fin
    case refs => finr
    case excl => fin
    case exclR => fin
    case one => fin
    case cnt => fin
    case claimedN => fin
    case toN => fin
    case sess => fin
    case armed => fin
    case bd => fin
    case reply => fin
  case claimDone =>
    simp only [‹s.threads = _›] at h5 h6 h7 h9 h10 h11 h15
    (try norm at h5 h6 h7 h9 h10 h11 h15)
    (try norm at *)
    constructor
    case absent => fin
    case born => fin
    case notStuck => fin
    case treeLt => fin
    case refs => finr
    case excl => fin
    case exclR => fin
    case one => fin
    case cnt => fin
    case claimedN => fin
    case toN => fin
    case sess => fin
    case armed => fin
    case bd => fin
    case reply => fin
  case disconnect =>
    simp only [‹s.threads = _›] at h5 h6 h7 h9 h10 h11 h15
    (try norm at h5 h6 h7 h9 h10 h11 h15)
    (try norm at *)
    constructor
    case absent => fin
    case born => fin
    case notStuck => fin
    case treeLt => fin
    case refs => finr
    case excl => fin
    case exclR => fin
    case one => fin
    case cnt => fin
    case claimedN => fin
    case toN => fin
    case sess => fin
    case armed => fin
    case bd => fin
    case reply => fin
  case leaveEnter =>
    simp only [‹s.threads = _›] at h5 h6 h7 h9 h10 h11 h15
    (try norm at h5 h6 h7 h9 h10 h11 h15)
    (try norm at *)
    constructor
    case absent => fin
    case born => fin
    case notStuck => fin
    case treeLt => fin
    case refs => finr
    case excl => fin
    case exclR => fin
    case one => fin
    case cnt => fin
    case claimedN => fin
    case toN => fin
    case sess => fin
    case armed => fin
    case bd => fin
    case reply => fin
  case leaveNone =>
    simp only [‹s.threads = _›] at h5 h6 h7 h9 h10 h11 h15
    (try norm at h5 h6 h7 h9 h10 h11 h15)
    (try norm at *)
    constructor
    case absent => fin
    case born => fin
    case notStuck => fin
    case treeLt => fin
    case refs => finr
    case excl => fin
    case exclR => fin
    case one => fin
    case cnt => fin
    case claimedN => fin
    case toN => fin
    case sess => fin
    case armed => fin
    case bd => fin
    case reply => fin
  case lostOuter =>
    simp only [‹s.threads = _›] at h5 h6 h7 h9 h10 h11 h15
    (try norm at h5 h6 h7 h9 h10 h11 h15)
    (try norm at *)
    constructor
    case absent => fin
    case born => fin
    case notStuck => fin
    case treeLt => fin
    case refs => finr
    case excl => fin
    case exclR => fin
    case one => fin
    case cnt => fin
    case claimedN => fin
    case toN => fin
    case sess => fin
    case armed => fin
    case bd => fin
    case reply => fin
  case lostOuterReply =>
    simp only [‹s.threads = _›] at h5 h6 h7 h9 h10 h11 h15
    (try norm at h5 h6 h7 h9 h10 h11 h15)
    (try norm at *)
    rename_i pre0 post0 l0 l1 b _ _
    have hd := refs_drop (tree := s.tree) (l := l1) (ts := pre0 ++ post0)
    norm at hd
    have hz := h15.1 l1 true
    cases b <;> simp only [if_true, if_false, Bool.false_eq_true]
    all_goals constructor <;> first | (norm; refine ⟨hd.1 ?_ ?_ ?_ ?_ ?_ ?_ ?_, hd.2 ?_ ?_ ?_ ?_ ?_ ?_ ?_⟩ <;> grind) | (solve | finr) | fin
  case lostHeld =>
    simp only [‹s.threads = _›] at h5 h6 h7 h9 h10 h11 h15
    (try norm at h5 h6 h7 h9 h10 h11 h15)
    (try norm at *)
    constructor
    case absent => fin
    case born => fin
    case notStuck => fin
    case treeLt => fin
    case refs => finr
    case excl => fin
    case exclR => fin
    case one => fin
    case cnt => fin
    case claimedN => fin
    case toN => fin
    case sess => fin
    case armed => fin
    case bd => fin
    case reply => fin
  case lostHeldReply =>
    simp only [‹s.threads = _›] at h5 h6 h7 h9 h10 h11 h15
    (try norm at h5 h6 h7 h9 h10 h11 h15)
    (try norm at *)
    constructor
    case absent => fin
    case born => fin
    case notStuck => fin
    case treeLt => fin
    case refs => finr
    case excl => fin
    case exclR => fin
    case one => fin
    case cnt => fin
    case claimedN => fin
    case toN => fin
    case sess => fin
    case armed => fin
    case bd => fin
    case reply => fin
  case lostClosed =>
    simp only [‹s.threads = _›] at h5 h6 h7 h9 h10 h11 h15
    (try norm at h5 h6 h7 h9 h10 h11 h15)
    (try norm at *)
    constructor
    case absent => fin
    case born => fin
    case notStuck => fin
    case treeLt => fin
    case refs => finr
    case excl => fin
    case exclR => fin
    case one => fin
    case cnt => fin
    case claimedN => fin
    case toN => fin
    case sess => fin
    case armed => fin
    case bd => fin
    case reply => fin
  case hbMissing =>
    (try norm at h5 h6 h7 h9 h10 h11 h15)
    (try norm at *)
    constructor
    case absent => fin
    case born => fin
    case notStuck => fin
    case treeLt => fin
    case refs => finr
    case excl => fin
    case exclR => fin
    case one => fin
    case cnt => fin
    case claimedN => fin
    case toN => fin
    case sess => fin
    case armed => fin
    case bd => fin
    case reply => fin
  case hbEnter =>
    (try norm at h5 h6 h7 h9 h10 h11 h15)
    (try norm at *)
    constructor
    case absent => fin
    case born => fin
    case notStuck => fin
    case treeLt => fin
    case refs => finr
    case excl => fin
    case exclR => fin
    case one => fin
    case cnt => fin
    case claimedN => fin
    case toN => fin
    case sess => fin
    case armed => fin
    case bd => fin
    case reply => fin
  case hbSend =>
    simp only [‹s.threads = _›] at h5 h6 h7 h9 h10 h11 h15
    (try norm at h5 h6 h7 h9 h10 h11 h15)
    (try norm at *)
    rename_i l0 sess0 _ _
    by_cases hb : (s.objs l0).session = some sess0 <;> simp only [hb, if_true, if_false, reduceCtorEq, Phase.hbReply.injEq, Phase.relReply.injEq]
    all_goals constructor <;> first | (norm; refine ⟨hd.1 ?_ ?_ ?_ ?_ ?_ ?_ ?_, hd.2 ?_ ?_ ?_ ?_ ?_ ?_ ?_⟩ <;> grind) | (solve | finr) | fin
  case hbAnswer =>
    simp only [‹s.threads = _›] at h5 h6 h7 h9 h10 h11 h15
    (try norm at h5 h6 h7 h9 h10 h11 h15)
    (try norm at *)
    constructor
    case absent => fin
    case born => fin
    case notStuck => fin
    case treeLt => fin
    case refs => finr
    case excl => fin
    case exclR => fin
    case one => fin
    case cnt => fin
    case claimedN => fin
    case toN => fin
    case sess => fin
    case armed => fin
    case bd => fin
    case reply => fin
  case hbClosed =>
    simp only [‹s.threads = _›] at h5 h6 h7 h9 h10 h11 h15
    (try norm at h5 h6 h7 h9 h10 h11 h15)
    (try norm at *)
    constructor
    case absent => fin
    case born => fin
    case notStuck => fin
    case treeLt => fin
    case refs => finr
    case excl => fin
    case exclR => fin
    case one => fin
    case cnt => fin
    case claimedN => fin
    case toN => fin
    case sess => fin
    case armed => fin
    case bd => fin
    case reply => fin
  case relMissing =>
    (try norm at h5 h6 h7 h9 h10 h11 h15)
    (try norm at *)
    constructor
    case absent => fin
    case born => fin
    case notStuck => fin
    case treeLt => fin
    case refs => finr
    case excl => fin
    case exclR => fin
    case one => fin
    case cnt => fin
    case claimedN => fin
    case toN => fin
    case sess => fin
    case armed => fin
    case bd => fin
    case reply => fin
  case relLookup =>
    (try norm at h5 h6 h7 h9 h10 h11 h15)
    (try norm at *)
    constructor
    case absent => fin
    case born => fin
    case notStuck => fin
    case treeLt => fin
    case refs => finr
    case excl => fin
    case exclR => fin
    case one => fin
    case cnt => fin
    case claimedN => fin
    case toN => fin
    case sess => fin
    case armed => fin
    case bd => fin
    case reply => fin
  case relGone =>
    simp only [‹s.threads = _›] at h5 h6 h7 h9 h10 h11 h15
    (try norm at h5 h6 h7 h9 h10 h11 h15)
    (try norm at *)
    constructor
    case absent => fin
    case born => fin
    case notStuck => fin
    case treeLt => fin
    case refs => finr
    case excl => fin
    case exclR => fin
    case one => fin
    case cnt => fin
    case claimedN => fin
    case toN => fin
    case sess => fin
    case armed => fin
    case bd => fin
    case reply => fin
  case relEnter =>
    simp only [‹s.threads = _›] at h5 h6 h7 h9 h10 h11 h15
    (try norm at h5 h6 h7 h9 h10 h11 h15)
    (try norm at *)
    constructor
    case absent => fin
    case born => fin
    case notStuck => fin
    case treeLt => fin
    case refs => finr
    case excl => fin
    case exclR => fin
    case one => fin
    case cnt => fin
    case claimedN => fin
    case toN => fin
    case sess => fin
    case armed => fin
    case bd => fin
    case reply => fin
  case relSend =>
    simp only [‹s.threads = _›] at h5 h6 h7 h9 h10 h11 h15
    (try norm at h5 h6 h7 h9 h10 h11 h15)
    (try norm at *)
    rename_i l0 sess0 _ _
    by_cases hb : (s.objs l0).session = some sess0 <;> simp only [hb, if_true, if_false, reduceCtorEq, Phase.hbReply.injEq, Phase.relReply.injEq]
    · by_cases hc : dec (s.objs l0).count = 0 <;> simp only [hc, if_true, if_false, reduceCtorEq] <;> constructor <;> first | finr | fin
    · constructor <;> first | finr | fin
  case relAnswer =>
    simp only [‹s.threads = _›] at h5 h6 h7 h9 h10 h11 h15
    (try norm at h5 h6 h7 h9 h10 h11 h15)
    (try norm at *)
    rename_i pre0 post0 l0 _ code _ _
    have hd := refs_drop (tree := s.tree) (l := l0) (ts := pre0 ++ post0)
    norm at hd
    have hz := h15.1 l0 true
    cases code <;> simp only [afterRelease, reduceCtorEq, if_true, if_false, decide_true, decide_false, Bool.false_eq_true]
    all_goals constructor <;> first | (norm; refine ⟨hd.1 ?_ ?_ ?_ ?_ ?_ ?_ ?_, hd.2 ?_ ?_ ?_ ?_ ?_ ?_ ?_⟩ <;> grind) | (solve | finr) | fin
  case relClosed =>
    simp only [‹s.threads = _›] at h5 h6 h7 h9 h10 h11 h15
    (try norm at h5 h6 h7 h9 h10 h11 h15)
    (try norm at *)
    constructor
    case absent => fin
    case born => fin
    case notStuck => fin
    case treeLt => fin
    case refs => finr
    case excl => fin
    case exclR => fin
    case one => fin
    case cnt => fin
    case claimedN => fin
    case toN => fin
    case sess => fin
    case armed => fin
    case bd => fin
    case reply => fin
  case tick =>
    (try norm at h5 h6 h7 h9 h10 h11 h15)
    (try norm at *)
    constructor
    case absent => fin
    case born => fin
    case notStuck => fin
    case treeLt => fin
    case refs => finr
    case excl => fin
    case exclR => fin
    case one => fin
    case cnt => fin
    case claimedN => fin
    case toN => fin
    case sess => fin
    case armed => fin
    case bd => fin
    case reply => fin
  case toEnter =>
    simp only [‹s.threads = _›] at h5 h6 h7 h9 h10 h11 h15
    (try norm at h5 h6 h7 h9 h10 h11 h15)
    (try norm at *)
    constructor
    case absent => fin
    case born => fin
    case notStuck => fin
    case treeLt => fin
    case refs => finr
    case excl => fin
    case exclR => fin
    case one => fin
    case cnt => fin
    case claimedN => fin
    case toN => fin
    case sess => fin
    case armed => fin
    case bd => fin
    case reply => fin
  case toNone =>
    simp only [‹s.threads = _›] at h5 h6 h7 h9 h10 h11 h15
    (try norm at h5 h6 h7 h9 h10 h11 h15)
    (try norm at *)
    constructor
    case absent => fin
    case born => fin
    case notStuck => fin
    case treeLt => fin
    case refs => finr
    case excl => fin
    case exclR => fin
    case one => fin
    case cnt => fin
    case claimedN => fin
    case toN => fin
    case sess => fin
    case armed => fin
    case bd => fin
    case reply => fin
  case toSend =>
    simp only [‹s.threads = _›] at h5 h6 h7 h9 h10 h11 h15
    (try norm at h5 h6 h7 h9 h10 h11 h15)
    (try norm at *)
    constructor
    case absent => fin
    case born => fin
    case notStuck => fin
    case treeLt => fin
    case refs => finr
    case excl => fin
    case exclR => fin
    case one => fin
    case cnt => fin
    case claimedN => fin
    case toN => fin
    case sess => fin
    case armed => fin
    case bd => fin
    case reply => fin
  case toAnswer =>
    simp only [‹s.threads = _›] at h5 h6 h7 h9 h10 h11 h15
    (try norm at h5 h6 h7 h9 h10 h11 h15)
    (try norm at *)
    rename_i pre0 post0 l1 b _ _
    have hd := refs_drop (tree := s.tree) (l := l1) (ts := pre0 ++ post0)
    norm at hd
    have hz := h15.1 l1 true
    cases b <;> simp only [if_true, if_false, Bool.false_eq_true]
    all_goals constructor <;> first | (norm; refine ⟨hd.1 ?_ ?_ ?_ ?_ ?_ ?_ ?_, hd.2 ?_ ?_ ?_ ?_ ?_ ?_ ?_⟩ <;> grind) | (solve | finr) | fin
  case ctx =>
    (try norm at h5 h6 h7 h9 h10 h11 h15)
    (try norm at *)
    constructor
    case absent => fin
    case born => fin
    case notStuck => fin
    case treeLt => fin
    case refs => finr
    case excl => fin
    case exclR => fin
    case one => fin
    case cnt => fin
    case claimedN => fin
    case toN => fin
    case sess => fin
    case armed => fin
    case bd => fin
    case reply => fin
  case ctxSend =>
    simp only [‹s.threads = _›] at h5 h6 h7 h9 h10 h11 h15
    (try norm at h5 h6 h7 h9 h10 h11 h15)
    (try norm at *)
    constructor
    case absent => fin
    case born => fin
    case notStuck => fin
    case treeLt => fin
    case refs => finr
    case excl => fin
    case exclR => fin
    case one => fin
    case cnt => fin
    case claimedN => fin
    case toN => fin
    case sess => fin
    case armed => fin
    case bd => fin
    case reply => fin
  case ctxAnswer =>
    simp only [‹s.threads = _›] at h5 h6 h7 h9 h10 h11 h15
    (try norm at h5 h6 h7 h9 h10 h11 h15)
    (try norm at *)
    rename_i pre0 post0 l1 b _ _
    have hd := refs_drop (tree := s.tree) (l := l1) (ts := pre0 ++ post0)
    norm at hd
    have hz := h15.1 l1 true
    cases b <;> simp only [if_true, if_false, Bool.false_eq_true]
    all_goals constructor <;> first | (norm; refine ⟨hd.1 ?_ ?_ ?_ ?_ ?_ ?_ ?_, hd.2 ?_ ?_ ?_ ?_ ?_ ?_ ?_⟩ <;> grind) | (solve | finr) | fin
end Willow.Locker
