import Verif.Proofs.LockerInv
namespace Willow.Locker
open Willow.LockerSpec
attribute [local grind =] sessOk 

/-- `liveSt` depends on the tree entry and its session only. -/
def liveOf (tree : Option LockId) (objs : LockId → Obj) : List Sess :=
  match tree with
  | none => []
  | some l => match (objs l).session with
    | none => []
    | some x => [x]

theorem liveSt_eq (s : St) : liveSt s = liveOf s.tree s.objs := rfl

theorem liveOf_some (objs : LockId → Obj) (l : LockId) : liveOf (some l) objs = (objs l).session.toList := by
  simp only [liveOf]; cases (objs l).session <;> rfl

theorem liveOf_none (objs : LockId → Obj) : liveOf none objs = [] := rfl

theorem liveOf_upd (tree : Option LockId) (objs : LockId → Obj) (l : LockId) (o : Obj) (h : o.session = (objs l).session) :
    liveOf tree (fun i => if i = l then o else objs i) = liveOf tree objs := by
  cases tree with
  | none => rfl
  | some t => simp only [liveOf_some]; split <;> simp_all

theorem live_step {acc : Int → Prop} {s s' : St} (h : Inv s) (hs : Step acc s s') (hl : live s.tr = liveSt s) :
    live s'.tr = liveSt s' := by
  rw [liveSt_eq] at hl ⊢
  have hdrop : ∀ l, s.tree = some l → sessOk (s.objs l).phase = false → liveOf s.tree s.objs = [] := by
    intro l h1 h2
    rw [h1, liveOf_some]
    cases hx : (s.objs l).session with
    | none => rfl
    | some x => have := (h.sess l (by simp [hx])).1; simp [h2] at this
  cases hs
  case shutdown => exact hl
  case obtainFind l _ _ _ _ => simpa [St.upd, St.thr, liveOf_upd] using hl
  case obtainCreate ht hf =>
    rw [ht, liveOf_none] at hl
    simp [St.upd, St.thr, liveOf_some, hl]
  case obtainRefused ht hf hd =>
    rw [ht, liveOf_none] at hl
    simp [St.upd, St.log, liveOf_some, hl, live]
  case obtainRefusedLost ht hf hd =>
    rw [ht, liveOf_none] at hl
    simp [St.upd, St.thr, liveOf_some, hl]
  case obtainClosed => exact hl
  case claimSend => simpa [St.upd, St.thr, liveOf_upd] using hl
  case claimDone pre post l timeout sess ht hp hf =>
    have hr := h.one l (by simp [hp, alive])
    have := hdrop l hr (by simp [hp, sessOk])
    rw [this] at hl
    simp [St.upd, St.thr, St.log, live, hl, hr, liveOf_some, claim]
  case disconnect => exact hl
  case leaveEnter => exact hl
  case leaveNone => exact hl
  case lostOuter => simpa [St.upd, St.thr, liveOf_upd, lostOuter] using hl
  case lostOuterReply pre post l l' b ht hp =>
    have hr := h.one l' (by simp [hp, alive])
    have := hdrop l' hr (by simp [hp, sessOk])
    rw [this] at hl
    cases b with
    | true => simp [St.upd, St.thr, St.log, St.drop, live, hl, liveOf_none]
    | false => simp [St.upd, St.thr, St.log, St.drop, live, hl, liveOf_upd, this]
  case lostHeld => simpa [St.upd, St.thr, liveOf_upd, lostHeld] using hl
  case lostHeldReply => simpa [St.upd, St.thr, St.log, live, liveOf_upd] using hl
  case lostClosed => exact hl
  case hbMissing => exact hl
  case hbEnter => exact hl
  case hbSend pre post l sess ht hp =>
    have : (heartbeat (s.objs l) sess).session = (s.objs l).session := by unfold heartbeat; split <;> rfl
    split <;> simpa [St.upd, St.thr, St.log, live, liveOf_upd, this] using hl
  case hbAnswer pre post l sess b ht hp =>
    cases b <;> simpa [St.upd, St.thr, St.log, live, liveOf_upd] using hl
  case hbClosed => exact hl
  case relMissing => exact hl
  case relLookup => exact hl
  case relGone => exact hl
  case relEnter => exact hl
  case relSend pre post l' sess ht hp =>
    by_cases hb : (s.objs l').session = some sess
    · have hr := h.one l' (by simp [hp, alive])
      rw [hr, liveOf_some, hb] at hl
      have hne : (release (s.objs l') sess).phase ≠ .relReply .failed := by
        simp only [release, hb, if_true]; split <;> simp
      rw [if_neg hne]
      simp [St.upd, St.thr, St.log, live, hl, hr, liveOf_some, release, hb]
    · simp only [release, hb, if_false, if_true]
      simpa [St.upd, St.thr, liveOf_upd] using hl
  case relAnswer pre post l' sess code ht hp =>
    cases code with
    | failed => simpa [St.upd, St.thr, St.log, St.drop, live, liveOf_upd] using hl
    | processed => simpa [St.upd, St.thr, St.log, St.drop, live, liveOf_upd] using hl
    | destroy =>
      have hr := h.one l' (by simp [hp, alive])
      have := hdrop l' hr (by simp [hp, sessOk])
      simpa [St.upd, St.thr, St.log, St.drop, live, liveOf_none, this] using hl
  case relClosed => exact hl
  case tick l hp ha =>
    have hr := h.one l (by simp [hp, alive])
    have hne := h.armed l ha (by simp [hp, inner])
    obtain ⟨x, hx⟩ := Option.ne_none_iff_exists'.mp hne
    rw [hr, liveOf_some, hx] at hl
    simp [St.upd, St.thr, St.log, live, hl, hr, liveOf_some, tick, hx]
  case toEnter => exact hl
  case toNone => exact hl
  case toSend pre post l' ht hp =>
    have : (timedOut (s.objs l')).session = (s.objs l').session := by unfold timedOut; split <;> rfl
    simpa [St.upd, St.thr, liveOf_upd, this] using hl
  case toAnswer pre post l' b ht hp =>
    have hr := h.one l' (by simp [hp, alive])
    have := hdrop l' hr (by simp [hp, sessOk])
    rw [this] at hl
    cases b with
    | true => simp [St.upd, St.thr, St.log, St.drop, live, hl, liveOf_none]
    | false => simp [St.upd, St.thr, St.log, St.drop, live, hl, liveOf_upd, this]
  case ctx l hd hp =>
    have : (ctxDone (s.objs l)).session = (s.objs l).session := by unfold ctxDone; split <;> rfl
    simpa [St.upd, liveOf_upd, this] using hl
  case ctxSend => simpa [St.upd, St.thr, liveOf_upd, ctxTimedOut] using hl
  case ctxAnswer pre post l' b ht hp =>
    have hr := h.one l' (by simp [hp, alive])
    have := hdrop l' hr (by simp [hp, sessOk])
    rw [this] at hl
    cases b with
    | true => simp [St.upd, St.thr, St.log, St.drop, live, hl, liveOf_none]
    | false => simp [St.upd, St.thr, St.log, St.drop, live, hl, liveOf_upd, this]

/-- The trace grows by at most one event. -/
theorem tr_step {acc : Int → Prop} {s s' : St} (hs : Step acc s s') : s'.tr = s.tr ∨ ∃ e, s'.tr = e :: s.tr := by
  cases hs <;> simp only [St.upd, St.thr, St.log, St.drop] <;> (try split) <;> simp

end Willow.Locker
