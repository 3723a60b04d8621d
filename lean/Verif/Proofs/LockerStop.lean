import Verif.Spec.LockerStop
import Verif.Proofs.LockerFacts
import Verif.Proofs.LockerCount
namespace Willow.Locker
open Willow.LockerSpec

/-- Work a thread can still cause. -/
def tw : Thread → Nat
  | .waiting .. => 20
  | .claimed .. => 19
  | .leaving _ | .relFound .. | .toWant _ => 3
  | .leavingIn .. | .hbIn .. | .relIn .. | .toIn _ => 2
  | .leavingResp .. | .hbResp .. | .relResp .. | .toResp _ => 1

def pw : Phase → Nat
  | .held | .heldReply | .hbReply _ | .relReply _ | .toReply _ => 2
  | .ctxWait | .ctxReply _ => 1
  | _ => 0

/-- Work a lock can still do by itself. -/
def ow (o : Obj) : Nat := (if o.armed then 8 else 0) + pw o.phase

def owTree (tree : Option LockId) (objs : LockId → Obj) : Nat :=
  match tree with
  | none => 0
  | some l => ow (objs l)

theorem owTree_some (l : LockId) (objs : LockId → Obj) : owTree (some l) objs = ow (objs l) := rfl
theorem owTree_none (objs : LockId → Obj) : owTree none objs = 0 := rfl

def mu (s : St) : Nat := (s.threads.map tw).sum + owTree s.tree s.objs

section
variable {acc : Int → Prop} {s s' : St}

theorem ow_heartbeat {o : Obj} {x : Sess} (hp : o.phase = .held) (ha : o.session ≠ none → o.armed = true) :
    ow (heartbeat o x) = ow o := by
  unfold heartbeat
  split
  · rename_i h
    simp [ow, pw, hp, ha (by simp [h])]
  · simp [ow, pw, hp]

theorem ow_release {o : Obj} {x : Sess} (hp : o.phase = .held) : ow (release o x) ≤ ow o := by
  unfold release
  split
  · simp only [ow, pw, hp]; simp
  · simp [ow, pw, hp]

/-- Every step brings a new request, changes nothing or leaves less work. -/
theorem mu_step (g : Good acc s) (hs : Step acc s s') (hd : s'.down = s.down) (ha : asked s' = asked s) (hne : s' ≠ s) :
    mu s' < mu s := by
  have tree_of : ∀ {l : LockId}, alive (s.objs l).phase = true → s.tree = some l := fun {l} h => g.i1.one l h
  cases hs
  case shutdown => exact absurd (by cases s; simp_all) hne
  case obtainFind => simp [asked, unanswered, answers, St.upd, St.thr, List.countP_cons, forClient] at ha
  case obtainCreate => simp [asked, unanswered, answers, St.upd, St.thr, List.countP_cons, forClient] at ha
  case obtainRefused => simp [asked, unanswered, answers, St.upd, St.log, List.countP_cons, isAnswer] at ha
  case obtainRefusedLost => simp [asked, unanswered, answers, St.upd, St.thr, List.countP_cons, forClient] at ha
  case hbMissing => simp [asked, unanswered, answers, St.log, List.countP_cons, isAnswer] at ha
  case hbEnter => simp [asked, unanswered, answers, St.thr, List.countP_cons, forClient] at ha
  case relMissing => simp [asked, unanswered, answers, St.log, List.countP_cons, isAnswer] at ha
  case relLookup => simp [asked, unanswered, answers, St.thr, List.countP_cons, forClient] at ha
  case obtainClosed pre post l i ht hp => simp [mu, ht, St.thr, St.log, tw]
  case claimSend pre post l i ht hp =>
    have e := tree_of (l := l) (by rw [hp]; rfl)
    simp [mu, ht, St.thr, St.upd, e, owTree_some, ow, pw, hp, tw]
  case claimDone pre post l i x ht hp hf =>
    have e := tree_of (l := l) (by rw [hp]; rfl)
    simp only [mu, ht, St.thr, St.upd, St.log, e, owTree_some, ow, claim, tickerPhase, hp, tw, if_true, List.map_append,
      List.map_cons, List.sum_append, List.sum_cons]
    split <;> simp only [pw] <;> omega
  case disconnect pre post l i ht => simp [mu, ht, St.thr, tw]
  case leaveEnter pre post l l' ht hf h => simp [mu, ht, St.thr, tw]
  case leaveNone pre post l ht hf h => simp [mu, ht, St.thr, St.log, tw]
  case lostOuter pre post l l' ht hp =>
    have e := tree_of (l := l') (by rw [hp]; rfl)
    simp [mu, ht, St.thr, St.upd, e, owTree_some, ow, pw, hp, tw, lostOuter]
  case lostOuterReply pre post l l' b ht hp =>
    have e := tree_of (l := l') (by rw [hp]; rfl)
    cases b <;> simp [mu, ht, St.thr, St.upd, St.log, St.drop, e, owTree_some, owTree_none, ow, pw, hp, tw] <;> omega
  case lostHeld pre post l l' ht hp =>
    have e := tree_of (l := l') (by rw [hp]; rfl)
    have : ow (lostHeld (s.objs l')) ≤ ow (s.objs l') := by
      have : pw (if dec (s.objs l').count = 0 then Phase.panicked else .heldReply) ≤ 2 := by split <;> simp [pw]
      show (if (s.objs l').armed then 8 else 0) + pw _ ≤ (if (s.objs l').armed then 8 else 0) + pw (s.objs l').phase
      rw [hp]
      exact Nat.add_le_add_left this _
    simp [mu, ht, St.thr, St.upd, e, owTree_some, tw]; omega
  case lostHeldReply pre post l l' ht hp =>
    have e := tree_of (l := l') (by rw [hp]; rfl)
    simp [mu, ht, St.thr, St.upd, St.log, e, owTree_some, ow, pw, hp, tw]
  case lostClosed pre post l l' ht hp => simp [mu, ht, St.thr, St.log, tw]
  case hbSend pre post l x ht hp =>
    have e := tree_of (l := l) (by rw [hp]; rfl)
    have h1 := ow_heartbeat (x := x) hp (g.i3.armedI l (by rw [hp]; rfl))
    split <;> simp [mu, ht, St.thr, St.upd, St.log, e, owTree_some, h1, tw]
  case hbAnswer pre post l x b ht hp =>
    have e := tree_of (l := l) (by rw [hp]; rfl)
    simp [mu, ht, St.thr, St.upd, St.log, e, owTree_some, ow, pw, hp, tw]
  case hbClosed pre post l x ht hp => simp [mu, ht, St.thr, St.log, tw]
  case relGone pre post l x ht hf h => simp [mu, ht, St.thr, St.log, tw]
  case relEnter pre post l x l' ht hf h => simp [mu, ht, St.thr, tw]
  case relSend pre post l x ht hp =>
    have e := tree_of (l := l) (by rw [hp]; rfl)
    have h1 := ow_release (x := x) hp
    split <;> simp [mu, ht, St.thr, St.upd, St.log, e, owTree_some, tw] <;> omega
  case relAnswer pre post l x c ht hp =>
    have e := tree_of (l := l) (by rw [hp]; rfl)
    cases c <;> simp [mu, ht, St.thr, St.upd, St.log, St.drop, e, owTree_some, owTree_none, ow, pw, hp, tw, afterRelease] <;> omega
  case relClosed pre post l x ht hp => simp [mu, ht, St.thr, St.log, tw]
  case tick l hp ha =>
    have e := tree_of (l := l) (by rw [hp]; rfl)
    simp only [mu, St.thr, St.upd, St.log, e, owTree_some, ow, tick, hp, ha, tw, if_true, List.map_cons, List.sum_cons,
      Bool.false_eq_true, if_false]
    split <;> simp only [pw] <;> omega
  case toEnter pre post l l' ht hf h => simp [mu, ht, St.thr, tw]
  case toNone pre post l ht hf h => simp [mu, ht, St.thr, tw]
  case toSend pre post l ht hp =>
    have e := tree_of (l := l) (by rw [hp]; rfl)
    have : ow (timedOut (s.objs l)) ≤ ow (s.objs l) := by
      unfold timedOut; split <;> simp [ow, pw, hp]
    simp [mu, ht, St.thr, St.upd, e, owTree_some, tw]; omega
  case toAnswer pre post l b ht hp =>
    have e := tree_of (l := l) (by rw [hp]; rfl)
    cases b <;> simp [mu, ht, St.thr, St.upd, St.log, St.drop, e, owTree_some, owTree_none, ow, pw, hp, tw] <;> omega
  case ctx l hd hp =>
    have e := tree_of (l := l) (by rw [hp]; rfl)
    have : ow (ctxDone (s.objs l)) < ow (s.objs l) := by
      unfold ctxDone; split <;> simp [ow, pw, hp]
    simp [mu, St.upd, e, owTree_some]; omega
  case ctxSend pre post l ht hp =>
    have e := tree_of (l := l) (by rw [hp]; rfl)
    simp [mu, ht, St.thr, St.upd, e, owTree_some, ow, pw, hp, tw, ctxTimedOut]
  case ctxAnswer pre post l b ht hp =>
    have e := tree_of (l := l) (by rw [hp]; rfl)
    cases b <;> simp [mu, ht, St.thr, St.upd, St.log, St.drop, e, owTree_some, owTree_none, ow, pw, hp, tw] <;> omega

theorem down_step (hs : Step acc s s') (hd : s.down = true) : s'.down = true := by
  cases hs <;> (try split) <;> first | rfl | exact hd

theorem goes_path (g : Good acc s) (hd : s.down = true) {n : Nat} (h : Path (Goes acc) s n) : n ≤ mu s := by
  induction h with
  | nil => exact Nat.zero_le _
  | cons hg _ ih =>
    have := mu_step g hg.1 ((down_step hg.1 hd).trans hd.symm) hg.2.1 hg.2.2
    have := ih (g.step hg.1) (down_step hg.1 hd)
    omega


macro "cntr" ht:term : tactic => `(tactic| (simp [asked, unanswered, answers, disconnected, St.upd, St.thr, St.log, St.drop, $ht:term,
  List.countP_append, List.countP_cons, forClient, isAnswer, isGone, isLeft] <;> omega))

/-- The step takes thread `t` away or moves it on, so something happened. -/
theorem ne_threads {s s' : St} (h : s'.threads ≠ s.threads) : s' ≠ s := fun e => h (by rw [e])

theorem holder_cases (g : Good acc s) {l : LockId} (ht : s.tree = some l) {t : Thread} (hm : t ∈ s.threads)
    (hh : t.holdsW = true ∨ t.holdsR = true) :
    (∃ l0, t = .leavingIn l0 l) ∨ (∃ x, t = .relIn l x) ∨ (∃ x, t = .hbIn l x) ∨ t = .toIn l ∨
      isReply (s.objs l).phase = true := by
  have href := g.i1.refs _ hm
  rw [ht] at href
  have hr := g.i2.respN l
  have hresp : isResp l t = true → isReply (s.objs l).phase = true := fun h => by
    have := resp_pos (l := l) hm h
    rw [hr] at this
    split at this
    · assumption
    · omega
  cases t <;> simp [Thread.holdsW, Thread.holdsR] at hh <;> simp [refOk] at href
  case leavingIn l0 l' => obtain ⟨rfl, rfl⟩ := href; exact .inl ⟨_, rfl⟩
  case leavingResp l0 l' => obtain ⟨rfl, rfl⟩ := href; exact .inr (.inr (.inr (.inr (hresp (by simp [isResp])))))
  case hbIn l' x => subst href; exact .inr (.inr (.inl ⟨_, rfl⟩))
  case hbResp l' x => subst href; exact .inr (.inr (.inr (.inr (hresp (by simp [isResp])))))
  case relIn l' x => subst href; exact .inr (.inl ⟨_, rfl⟩)
  case relResp l' x => subst href; exact .inr (.inr (.inr (.inr (hresp (by simp [isResp])))))
  case toIn l' => subst href; exact .inr (.inr (.inr (.inl rfl)))
  case toResp l' => subst href; exact .inr (.inr (.inr (.inr (hresp (by simp [isResp])))))

theorem free_or_holder (ts : List Thread) : free ts ∨ ∃ t ∈ ts, t.holdsW = true ∨ t.holdsR = true := by
  by_cases h : free ts
  · exact .inl h
  · right
    unfold free at h
    simp only [Classical.not_forall] at h
    obtain ⟨t, hm, h⟩ := h
    refine ⟨t, hm, ?_⟩
    cases hw : t.holdsW <;> cases hr : t.holdsR <;> simp_all

theorem free_sub {ts pre post : List Thread} {t : Thread} (e : ts = pre ++ t :: post) (h : free ts) : free (pre ++ post) :=
  fun x hx => h x (by rw [e]; simp at hx ⊢; rcases hx with hx | hx <;> simp [hx])

/-- A service told to stop in which nothing happens any more came to its end, or it hangs in one of the three ways. -/
theorem blocked (hpos : ∀ x, acc x → 0 < x) (hr : Reach acc {} s) (hd : s.down = true) (hb : ∀ s', ¬ Works acc s s') :
    AllEnded s ∨ Hangs s := by
  have g := good_of_reach hr
  have i4 := inv4_of_reach hr
  have hnp := no_panic hpos (Good.init acc) hr (by simp)
  have nb : ∀ s', Step acc s s' → asked s' = asked s → disconnected s' = disconnected s → s'.threads ≠ s.threads → False :=
    fun s' h1 h2 h3 h4 => hb s' ⟨⟨h1, h2, ne_threads h4⟩, h3⟩
  have dead : ∀ l, s.tree ≠ some l → (s.objs l).phase = .absent ∨ (s.objs l).phase = .exited ∨
      (s.objs l).phase = .notRunning := fun l h => by
    have h1 : alive (s.objs l).phase ≠ true := fun h' => h (g.i1.one l h')
    have h2 := g.i1.notStuck l
    revert h1 h2
    cases (s.objs l).phase <;> simp [alive]
  cases htree : s.tree with
  | none =>
    left
    refine ⟨?_, fun l => dead l (by simp [htree])⟩
    have hall : ∀ t ∈ s.threads, ∃ l x, t = .relFound l x := fun t hm => by
      have := g.i1.refs _ hm
      rw [htree] at this
      cases t <;> simp [refOk] at this
      exact ⟨_, _, rfl⟩
    have hf : free s.threads := fun t hm => by obtain ⟨l, x, rfl⟩ := hall t hm; exact ⟨rfl, rfl⟩
    apply Classical.byContradiction
    intro hne
    obtain ⟨t, hm⟩ := List.exists_mem_of_ne_nil _ hne
    obtain ⟨pre, post, e⟩ := List.append_of_mem hm
    obtain ⟨l, x, rfl⟩ := hall t hm
    exact nb _ (.relGone s pre post l x e (free_sub e hf) htree) (by cntr e) (by cntr e)
      (by simp [e, St.thr, St.log])
  | some l =>
    have htoW : ∀ t ∈ s.threads, isTo l t = true → (s.objs l).blockDone = true ∨ (s.objs l).phase = .ctxWait := fun t hm h => by
      have h1 := g.i1.toN l
      have h2 : 0 < s.threads.countP (isTo l) := List.countP_pos_iff.mpr ⟨t, hm, h⟩
      rw [h1] at h2
      split at h2
      · assumption
      · omega
    cases hp : (s.objs l).phase with
    | absent => exact absurd hp (g.i1.born l (g.i1.treeLt l htree))
    | stuck => exact absurd hp (g.i1.notStuck l)
    | panicked => exact absurd hp (hnp l)
    | notRunning =>
      by_cases h0 : s.threads = []
      · left
        refine ⟨h0, fun l' => ?_⟩
        by_cases h : l' = l
        · subst h; exact .inr (.inr hp)
        · exact dead l' (by rw [htree]; simpa using fun e => h e.symm)
      · exact .inr (.refused l htree hp h0)
    | held =>
      refine absurd ?_ (hb (s.upd l (ctxDone (s.objs l))))
      refine ⟨⟨.ctx s l hd hp, rfl, fun h => ?_⟩, rfl⟩
      have := congrArg (fun s => (s.objs l).phase) h
      simp only [St.upd, if_true, hp] at this
      revert this
      unfold ctxDone
      split <;> simp
    | claiming =>
      have h1 := g.i1.claimedN l
      rw [if_pos hp] at h1
      obtain ⟨t, hm, ht⟩ := List.countP_pos_iff.mp (by rw [h1]; exact Nat.one_pos : 0 < s.threads.countP (isClaimed l))
      obtain ⟨pre, post, e⟩ := List.append_of_mem hm
      cases t <;> simp [isClaimed] at ht
      subst ht
      obtain ⟨x, hx⟩ := exists_fresh s.tr
      exact (nb _ (.claimDone s pre post _ _ x e hp hx) (by cntr e) (by cntr e) (by simp [e, St.thr, St.log])).elim
    | outerReply b =>
      obtain ⟨pre, l0, post, e⟩ := resp_lv (l := l) g (by rw [hp]; rfl)
      exact (nb _ (.lostOuterReply s pre post l0 l b e hp) (by cntr e) (by cntr e) (by simp [e, St.thr, St.log, St.drop])).elim
    | heldReply =>
      obtain ⟨pre, l0, post, e⟩ := resp_lv (l := l) g (by rw [hp]; rfl)
      exact (nb _ (.lostHeldReply s pre post l0 l e hp) (by cntr e) (by cntr e) (by simp [e, St.thr, St.log])).elim
    | hbReply b =>
      obtain ⟨pre, x, post, e⟩ := resp_hb (l := l) g hp
      exact (nb _ (.hbAnswer s pre post l x b e hp) (by cases b <;> cntr e) (by cases b <;> cntr e)
        (by simp [e, St.thr, St.log])).elim
    | relReply c =>
      obtain ⟨pre, x, post, e⟩ := resp_rel (l := l) g hp
      exact (nb _ (.relAnswer s pre post l x c e hp) (by cases c <;> cntr e) (by cases c <;> cntr e)
        (by simp [e, St.thr, St.log, St.drop])).elim
    | toReply b =>
      obtain ⟨pre, post, e⟩ := resp_to (l := l) g (by rw [hp]; rfl)
      exact (nb _ (.toAnswer s pre post l b e hp) (by cntr e) (by cntr e) (by simp [e, St.thr, St.log, St.drop])).elim
    | ctxReply b =>
      obtain ⟨pre, post, e⟩ := resp_to (l := l) g (by rw [hp]; rfl)
      exact (nb _ (.ctxAnswer s pre post l b e hp) (by cntr e) (by cntr e) (by simp [e, St.thr, St.log, St.drop])).elim
    | ctxWait =>
      right
      have h1 := g.i1.toN l
      rw [if_pos (.inr hp)] at h1
      have hin : ¬ ∃ l', .toIn l' ∈ s.threads := fun ⟨l', hm⟩ => by
        obtain ⟨pre, post, e⟩ := List.append_of_mem hm
        have href := g.i1.refs _ hm
        rw [htree] at href
        cases href
        exact nb _ (.ctxSend s pre post _ e hp) (by cntr e) (by cntr e) (by simp [e, St.thr, St.upd])
      obtain ⟨t, hm, ht⟩ := List.countP_pos_iff.mp (by rw [h1]; exact Nat.one_pos : 0 < s.threads.countP (isTo l))
      obtain ⟨pre, post, e⟩ := List.append_of_mem hm
      cases t <;> simp [isTo] at ht
      case toIn => exact absurd ⟨_, hm⟩ hin
      subst ht
      rcases free_or_holder s.threads with hf | ⟨t, hm', hh⟩
      · exact (nb _ (.toEnter s pre post _ _ e (free_sub e hf) htree) (by cntr e) (by cntr e) (by simp [e, St.thr])).elim
      · refine .timeout _ htree hp ⟨t, hm', ?_⟩
        rcases holder_cases g htree hm' hh with ⟨l0, rfl⟩ | ⟨x, rfl⟩ | ⟨x, rfl⟩ | rfl | h
        · exact .inr (by simp [insideLost])
        · exact .inl (by simp [insideLock])
        · exact .inl (by simp [insideLock])
        · exact absurd ⟨_, hm'⟩ hin
        · rw [hp] at h; simp [isReply] at h
    | outer =>
      right
      have hnto : ∀ l', .toIn l' ∉ s.threads := fun l' hm => by
        have href := g.i1.refs _ hm
        rw [htree] at href
        cases href
        rcases htoW _ hm (by simp [isTo]) with h | h
        · have := (g.i1.bd _ h).1; rw [hp] at this; simp [inner] at this
        · rw [hp] at h; cases h
      have hnlv : ∀ l0, .leavingIn l0 l ∉ s.threads := fun l0 hm => by
        obtain ⟨pre, post, e⟩ := List.append_of_mem hm
        exact nb _ (.lostOuter s pre post l0 l e hp) (by cntr e) (by cntr e) (by simp [e, St.thr, St.upd])
      have hin : (∃ t ∈ s.threads, t.holdsW = true ∨ t.holdsR = true) → ∃ t ∈ s.threads, insideLock l t = true := by
        rintro ⟨t, hm', hh⟩
        refine ⟨t, hm', ?_⟩
        rcases holder_cases g htree hm' hh with ⟨l0, rfl⟩ | ⟨x, rfl⟩ | ⟨x, rfl⟩ | rfl | h
        · exact absurd hm' (hnlv _)
        · simp [insideLock]
        · simp [insideLock]
        · exact absurd hm' (hnto _)
        · rw [hp] at h; simp [isReply] at h
      have hc := i4.outerC l hp
      rw [g.i1.cnt l (by rw [hp]; rfl), hp] at hc
      obtain ⟨t, hm, ht⟩ := List.countP_pos_iff.mp (by simp only [hold] at hc; omega : 0 < s.threads.countP (pend l))
      obtain ⟨pre, post, e⟩ := List.append_of_mem hm
      cases t <;> simp [pend] at ht <;> subst ht
      case waiting =>
        exact (nb _ (.claimSend s pre post _ _ e hp) (by cntr e) (by cntr e) (by simp [e, St.thr, St.upd])).elim
      case leaving =>
        rcases free_or_holder s.threads with hf | hh
        · exact (nb _ (.leaveEnter s pre post _ _ e (free_sub e hf) htree) (by cntr e) (by cntr e) (by simp [e, St.thr])).elim
        · exact .unheld _ htree hp (hin hh)
      case leavingIn l' =>
        have href := g.i1.refs _ hm
        obtain ⟨rfl, _⟩ := href
        exact absurd hm (hnlv _)
    | exited =>
      left
      have hnbd : ¬ ((s.objs l).blockDone = true ∨ (s.objs l).phase = .ctxWait) := by
        rintro (h | h)
        · have := (g.i1.bd _ h).1; rw [hp] at this; simp [inner] at this
        · rw [hp] at h; cases h
      have hf : free s.threads := by
        rcases free_or_holder s.threads with hf | ⟨t, hm', hh⟩
        · exact hf
        · obtain ⟨pre, post, e⟩ := List.append_of_mem hm'
          rcases holder_cases g htree hm' hh with ⟨l0, rfl⟩ | ⟨x, rfl⟩ | ⟨x, rfl⟩ | rfl | h
          · exact (nb _ (.lostClosed s pre post _ _ e hp) (by cntr e) (by cntr e) (by simp [e, St.thr, St.log])).elim
          · exact (nb _ (.relClosed s pre post _ _ e hp) (by cntr e) (by cntr e) (by simp [e, St.thr, St.log])).elim
          · exact (nb _ (.hbClosed s pre post _ _ e hp) (by cntr e) (by cntr e) (by simp [e, St.thr, St.log])).elim
          · exact absurd (htoW _ hm' (by simp [isTo])) hnbd
          · rw [hp] at h; simp [isReply] at h
      refine ⟨?_, fun l' => ?_⟩
      · apply Classical.byContradiction
        intro hne
        obtain ⟨t, hm⟩ := List.exists_mem_of_ne_nil _ hne
        obtain ⟨pre, post, e⟩ := List.append_of_mem hm
        have href := g.i1.refs _ hm
        have hff := hf t hm
        rw [htree] at href
        cases t <;> simp [Thread.holdsW, Thread.holdsR] at hff <;> simp [refOk] at href
        case waiting => subst href; exact nb _ (.obtainClosed s pre post _ _ e hp) (by cntr e) (by cntr e) (by simp [e, St.thr, St.log])
        case claimed l' i =>
          subst href
          have h1 := g.i1.claimedN l
          have h2 : 0 < s.threads.countP (isClaimed l) := List.countP_pos_iff.mpr ⟨_, hm, by simp [isClaimed]⟩
          rw [h1, if_neg (by rw [hp]; simp)] at h2
          omega
        case leaving => exact nb _ (.leaveEnter s pre post _ _ e (free_sub e hf) htree) (by cntr e) (by cntr e) (by simp [e, St.thr])
        case relFound => exact nb _ (.relEnter s pre post _ _ _ e (free_sub e hf) htree) (by cntr e) (by cntr e) (by simp [e, St.thr])
        case toWant => subst href; exact absurd (htoW _ hm (by simp [isTo])) hnbd
      · by_cases h : l' = l
        · subst h; exact .inr (.inl hp)
        · exact dead l' (by rw [htree]; simpa using fun e => h e.symm)

/-- Nothing but waiting clients and timeouts; no lock was refused. -/
structure Calm (s : St) : Prop where
  started : ∀ l, (s.objs l).phase ≠ .notRunning
  thr : ∀ t ∈ s.threads, plain t = true

theorem Calm.step (c : Calm s) (h : Works acc s s') : Calm s' := by
  obtain ⟨⟨hs, ha, -⟩, hd⟩ := h
  have upd : ∀ (l : LockId) (o : Obj), o.phase ≠ .notRunning →
      ∀ j, ((fun i => if i = l then o else s.objs i) j).phase ≠ .notRunning := by
    intro l o ho j; dsimp only; split
    · exact ho
    · exact c.started j
  have no : ∀ {pre post : List Thread} {t : Thread}, s.threads = pre ++ t :: post → plain t = false → False :=
    fun {pre post t} e h => by have := c.thr t (by rw [e]; simp); rw [h] at this; cases this
  have mv : ∀ {pre post : List Thread} {t t' : Thread}, s.threads = pre ++ t :: post → plain t' = true →
      ∀ x ∈ pre ++ t' :: post, plain x = true := fun {pre post t t'} e h x hx => by
    simp at hx
    rcases hx with hx | rfl | hx
    · exact c.thr x (by rw [e]; simp [hx])
    · exact h
    · exact c.thr x (by rw [e]; simp [hx])
  have rm : ∀ {pre post : List Thread} {t : Thread}, s.threads = pre ++ t :: post →
      ∀ x ∈ pre ++ post, plain x = true := fun {pre post t} e x hx => by
    simp at hx
    rcases hx with hx | hx
    · exact c.thr x (by rw [e]; simp [hx])
    · exact c.thr x (by rw [e]; simp [hx])
  cases hs
  case shutdown => exact ⟨c.started, c.thr⟩
  case obtainFind => simp [asked, unanswered, answers, St.upd, St.thr, List.countP_cons, forClient] at ha
  case obtainCreate => simp [asked, unanswered, answers, St.upd, St.thr, List.countP_cons, forClient] at ha
  case obtainRefused => simp [asked, unanswered, answers, St.upd, St.log, List.countP_cons, isAnswer] at ha
  case obtainRefusedLost => simp [asked, unanswered, answers, St.upd, St.thr, List.countP_cons, forClient] at ha
  case hbMissing => simp [asked, unanswered, answers, St.log, List.countP_cons, isAnswer] at ha
  case hbEnter => simp [asked, unanswered, answers, St.thr, List.countP_cons, forClient] at ha
  case relMissing => simp [asked, unanswered, answers, St.log, List.countP_cons, isAnswer] at ha
  case relLookup => simp [asked, unanswered, answers, St.thr, List.countP_cons, forClient] at ha
  case disconnect e => simp [disconnected, St.thr, e, List.countP_append, List.countP_cons, isGone] at hd
  case leaveEnter e _ _ => exact (no e rfl).elim
  case leaveNone e _ _ => exact (no e rfl).elim
  case lostOuter e _ => exact (no e rfl).elim
  case lostOuterReply e _ => exact (no e rfl).elim
  case lostHeld e _ => exact (no e rfl).elim
  case lostHeldReply e _ => exact (no e rfl).elim
  case lostClosed e _ => exact (no e rfl).elim
  case hbSend e _ => exact (no e rfl).elim
  case hbAnswer e _ => exact (no e rfl).elim
  case hbClosed e _ => exact (no e rfl).elim
  case relGone e _ _ => exact (no e rfl).elim
  case relEnter e _ _ => exact (no e rfl).elim
  case relSend e _ => exact (no e rfl).elim
  case relAnswer e _ => exact (no e rfl).elim
  case relClosed e _ => exact (no e rfl).elim
  case obtainClosed e _ => exact ⟨c.started, rm e⟩
  case claimSend e _ => exact ⟨upd _ _ (by simp), mv e rfl⟩
  case claimDone e _ _ =>
    exact ⟨upd _ _ (by simp only [claim, tickerPhase]; split <;> simp), rm e⟩
  case tick =>
    refine ⟨upd _ _ (by simp only [tick]; split <;> simp), fun x hx => ?_⟩
    rcases List.mem_cons.mp hx with rfl | hx
    · rfl
    · exact c.thr x hx
  case toEnter e _ _ => exact ⟨c.started, mv e rfl⟩
  case toNone e _ _ => exact ⟨c.started, rm e⟩
  case toSend e _ => exact ⟨upd _ _ (by unfold timedOut; split <;> simp), mv e rfl⟩
  case toAnswer b e _ => exact ⟨upd _ _ (by cases b <;> simp), rm e⟩
  case ctx => exact ⟨upd _ _ (by unfold ctxDone; split <;> simp), c.thr⟩
  case ctxSend e _ => exact ⟨upd _ _ (by simp [ctxTimedOut]), mv e rfl⟩
  case ctxAnswer e _ => exact ⟨upd _ _ (by simp), rm e⟩

theorem Calm.no_hang (c : Calm s) : ¬ Hangs s := by
  intro h
  cases h with
  | refused l _ hp _ => exact c.started l hp
  | unheld l _ _ ht =>
    obtain ⟨t, hm, h⟩ := ht
    have := c.thr t hm
    cases t <;> simp [plain, insideLock] at this h
  | timeout l _ _ ht =>
    obtain ⟨t, hm, h⟩ := ht
    have := c.thr t hm
    cases t <;> simp [plain, insideLock, insideLost] at this h

theorem worked_facts (hr : Reach acc {} s) (hd : s.down = true) (h : Worked acc s s') :
    Reach acc {} s' ∧ s'.down = true ∧ asked s' = asked s ∧ disconnected s' = disconnected s ∧ (Calm s → Calm s') := by
  induction h with
  | refl => exact ⟨hr, hd, rfl, rfl, id⟩
  | step _ hw ih =>
    obtain ⟨a, b, c, d, e⟩ := ih
    exact ⟨a.step hw.1.1, down_step hw.1.1 b, hw.1.2.1.trans c, hw.2.trans d, fun hc => (e hc).step hw⟩

/-- The work comes to an end. -/
theorem worked_end (n : Nat) : ∀ s, mu s ≤ n → Reach acc {} s → s.down = true →
    ∃ s', Worked acc s s' ∧ ∀ s'', ¬ Works acc s' s'' := by
  induction n with
  | zero =>
    intro s hn hr hd
    refine ⟨s, .refl s, fun s' hw => ?_⟩
    have := mu_step (good_of_reach hr) hw.1.1 ((down_step hw.1.1 hd).trans hd.symm) hw.1.2.1 hw.1.2.2
    omega
  | succ n ih =>
    intro s hn hr hd
    by_cases h : ∃ s', Works acc s s'
    · obtain ⟨s1, hw⟩ := h
      have := mu_step (good_of_reach hr) hw.1.1 ((down_step hw.1.1 hd).trans hd.symm) hw.1.2.1 hw.1.2.2
      obtain ⟨s2, hw2, hb⟩ := ih s1 (by omega) (hr.step hw.1.1) (down_step hw.1.1 hd)
      refine ⟨s2, ?_, hb⟩
      clear hb
      induction hw2 with
      | refl => exact .step (.refl s) hw
      | step _ h ih => exact .step ih h
    · exact ⟨s, .refl s, fun s' hw => h ⟨s', hw⟩⟩

theorem refs_of (g : Good acc s) {pre post : List Thread} {t : Thread} (e : s.threads = pre ++ t :: post) : refOk s.tree t :=
  g.i1.refs t (by rw [e]; simp)

macro "opn" ht:term : tactic => `(tactic| (simp [unanswered, St.upd, St.thr, St.log, St.drop, $ht:term,
  List.countP_append, List.countP_cons, forClient]))

/-- A lock that was saved but never started stays, and nobody who works on these key-values is ever answered. -/
theorem refused_step (g : Good acc s) {l : LockId} (ht : s.tree = some l) (hp : (s.objs l).phase = .notRunning)
    (hs : Step acc s s') : s'.tree = some l ∧ (s'.objs l).phase = .notRunning ∧ unanswered s ≤ unanswered s' := by
  have no : ∀ {l' : LockId} {p : Phase}, (s.objs l').phase = p → alive p = true → p ≠ .notRunning → False := fun {l' p} h ha hn => by
    have := g.i1.one l' (by rw [h]; exact ha)
    rw [ht] at this; cases this
    exact hn (h ▸ hp)
  have nx : ∀ {l' : LockId}, (s.objs l').phase = .exited → s.tree = some l' → False := fun {l'} h h' => by
    rw [ht] at h'; cases h'; rw [hp] at h; cases h
  have nn : s.tree = none → False := fun h => by rw [ht] at h; cases h
  have hto : ∀ t ∈ s.threads, isTo l t = true → False := fun t hm h => by
    have h1 := g.i1.toN l
    have h2 : 0 < s.threads.countP (isTo l) := List.countP_pos_iff.mpr ⟨t, hm, h⟩
    rw [h1] at h2
    split at h2
    · rename_i h
      rcases h with h | h
      · have := (g.i1.bd _ h).1; rw [hp] at this; simp [inner] at this
      · rw [hp] at h; cases h
    · omega
  cases hs
  case shutdown => exact ⟨ht, hp, Nat.le_refl _⟩
  case obtainFind l' _ _ h _ =>
    rw [ht] at h; cases h
    exact ⟨ht, by simp [St.upd, St.thr, hp], by simp [unanswered, St.upd, St.thr, List.countP_cons]⟩
  case obtainCreate h _ => exact (nn h).elim
  case obtainRefused h _ _ => exact (nn h).elim
  case obtainRefusedLost h _ _ => exact (nn h).elim
  case obtainClosed e h => exact (nx h (refs_of g e)).elim
  case claimSend e h => exact (no h rfl (by simp)).elim
  case claimDone e h _ => exact (no h rfl (by simp)).elim
  case disconnect e => exact ⟨ht, hp, by opn e⟩
  case leaveEnter e _ _ => exact ⟨ht, hp, by opn e⟩
  case leaveNone e _ h => exact (nn h).elim
  case lostOuter e h => exact (no h rfl (by simp)).elim
  case lostOuterReply e h => exact (no h rfl (by simp)).elim
  case lostHeld e h => exact (no h rfl (by simp)).elim
  case lostHeldReply e h => exact (no h rfl (by simp)).elim
  case lostClosed e h =>
    have := refs_of g e
    simp only [refOk] at this
    obtain ⟨rfl, h'⟩ := this
    exact (nx h h').elim
  case hbMissing => exact ⟨ht, hp, Nat.le_refl _⟩
  case hbEnter => exact ⟨ht, hp, by simp [unanswered, St.thr, List.countP_cons]⟩
  case hbSend e h => exact (no h rfl (by simp)).elim
  case hbAnswer e h => exact (no h rfl (by simp)).elim
  case hbClosed e h => exact (nx h (refs_of g e)).elim
  case relMissing => exact ⟨ht, hp, Nat.le_refl _⟩
  case relLookup => exact ⟨ht, hp, by simp [unanswered, St.thr, List.countP_cons]⟩
  case relGone e _ h => exact (nn h).elim
  case relEnter e _ _ => exact ⟨ht, hp, by opn e⟩
  case relSend e h => exact (no h rfl (by simp)).elim
  case relAnswer e h => exact (no h rfl (by simp)).elim
  case relClosed e h => exact (nx h (refs_of g e)).elim
  case tick h _ => exact (no h rfl (by simp)).elim
  case toEnter e _ _ => exact ⟨ht, hp, by opn e⟩
  case toNone e _ h => exact (nn h).elim
  case toSend e h => exact (no h rfl (by simp)).elim
  case toAnswer e h => exact (no h rfl (by simp)).elim
  case ctx h => exact (no h rfl (by simp)).elim
  case ctxSend e h => exact (no h rfl (by simp)).elim
  case ctxAnswer e h => exact (no h rfl (by simp)).elim

/-- A lock that waits for its timeout during the stop, while a request waits for the lock and keeps the timeout out: for ever. -/
theorem timeout_step (g : Good acc s) {l : LockId} (hp : (s.objs l).phase = .ctxWait) {t : Thread} (hm : t ∈ s.threads)
    (hi : insideLock l t = true ∨ insideLost l t = true) (hs : Step acc s s') :
    (s'.objs l).phase = .ctxWait ∧ t ∈ s'.threads ∧ unanswered s ≤ unanswered s' := by
  have ht := g.i1.one l (by rw [hp]; rfl)
  have hh : t.holdsW = true ∨ t.holdsR = true := by
    cases t <;> simp [insideLock, insideLost] at hi <;> simp [Thread.holdsW, Thread.holdsR]
  have no : ∀ {l' : LockId} {p : Phase}, (s.objs l').phase = p → alive p = true → p ≠ .ctxWait → False := fun {l' p} h ha hn => by
    have := g.i1.one l' (by rw [h]; exact ha)
    rw [ht] at this; cases this
    exact hn (h ▸ hp)
  have nx : ∀ {l' : LockId}, (s.objs l').phase = .exited → s.tree = some l' → False := fun {l'} h h' => by
    rw [ht] at h'; cases h'; rw [hp] at h; cases h
  have nn : s.tree = none → False := fun h => by rw [ht] at h; cases h
  have nf : ∀ {pre post : List Thread} {u : Thread}, s.threads = pre ++ u :: post → u.holdsW = false → u.holdsR = false →
      free (pre ++ post) → False := fun {pre post u} e h1 h2 hf => by
    rw [e] at hm
    simp at hm
    have : t ∈ pre ++ post := by
      rcases hm with h | rfl | h
      · simp [h]
      · rw [h1, h2] at hh; simp at hh
      · simp [h]
    have := hf t this
    rw [this.1, this.2] at hh; simp at hh
  have keep : ∀ {pre post : List Thread} {u u' : Thread}, s.threads = pre ++ u :: post → t ≠ u → t ∈ pre ++ u' :: post :=
    fun {pre post u u'} e h => mem_other' e hm h
  cases hs
  case shutdown => exact ⟨hp, hm, Nat.le_refl _⟩
  case obtainFind l' _ _ h _ =>
    rw [ht] at h; cases h
    exact ⟨by simp [St.upd, St.thr, hp], by simp [St.upd, St.thr, hm], by simp [unanswered, St.upd, St.thr, List.countP_cons]⟩
  case obtainCreate h _ => exact (nn h).elim
  case obtainRefused h _ _ => exact (nn h).elim
  case obtainRefusedLost h _ _ => exact (nn h).elim
  case obtainClosed e h => exact (nx h (refs_of g e)).elim
  case claimSend e h => exact (no h rfl (by simp)).elim
  case claimDone e h _ => exact (no h rfl (by simp)).elim
  case disconnect e =>
    exact ⟨hp, keep e (fun h => by subst h; simp [Thread.holdsW, Thread.holdsR] at hh), by opn e⟩
  case leaveEnter e hf _ => exact (nf e rfl rfl hf).elim
  case leaveNone e hf h => exact (nn h).elim
  case lostOuter e h => exact (no h rfl (by simp)).elim
  case lostOuterReply e h => exact (no h rfl (by simp)).elim
  case lostHeld e h => exact (no h rfl (by simp)).elim
  case lostHeldReply e h => exact (no h rfl (by simp)).elim
  case lostClosed e h =>
    have := refs_of g e
    simp only [refOk] at this
    obtain ⟨rfl, h'⟩ := this
    exact (nx h h').elim
  case hbMissing => exact ⟨hp, hm, Nat.le_refl _⟩
  case hbEnter => exact ⟨hp, List.mem_cons_of_mem _ hm, by simp [unanswered, St.thr, List.countP_cons]⟩
  case hbSend e h => exact (no h rfl (by simp)).elim
  case hbAnswer e h => exact (no h rfl (by simp)).elim
  case hbClosed e h => exact (nx h (refs_of g e)).elim
  case relMissing => exact ⟨hp, hm, Nat.le_refl _⟩
  case relLookup => exact ⟨hp, List.mem_cons_of_mem _ hm, by simp [unanswered, St.thr, List.countP_cons]⟩
  case relGone e _ h => exact (nn h).elim
  case relEnter e hf _ => exact (nf e rfl rfl hf).elim
  case relSend e h => exact (no h rfl (by simp)).elim
  case relAnswer e h => exact (no h rfl (by simp)).elim
  case relClosed e h => exact (nx h (refs_of g e)).elim
  case tick h _ => exact (no h rfl (by simp)).elim
  case toEnter e hf _ => exact (nf e rfl rfl hf).elim
  case toNone e _ h => exact (nn h).elim
  case toSend e h => exact (no h rfl (by simp)).elim
  case toAnswer e h => exact (no h rfl (by simp)).elim
  case ctx h => exact (no h rfl (by simp)).elim
  case ctxSend pre post l' e h =>
    exfalso
    have hx := g.i1.excl
    have hy := g.i1.exclR
    have ht' : t ∈ pre ++ post := mem_other e hm (by rintro rfl; simp [insideLock, insideLost] at hi)
    rw [e] at hx hy
    simp only [List.countP_append, List.countP_cons, Thread.holdsW, Thread.holdsR] at hx hy
    rcases hh with hw | hr
    · have : 0 < (pre ++ post).countP Thread.holdsW := List.countP_pos_iff.mpr ⟨t, ht', hw⟩
      rw [List.countP_append] at this
      simp at hx; omega
    · have : 0 < (pre ++ post).countP Thread.holdsR := List.countP_pos_iff.mpr ⟨t, ht', hr⟩
      rw [List.countP_append] at this
      simp only [if_true, Bool.false_eq_true, if_false, Nat.add_zero] at hx hy; omega
  case ctxAnswer e h => exact (no h rfl (by simp)).elim

end
end Willow.Locker
