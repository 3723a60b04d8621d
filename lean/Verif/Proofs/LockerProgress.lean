import Verif.Proofs.LockerMore
namespace Willow.Locker
open Willow.LockerSpec

structure Good (acc : Int → Prop) (s : St) : Prop where
  i1 : Inv s
  i2 : Inv2 s
  i3 : Inv3 acc s
  lv : live s.tr = liveSt s

theorem Good.init (acc : Int → Prop) : Good acc {} := ⟨.init, .init, .init acc, rfl⟩

theorem Good.step {acc : Int → Prop} {s s' : St} (h : Good acc s) (hs : Step acc s s') : Good acc s' :=
  ⟨h.i1.step hs, h.i2.step h.i1 hs, h.i3.step h.i1 h.i2 hs, live_step h.i1 hs h.lv⟩

theorem Good.reach {acc : Int → Prop} {s s' : St} (h : Good acc s) (hr : Reach acc s s') : Good acc s' := by
  induction hr with
  | refl => exact h
  | step _ hs ih => exact ih.step hs

theorem Reach.trans {acc : Int → Prop} {a b c : St} (h : Reach acc a b) (h' : Reach acc b c) : Reach acc a c := by
  induction h' with
  | refl => exact h
  | step _ hs ih => exact .step ih hs

theorem Reach.one {acc : Int → Prop} {a b : St} (h : Step acc a b) : Reach acc a b := .step .refl h

theorem exists_fresh (tr : List Ev) : ∃ x, freshIn tr x := by
  have : ∃ n : Nat, ∀ l x, Ev.granted l x ∈ tr → x < n := by
    induction tr with
    | nil => exact ⟨0, by simp⟩
    | cons e tr ih =>
      obtain ⟨n, hn⟩ := ih
      cases e with
      | granted l x =>
        refine ⟨max n (x+1), fun l' x' h => ?_⟩
        rcases List.mem_cons.mp h with h | h
        · cases h; exact Nat.lt_of_lt_of_le (Nat.lt_succ_self _) (Nat.le_max_right _ _)
        · exact Nat.lt_of_lt_of_le (hn _ _ h) (Nat.le_max_left _ _)
      | _ => exact ⟨n, fun l' x' h => hn l' x' (by simpa using h)⟩
  obtain ⟨n, hn⟩ := this
  exact ⟨n, fun l x h => Nat.ne_of_lt (hn l x h)⟩

section
variable {acc : Int → Prop} {s : St} {l : LockId} {i : Int}

theorem resp_exists (h : Good acc s) (hp : isReply (s.objs l).phase = true) :
    ∃ pre t post, s.threads = pre ++ t :: post ∧ isResp l t = true := by
  have h1 := h.i2.respN l
  rw [if_pos hp] at h1
  obtain ⟨t, hm, ht⟩ := List.countP_pos_iff.mp (by rw [h1]; exact Nat.one_pos : 0 < s.threads.countP (isResp l))
  obtain ⟨pre, post, e⟩ := List.append_of_mem hm
  exact ⟨pre, t, post, e, ht⟩

theorem resp_lv (h : Good acc s) (hp : isLvReply (s.objs l).phase = true) :
    ∃ pre l0 post, s.threads = pre ++ .leavingResp l0 l :: post := by
  obtain ⟨pre, t, post, e, ht⟩ := resp_exists (l := l) h (by revert hp; cases (s.objs l).phase <;> simp [isReply, isLvReply])
  have hm : t ∈ s.threads := by rw [e]; simp
  cases t <;> simp [isResp] at ht <;> subst ht
  · exact ⟨pre, _, post, e⟩
  · have := h.i2.hb _ _ hm; simp [this, isLvReply] at hp
  · have := h.i2.rel _ _ hm; revert this hp; cases (s.objs _).phase <;> simp [isRelReply, isLvReply]
  · have := h.i2.to _ hm; revert this hp; cases (s.objs _).phase <;> simp [isToReply, isLvReply]

theorem resp_hb {b : Bool} (h : Good acc s) (hp : (s.objs l).phase = .hbReply b) :
    ∃ pre x post, s.threads = pre ++ .hbResp l x :: post := by
  obtain ⟨pre, t, post, e, ht⟩ := resp_exists (l := l) h (by rw [hp]; rfl)
  have hm : t ∈ s.threads := by rw [e]; simp
  cases t <;> simp [isResp] at ht <;> subst ht
  · have := h.i2.lv _ _ hm; simp [hp, isLvReply] at this
  · exact ⟨pre, _, post, e⟩
  · have := h.i2.rel _ _ hm; simp [hp, isRelReply] at this
  · have := h.i2.to _ hm; simp [hp, isToReply] at this

theorem resp_rel (h : Good acc s) {c : RelCode} (hp : (s.objs l).phase = .relReply c) :
    ∃ pre x post, s.threads = pre ++ .relResp l x :: post := by
  obtain ⟨pre, t, post, e, ht⟩ := resp_exists (l := l) h (by rw [hp]; rfl)
  have hm : t ∈ s.threads := by rw [e]; simp
  cases t <;> simp [isResp] at ht <;> subst ht
  · have := h.i2.lv _ _ hm; simp [hp, isLvReply] at this
  · have := h.i2.hb _ _ hm; simp [hp] at this
  · exact ⟨pre, _, post, e⟩
  · have := h.i2.to _ hm; simp [hp, isToReply] at this

theorem resp_to (h : Good acc s) (hp : isToReply (s.objs l).phase = true) :
    ∃ pre post, s.threads = pre ++ .toResp l :: post := by
  obtain ⟨pre, t, post, e, ht⟩ := resp_exists (l := l) h (by revert hp; cases (s.objs l).phase <;> simp [isReply, isToReply])
  have hm : t ∈ s.threads := by rw [e]; simp
  cases t <;> simp [isResp] at ht <;> subst ht
  · have := h.i2.lv _ _ hm; revert this hp; cases (s.objs _).phase <;> simp [isToReply, isLvReply]
  · have := h.i2.hb _ _ hm; simp [this, isToReply] at hp
  · have := h.i2.rel _ _ hm; revert this hp; cases (s.objs _).phase <;> simp [isRelReply, isToReply]
  · exact ⟨pre, post, e⟩

theorem reply_false (h : Good acc s) {b : Bool} (hp : replyW (s.objs l).phase = some b) (hc : (s.objs l).count ≠ 0) :
    b = false := by
  cases b with
  | false => rfl
  | true => exact absurd ((h.i1.reply l true hp).1.mp rfl) hc

theorem waiting_tree (h : Good acc s) (hw : .waiting l i ∈ s.threads) : s.tree = some l := h.i1.refs _ hw

theorem waiting_alive (h : Good acc s) (hd : s.down = false) (ht : s.tree = some l) :
    alive (s.objs l).phase = true := by
  cases ha : alive (s.objs l).phase with
  | true => rfl
  | false => have := h.i3.down l (.inl ⟨ht, ha⟩); simp [hd] at this

theorem counted_of_up (h : Good acc s) (hd : s.down = false) (ht : s.tree = some l) :
    counted (s.objs l).phase = true := by
  have ha := waiting_alive h hd ht
  have := h.i3.down l
  simp only [hd, Bool.false_eq_true, imp_false, not_or] at this
  have := this.2
  revert ha this
  cases (s.objs l).phase <;> simp [alive, counted, downOnly]

theorem waiting_count (h : Good acc s) (ha : counted (s.objs l).phase = true) (hw : .waiting l i ∈ s.threads) :
    (s.objs l).count ≠ 0 := by
  rw [h.i1.cnt l ha]
  have : 0 < s.threads.countP (pend l) := List.countP_pos_iff.mpr ⟨_, hw, by simp [pend]⟩
  omega

theorem mem_other {pre post : List Thread} {t t' : Thread} {ts : List Thread} (e : ts = pre ++ t :: post)
    (hm : t' ∈ ts) (hne : t' ≠ t) : t' ∈ pre ++ post := by
  subst e; simp at hm ⊢; grind

theorem mem_other' {pre post : List Thread} {t t' t2 : Thread} {ts : List Thread} (e : ts = pre ++ t :: post)
    (hm : t' ∈ ts) (hne : t' ≠ t) : t' ∈ pre ++ t2 :: post := by
  have := mem_other e hm hne
  simp at this ⊢; grind

/-- `Cont acc s l i p`: some continuation of `s` keeps the service up and the client waiting and reaches a state with `p`. -/
def Cont (acc : Int → Prop) (s : St) (l : LockId) (i : Int) (p : St → Prop) : Prop :=
  ∃ s', Reach acc s s' ∧ s'.down = false ∧ .waiting l i ∈ s'.threads ∧ p s'

theorem Cont.of {p : St → Prop} {s' : St} (hs : Step acc s s') (h : Cont acc s' l i p) : Cont acc s l i p := by
  obtain ⟨s2, a, b, c, d⟩ := h
  exact ⟨s2, (Reach.one hs).trans a, b, c, d⟩

theorem Cont.bind {p q : St → Prop} (hg : Good acc s) (h : Cont acc s l i p)
    (k : ∀ s', Good acc s' → s'.down = false → .waiting l i ∈ s'.threads → p s' → Cont acc s' l i q) :
    Cont acc s l i q := by
  obtain ⟨s2, a, b, c, d⟩ := h
  obtain ⟨s3, a', b', c', d'⟩ := k s2 (hg.reach a) b c d
  exact ⟨s3, a.trans a', b', c', d'⟩

/-- From any phase the lock gets back to one of its two selects. -/
theorem to_select (hpos : ∀ x, acc x → 0 < x) (h : Good acc s) (hd : s.down = false) (hnp : (s.objs l).phase ≠ .panicked)
    (hw : .waiting l i ∈ s.threads) :
    Cont acc s l i (fun s' => (s'.objs l).phase = .outer ∨ (s'.objs l).phase = .held) := by
  have htree := waiting_tree h hw
  have ha := waiting_alive h hd htree
  have hc := waiting_count h (counted_of_up h hd htree) hw
  have hdn := h.i3.down l
  simp only [hd, Bool.false_eq_true, imp_false, not_or] at hdn
  have hdo := hdn.2
  have fin1 : ∀ s', Step acc s s' → s'.down = s.down → (∀ t, .waiting l i = t ∨ t ∈ s.threads → .waiting l i ∈ s'.threads) →
      ((s'.objs l).phase = .outer ∨ (s'.objs l).phase = .held) →
      Cont acc s l i (fun s' => (s'.objs l).phase = .outer ∨ (s'.objs l).phase = .held) := by
    intro s' h1 h2 h3 h4
    exact ⟨s', .one h1, by rw [h2, hd], h3 _ (.inl rfl), h4⟩
  cases hp : (s.objs l).phase with
  | absent => simp [hp, alive] at ha
  | notRunning => simp [hp, downOnly] at hdo
  | outer => exact ⟨s, .refl, hd, hw, .inl hp⟩
  | held => exact ⟨s, .refl, hd, hw, .inr hp⟩
  | ctxWait => simp [hp, downOnly] at hdo
  | ctxReply => simp [hp, downOnly] at hdo
  | exited => simp [hp, alive] at ha
  | stuck => simp [hp, alive] at ha
  | panicked => exact absurd hp hnp
  | claiming =>
    have h1 := h.i1.claimedN l
    rw [if_pos hp] at h1
    obtain ⟨t, hm, ht⟩ := List.countP_pos_iff.mp (by rw [h1]; exact Nat.one_pos : 0 < s.threads.countP (isClaimed l))
    obtain ⟨pre, post, e⟩ := List.append_of_mem hm
    cases t <;> simp [isClaimed] at ht
    rename_i l2 t2; subst ht
    obtain ⟨x, hx⟩ := exists_fresh s.tr
    have := hpos _ (h.i3.accI _ hm _ rfl)
    refine fin1 _ (.claimDone s pre post l2 t2 x e hp hx) rfl (fun _ _ => ?_) (.inr ?_)
    · exact mem_other e hw (by simp)
    · simp [St.upd, St.thr, St.log, claim, tickerPhase]; omega
  | outerReply b =>
    have hb := reply_false h (b := b) (by rw [hp]; rfl) hc
    subst hb
    obtain ⟨pre, l0, post, e⟩ := resp_lv (l := l) h (by rw [hp]; rfl)
    refine fin1 _ (.lostOuterReply s pre post l0 l false e hp) rfl (fun _ _ => mem_other e hw (by simp)) (.inl ?_)
    simp [St.upd, St.thr, St.log, St.drop]
  | heldReply =>
    obtain ⟨pre, l0, post, e⟩ := resp_lv (l := l) h (by rw [hp]; rfl)
    refine fin1 _ (.lostHeldReply s pre post l0 l e hp) rfl (fun _ _ => mem_other e hw (by simp)) (.inr ?_)
    simp [St.upd, St.thr, St.log]
  | hbReply b =>
    obtain ⟨pre, x, post, e⟩ := resp_hb (l := l) h hp
    refine fin1 _ (.hbAnswer s pre post l x b e hp) rfl (fun _ _ => mem_other e hw (by simp)) (.inr ?_)
    simp [St.upd, St.thr, St.log]
  | relReply c =>
    obtain ⟨pre, x, post, e⟩ := resp_rel (l := l) h hp
    refine fin1 _ (.relAnswer s pre post l x c e hp) rfl (fun _ _ => mem_other e hw (by simp)) ?_
    cases c with
    | failed => right; simp [St.upd, St.thr, St.log, St.drop, afterRelease]
    | processed => left; simp [St.upd, St.thr, St.log, St.drop, afterRelease]
    | destroy => have := reply_false h (l := l) (b := true) (by rw [hp]; rfl) hc; cases this
  | toReply b =>
    have hb := reply_false h (b := b) (by rw [hp]; rfl) hc
    subst hb
    obtain ⟨pre, post, e⟩ := resp_to (l := l) h (by rw [hp]; rfl)
    refine fin1 _ (.toAnswer s pre post l false e hp) rfl (fun _ _ => mem_other e hw (by simp)) (.inl ?_)
    simp [St.upd, St.thr, St.log, St.drop]

/-- `KCont acc s keep p`: some continuation of `s` keeps the service up and the clients in `keep` waiting and reaches `p`. -/
def KCont (acc : Int → Prop) (s : St) (keep : List Thread) (p : St → Prop) : Prop :=
  ∃ s', Reach acc s s' ∧ s'.down = false ∧ (∀ w ∈ keep, w ∈ s'.threads) ∧ p s'

theorem KCont.of {p : St → Prop} {s' : St} {keep : List Thread} (hs : Step acc s s') (h : KCont acc s' keep p) :
    KCont acc s keep p := by
  obtain ⟨s2, a, b, c, d⟩ := h
  exact ⟨s2, (Reach.one hs).trans a, b, c, d⟩

/-- The timeout goroutine is inside its callback: the timeout is processed and the lock is free or gone. -/
theorem toIn_outer (keep : List Thread) (hk : ∀ w ∈ keep, ∃ i, w = .waiting l i) (h : Good acc s) (hd : s.down = false)
    (hw : ∀ w ∈ keep, w ∈ s.threads) (hp : (s.objs l).phase = .held) (ht : .toIn l ∈ s.threads) :
    KCont acc s keep (fun s' => (∃ b, s'.tr.head? = some (.timeoutDone l b)) ∧ (keep ≠ [] → (s'.objs l).phase = .outer)) := by
  obtain ⟨pre, post, e⟩ := List.append_of_mem ht
  have hN := h.i1.toN l
  have hpos : 0 < s.threads.countP (isTo l) := List.countP_pos_iff.mpr ⟨_, ht, by simp [isTo]⟩
  have hbd : (s.objs l).blockDone = true := by
    cases hb : (s.objs l).blockDone with
    | true => rfl
    | false => rw [if_neg (by simp [hp, hb])] at hN; omega
  have st := Step.toSend (acc := acc) s pre post l e hp
  have g := h.step st
  refine KCont.of st ?_
  have hw' : ∀ w ∈ keep, w ∈ pre ++ .toResp l :: post := fun w hm => by
    obtain ⟨i, rfl⟩ := hk w hm; exact mem_other' e (hw _ hm) (by simp)
  have hp' : ((((s.upd l (timedOut (s.objs l))).thr (pre ++ .toResp l :: post))).objs l).phase
      = .toReply (dec (s.objs l).count == 0) := by simp [St.upd, St.thr, timedOut, hbd]
  have hal : counted ((((s.upd l (timedOut (s.objs l))).thr (pre ++ .toResp l :: post))).objs l).phase = true := by
    rw [hp']; rfl
  refine ⟨_, .one (Step.toAnswer _ pre post l _ rfl hp'), hd, ?_, ⟨_, rfl⟩, ?_⟩
  · intro w hm
    have := hw' w hm
    obtain ⟨i, rfl⟩ := hk w hm
    exact mem_other rfl this (by simp)
  · intro hne
    obtain ⟨w, hm⟩ := List.exists_mem_of_ne_nil _ hne
    have hw1 := hw' w hm
    obtain ⟨i, rfl⟩ := hk w hm
    have hc := waiting_count g hal hw1
    have hb := reply_false g (l := l) (b := dec (s.objs l).count == 0) (by rw [hp']; rfl) hc
    simp [St.upd, St.thr, St.log, St.drop, hb]

def holders (s : St) : Nat := s.threads.countP Thread.holdsW + s.threads.countP Thread.holdsR

theorem holders_zero (hz : holders s = 0) {pre post : List Thread} {t : Thread} (e : s.threads = pre ++ t :: post) :
    free (pre ++ post) := by
  rw [free_iff]
  unfold holders at hz
  rw [e] at hz
  simp only [List.countP_append, List.countP_cons] at hz ⊢
  omega

/-- The lock is waiting for its timeout to be processed: the threads in the way finish first. -/
theorem held_outer (keep : List Thread) (hk : ∀ w ∈ keep, ∃ i, w = .waiting l i) (n : Nat) : ∀ (s : St), holders s = n →
    Good acc s → s.down = false → (∀ w ∈ keep, w ∈ s.threads) →
    (s.objs l).phase = .held → (s.objs l).session = none →
    KCont acc s keep (fun s' => (∃ b, s'.tr.head? = some (.timeoutDone l b)) ∧ (keep ≠ [] → (s'.objs l).phase = .outer)) := by
  induction n with
  | zero =>
    intro s hn h hd hw hp hs
    have hbd := h.i3.bdI l (by rw [hp]; rfl) hs
    have hN := h.i1.toN l
    rw [if_pos (.inl hbd)] at hN
    obtain ⟨t, hm, ht⟩ := List.countP_pos_iff.mp (by rw [hN]; exact Nat.one_pos : 0 < s.threads.countP (isTo l))
    cases t <;> simp [isTo] at ht <;> subst ht
    · obtain ⟨pre, post, e⟩ := List.append_of_mem hm
      rename_i l
      have st := Step.toEnter (acc := acc) s pre post l l e (holders_zero hn e) (h.i1.one _ (by rw [hp]; rfl))
      exact KCont.of st (toIn_outer keep hk (h.step st) hd (fun w hm => by obtain ⟨i, rfl⟩ := hk w hm; exact mem_other' e (hw _ hm) (by simp)) hp (by simp [St.thr]))
    · exact toIn_outer keep hk h hd hw hp hm
  | succ n ih =>
    intro s hn h hd hw hp hs
    have : ∃ t ∈ s.threads, t.holdsW = true ∨ t.holdsR = true := by
      by_cases h0 : s.threads.countP Thread.holdsW = 0
      · have h1 : 0 < s.threads.countP Thread.holdsR := by unfold holders at hn; omega
        obtain ⟨t, hm, ht⟩ := List.countP_pos_iff.mp h1
        exact ⟨t, hm, .inr ht⟩
      · obtain ⟨t, hm, ht⟩ := List.countP_pos_iff.mp (Nat.pos_of_ne_zero h0)
        exact ⟨t, hm, .inl ht⟩
    obtain ⟨t, hm, ht⟩ := this
    obtain ⟨pre, post, e⟩ := List.append_of_mem hm
    have htr := h.i1.one _ (by rw [hp]; rfl)
    have href := h.i1.refs _ hm
    have hho : holders s = (pre ++ post).countP Thread.holdsW + (pre ++ post).countP Thread.holdsR
        + ((if t.holdsW then 1 else 0) + (if t.holdsR then 1 else 0)) := by
      unfold holders; rw [e]; simp only [List.countP_append, List.countP_cons]; omega
    cases t <;> simp [Thread.holdsW, Thread.holdsR] at ht
    case leavingIn l0 l' =>
      simp only [refOk] at href
      obtain ⟨e1, e2⟩ := href
      have : l' = l := by rw [htr] at e2; cases e2; exact e1
      subst this
      have st := Step.lostHeld (acc := acc) s pre post l0 l' e hp
      have g := h.step st
      have hw' : ∀ w ∈ keep, w ∈ pre ++ .leavingResp l0 l' :: post := fun w hm => by
        obtain ⟨i, rfl⟩ := hk w hm; exact mem_other' e (hw _ hm) (by simp)
      have hcnt := h.i1.cnt l' (by rw [hp]; rfl)
      have hge : 2 ≤ (s.objs l').count := by
        rw [hcnt, e, hp]
        cases e1
        simp [List.countP_append, List.countP_cons, pend, hold]; omega
      have hp' : ((((s.upd l' (lostHeld (s.objs l'))).thr (pre ++ .leavingResp l0 l' :: post))).objs l').phase = .heldReply := by
        have : dec (s.objs l').count ≠ 0 := by unfold dec; split <;> omega
        simp [St.upd, St.thr, lostHeld, this]
      have st2 := Step.lostHeldReply (acc := acc) _ pre post l0 l' rfl hp'
      refine KCont.of st (KCont.of st2 (ih _ ?_ (g.step st2) hd ?_ ?_ ?_))
      · simp [Thread.holdsW, Thread.holdsR] at hho
        simp only [holders, St.thr, St.log, St.upd, List.countP_append]
        omega
      · intro w hm; have := hw' w hm; obtain ⟨i, rfl⟩ := hk w hm; exact mem_other rfl this (by simp)
      · simp [St.upd, St.thr, St.log]
      · simp [St.upd, St.thr, St.log, lostHeld, hs]
    case leavingResp l0 l' =>
      have := h.i2.lv _ _ hm
      simp only [refOk] at href
      obtain ⟨e1, e2⟩ := href
      have : l' = l := by rw [htr] at e2; cases e2; exact e1
      subst this
      simp_all [isLvReply]
    case relIn l' x =>
      have : l' = l := by simp only [refOk] at href; rw [htr] at href; cases href; rfl
      subst this
      have st := Step.relSend (acc := acc) s pre post l' x e hp
      have hne : (s.objs l').session ≠ some x := by rw [hs]; simp
      have hrel : release (s.objs l') x = { s.objs l' with phase := .relReply .failed } := by simp [release, hne]
      rw [hrel, if_pos rfl] at st
      have g := h.step st
      have hw' : ∀ w ∈ keep, w ∈ pre ++ .relResp l' x :: post := fun w hm => by
        obtain ⟨i, rfl⟩ := hk w hm; exact mem_other' e (hw _ hm) (by simp)
      have hp' : ((((s.upd l' { s.objs l' with phase := .relReply .failed }).thr (pre ++ .relResp l' x :: post))).objs l').phase
          = .relReply .failed := by simp [St.upd, St.thr]
      have st2 := Step.relAnswer (acc := acc) _ pre post l' x .failed rfl hp'
      refine KCont.of st (KCont.of st2 (ih _ ?_ (g.step st2) hd ?_ ?_ ?_))
      · simp [Thread.holdsW, Thread.holdsR] at hho
        simp only [holders, St.thr, St.log, St.upd, St.drop, List.countP_append]
        omega
      · intro w hm; have := hw' w hm; obtain ⟨i, rfl⟩ := hk w hm; exact mem_other rfl this (by simp)
      · simp [St.upd, St.thr, St.log, St.drop, afterRelease]
      · simp [St.upd, St.thr, St.log, St.drop, hs]
    case relResp l' x =>
      have := h.i2.rel _ _ hm
      have : l' = l := by simp only [refOk] at href; rw [htr] at href; cases href; rfl
      subst this
      simp_all [isRelReply]
    case hbIn l' x =>
      have : l' = l := by simp only [refOk] at href; rw [htr] at href; cases href; rfl
      subst this
      have st := Step.hbSend (acc := acc) s pre post l' x e hp
      have hne : (s.objs l').session ≠ some x := by rw [hs]; simp
      have hrel : heartbeat (s.objs l') x = { s.objs l' with phase := .hbReply false } := by simp [heartbeat, hne]
      rw [hrel, if_neg (by simp)] at st
      have g := h.step st
      have hw' : ∀ w ∈ keep, w ∈ pre ++ .hbResp l' x :: post := fun w hm => by
        obtain ⟨i, rfl⟩ := hk w hm; exact mem_other' e (hw _ hm) (by simp)
      have hp' : ((((s.upd l' { s.objs l' with phase := .hbReply false }).thr (pre ++ .hbResp l' x :: post))).objs l').phase
          = .hbReply false := by simp [St.upd, St.thr]
      have st2 := Step.hbAnswer (acc := acc) _ pre post l' x false rfl hp'
      refine KCont.of st (KCont.of st2 (ih _ ?_ (g.step st2) hd ?_ ?_ ?_))
      · simp [Thread.holdsW, Thread.holdsR] at hho
        simp only [holders, St.thr, St.log, St.upd, List.countP_append]
        omega
      · intro w hm; have := hw' w hm; obtain ⟨i, rfl⟩ := hk w hm; exact mem_other rfl this (by simp)
      · simp [St.upd, St.thr, St.log]
      · simp [St.upd, St.thr, St.log, hs]
    case hbResp l' x =>
      have := h.i2.hb _ _ hm
      have : l' = l := by simp only [refOk] at href; rw [htr] at href; cases href; rfl
      subst this
      simp_all
    case toIn l' =>
      have : l' = l := by simp only [refOk] at href; rw [htr] at href; cases href; rfl
      subst this
      exact toIn_outer keep hk h hd hw hp hm
    case toResp l' =>
      have := h.i2.to _ hm
      have : l' = l := by simp only [refOk] at href; rw [htr] at href; cases href; rfl
      subst this
      simp_all [isToReply]

/-- The lock panics only for a period that is not positive. -/
theorem no_panic_step {s s' : St} (hpos : ∀ x, acc x → 0 < x) (h : Good acc s) (hs : Step acc s s')
    (hn : ∀ l, (s.objs l).phase ≠ .panicked) : ∀ l, (s'.objs l).phase ≠ .panicked := by
  have upd : ∀ (l : LockId) (o : Obj), o.phase ≠ .panicked → ∀ j, ((fun i => if i = l then o else s.objs i) j).phase ≠ .panicked := by
    intro l o ho j; dsimp only; split
    · exact ho
    · exact hn j
  cases hs <;> (first | exact hn | (refine upd _ _ ?_; simp [lostOuter, ctxTimedOut]; done) | skip)
  case obtainFind => exact upd _ _ (hn _)
  case claimDone pre post l t x e hp hf =>
    have := hpos _ (h.i3.accI (.claimed l t) (by rw [e]; simp) _ rfl)
    refine upd _ _ ?_
    have : ¬ t ≤ 0 := by omega
    simp [claim, tickerPhase, this]
  case lostOuterReply b _ _ => cases b <;> exact upd _ _ (by simp)
  case lostHeld pre post l l' e hp =>
    have hm : Thread.leavingIn l l' ∈ s.threads := by rw [e]; simp
    have href := h.i1.refs _ hm
    obtain ⟨e1, e2⟩ := href
    subst e1
    have hcnt := h.i1.cnt l' (by rw [hp]; rfl)
    have hge : 2 ≤ (s.objs l').count := by
      rw [hcnt, e, hp]; simp [List.countP_append, List.countP_cons, pend, hold]; omega
    have : dec (s.objs l').count ≠ 0 := by unfold dec; split <;> omega
    exact upd _ _ (by simp [lostHeld, this])
  case hbSend l x _ _ =>
    have : (heartbeat (s.objs l) x).phase ≠ .panicked := by unfold heartbeat; split <;> simp
    split <;> exact upd _ _ this
  case relSend l x _ _ =>
    have : (release (s.objs l) x).phase ≠ .panicked := by unfold release; split <;> simp
    split <;> exact upd _ _ this
  case relAnswer c _ _ => cases c <;> exact upd _ _ (by simp [afterRelease])
  case tick l _ _ =>
    exact upd _ _ (by unfold tick; dsimp only; split <;> simp)
  case toSend l' _ _ => exact upd _ _ (by unfold timedOut; split <;> simp)
  case toAnswer b _ _ => cases b <;> exact upd _ _ (by simp)
  case ctx l _ _ => exact upd _ _ (by unfold ctxDone; split <;> simp)

theorem no_panic {s s' : St} (hpos : ∀ x, acc x → 0 < x) (h : Good acc s) (hr : Reach acc s s')
    (hn : ∀ l, (s.objs l).phase ≠ .panicked) : ∀ l, (s'.objs l).phase ≠ .panicked := by
  induction hr with
  | refl => exact hn
  | step hr hs ih => exact no_panic_step hpos (h.reach hr) hs ih

/-- A waiting client can get the lock. -/
theorem can_get (hpos : ∀ x, acc x → 0 < x) (h : Good acc s) (hd : s.down = false)
    (hnp : ∀ l, (s.objs l).phase ≠ .panicked) (hw : .waiting l i ∈ s.threads) :
    Cont acc s l i (fun s' => (s'.objs l).phase = .outer) := by
  refine Cont.bind h (to_select hpos h hd (hnp l) hw) ?_
  intro s1 h1 hd1 hw1 hp1
  rcases hp1 with hp1 | hp1
  · exact ⟨s1, .refl, hd1, hw1, hp1⟩
  · by_cases hs : (s1.objs l).session = none
    · obtain ⟨s2, a, b, c, d⟩ := held_outer [.waiting l i] (by simp) _ s1 rfl h1 hd1 (by simpa using hw1) hp1 hs
      exact ⟨s2, a, b, by simpa using c, d.2 (by simp)⟩
    · have st := Step.tick (acc := acc) s1 l hp1 (h1.i3.armedI l (by rw [hp1]; rfl) hs)
      refine Cont.of st ?_
      have := held_outer (acc := acc) (l := l) [.waiting l i] (by simp) _ _ rfl (h1.step st) hd1
        (by intro w hm; cases List.mem_singleton.mp hm; exact List.mem_cons_of_mem _ hw1) ?_ ?_
      · obtain ⟨s2, a, b, c, d⟩ := this
        exact ⟨s2, a, b, by simpa using c, d.2 (by simp)⟩
      · have : (s1.objs l).blockDone = false := by
          cases hb : (s1.objs l).blockDone with
          | false => rfl
          | true => exact absurd (h1.i1.bd l hb).2 hs
        simp [St.upd, St.thr, St.log, tick, this]
      · simp [St.upd, St.thr, St.log, tick]

/-- A timeout that the clock announced can be processed. -/
theorem timeout_can_finish (h : Good acc s) (hd : s.down = false) (ht : pendingTimeout s.tr = true) :
    ∃ s' l b, Reach acc s s' ∧ s'.tr.head? = some (.timeoutDone l b) := by
  have hN := h.i3.toAny
  rw [if_pos ht] at hN
  obtain ⟨t, hm, htt⟩ := List.countP_pos_iff.mp (by rw [hN]; exact Nat.one_pos : 0 < s.threads.countP isToAny)
  have main : ∀ l, (∃ t ∈ s.threads, isTo l t = true) → ∃ s' l b, Reach acc s s' ∧ s'.tr.head? = some (.timeoutDone l b) := by
    intro l ⟨t, hm, ht⟩
    have hpos : 0 < s.threads.countP (isTo l) := List.countP_pos_iff.mpr ⟨_, hm, ht⟩
    have hN := h.i1.toN l
    have hdn := h.i3.down l
    simp only [hd, Bool.false_eq_true, imp_false, not_or] at hdn
    have hcw : (s.objs l).phase ≠ .ctxWait := fun hc => hdn.2 (by rw [hc]; rfl)
    have hbd : (s.objs l).blockDone = true := by
      cases hb : (s.objs l).blockDone with
      | true => rfl
      | false => rw [if_neg (by simp [hcw, hb])] at hN; omega
    obtain ⟨hin, hses⟩ := h.i1.bd l hbd
    have done : ∀ s', Good acc s' → Reach acc s s' → s'.down = false → (s'.objs l).phase = .held →
        (s'.objs l).session = none → ∃ s' l b, Reach acc s s' ∧ s'.tr.head? = some (.timeoutDone l b) := by
      intro s' g r d p q
      obtain ⟨s2, a, _, _, ⟨b, e⟩, _⟩ := held_outer (acc := acc) (l := l) [] (by simp) _ s' rfl g d (by simp) p q
      exact ⟨s2, l, b, r.trans a, e⟩
    cases hp : (s.objs l).phase <;> simp [hp, inner] at hin
    case held => exact done s h .refl hd hp hses
    case heldReply =>
      obtain ⟨pre, l0, post, e⟩ := resp_lv (l := l) h (by rw [hp]; rfl)
      have st := Step.lostHeldReply (acc := acc) s pre post l0 l e hp
      exact done _ (h.step st) (.one st) hd (by simp [St.upd, St.thr, St.log]) (by simp [St.upd, St.thr, St.log, hses])
    case hbReply b =>
      obtain ⟨pre, x, post, e⟩ := resp_hb (l := l) h hp
      have st := Step.hbAnswer (acc := acc) s pre post l x b e hp
      exact done _ (h.step st) (.one st) hd (by simp [St.upd, St.thr, St.log]) (by simp [St.upd, St.thr, St.log, hses])
    case relReply c =>
      cases c <;> simp at hin
      obtain ⟨pre, x, post, e⟩ := resp_rel (l := l) h hp
      have st := Step.relAnswer (acc := acc) s pre post l x _ e hp
      exact done _ (h.step st) (.one st) hd (by simp [St.upd, St.thr, St.log, St.drop, afterRelease])
        (by simp [St.upd, St.thr, St.log, St.drop, hses])
  cases t <;> simp [isToAny] at htt
  · exact main _ ⟨_, hm, by simp [isTo]; rfl⟩
  · exact main _ ⟨_, hm, by simp [isTo]; rfl⟩
  · rename_i l
    have hr := h.i2.to l hm
    obtain ⟨pre, post, e⟩ := List.append_of_mem hm
    cases hp : (s.objs l).phase <;> simp [hp, isToReply] at hr
    · exact ⟨_, l, _, .one (Step.toAnswer (acc := acc) s pre post l _ e hp), rfl⟩
    · have hdn := h.i3.down l
      simp [hd, hp, downOnly] at hdn

end
end Willow.Locker
