import Verif.Proofs.QueueKeys
import Verif.Proofs.QueueLimits
import Verif.Proofs.QueueAsks
import Verif.Proofs.ChannelLog
import Verif.Proofs.LimiterCount
import Verif.Props.Channel
/- Channels and limiter together: what the limiter stores is never less than what the channels count. -/
namespace Willow.Queue
open Willow Willow.Assoc Willow.Spec Willow.Limiter Willow.LimSpec Willow.QueueSpec
variable {D : Type}

/-- The count of a channel. -/
def num (κ : Kind) (s : Channel.St D) : Nat :=
  match κ with
  | .enq => s.enq
  | .run => s.run

/-- The counts that are compared with the limiter: those of the channels that are not closed. -/
def tr (κ : Kind) (c : Chan D) : List (KVs Key × Nat) := if c.st.closed then [] else [(kvsOf c.queue c.kvs κ, num κ c.st)]

def Ups (as : List (Kind × Ask)) : Int := (as.map (fun a => isUp a.2)).sum

theorem isUp_nonneg (a : Ask) : 0 ≤ isUp a := by unfold isUp; split <;> omega

theorem Ups_nonneg (as : List (Kind × Ask)) : 0 ≤ Ups as := by
  induction as with
  | nil => simp [Ups]
  | cons x xs ih =>
    have := isUp_nonneg x.2
    unfold Ups at *
    rw [List.map_cons, List.sum_cons]; omega

/-- Requests of one channel do not hurt the counts of the others, nor a limit. -/
theorem talk_counts {κ : Kind} {keys : List GoString} {kvs0 : KVs Key} {M : Int} {q : GoString} {kvs : KVs Key} {as : List (Kind × Ask)}
    {lim lim' : State Key} {O : List (KVs Key × Nat)} (hv : ValidKVs kvs) (hty : Typed kvs)
    (hO : ∀ t ∈ O, ValidKVs t.1 ∧ sameKVs (kvsOf q kvs κ) t.1 = false ∧ ∀ κ', κ' ≠ κ → sameKVs (kvsOf q kvs κ') t.1 = false)
    (hself : ∀ κ', κ' ≠ κ → sameKVs (kvsOf q kvs κ') (kvsOf q kvs κ) = false)
    (hd : O.Pairwise (fun a b => sameKVs a.1 b.1 = false))
    (ht : Talk q kvs lim as lim') :
    ∀ {B : Int} {n : Nat}, LInv lim B → 0 ≤ B → B + Ups as < 2 ^ 63 - 1 →
    (∀ k, agree keys kvs0 k = true → ∃ L, L ≠ -1 ∧ L ≤ M ∧ (keys, L) ∈ effective (abs lim).rules k) →
    (∀ t ∈ O, (t.2 : Int) ≤ valueAt (abs lim).counters t.1) → (n : Int) ≤ valueAt (abs lim).counters (kvsOf q kvs κ) →
    sumIn keys kvs0 ((kvsOf q kvs κ, n) :: O) ≤ M →
    LInv lim' (B + Ups as) ∧ (abs lim').rules = (abs lim).rules ∧ (∀ t ∈ O, (t.2 : Int) ≤ valueAt (abs lim').counters t.1) ∧
    ((as.foldl (upd κ) n : Nat) : Int) ≤ valueAt (abs lim').counters (kvsOf q kvs κ) ∧
    sumIn keys kvs0 ((kvsOf q kvs κ, as.foldl (upd κ) n) :: O) ≤ M := by
  induction ht with
  | nil => intro B n h _ _ _ h1 h2 h3; exact ⟨by simpa [Ups] using h, rfl, h1, h2, h3⟩
  | @cons st st' st'' κ1 a as h1 _ ih =>
    intro B n hI hB0 hB hL hOv hn hsum
    have hup : Ups ((κ1, a) :: as) = isUp a + Ups as := by simp [Ups]
    have hun := Ups_nonneg as
    have hisn : 0 ≤ isUp a := by unfold isUp; split <;> omega
    obtain ⟨i1, i2, i3, i4⟩ := talk1 hI (kvsOf_valid hv q κ1) (kvsOf_typed hty q κ1) (by omega) hB0 h1
    have hS := hI.sinv
    have hO' : ∀ t ∈ O, (t.2 : Int) ≤ valueAt (abs st').counters t.1 := by
      intro t hm
      obtain ⟨v1, v2, v3⟩ := hO t hm
      have : sameKVs (kvsOf q kvs κ1) t.1 = false := by
        by_cases e : κ1 = κ
        · rw [e]; exact v2
        · exact v3 κ1 e
      rw [i4 _ v1, if_neg (by rw [this]; simp)]
      exact hOv t hm
    have key : ((upd κ n (κ1, a) : Nat) : Int) ≤ valueAt (abs st').counters (kvsOf q kvs κ) ∧ sumIn keys kvs0 ((kvsOf q kvs κ, upd κ n (κ1, a)) :: O) ≤ M := by
      by_cases e : κ1 = κ
      · subst e
        rw [i4 _ (kvsOf_valid hv q κ1), if_pos (sameKVs_refl _)]
        simp only [upd, if_true]
        cases a with
        | up =>
          simp only [upv]
          refine ⟨by push_cast; omega, ?_⟩
          simp only [sumIn] at hsum ⊢
          by_cases hag : agree keys kvs0 (kvsOf q kvs κ1) = true
          · rw [if_pos hag]
            obtain ⟨L, hL1, hL2, hL3⟩ := hL _ hag
            have hlt := allowed_lt (i3 rfl) hL3 hL1
            have hle := sumIn_le (keys := keys) (kvs := kvs0) (T := (kvsOf q kvs κ1, n) :: O) hS.cpos hS.cuniq hS.cval (by
              intro t hm
              rcases List.mem_cons.1 hm with rfl | hm
              · exact ⟨kvsOf_valid hv q κ1, hn⟩
              · exact ⟨(hO t hm).1, hOv t hm⟩) (by
              rw [List.pairwise_cons]
              exact ⟨fun t hm => (hO t hm).2.1, hd⟩)
            simp only [sumIn] at hle
            rw [if_pos hag] at hle
            rw [groupTotal_agree hag] at hle
            push_cast; omega
          · rw [if_neg hag] at hsum ⊢; exact hsum
        | upRefused => exact ⟨by simpa [upv] using hn, hsum⟩
        | down =>
          simp only [upv]
          refine ⟨by omega, ?_⟩
          simp only [sumIn] at hsum ⊢
          by_cases hag : agree keys kvs0 (kvsOf q kvs κ1) = true
          · rw [if_pos hag] at hsum ⊢; omega
          · rw [if_neg hag] at hsum ⊢; omega
        | zero =>
          simp only [upv]
          refine ⟨by simp, ?_⟩
          simp only [sumIn] at hsum ⊢
          by_cases hag : agree keys kvs0 (kvsOf q kvs κ1) = true
          · rw [if_pos hag] at hsum ⊢; omega
          · rw [if_neg hag] at hsum ⊢; omega
      · have hs := hself κ1 e
        rw [i4 _ (kvsOf_valid hv q κ), if_neg (by rw [hs]; simp)]
        simp only [upd, if_neg e]
        exact ⟨hn, hsum⟩
    obtain ⟨j1, j2, j3, j4, j5⟩ := ih (B := B + isUp a) (n := upd κ n (κ1, a)) i1 (by omega) (by omega) (by rw [i2]; exact hL) hO' key.1 key.2
    refine ⟨?_, j2.trans i2, j3, by simpa using j4, by simpa using j5⟩
    rw [hup, ← Int.add_assoc]; exact j1

/-- Requests for the other counters. -/
theorem talk_other {κ : Kind} {q : GoString} {kvs : KVs Key} {as : List (Kind × Ask)}
    {lim lim' : State Key} {O : List (KVs Key × Nat)} (hv : ValidKVs kvs) (hty : Typed kvs)
    (hO : ∀ t ∈ O, ValidKVs t.1 ∧ ∀ κ', κ' ≠ κ → sameKVs (kvsOf q kvs κ') t.1 = false)
    (ht : Talk q kvs lim as lim') :
    ∀ {B : Int}, LInv lim B → 0 ≤ B → B + Ups as < 2 ^ 63 - 1 → (∀ a ∈ as, a.1 ≠ κ) →
    (∀ t ∈ O, (t.2 : Int) ≤ valueAt (abs lim).counters t.1) →
    LInv lim' (B + Ups as) ∧ (abs lim').rules = (abs lim).rules ∧ (∀ t ∈ O, (t.2 : Int) ≤ valueAt (abs lim').counters t.1) := by
  induction ht with
  | nil => intro B h _ _ _ h1; exact ⟨by simpa [Ups] using h, rfl, h1⟩
  | @cons st st' st'' κ1 a as h1 _ ih =>
    intro B hI hB0 hB hne hOv
    have hup : Ups ((κ1, a) :: as) = isUp a + Ups as := by simp [Ups]
    have hun := Ups_nonneg as
    have hisn : 0 ≤ isUp a := by unfold isUp; split <;> omega
    obtain ⟨i1, i2, i3, i4⟩ := talk1 hI (kvsOf_valid hv q κ1) (kvsOf_typed hty q κ1) (by omega) hB0 h1
    have hO' : ∀ t ∈ O, (t.2 : Int) ≤ valueAt (abs st').counters t.1 := by
      intro t hm
      obtain ⟨v1, v3⟩ := hO t hm
      rw [i4 _ v1, if_neg (by rw [v3 κ1 (hne (κ1, a) (by simp))]; simp)]
      exact hOv t hm
    obtain ⟨j1, j2, j3⟩ := ih (B := B + isUp a) i1 (by omega) (by omega) (fun x hx => hne x (by simp [hx])) hO'
    refine ⟨?_, j2.trans i2, j3⟩
    rw [hup, ← Int.add_assoc]; exact j1

theorem Ups_append (a b : List (Kind × Ask)) : Ups (a ++ b) = Ups a + Ups b := by simp [Ups]

theorem Ups_zero {as : List (Kind × Ask)} (h : ∀ a ∈ as, a.2 ≠ .up) : Ups as = 0 := by
  induction as with
  | nil => rfl
  | cons x xs ih =>
    have h1 := ih (fun a ha => h a (by simp [ha]))
    have h2 := h x (by simp)
    unfold Ups at *
    rw [List.map_cons, List.sum_cons, h1]
    simp [isUp, h2]

theorem asksOf_up {e : Channel.Ev D} {a : Kind × Ask} (h : a ∈ asksOf e) (hu : a.2 = .up) : ∃ id r, e = .enqueued id r := by
  obtain ⟨k, b⟩ := a
  simp only at hu
  subst hu
  unfold asksOf at h
  split at h <;> simp at h
  exact ⟨_, _, rfl⟩

/-- A step increments at most one counter. -/
theorem ups_step {s s' : Channel.St D} (hi : Channel.Inv s) (hs : Channel.Step s s') {evs : List (Channel.Ev D)} (hl : s'.log = evs.reverse ++ s.log) :
    Ups (dequeueAsks s s' ++ evs.flatMap asksOf) ≤ 1 := by
  rw [Ups_append]
  have hdq : Ups (dequeueAsks s s') ≤ 1 := by
    unfold dequeueAsks; split <;> simp [Ups, isUp]
  obtain ⟨e2, g⟩ := Channel.step_grows hi hs
  have he : e2 = evs.reverse := List.append_cancel_right (g.log.symm.trans hl)
  subst he
  by_cases hd : dequeueAsks s s' = []
  · rw [hd]
    rcases g.new with ⟨r, e⟩ | h
    · have : evs = [.enqueued s.nextId r] := by
        have := congrArg List.reverse e; simpa using this
      subst this
      simp [Ups, asksOf, isUp]
    · rw [Ups_zero (as := evs.flatMap asksOf)]
      · simp [Ups]
      · intro a ha hu
        obtain ⟨e, h1, h2⟩ := List.mem_flatMap.1 ha
        obtain ⟨id, r, rfl⟩ := asksOf_up h2 hu
        exact h _ (by simpa using h1) id r rfl
  · have hc : s.exec = .called ∧ s'.exec ≠ .called := by
      unfold dequeueAsks at hd
      split at hd
      · rename_i h1 h2; exact ⟨h1, by simp [h2]⟩
      · rename_i h1 h2; exact ⟨h1, by simp [h2]⟩
      · exact absurd rfl hd
    rcases step_called hs hc.1 with ⟨gr, rfl⟩ | h
    · have hlog : (Channel.count s gr).log = s.log := by unfold Channel.count; split <;> rfl
      rw [hlog] at hl
      have : evs = [] := by simpa using congrArg List.length hl
      subst this
      simpa [Ups] using hdq
    · exact absurd h hc.2

/-! ### The invariant -/

/-- Different channels, unless one of them is gone. -/
def Apart (a b : Chan D) : Prop :=
  ValidKVs a.kvs → ValidKVs b.kvs → a.live = true → b.live = true → ¬ (a.queue = b.queue ∧ sameKVs a.kvs b.kvs = true)

theorem Apart.symm {a b : Chan D} (h : Apart a b) : Apart b a :=
  fun hb ha l1 l2 ⟨e, s⟩ => h ha hb l2 l1 ⟨e.symm, sameKVs_symm hb ha s⟩

/-- What must not have happened for the count of items being processed to be right: deletions by force, and ACKs of an item whose new
delivery fails. -/
def Quiet (κ : Kind) (s : Channel.St D) : Prop := κ = .run → .forced ∉ s.log ∧ ∀ id, .unsent id false ∉ s.log

structure Core (κ : Kind) (bad : List GoString) (keys : List GoString) (kvs0 : KVs Key) (M : Int) (s : Sys D) (B : Int) : Prop where
  lim : LInv s.lim B
  bound : 0 ≤ B
  reach : ∀ c ∈ s.chans, Channel.Reach c.st
  good : ∀ c ∈ s.chans, GoodKeys bad c.kvs
  apart : s.chans.Pairwise Apart
  val : ∀ t ∈ s.chans.flatMap (tr κ), (t.2 : Int) ≤ valueAt (abs s.lim).counters t.1
  sum : sumIn keys kvs0 (s.chans.flatMap (tr κ)) ≤ M

theorem tr_live {κ : Kind} {c : Chan D} {t : KVs Key × Nat} (h : t ∈ tr κ c) : c.live = true ∧ t.1 = kvsOf c.queue c.kvs κ := by
  unfold tr at h
  split at h
  · cases h
  · rename_i hc
    simp only [List.mem_singleton] at h
    subst h
    exact ⟨by simp [Chan.live, hc], rfl⟩

section
variable {κ : Kind} {bad : List GoString} {key : GoString}

/-- The counters of different channels are different. -/
theorem tracked_apart (hS : Setting κ bad key) : ∀ {l : List (Chan D)}, (∀ c ∈ l, GoodKeys bad c.kvs) → l.Pairwise Apart →
    (l.flatMap (tr κ)).Pairwise (fun a b => sameKVs a.1 b.1 = false)
  | [], _, _ => by simp
  | c :: l, hg, hp => by
    rw [List.pairwise_cons] at hp
    rw [List.flatMap_cons, List.pairwise_append]
    refine ⟨?_, tracked_apart hS (fun x hx => hg x (by simp [hx])) hp.2, ?_⟩
    · unfold tr; split <;> simp
    · intro a ha b hb
      obtain ⟨l1, e1⟩ := tr_live ha
      obtain ⟨d, hd, hb⟩ := List.mem_flatMap.1 hb
      obtain ⟨l2, e2⟩ := tr_live hb
      have gc := hg c (by simp)
      have gd := hg d (by simp [hd])
      cases h : sameKVs a.1 b.1 with
      | false => rfl
      | true =>
        rw [e1, e2] at h
        obtain ⟨x, y⟩ := hS.sep gc gd h
        exact absurd ⟨x, y⟩ (hp.1 d hd gc.1 gd.1 l1 l2)

theorem reach_forced_log {s : Channel.St D} (h : Channel.Reach s) (hn : .forced ∉ s.log) : s.forced = false := by
  cases hf : s.forced with
  | false => rfl
  | true => exact absurd (Channel.forced_logged h hf) hn

/-- A step of a channel. -/
theorem Core.chan {keys : List GoString} {kvs0 : KVs Key} {M B : Int} (hS : Setting κ bad key)
    {lim lim' : State Key} {l1 l2 : List (Chan D)} {c : Chan D} {st' : Channel.St D} {evs : List (Channel.Ev D)}
    (h : Core κ bad keys kvs0 M ⟨lim, l1 ++ c :: l2⟩ B) (hB : B + 1 < 2 ^ 63 - 1)
    (hL : ∀ k, agree keys kvs0 k = true → ∃ L, L ≠ -1 ∧ L ≤ M ∧ (keys, L) ∈ effective (abs lim).rules k)
    (hc : c.st.crashed = false) (hs : Channel.Step c.st st') (hl : st'.log = evs.reverse ++ c.st.log) (hq : Quiet κ st')
    (ht : Talk c.queue c.kvs lim (dequeueAsks c.st st' ++ evs.flatMap asksOf) lim') :
    Core κ bad keys kvs0 M ⟨lim', l1 ++ { c with st := st' } :: l2⟩ (B + 1) ∧ (abs lim').rules = (abs lim).rules := by
  have hr : Channel.Reach c.st := h.reach c (by simp)
  have hi := Channel.inv_reach hr
  have hgc : GoodKeys bad c.kvs := h.good c (by simp)
  have hups := ups_step hi hs hl
  have hun := Ups_nonneg (dequeueAsks c.st st' ++ evs.flatMap asksOf)
  have hM : sumIn keys kvs0 ((l1 ++ l2).flatMap (tr κ)) + sumIn keys kvs0 (tr κ c) ≤ M := by
    have := h.sum
    simp only [List.flatMap_append, List.flatMap_cons, sumIn_append] at this ⊢; omega
  have hap : (c :: (l1 ++ l2)).Pairwise Apart := (List.perm_middle.pairwise_iff (fun {a b} hab => Apart.symm hab)).1 h.apart
  have hap' := List.pairwise_cons.1 hap
  have hgo : ∀ d ∈ l1 ++ l2, GoodKeys bad d.kvs := fun d hd => h.good d (by simp only [List.mem_append, List.mem_cons] at hd ⊢; rcases hd with hd | hd <;> simp [hd])
  have hvo : ∀ t ∈ (l1 ++ l2).flatMap (tr κ), (t.2 : Int) ≤ valueAt (abs lim).counters t.1 := fun t hm => h.val t (by
    simp only [List.flatMap_append, List.flatMap_cons, List.mem_append] at hm ⊢; rcases hm with hm | hm
    · exact .inl hm
    · exact .inr (.inr hm))
  -- what is left to show
  have finish : LInv lim' (B + Ups (dequeueAsks c.st st' ++ evs.flatMap asksOf)) → (abs lim').rules = (abs lim).rules →
      (∀ t ∈ (l1 ++ l2).flatMap (tr κ), (t.2 : Int) ≤ valueAt (abs lim').counters t.1) →
      (∀ t ∈ tr κ { c with st := st' }, (t.2 : Int) ≤ valueAt (abs lim').counters t.1) →
      sumIn keys kvs0 (tr κ { c with st := st' }) + sumIn keys kvs0 ((l1 ++ l2).flatMap (tr κ)) ≤ M →
      Core κ bad keys kvs0 M ⟨lim', l1 ++ { c with st := st' } :: l2⟩ (B + 1) ∧ (abs lim').rules = (abs lim).rules := by
    intro k1 k2 k3 k4 k5
    refine ⟨⟨{ k1 with csum := by have := k1.csum; simp only at this ⊢; omega }, by have := h.bound; omega, ?_, ?_, ?_, ?_, ?_⟩, k2⟩
    · intro d hd
      simp only [List.mem_append, List.mem_cons] at hd
      rcases hd with hd | rfl | hd
      · exact h.reach d (by simp [hd])
      · exact hr.step hc hs
      · exact h.reach d (by simp [hd])
    · intro d hd
      simp only [List.mem_append, List.mem_cons] at hd
      rcases hd with hd | rfl | hd
      · exact h.good d (by simp [hd])
      · exact hgc
      · exact h.good d (by simp [hd])
    · refine (List.perm_middle.pairwise_iff (fun {a b} hab => Apart.symm hab)).2 ?_
      rw [List.pairwise_cons]
      refine ⟨fun d hd v1 v2 lv1 lv2 => ?_, hap'.2⟩
      exact hap'.1 d hd v1 v2 (live_mono hs lv1) lv2
    · intro t hm
      simp only [List.flatMap_append, List.flatMap_cons, List.mem_append] at hm k3
      rcases hm with hm | hm | hm
      · exact k3 t (.inl hm)
      · exact k4 t hm
      · exact k3 t (.inr hm)
    · simp only [List.flatMap_append, List.flatMap_cons, sumIn_append] at k5 ⊢; omega
  by_cases hlive : c.live = true
  · -- the channel does something
    have hn : (num κ c.st : Int) ≤ valueAt (abs lim).counters (kvsOf c.queue c.kvs κ) ∧
        sumIn keys kvs0 ((kvsOf c.queue c.kvs κ, num κ c.st) :: (l1 ++ l2).flatMap (tr κ)) ≤ M := by
      by_cases ho : c.st.closed = true
      · -- it is being deleted
        have hf : c.st.forced = true := by
          simp only [Chan.live, ho] at hlive
          cases hf : c.st.forced with
          | true => rfl
          | false => simp [hf] at hlive
        have h0 : num κ c.st = 0 := by
          cases κ with
          | enq => exact Props.C49_after_delete hr hf
          | run =>
            have := (hq rfl).1
            exact absurd (by rw [hl]; exact List.mem_append.2 (.inr (Channel.forced_logged hr hf))) this
        rw [h0]
        have : tr κ c = [] := by simp [tr, ho]
        rw [this] at hM
        refine ⟨by simpa using valueAt_nonneg h.lim.sinv.cpos _, ?_⟩
        simp only [sumIn] at hM ⊢
        split <;> omega
      · have : tr κ c = [(kvsOf c.queue c.kvs κ, num κ c.st)] := by simp [tr, ho]
        rw [this] at hM
        refine ⟨h.val (kvsOf c.queue c.kvs κ, num κ c.st) (by simp [this]), ?_⟩
        simp only [sumIn] at hM ⊢
        omega
    obtain ⟨k1, k2, k3, k4, k5⟩ := talk_counts (κ := κ) (keys := keys) (kvs0 := kvs0) (M := M) (O := (l1 ++ l2).flatMap (tr κ)) hgc.1 hgc.2.1 (by
      intro t hm
      obtain ⟨d, hd, hm⟩ := List.mem_flatMap.1 hm
      obtain ⟨lv, e⟩ := tr_live hm
      have gd := hgo d hd
      rw [e]
      refine ⟨kvsOf_valid gd.1 _ _, ?_, fun κ' hne => hS.cross hgc gd hne⟩
      cases hsm : sameKVs (kvsOf c.queue c.kvs κ) (kvsOf d.queue d.kvs κ) with
      | false => rfl
      | true =>
        obtain ⟨x, y⟩ := hS.sep hgc gd hsm
        exact absurd ⟨x, y⟩ (hap'.1 d hd hgc.1 gd.1 hlive lv)) (fun κ' hne => hS.cross hgc hgc hne)
      (tracked_apart hS hgo hap'.2) ht h.lim h.bound (by omega) hL hvo hn.1 hn.2
    have hnum : num κ st' = (dequeueAsks c.st st' ++ evs.flatMap asksOf).foldl (upd κ) (num κ c.st) := by
      have := step_asks hs hl
      cases κ with
      | enq => exact this.1
      | run => exact this.2
    rw [← hnum] at k4 k5
    have hdrop : ∀ n : Nat, 0 ≤ sumIn keys kvs0 [(kvsOf c.queue c.kvs κ, n)] := by
      intro n; simp only [sumIn]; split <;> omega
    refine finish k1 k2 k3 ?_ ?_
    · intro t hm
      unfold tr at hm
      split at hm
      · cases hm
      · simp only [List.mem_singleton] at hm
        subst hm; exact k4
    · have e := sumIn_append keys kvs0 [(kvsOf c.queue c.kvs κ, num κ st')] ((l1 ++ l2).flatMap (tr κ))
      rw [List.singleton_append] at e
      rw [e] at k5
      unfold tr
      split
      · have := hdrop (num κ st')
        simp only [sumIn]
        have e' : (l1 ++ l2).flatMap (fun c => if c.st.closed = true then [] else [(kvsOf c.queue c.kvs κ, num κ c.st)]) = (l1 ++ l2).flatMap (tr κ) := rfl
        rw [e']; omega
      · exact k5
  · -- it is gone
    have hcl : c.st.closed = true ∧ (c.st.forced = false ∨ c.st.destroyed = true) := by
      simp only [Chan.live] at hlive
      cases h1 : c.st.closed <;> cases h2 : c.st.forced <;> cases h3 : c.st.destroyed <;> simp_all
    have hne : ∀ a ∈ dequeueAsks c.st st' ++ evs.flatMap asksOf, a.1 ≠ κ := by
      cases κ with
      | enq => intro a ha e; have := dead_enq hi hs hcl.1 hcl.2 hl a ha; rw [this] at e; cases e
      | run =>
        obtain ⟨q1, q2⟩ := hq rfl
        have hf := reach_forced_log hr (fun hm => q1 (by rw [hl]; exact List.mem_append.2 (.inr hm)))
        rw [dead_run hi hs hcl.1 hf q2 hl]; simp
    obtain ⟨k1, k2, k3⟩ := talk_other (κ := κ) (O := (l1 ++ l2).flatMap (tr κ)) hgc.1 hgc.2.1 (by
      intro t hm
      obtain ⟨d, hd, hm⟩ := List.mem_flatMap.1 hm
      obtain ⟨_, e⟩ := tr_live hm
      rw [e]
      exact ⟨kvsOf_valid (hgo d hd).1 _ _, fun κ' hne => hS.cross hgc (hgo d hd) hne⟩) ht h.lim h.bound (by omega) hne hvo
    have hcl' := (step_flags hs hcl.1).1
    have e1 : tr κ { c with st := st' } = [] := by simp [tr, hcl']
    have e2 : tr κ c = [] := by simp [tr, hcl.1]
    rw [e2] at hM
    refine finish k1 k2 k3 (by rw [e1]; simp) ?_
    rw [e1]; simp only [sumIn] at hM ⊢; omega

/-- A new channel. -/
theorem Core.create {keys : List GoString} {kvs0 : KVs Key} {M B : Int} {lim : State Key} {chans : List (Chan D)}
    (h : Core κ bad keys kvs0 M ⟨lim, chans⟩ B) {q : GoString} {kvs : KVs Key} (hg : GoodKeys bad kvs)
    (hn : ∀ c ∈ chans, c.live = true → ¬ (c.queue = q ∧ sameKVs c.kvs kvs = true)) :
    Core κ bad keys kvs0 M ⟨lim, chans ++ [⟨q, kvs, Channel.init⟩]⟩ B := by
  have e : tr κ (⟨q, kvs, Channel.init⟩ : Chan D) = [(kvsOf q kvs κ, 0)] := by
    cases κ <;> simp [tr, Channel.init, num]
  refine ⟨h.lim, h.bound, ?_, ?_, ?_, ?_, ?_⟩
  · intro c hc
    rcases List.mem_append.1 hc with hc | hc
    · exact h.reach c hc
    · simp only [List.mem_singleton] at hc; subst hc; exact .init
  · intro c hc
    rcases List.mem_append.1 hc with hc | hc
    · exact h.good c hc
    · simp only [List.mem_singleton] at hc; subst hc; exact hg
  · rw [List.pairwise_append]
    refine ⟨h.apart, by simp, ?_⟩
    intro a ha b hb
    simp only [List.mem_singleton] at hb; subst hb
    exact fun _ _ l1 _ => hn a ha l1
  · intro t hm
    simp only [List.flatMap_append, List.flatMap_cons, List.flatMap_nil, List.append_nil, List.mem_append] at hm
    rcases hm with hm | hm
    · exact h.val t hm
    · rw [e] at hm
      simp only [List.mem_singleton] at hm; subst hm
      simpa using valueAt_nonneg h.lim.sinv.cpos _
  · have := h.sum
    simp only [List.flatMap_append, List.flatMap_cons, List.flatMap_nil, List.append_nil, sumIn_append, e, sumIn]
    split <;> simp <;> exact this

/-- A request of somebody else. -/
theorem Core.other {keys : List GoString} {kvs0 : KVs Key} {M B : Int} (hS : Setting κ bad key) {lim lim' : State Key} {out : Limiter.Out Key}
    {chans : List (Chan D)} (h : Core κ bad keys kvs0 M ⟨lim, chans⟩ B) {op : Op Key} (hv : ValidOp op) (hB : B + amount op < 2 ^ 63)
    (hoff : OffKey key op) (hs : Limiter.step lim op = some (lim', out)) :
    Core κ bad keys kvs0 M ⟨lim', chans⟩ (B + amount op) ∧ abs lim' = (specStep (abs lim) op).1 := by
  obtain ⟨s2, o2, e2, hI, hab, _⟩ := sim_step h.lim hv hB
  rw [hs] at e2; cases e2
  have ha : 0 ≤ amount op := by cases op <;> simp [amount] <;> omega
  refine ⟨⟨hI, by have := h.bound; omega, h.reach, h.good, h.apart, ?_, h.sum⟩, hab⟩
  intro t hm
  have hval : ValidKVs t.1 ∧ key ∈ t.1.map (·.1) := by
    obtain ⟨c, hc, ht⟩ := List.mem_flatMap.1 hm
    rw [(tr_live ht).2]
    exact ⟨kvsOf_valid (h.good c hc).1 _ _, hS.has _ _⟩
  have := (LimConc.other_value h.lim hv hB hs hval.1 (by
    cases op with
    | upsert ch k c =>
      exact sameKVs_key hv.1 hval.1 hoff hval.2
    | setCounter k c => exact sameKVs_key hv.1 hval.1 hoff hval.2
    | _ => trivial)).2
  simp only at this ⊢
  rw [this]
  exact h.val t hm

/-- Histories. -/
theorem Core.run {keys : List GoString} {kvs0 : KVs Key} {M B : Int} (hS : Setting κ bad key) {P : St → Prop}
    (hP : ∀ st, P st → ∀ k, agree keys kvs0 k = true → ∃ L, L ≠ -1 ∧ L ≤ M ∧ (keys, L) ∈ effective st.rules k)
    (hPr : ∀ st st', st'.rules = st.rules → P st → P st') (Ok : Op Key → Prop)
    (hPo : ∀ st op, SInv st → ValidOp op → Ok op → P st → P (specStep st op).1)
    {s0 s : Sys D} {ls : List (Label D)} (hr : Run s0 ls s) (h0 : Core κ bad keys kvs0 M s0 B) (hP0 : P (abs s0.lim)) :
    (∀ l ∈ ls, ValidLabel bad l) → (∀ op, .other op ∈ ls → OffKey key op ∧ Ok op) → B + labelsAmount ls < 2 ^ 63 - 1 →
    (∀ c ∈ s.chans, Quiet κ c.st) → Core κ bad keys kvs0 M s (B + labelsAmount ls) ∧ P (abs s.lim) := by
  induction hr with
  | nil => intro _ _ _ _; exact ⟨by simpa [labelsAmount] using h0, hP0⟩
  | @snoc ls l s s' _ hst ih =>
    intro hv ho hB hq
    have hsum : labelsAmount (ls ++ [l]) = labelsAmount ls + labelAmount l := by simp [labelsAmount]
    have hln : 0 ≤ labelAmount l := by
      cases l with
      | other op => cases op <;> simp [labelAmount, amount] <;> omega
      | _ => simp [labelAmount]
    have hq' : ∀ c ∈ s.chans, Quiet κ c.st := by
      cases hst with
      | create q kvs _ => exact fun c hc => hq c (List.mem_append.2 (.inl hc))
      | chan hc1 hs1 hl ht1 =>
        rename_i c st' evs _
        intro d hd
        simp only [List.mem_append, List.mem_cons] at hd
        rcases hd with hd | rfl | hd
        · exact hq d (by simp [hd])
        · intro e
          obtain ⟨q1, q2⟩ := hq { d with st := st' } (by simp) e
          simp only [hl] at q1 q2
          exact ⟨fun hm => q1 (List.mem_append.2 (.inr hm)), fun id hm => q2 id (List.mem_append.2 (.inr hm))⟩
        · exact hq d (by simp [hd])
      | other op _ => exact hq
    obtain ⟨ih1, ih2⟩ := ih (fun x hx => hv x (by simp [hx])) (fun op hop => ho op (by simp [hop])) (by omega) hq'
    rw [hsum]
    cases hst with
    | create q kvs hn =>
      simp only [labelAmount, Int.add_zero]
      exact ⟨ih1.create (hv (.create q kvs) (by simp)) hn, ih2⟩
    | chan hc hs hl ht =>
      rename_i c st' evs _
      simp only [labelAmount] at hsum ⊢
      rw [← Int.add_assoc]
      obtain ⟨k1, k2⟩ := ih1.chan hS (by omega) (hP _ ih2) hc hs hl (hq { c with st := st' } (by simp)) ht
      exact ⟨k1, hPr _ _ k2 ih2⟩
    | other op hs =>
      simp only [labelAmount] at hsum ⊢
      obtain ⟨o1, o2⟩ := ho op (by simp)
      have hvo : ValidOp op := hv (.other op) (by simp)
      rw [← Int.add_assoc]
      obtain ⟨k1, k2⟩ := ih1.other hS hvo (by omega) o1 hs
      refine ⟨k1, ?_⟩
      rw [k2]
      exact hPo _ _ ih1.lim.sinv hvo o2 ih2

end

end Willow.Queue
