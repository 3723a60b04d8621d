import Verif.Proofs.LockerProgress
namespace Willow.Locker
open Willow.LockerSpec

/-- Every event of a reachable trace came from one step between reachable states. -/
theorem event_step {acc : Int → Prop} {s : St} (hr : Reach acc {} s) :
    ∀ post e pre, s.tr = post ++ e :: pre →
      ∃ s1 s2, Reach acc {} s1 ∧ Step acc s1 s2 ∧ Reach acc s2 s ∧ s1.tr = pre ∧ s2.tr = e :: pre := by
  induction hr with
  | refl => intro post e pre h; cases post <;> cases h
  | @step a b hr hs ih =>
    intro post e pre h
    rcases tr_step hs with h1 | ⟨e1, h1⟩
    · rw [h1] at h
      obtain ⟨s1, s2, r1, st, r2, t1, t2⟩ := ih post e pre h
      exact ⟨s1, s2, r1, st, .step r2 hs, t1, t2⟩
    · rw [h1] at h
      cases post with
      | nil => cases h; exact ⟨a, b, hr, hs, .refl, rfl, h1⟩
      | cons p post =>
        injection h with _ h
        obtain ⟨s1, s2, r1, st, r2, t1, t2⟩ := ih post e pre h
        exact ⟨s1, s2, r1, st, .step r2 hs, t1, t2⟩

theorem good_of_reach {acc : Int → Prop} {s : St} (hr : Reach acc {} s) : Good acc s := (Good.init acc).reach hr

theorem liveSt_length (s : St) : (liveSt s).length ≤ 1 := by
  unfold liveSt
  cases s.tree with
  | none => exact Nat.zero_le _
  | some l => dsimp only; cases (s.objs l).session <;> simp

theorem live_length {acc : Int → Prop} {s : St} (hr : Reach acc {} s) : (live s.tr).length ≤ 1 := by
  rw [(good_of_reach hr).lv]; exact liveSt_length s

theorem live_of_session {acc : Int → Prop} {s : St} {l : LockId} {x : Sess} (hr : Reach acc {} s)
    (hx : (s.objs l).session = some x) : live s.tr = [x] := by
  have g := good_of_reach hr
  have ht := (g.i1.sess l (by simp [hx])).2
  rw [g.lv, liveSt_eq, ht, liveOf_some, hx]; rfl

/-- What a success of a session needs. -/
theorem uses_live {acc : Int → Prop} {s s' : St} {e : Ev} {x : Sess} (hr : Reach acc {} s) (hs : Step acc s s')
    (he : s'.tr = e :: s.tr) (hu : UsesSession e x ∨ e = .hbOk x) : live s.tr = [x] := by
  have g := good_of_reach hr
  have ne : ∀ {e : Ev} {tr : List Ev}, tr = e :: tr → False := fun h => by
    have := congrArg List.length h; simp at this
  cases hs <;> simp only [St.upd, St.thr, St.log, St.drop] at he
  case hbSend pre post l sess ht hp =>
    split at he
    · rename_i hh
      cases he
      have : (s.objs l).session = some sess := by
        unfold heartbeat at hh; split at hh
        · assumption
        · simp at hh
      have hx := live_of_session hr this
      rcases hu with ⟨l', hu | hu⟩ | hu <;> cases hu
      exact hx
    · exact (ne he).elim
  case hbAnswer pre post l sess b ht hp =>
    injection he with he _
    have := g.i2.hb l sess (by rw [ht]; simp)
    cases b
    · subst he; rcases hu with ⟨l', hu | hu⟩ | hu <;> cases hu
    · rw [hp] at this
      subst he
      rcases hu with ⟨l', hu | hu⟩ | hu <;> cases hu
      exact live_of_session hr (l := l) (by simpa using this)
  case relSend pre post l sess ht hp =>
    split at he
    · exact (ne he).elim
    · rename_i hh
      cases he
      have : (s.objs l).session = some sess := by
        unfold release at hh; split at hh
        · assumption
        · simp at hh
      have hx := live_of_session hr this
      rcases hu with ⟨l', hu | hu⟩ | hu <;> cases hu
      exact hx
  case relAnswer c _ _ =>
    cases c <;> (injection he with he _; subst he; rcases hu with ⟨l', hu | hu⟩ | hu <;> cases hu)
  all_goals first
    | exact (ne he).elim
    | (injection he with he _; subst he; rcases hu with ⟨l', hu | hu⟩ | hu <;> cases hu)

theorem live_granted : ∀ {tr : List Ev} {x : Sess}, x ∈ live tr → WasGranted tr x := by
  intro tr x
  induction tr with
  | nil => intro h; cases h
  | cons e tr ih =>
    intro h
    have lift : WasGranted tr x → WasGranted (e :: tr) x := fun ⟨l, hl⟩ => ⟨l, List.mem_cons_of_mem _ hl⟩
    cases e with
    | granted l s =>
      rcases List.mem_cons.mp h with h | h
      · subst h; exact ⟨l, List.mem_cons_self⟩
      · exact lift (ih h)
    | released l s => exact lift (ih (List.mem_filter.mp h).1)
    | expired l s =>
      cases s with
      | none => exact lift (ih h)
      | some s => exact lift (ih (List.mem_filter.mp h).1)
    | _ => exact lift (ih h)

/-- A granted session that is not live has ended after its grant. -/
theorem ended_of_not_live {l : LockId} {x : Sess} {pre : List Ev} : ∀ {mid : List Ev},
    x ∉ live (mid ++ .granted l x :: pre) → Ended mid x := by
  intro mid
  induction mid with
  | nil => intro h; exact absurd List.mem_cons_self h
  | cons e mid ih =>
    intro h
    have lift : Ended mid x → Ended (e :: mid) x := fun ⟨l, hl⟩ =>
      ⟨l, hl.imp (List.mem_cons_of_mem _) (List.mem_cons_of_mem _)⟩
    cases e with
    | granted l' s => exact lift (ih fun hm => h (List.mem_cons_of_mem _ hm))
    | released l' s =>
      by_cases hx : x = s
      · subst hx; exact ⟨l', .inl List.mem_cons_self⟩
      · exact lift (ih fun hm => h (List.mem_filter.mpr ⟨hm, by simpa using hx⟩))
    | expired l' s =>
      cases s with
      | none => exact lift (ih h)
      | some s =>
        by_cases hx : x = s
        · subst hx; exact ⟨l', .inr List.mem_cons_self⟩
        · exact lift (ih fun hm => h (List.mem_filter.mpr ⟨hm, by simpa using hx⟩))
    | _ => exact lift (ih h)

/-- Which steps grant. -/
theorem grant_fresh {acc : Int → Prop} {s s' : St} {l : LockId} {x : Sess} (hs : Step acc s s')
    (he : s'.tr = .granted l x :: s.tr) : freshIn s.tr x ∧ (s.objs l).phase = .claiming := by
  have ne : ∀ {e : Ev} {tr : List Ev}, tr = e :: tr → False := fun h => by
    have := congrArg List.length h; simp at this
  cases hs <;> simp only [St.upd, St.thr, St.log, St.drop] at he
  case claimDone hf => cases he; exact ⟨hf, by assumption⟩
  case hbSend => split at he <;> first | exact (ne he).elim | cases he
  case relSend => split at he <;> first | exact (ne he).elim | cases he
  case hbAnswer b _ _ => cases b <;> cases he
  case relAnswer c _ _ => cases c <;> cases he
  all_goals first | exact (ne he).elim | cases he

theorem ended_cons {e : Ev} {tr : List Ev} {x : Sess} (h : Ended (e :: tr) x) :
    Ended tr x ∨ (∃ l, e = .released l x ∨ e = .expired l (some x)) := by
  obtain ⟨l, h | h⟩ := h
  · rcases List.mem_cons.mp h with h | h
    · exact .inr ⟨l, .inl h.symm⟩
    · exact .inl ⟨l, .inl h⟩
  · rcases List.mem_cons.mp h with h | h
    · exact .inr ⟨l, .inr h.symm⟩
    · exact .inl ⟨l, .inr h⟩

/-- The clock only ends a session that is live. -/
theorem expired_live {acc : Int → Prop} {s s' : St} {l : LockId} {o : Option Sess} (hr : Reach acc {} s) (hs : Step acc s s')
    (he : s'.tr = .expired l o :: s.tr) : ∃ x, o = some x ∧ live s.tr = [x] := by
  have g := good_of_reach hr
  have ne : ∀ {e : Ev} {tr : List Ev}, tr = e :: tr → False := fun h => by
    have := congrArg List.length h; simp at this
  cases hs <;> simp only [St.upd, St.thr, St.log, St.drop] at he
  case tick hp ha =>
    cases he
    obtain ⟨x, hx⟩ := Option.ne_none_iff_exists'.mp (g.i1.armed l ha (by rw [hp]; rfl))
    exact ⟨x, hx, live_of_session hr hx⟩
  case hbSend => split at he <;> first | exact (ne he).elim | cases he
  case relSend => split at he <;> first | exact (ne he).elim | cases he
  case hbAnswer b _ _ => cases b <;> cases he
  case relAnswer c _ _ => cases c <;> cases he
  all_goals first | exact (ne he).elim | cases he

theorem ended_dead {acc : Int → Prop} {s : St} (hr : Reach acc {} s) {x : Sess} (h : Ended s.tr x) :
    WasGranted s.tr x ∧ x ∉ live s.tr := by
  induction hr with
  | refl => obtain ⟨l, h | h⟩ := h <;> cases h
  | @step a b hr hs ih =>
    rcases tr_step hs with h1 | ⟨e, h1⟩
    · rw [h1] at h ⊢; exact ih h
    · rw [h1] at h ⊢
      have lift : WasGranted a.tr x → WasGranted (e :: a.tr) x := fun ⟨l, hl⟩ => ⟨l, List.mem_cons_of_mem _ hl⟩
      rcases ended_cons h with h | ⟨l, h⟩
      · obtain ⟨i1, i2⟩ := ih h
        refine ⟨lift i1, fun hm => ?_⟩
        cases e with
        | granted l' y =>
          rcases List.mem_cons.mp hm with hm | hm
          · subst hm
            obtain ⟨l2, hl2⟩ := i1
            exact (grant_fresh hs h1).1 _ _ hl2 rfl
          · exact i2 hm
        | released l' y => exact i2 (List.mem_filter.mp hm).1
        | expired l' y =>
          cases y with
          | none => exact i2 hm
          | some y => exact i2 (List.mem_filter.mp hm).1
        | _ => exact i2 hm
      · rcases h with h | h
        · subst h
          have := uses_live hr hs h1 (.inl ⟨l, .inr rfl⟩)
          refine ⟨lift (live_granted (by rw [this]; simp)), ?_⟩
          simp [live]
        · subst h
          obtain ⟨y, hy, hl⟩ := expired_live hr hs h1
          cases hy
          refine ⟨lift (live_granted (by rw [hl]; simp)), ?_⟩
          simp [live]

/-- No session is granted twice. -/
theorem grants_nodup {acc : Int → Prop} {s : St} (hr : Reach acc {} s) : (grants s.tr).Nodup := by
  have mem : ∀ {tr : List Ev} {x : Sess}, x ∈ grants tr → WasGranted tr x := by
    intro tr x
    induction tr with
    | nil => intro h; cases h
    | cons e tr ih =>
      intro h
      have lift : WasGranted tr x → WasGranted (e :: tr) x := fun ⟨l, hl⟩ => ⟨l, List.mem_cons_of_mem _ hl⟩
      cases e with
      | granted l s =>
        rcases List.mem_cons.mp h with h | h
        · subst h; exact ⟨l, List.mem_cons_self⟩
        · exact lift (ih h)
      | _ => exact lift (ih h)
  induction hr with
  | refl => exact List.nodup_nil
  | @step a b hr hs ih =>
    rcases tr_step hs with h1 | ⟨e, h1⟩
    · rw [h1]; exact ih
    · rw [h1]
      cases e with
      | granted l x =>
        refine List.nodup_cons.mpr ⟨fun hm => ?_, ih⟩
        obtain ⟨l2, hl2⟩ := mem hm
        exact (grant_fresh hs h1).1 _ _ hl2 rfl
      | _ => exact ih

/-- The parts of the service do not interfere. -/
theorem LReach.proj {K : Type} [DecidableEq K] {acc : Int → Prop} {g : Locker K} (h : LReach acc g) (k : K) :
    Reach acc {} (g k) := by
  induction h with
  | init => exact .refl
  | step _ hs ih =>
    cases hs with
    | mk k' s' h hf =>
      dsimp only
      split
      · rename_i e; subst e; exact .step ih h
      · exact ih

end Willow.Locker
