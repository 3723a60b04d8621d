import Verif.Proofs.LimitWait
namespace Willow.LimitWait
open Willow Willow.Assoc Willow.Spec Willow.LimSpec Willow.Limiter Willow.Requests Willow.LimHttp Willow.LimHttpSpec Willow.LimClient Willow.LimClientSpec
open Willow.ClientSpec Willow.LimitWaitSpec Willow.Props

/-! ### Limits and increments -/

theorem effective_inForce (w : LimSpec.St) (kvs : KVs Key) : effective w.rules kvs = (inForce w kvs).map (fun x => (x.1.map (·.1), x.2)) := by
  unfold effective inForce
  rw [List.map_flatMap]
  congr 1
  funext r
  unfold ruleLimits ruleInForce
  split
  · split
    · rename_i h; simp [h]
    · rename_i h1 h2
      split
      · rename_i h3; exact absurd h3 h2
      · simp [List.map_map, Function.comp_def]
  · rfl

/-- An increment is refused if a limit in force is reached. -/
theorem not_allowed {w : LimSpec.St} {kvs : KVs Key} : allowed w kvs = false ↔ ∃ x ∈ inForce w kvs, AtLimit w kvs x := by
  unfold allowed
  rw [effective_inForce, List.all_eq_false]
  constructor
  · rintro ⟨y, hy, hn⟩
    obtain ⟨x, hx, rfl⟩ := List.mem_map.1 hy
    simp only [Bool.or_eq_true, beq_iff_eq, decide_eq_true_eq, not_or] at hn
    exact ⟨x, hx, hn.1, by omega⟩
  · rintro ⟨x, hx, h1, h2⟩
    refine ⟨_, List.mem_map.2 ⟨x, hx, rfl⟩, ?_⟩
    simp only [Bool.or_eq_true, beq_iff_eq, decide_eq_true_eq, not_or]
    exact ⟨h1, by omega⟩

theorem noticed_atLimit {s : Srv} {B : Int} (h : Reached s B) {kvs : KVs Key} {x : KVs Key × Int} (hn : Noticed (Limiter.abs s.lim) kvs x) :
    AtLimit (Limiter.abs s.lim) kvs x := by
  rcases hn with h0 | h1
  · exact ⟨by omega, by rw [h0]; exact groupTotal_nonneg (reached_inv h).1 _ _⟩
  · exact h1.1

/-- What is pending has been noticed or stands in the way. -/
theorem pending_bad {s : Srv} {B : Int} (h : Reached s B) {kvs : KVs Key} {p : Pos} (hf : Fits (Limiter.abs s.lim) kvs p) (hp : Pending (Limiter.abs s.lim) kvs p) :
    (p = .sleep ∨ ∃ e es rest, p = .counters e es rest false) ∨ allowed (Limiter.abs s.lim) kvs = false := by
  have hr : ∀ {rs}, RulesPending (Limiter.abs s.lim) kvs rs → allowed (Limiter.abs s.lim) kvs = false := by
    rintro rs ⟨x, hx, _, y, hy, hn⟩
    exact not_allowed.2 ⟨y, List.mem_flatMap.2 ⟨x, hx, hy⟩, noticed_atLimit h hn⟩
  cases p with
  | rules => obtain ⟨y, hy, hn⟩ := hp; exact .inr (not_allowed.2 ⟨y, hy, noticed_atLimit h hn⟩)
  | overrides r rest => exact .inr (hr hp)
  | counters e es rest under =>
    rcases hp with rfl | ⟨x, hx, hn⟩ | hp
    · exact .inl (.inr ⟨e, es, rest, rfl⟩)
    · exact .inr (not_allowed.2 ⟨_, hf.1 x hx, noticed_atLimit h hn⟩)
    · exact .inr (hr hp)
  | sleep => exact .inl (.inl rfl)
  | offer => exact hp.elim
  | crashed => exact hp.elim
  | stuck => exact hp.elim

/-! ### Other requests -/

/-- A read of the reported problems changes nothing. -/
theorem untame_same {s s' : Srv} {e : LimHttp.Env} {r : LimHttp.Req} {o : LimHttp.Reply} (ht : ¬ Tame r) (hh : LimHttp.handle s e r = (some s', o)) (ho : IsOverrideRead r → Answered o) :
    s' = s := by
  have same : ∀ {x : Option Srv × LimHttp.Reply}, x = (some s', o) → x.1 = some s → s' = s := by
    intro x hx hx1
    rw [hx] at hx1
    simpa using hx1
  cases r with
  | queryRules q =>
    refine same hh ?_
    cases q with
    | none => rfl
    | some q =>
      simp only [LimHttp.handle]; split
      · cases Limiter.queryRules s.lim q <;> rfl
      · rfl
  | matchRules m =>
    refine same hh ?_
    cases m with
    | none => rfl
    | some m =>
      simp only [LimHttp.handle]; split
      · cases Limiter.matchRules s.lim e.ch m <;> rfl
      · rfl
  | queryOverrides n q =>
    refine same hh ?_
    cases q with
    | none => rfl
    | some q =>
      have ho := ho trivial
      simp only [LimHttp.handle] at hh ⊢; split
      · rename_i hv
        rw [if_pos hv] at hh
        cases hx : readQueryOverrides s.lim (ruleNum s n) q with
        | none => rw [hx] at hh; simp only [readOverridesOf, Prod.mk.injEq] at hh; rw [← hh.2] at ho; exact ho.elim
        | some a => rfl
      · rfl
  | matchOverrides n m =>
    refine same hh ?_
    cases m with
    | none => rfl
    | some m =>
      have ho := ho trivial
      simp only [LimHttp.handle] at hh ⊢; split
      · rename_i hv
        rw [if_pos hv] at hh
        cases hx : readMatchOverrides s.lim e.ch (ruleNum s n) m with
        | none => rw [hx] at hh; simp only [readOverridesOf, Prod.mk.injEq] at hh; rw [← hh.2] at ho; exact ho.elim
        | some a => rfl
      · rfl
  | queryCounters q =>
    refine same hh ?_
    cases q with
    | none => rfl
    | some q =>
      simp only [LimHttp.handle]; split
      · cases hx : Limiter.queryCounters s.lim q with
        | none => rfl
        | some p => obtain ⟨st', o'⟩ := p; rw [queryCounters_fst hx]; rfl
      · rfl
  | _ => exact absurd trivial ht

/-- Requests on counters and reads leave the rules alone. -/
theorem keeps_rules {s s' : Srv} {B : Int} (h : Reached s B) {e : LimHttp.Env} (hc : ValidChoice e.ch) {r : LimHttp.Req} (hw : WellTyped r) {o : LimHttp.Reply}
    (hh : LimHttp.handle s e r = (some s', o)) (ho : IsOverrideRead r → Answered o) (hB : B + amountOf r < 2 ^ 63) (hk : KeepsRules r) :
    (Limiter.abs s'.lim).rules = (Limiter.abs s.lim).rules := by
  by_cases ht : Tame r
  · obtain ⟨s2, o2, g1, _, _, g4⟩ := C82_answers_partial h hc hw ht hB
    rw [g1] at hh
    obtain rfl : s2 = s' := by simpa using (congrArg Prod.fst hh)
    rw [g4]
    cases r <;> simp only [KeepsRules] at hk <;> simp only [specHandle, valid, there] <;> (repeat' split) <;> rfl
  · rw [untame_same ht hh ho]

/-! ### Checks -/

theorem lost_answer {kvs : KVs Key} {p : Pos} {c : LimClient.Call} (h : LimitWait.ask kvs p = some c) : answer p .failed = .crashed := by
  cases p <;> first | rfl | cases h

theorem crashed_asks (kvs : KVs Key) : LimitWait.ask kvs .crashed = none := rfl

theorem fits_rules {w w' : LimSpec.St} (h : w'.rules = w.rules) {kvs : KVs Key} {p : Pos} : Fits w' kvs p ↔ Fits w kvs p := by
  cases p <;> simp only [Fits, IsRule, IsLimit, inForce, h]

/-- A check next to requests on counters and reads. -/
structure Calm (kvs : KVs Key) (s : Srv) (tr : List Srv) (p : Pos) : Prop where
  rules : ∀ t ∈ tr, (Limiter.abs t.lim).rules = (Limiter.abs s.lim).rules
  fits : Fits (Limiter.abs s.lim) kvs p
  bad : (p = .sleep ∨ ∃ e es rest, p = .counters e es rest false) → ∃ t ∈ tr, allowed (Limiter.abs t.lim) kvs = false

theorem check_calm {kvs : KVs Key} (hk : Sent kvs) {h2 : Bool} {ok : LimHttp.Req → Prop} (hok : ∀ r, ok r → KeepsRules r) {tr : List Srv} {p : Pos} {B : Int} {lost : Bool}
    (h : Check kvs h2 ok tr p B lost) : ∃ s tl, tr = s :: tl ∧ Reached s B ∧ B < 2 ^ 63 ∧ ((lost = true ∧ p = .crashed) ∨ (lost = false ∧ Calm kvs s tr p)) := by
  induction h with
  | @start s B hr hB =>
    refine ⟨s, [], rfl, hr, hB, .inr ⟨rfl, ?_, trivial, ?_⟩⟩
    · intro t ht; rw [List.mem_singleton] at ht; rw [ht]
    · rintro (h | ⟨_, _, _, h⟩) <;> cases h
  | @other s s' tr p B lost e r o _ ho hw hc hh hans hB ih =>
    obtain ⟨s0, tl, e0, hr, hB0, hi⟩ := ih
    cases e0
    have hr' := Reached.step hr hw hc hh hans hB
    have hk' := keeps_rules hr hc hw hh hans hB (hok r ho)
    refine ⟨s', _, rfl, hr', hB, hi.imp_right fun hi => ⟨hi.1, ?_, (fits_rules hk').2 hi.2.fits, ?_⟩⟩
    · intro t ht
      rcases List.mem_cons.1 ht with rfl | ht
      · rfl
      · rw [hi.2.rules t ht, hk']
    · intro hp
      obtain ⟨t, ht, hb⟩ := hi.2.bad hp
      exact ⟨t, List.mem_cons_of_mem _ ht, hb⟩
  | @ask s s' tr p B lost e c res _ hc ha hcall ih =>
    obtain ⟨s0, tl, e0, hr, hB0, hi⟩ := ih
    cases e0
    rcases hi with ⟨_, rfl⟩ | hi
    · cases ha
    obtain ⟨s2, res2, g1, g2, g3, g4, g5⟩ := ask_step hr hB0 h2 hc hk hi.2.fits ha
    rw [g1] at hcall
    cases hcall
    refine ⟨s', _, rfl, g3, hB0, .inr ⟨hi.1, ?_, (by rw [g2]; exact g4), ?_⟩⟩
    · intro t ht
      rcases List.mem_cons.1 ht with rfl | ht
      · rfl
      · rw [hi.2.rules t ht, g2]
    · intro hp
      have hpend : Pending (Limiter.abs s.lim) kvs (answer p res) := by
        rcases hp with hp | ⟨x, es, rest, hp⟩ <;> rw [hp]
        · trivial
        · exact .inl rfl
      rcases pending_bad hr hi.2.fits (g5.1 hpend) with hb | hb
      · obtain ⟨t, ht, hb⟩ := hi.2.bad hb
        exact ⟨t, List.mem_cons_of_mem _ ht, hb⟩
      · exact ⟨s, by simp, hb⟩
  | @lose s tr p B lost c _ ha ih =>
    obtain ⟨s0, tl, e0, hr, hB0, _⟩ := ih
    exact ⟨s0, tl, e0, hr, hB0, .inl ⟨rfl, lost_answer ha⟩⟩

/-- A check with no other requests. -/
theorem check_alone {kvs : KVs Key} (hk : Sent kvs) {h2 : Bool} {ok : LimHttp.Req → Prop} (hok : ∀ r, ¬ ok r) {tr : List Srv} {p : Pos} {B : Int} {lost : Bool}
    (h : Check kvs h2 ok tr p B lost) : ∃ s tl, tr = s :: tl ∧ Reached s B ∧ B < 2 ^ 63 ∧ ((lost = true ∧ p = .crashed) ∨ (lost = false ∧
      (∀ t ∈ tr, Limiter.abs t.lim = Limiter.abs s.lim) ∧ Fits (Limiter.abs s.lim) kvs p ∧ (Pending (Limiter.abs s.lim) kvs p ↔ Notices (Limiter.abs s.lim) kvs))) := by
  induction h with
  | @start s B hr hB =>
    refine ⟨s, [], rfl, hr, hB, .inr ⟨rfl, ?_, trivial, Iff.rfl⟩⟩
    intro t ht; rw [List.mem_singleton] at ht; rw [ht]
  | @other s s' tr p B lost e r o _ ho hw hc hh hans hB ih => exact absurd ho (hok r)
  | @ask s s' tr p B lost e c res _ hc ha hcall ih =>
    obtain ⟨s0, tl, e0, hr, hB0, hi⟩ := ih
    cases e0
    rcases hi with ⟨_, rfl⟩ | ⟨i1, i2, i3, i4⟩
    · cases ha
    obtain ⟨s2, res2, g1, g2, g3, g4, g5⟩ := ask_step hr hB0 h2 hc hk i3 ha
    rw [g1] at hcall
    cases hcall
    refine ⟨s', _, rfl, g3, hB0, .inr ⟨i1, ?_, ?_⟩⟩
    · intro t ht
      rcases List.mem_cons.1 ht with rfl | ht
      · rfl
      · rw [i2 t ht, g2]
    · rw [g2]; exact ⟨g4, g5.trans i4⟩
  | @lose s tr p B lost c _ ha ih =>
    obtain ⟨s0, tl, e0, hr, hB0, _⟩ := ih
    exact ⟨s0, tl, e0, hr, hB0, .inl ⟨rfl, lost_answer ha⟩⟩

/-! ### Next to requests of any kind -/

/-- What the check holds can be asked for; its rules were there at some time. -/
def Weak (tr : List Srv) : Pos → Prop
  | .overrides r rest => ∀ x ∈ r :: rest, ∃ t ∈ tr, ∃ y ∈ (Limiter.abs t.lim).rules, y.id = x.id ∧ ValidKVs x.kvs ∧ KeysOk x.kvs
  | .counters e es rest _ => (∀ x ∈ e :: es, ValidKVs x.kvs ∧ KeysOk x.kvs) ∧ ∀ x ∈ rest, ∃ t ∈ tr, ∃ y ∈ (Limiter.abs t.lim).rules, y.id = x.id ∧ ValidKVs x.kvs ∧ KeysOk x.kvs
  | .crashed | .stuck => False
  | _ => True

theorem weak_nextRule {tr : List Srv} {rs : List (Entry Key)} (h : ∀ x ∈ rs, ∃ t ∈ tr, ∃ y ∈ (Limiter.abs t.lim).rules, y.id = x.id ∧ ValidKVs x.kvs ∧ KeysOk x.kvs) : Weak tr (nextRule rs) := by
  cases rs with
  | nil => trivial
  | cons r rest => exact h

theorem weak_nextLimit {tr : List Srv} {rest : List (Entry Key)} (h : ∀ x ∈ rest, ∃ t ∈ tr, ∃ y ∈ (Limiter.abs t.lim).rules, y.id = x.id ∧ ValidKVs x.kvs ∧ KeysOk x.kvs) (under : Bool) :
    ∀ {es : List (Entry Key)}, (∀ x ∈ es, ValidKVs x.kvs ∧ KeysOk x.kvs) → Weak tr (nextLimit rest under es)
  | [], _ => by
    simp only [nextLimit]
    split
    · exact weak_nextRule h
    · trivial
  | e :: es, hes => by
    simp only [nextLimit]
    split
    · trivial
    · split
      · exact weak_nextLimit h under (fun x hx => hes x (by simp [hx]))
      · exact ⟨hes, h⟩

theorem weak_mono {tr tr' : List Srv} (hs : ∀ t ∈ tr, t ∈ tr') {p : Pos} (h : Weak tr p) : Weak tr' p := by
  have : ∀ x : Entry Key, (∃ t ∈ tr, ∃ y ∈ (Limiter.abs t.lim).rules, y.id = x.id ∧ ValidKVs x.kvs ∧ KeysOk x.kvs) →
      ∃ t ∈ tr', ∃ y ∈ (Limiter.abs t.lim).rules, y.id = x.id ∧ ValidKVs x.kvs ∧ KeysOk x.kvs := fun x ⟨t, ht, hy⟩ => ⟨t, hs t ht, hy⟩
  cases p with
  | overrides r rest => exact fun x hx => this x (h x hx)
  | counters e es rest under => exact ⟨h.1, fun x hx => this x (h.2 x hx)⟩
  | _ => exact h

theorem deleted_mono {tr : List Srv} {s : Srv} (h : RuleDeleted tr) : RuleDeleted (s :: tr) := by
  obtain ⟨id, later, t, earlier, t', rfl, h⟩ := h
  exact ⟨id, s :: later, t, earlier, t', rfl, h⟩

/-- One call of any check. -/
theorem ask_weak {s : Srv} {B : Int} (h : Reached s B) (hB : B < 2 ^ 63) (h2 : Bool) {e : LimHttp.Env} (hc : ValidChoice e.ch) {kvs : KVs Key} (hk : Sent kvs) {p : Pos} {tr : List Srv}
    (hw : Weak (s :: tr) p) {c : LimClient.Call} (ha : LimitWait.ask kvs p = some c) :
    ∃ s' res, LimClient.call s h2 e c = (some s', res) ∧ Reached s' B ∧ (Weak (s' :: s :: tr) (answer p res) ∨ (answer p res = .crashed ∧ RuleDeleted (s :: tr))) := by
  cases p with
  | rules =>
    cases ha
    obtain ⟨s', l, g1, g2, g3, g4⟩ := call_matchRules h hB h2 hc hk
    refine ⟨s', _, g1, g3, .inl (weak_nextRule fun x hx => ?_)⟩
    obtain ⟨r, hr, rfl⟩ := List.mem_map.1 (g4.mem_iff.1 hx)
    obtain ⟨m1, m2⟩ := List.mem_filter.1 hr
    exact ⟨s, by simp, r, m1, rfl, ((rules_valid h).2 r m1).1, keysOk_sub hk.utf8 m2⟩
  | overrides r rest =>
    cases ha
    obtain ⟨t, ht, y, hy, hid, hv1, hv2⟩ := hw r (by simp)
    have hrest : ∀ x ∈ rest, ∃ t ∈ s :: tr, ∃ y ∈ (Limiter.abs t.lim).rules, y.id = x.id ∧ ValidKVs x.kvs ∧ KeysOk x.kvs := fun x hx => hw x (by simp [hx])
    obtain ⟨s', res, g1, g2, g3, g4⟩ := call_matchOverrides h hB h2 hc hk r.id
    refine ⟨s', res, g1, g3, ?_⟩
    rcases g4 with ⟨x, l, h1, rfl, hl⟩ | ⟨h1, rfl⟩
    · left
      have hrest' : ∀ x ∈ rest, ∃ t ∈ s' :: s :: tr, ∃ y ∈ (Limiter.abs t.lim).rules, y.id = x.id ∧ ValidKVs x.kvs ∧ KeysOk x.kvs := by
        intro x hx; obtain ⟨t, ht, hh⟩ := hrest x hx; exact ⟨t, List.mem_cons_of_mem _ ht, hh⟩
      cases l with
      | nil =>
        simp only [answer]
        refine weak_nextLimit hrest' true fun x hx => ?_
        rw [List.mem_singleton] at hx; subst hx
        exact ⟨hv1, hv2⟩
      | cons o os =>
        simp only [answer]
        refine weak_nextLimit hrest' true fun z hz => ?_
        obtain ⟨o', ho', rfl⟩ := List.mem_map.1 (hl.mem_iff.1 hz)
        obtain ⟨m1, m2⟩ := List.mem_filter.1 ho'
        exact ⟨(((rules_valid h).2 x (rule?_mem h1)).2.2 o' m1).1, keysOk_sub hk.utf8 m2⟩
    · right
      refine ⟨rfl, r.id, [], s, tr, t, rfl, ?_, ⟨y, hy, hid⟩, ?_⟩
      · rcases List.mem_cons.1 ht with rfl | ht
        · have := List.find?_eq_none.1 h1 y hy
          simp [hid] at this
        · exact ht
      · intro z hz he
        have := List.find?_eq_none.1 h1 z hz
        simp [he] at this
  | counters x es rest under =>
    cases ha
    obtain ⟨v1, v2⟩ := hw.1 x (by simp)
    obtain ⟨s', l, g1, g2, g3, g4⟩ := call_queryCounters h hB h2 hc v1 v2
    refine ⟨s', _, g1, g3, .inl (weak_nextLimit ?_ _ fun y hy => hw.1 y (by simp [hy]))⟩
    intro x hx; obtain ⟨t, ht, hh⟩ := hw.2 x hx; exact ⟨t, List.mem_cons_of_mem _ ht, hh⟩
  | sleep => cases ha
  | offer => cases ha
  | crashed => cases ha
  | stuck => cases ha

theorem check_weak {kvs : KVs Key} (hk : Sent kvs) {h2 : Bool} {ok : LimHttp.Req → Prop} {tr : List Srv} {p : Pos} {B : Int} {lost : Bool}
    (h : Check kvs h2 ok tr p B lost) : ∃ s tl, tr = s :: tl ∧ Reached s B ∧ B < 2 ^ 63 ∧ (Weak tr p ∨ (p = .crashed ∧ (lost = true ∨ RuleDeleted tr))) := by
  induction h with
  | @start s B hr hB => exact ⟨s, [], rfl, hr, hB, .inl trivial⟩
  | @other s s' tr p B lost e r o _ ho hw hc hh hans hB ih =>
    obtain ⟨s0, tl, e0, hr, hB0, hi⟩ := ih
    cases e0
    refine ⟨s', _, rfl, Reached.step hr hw hc hh hans hB, hB, hi.imp (weak_mono fun t ht => List.mem_cons_of_mem _ ht) fun ⟨h1, h2⟩ => ⟨h1, h2.imp_right deleted_mono⟩⟩
  | @ask s s' tr p B lost e c res _ hc ha hcall ih =>
    obtain ⟨s0, tl, e0, hr, hB0, hi⟩ := ih
    cases e0
    rcases hi with hi | ⟨rfl, _⟩
    rotate_left
    · cases ha
    obtain ⟨s2, res2, g1, g3, g4⟩ := ask_weak hr hB0 h2 hc hk hi ha
    rw [g1] at hcall
    cases hcall
    exact ⟨s', _, rfl, g3, hB0, g4.imp_right fun ⟨h1, h2⟩ => ⟨h1, .inr (deleted_mono h2)⟩⟩
  | @lose s tr p B lost c _ ha ih =>
    obtain ⟨s0, tl, e0, hr, hB0, _⟩ := ih
    exact ⟨s0, tl, e0, hr, hB0, .inr ⟨lost_answer ha, .inl rfl⟩⟩

/-! ### The end of a check -/

/-- A position after another. -/
def After (kvs : KVs Key) (p' p : Pos) : Prop := ∃ c res, LimitWait.ask kvs p = some c ∧ p' = answer p res

theorem acc_final {kvs : KVs Key} {p : Pos} (h : LimitWait.ask kvs p = none) : Acc (After kvs) p :=
  .intro _ fun _ ⟨_, _, h1, _⟩ => by rw [h] at h1; cases h1

theorem acc_nextLimit {kvs : KVs Key} {rest : List (Entry Key)} (h : Acc (After kvs) (nextRule rest)) :
    ∀ (es : List (Entry Key)) (under : Bool), Acc (After kvs) (nextLimit rest under es)
  | [], under => by
    simp only [nextLimit]
    split
    · exact h
    · exact acc_final rfl
  | e :: es, under => by
    simp only [nextLimit]
    split
    · exact acc_final rfl
    · split
      · exact acc_nextLimit h es under
      · refine .intro _ ?_
        rintro p' ⟨c, res, _, rfl⟩
        cases res <;> first | exact acc_final rfl | exact acc_nextLimit h es _

theorem acc_nextRule (kvs : KVs Key) : ∀ rest : List (Entry Key), Acc (After kvs) (nextRule rest)
  | [] => acc_final rfl
  | r :: rest => by
    refine .intro _ ?_
    rintro p' ⟨c, res, _, rfl⟩
    have := acc_nextLimit (acc_nextRule kvs rest)
    cases res with
    | list l => cases l <;> exact this _ _
    | _ => exact acc_final rfl

theorem acc_any (kvs : KVs Key) (p : Pos) : Acc (After kvs) p := by
  cases p with
  | rules =>
    refine .intro _ ?_
    rintro p' ⟨c, res, _, rfl⟩
    cases res with
    | list l => exact acc_nextRule kvs l
    | _ => exact acc_final rfl
  | overrides r rest => exact acc_nextRule kvs (r :: rest)
  | counters e es rest under =>
    refine .intro _ ?_
    rintro p' ⟨c, res, _, rfl⟩
    cases res <;> first | exact acc_final rfl | exact acc_nextLimit (acc_nextRule kvs rest) es _
  | _ => exact acc_final rfl

end Willow.LimitWait
