import Verif.Spec.LimitWait
import Verif.Props.LimiterClient
import Verif.Proofs.LimiterTotals
namespace Willow.LimitWait
open Willow Willow.Assoc Willow.Spec Willow.LimSpec Willow.Limiter Willow.Requests Willow.LimHttp Willow.LimHttpSpec Willow.LimClient Willow.LimClientSpec
open Willow.ClientSpec Willow.LimitWaitSpec Willow.Props

/-- A read that survives the way. -/
theorem call_read {s : Srv} {B : Int} (h : Reached s B) (hB : B < 2 ^ 63) (h2 : Bool) {e : LimHttp.Env} (hc : ValidChoice e.ch) {c : LimClient.Call}
    (ha : Accepted c) (hm : GoMaps c) (hn : NamesOk c) (hk : BodyOk c) (hw : WellTyped (LimClientSpec.asks c)) (ht : Tame (LimClientSpec.asks c))
    (h0 : amountOf (LimClientSpec.asks c) = 0) :
    ∃ s' res, LimClient.call s h2 e c = (some s', res) ∧ Tells c (specHandle (Limiter.abs s.lim) (LimClientSpec.asks c)).2 res ∧
      Limiter.abs s'.lim = (specHandle (Limiter.abs s.lim) (LimClientSpec.asks c)).1 ∧ Reached s' B := by
  obtain ⟨s', o, g1, g2, g3, g4⟩ := C82_answers_partial h hc hw ht (by omega)
  have hT := fits_tells (spec_fits (Limiter.abs s.lim)) g3
  refine ⟨s', _, by rw [call_asks_lim ha hm hn hk, g1], hT, g4, ?_⟩
  have := Reached.step h hw hc g1 (fun _ => g2) (by omega)
  rw [h0, Int.add_zero] at this
  exact this

theorem keysOk_sub {kvs pat : KVs Key} (h : KeysOk kvs) (ha : applies pat kvs = true) : KeysOk pat := by
  intro x hx
  obtain ⟨v, hv⟩ := applies_keys ha (List.mem_map.2 ⟨x, hx, rfl⟩)
  exact h (x.1, v) (valueOf_mem hv)

theorem typ_valid (v : Key) : TypeRestrictions.validate ⟨KeyOps.typ v, KeyOps.typ v⟩ = true := by
  have := isGeneral_or_any v
  simp only [TypeRestrictions.validate]
  rcases this with h | h <;> simp [h]

theorem anyMatch_valid {kvs : KVs Key} (h : ValidKVs kvs) : validMatch (anyMatchQuery kvs) = true := by
  have hv := validMatch_any h
  simp only [validMatch, Bool.and_eq_true, List.all_eq_true, decide_eq_true_eq]
  refine ⟨?_, fun r hr => ?_⟩
  · have := hv.1; cases hk : (anyMatchQuery kvs).kvs <;> simp_all
  · obtain ⟨a, b, c⟩ := hv.2.2 r hr
    refine ⟨?_, ?_⟩
    · simp only [TypeRestrictions.validate, Bool.and_eq_true, Bool.or_eq_true, Bool.not_eq_true', decide_eq_false_iff_not]
      exact ⟨⟨a, b⟩, by omega⟩
    · exact typ_le_any _

theorem anyMatch_names (kvs : KVs Key) : (anyMatchQuery kvs).kvs.map (·.1) = kvs.map (·.1) := by
  simp [anyMatchQuery]

theorem anyMatch_keysOk {kvs : KVs Key} (h : KeysOk kvs) : KeysOk (anyMatchQuery kvs).kvs := by
  intro x hx
  simp only [anyMatchQuery, List.mem_map] at hx
  obtain ⟨kv, hkv, rfl⟩ := hx
  exact h kv hkv

theorem anyMatch_tame (kvs : KVs Key) : TameMatch (anyMatchQuery kvs) := .inr rfl

theorem call_matchRules {s : Srv} {B : Int} (h : Reached s B) (hB : B < 2 ^ 63) (h2 : Bool) {e : LimHttp.Env} (hc : ValidChoice e.ch) {kvs : KVs Key} (hk : Sent kvs) :
    ∃ s' l, LimClient.call s h2 e (.matchRules (anyMatchQuery kvs)) = (some s', .list l) ∧ Limiter.abs s'.lim = Limiter.abs s.lim ∧ Reached s' B ∧
      l.Perm (((Limiter.abs s.lim).rules.filter (fun r => applies r.kvs kvs)).map showR) := by
  have hv := anyMatch_valid hk.valid
  obtain ⟨s', res, g1, g2, g3, g4⟩ := call_read h hB h2 hc (c := .matchRules (anyMatchQuery kvs)) hv (by show ((anyMatchQuery kvs).kvs.map (·.1)).Nodup; rw [anyMatch_names]; exact hk.valid.2)
    trivial (anyMatch_keysOk hk.utf8) (by show ((anyMatchQuery kvs).kvs.map (·.1)).Nodup; rw [anyMatch_names]; exact hk.valid.2) (anyMatch_tame kvs) rfl
  simp only [LimClientSpec.asks, specHandle, matchAsked, Option.filter, hv, if_true, valid] at g2 g3
  obtain ⟨l, rfl, hl⟩ := g2
  refine ⟨s', l, g1, g3, g4, hl.trans (.of_eq ?_)⟩
  rw [List.filter_map]
  congr 1
  exact List.filter_congr fun r _ => by simp only [Function.comp, showR, covered_any hk.valid hk.typed]

/-- The answer for the overrides of a rule. -/
theorem call_matchOverrides {s : Srv} {B : Int} (h : Reached s B) (hB : B < 2 ^ 63) (h2 : Bool) {e : LimHttp.Env} (hc : ValidChoice e.ch) {kvs : KVs Key} (hk : Sent kvs) (id : Nat) :
    ∃ s' res, LimClient.call s h2 e (.matchOverrides (idStr id) (anyMatchQuery kvs)) = (some s', res) ∧ Limiter.abs s'.lim = Limiter.abs s.lim ∧ Reached s' B ∧
      ((∃ r l, (Limiter.abs s.lim).rule? id = some r ∧ res = .list l ∧ l.Perm ((r.overrides.filter (fun o => applies o.kvs kvs)).map showO)) ∨
        ((Limiter.abs s.lim).rule? id = none ∧ res = .failed)) := by
  have hv := anyMatch_valid hk.valid
  have hnd : ((anyMatchQuery kvs).kvs.map (·.1)).Nodup := by rw [anyMatch_names]; exact hk.valid.2
  obtain ⟨s', res, g1, g2, g3, g4⟩ := call_read h hB h2 hc (c := .matchOverrides (idStr id) (anyMatchQuery kvs)) hv hnd
    (ids_survive id).1 (anyMatch_keysOk hk.utf8) hnd (anyMatch_tame kvs) rfl
  have hid : ruleNamed (Limiter.abs s.lim) (idStr id) = (Limiter.abs s.lim).rule? id := by
    unfold ruleNamed LimSpec.St.rule?
    congr 1
    funext r
    rw [Bool.eq_iff_iff, beq_iff_eq, beq_iff_eq]
    exact ⟨idStr_inj, fun h => by rw [h]⟩
  simp only [LimClientSpec.asks, specHandle, matchAsked, Option.filter, hv, if_true, valid, there, hid] at g2 g3
  cases hr : (Limiter.abs s.lim).rule? id with
  | none =>
    rw [hr] at g2 g3
    refine ⟨s', res, g1, g3, g4, .inr ⟨rfl, ?_⟩⟩
    simp only [Tells, Deaf404, not_true, and_true, and_false, false_or] at g2
    exact g2
  | some r =>
    rw [hr] at g2 g3
    obtain ⟨l, rfl, hl⟩ := g2
    refine ⟨s', _, g1, g3, g4, .inl ⟨r, l, rfl, rfl, hl.trans (.of_eq ?_)⟩⟩
    rw [List.filter_map]
    congr 1
    exact List.filter_congr fun r _ => by simp only [Function.comp, showO, covered_any hk.valid hk.typed]

theorem limitQuery_ok {pat : KVs Key} (h : ValidKVs pat) : TameCounters (limitQuery pat) := by
  refine ⟨⟨?_, trivial, trivial⟩, .inr (.inl rfl)⟩
  rintro s hs
  cases hs
  refine ⟨⟨?_, ?_, ?_⟩, .inr ⟨?_, ?_⟩, rfl⟩
  · simp only [List.map_map]; exact h.2
  · intro kq hkq
    simp only [List.mem_map] at hkq
    obtain ⟨kv, _, rfl⟩ := hkq
    exact ⟨⟨isGeneral_or_any _, isGeneral_or_any _, Int.le_refl _⟩, .inl rfl⟩
  · right; left
    simpa using h.1
  · intro kq hkq
    simp only [List.mem_map] at hkq
    obtain ⟨kv, _, rfl⟩ := hkq
    exact ⟨fun h => by simp at h, fun h => by simp at h⟩
  · intro kq hkq kq' hkq' h
    simp only [List.mem_map] at hkq
    obtain ⟨kv, _, rfl⟩ := hkq
    simp at h

theorem limitQuery_valid {pat : KVs Key} (h : ValidKVs pat) : validQuery (limitQuery pat) = true := by
  have hne : (pat.map (fun kv => ((kv.1, ⟨kv.2, .eq, ⟨KeyOps.typ kv.2, KeyOps.typ kv.2⟩⟩) : GoString × ValueQuery Key))).isEmpty = false := by
    cases pat with
    | nil => exact absurd rfl h.1
    | cons a l => rfl
  simp only [limitQuery, validQuery, validQueries, validSel, hne, Bool.and_true, Bool.and_false, Bool.false_and, Bool.not_false, Bool.true_and, validBounds, List.all_eq_true,
    List.mem_map]
  rintro x ⟨kv, _, rfl⟩
  exact typ_valid kv.2

/-- Two values are the same only if both or none are the wildcard. -/
theorem same_wild {a b : Key} (h : same a b = true) : wild a = wild b := by
  have := same_typ h
  simp only [wild, this]

/-- The counters that are looked at for a limit without wildcards. -/
theorem satisfies_exact {pat kvs : KVs Key} (hp : ValidKVs pat) (ha : applies pat kvs = true) (he : Exact pat) (i : Item Key V) :
    satisfies (limitQuery pat) i = agree (pat.map (·.1)) kvs i.kvs := by
  simp only [satisfies, limitQuery, queryHolds, allHold, anyHolds, Option.all, selHolds, sizeInside, Option.isSome_some, Bool.true_or,
    Bool.true_and, List.isEmpty_nil, Bool.and_true, Bool.or_false, List.all_map]
  unfold agree
  rw [List.all_map, Bool.eq_iff_iff, List.all_eq_true, List.all_eq_true]
  refine forall_congr' fun kv => forall_congr' fun hkv => ?_
  have h1 := List.all_eq_true.1 ha kv hkv
  have hw := he kv hkv
  simp only [Function.comp]
  cases hv : valueOf kvs kv.1 with
  | none => rw [hv] at h1; simp at h1
  | some v =>
    rw [hv] at h1
    simp only [hw, Bool.or_false] at h1
    cases hi : valueOf i.kvs kv.1 with
    | none => simp [valueHolds]
    | some w =>
      simp only [valueHolds]
      rw [equalsMatch_typed hw]
      have hvq : same v kv.2 = true := by rw [same_comm]; exact h1
      constructor
      · intro h2
        exact same_trans hvq (by rw [same_comm]; exact h2)
      · intro h2
        rw [same_comm]
        exact same_trans h1 h2

/-- No counter is looked at for a limit with a wildcard. -/
theorem satisfies_wild {pat : KVs Key} (he : ¬ Exact pat) {i : Item Key V} (ht : Typed i.kvs) : satisfies (limitQuery pat) i = false := by
  unfold Exact at he
  simp only [Classical.not_forall] at he
  obtain ⟨kv, hkv, hw⟩ := he
  have hw : wild kv.2 = true := by simpa using hw
  simp only [satisfies, limitQuery, queryHolds, allHold, anyHolds, Option.all, selHolds, sizeInside, Option.isSome_some, Bool.true_or,
    Bool.true_and, List.isEmpty_nil, Bool.and_true, Bool.or_false, List.all_map]
  rw [List.all_eq_false]
  refine ⟨kv, hkv, ?_⟩
  simp only [Function.comp]
  cases hi : valueOf i.kvs kv.1 with
  | none => simp [valueHolds]
  | some w =>
    have hwt := ht _ (valueOf_mem hi)
    have hty : KeyOps.typ kv.2 = DataType.any := by simpa [wild] using hw
    have hne : KeyOps.typ w ≠ DataType.any := by simpa [wild] using hwt
    have hle := typ_le_any w
    simp only [valueHolds, equalsMatch, inside, hty]
    simp
    omega

theorem full_le {limit : Int} : ∀ {l : List Int} {acc : Int}, 0 ≤ acc → acc < limit → (∀ v ∈ l, 0 < v) → acc + l.sum < 2 ^ 63 →
    full limit acc l = decide (limit ≤ acc + l.sum)
  | [], acc, _, h1, _, _ => by simp [full]; omega
  | v :: l, acc, h0, h1, hp, hs => by
    have hv := hp v (by simp)
    have hl := sum_nonneg (l := l) (fun v hv => hp v (by simp [hv]))
    simp only [List.sum_cons] at hs ⊢
    simp only [full]
    rw [add64_eq (by omega) (by omega)]
    split
    · rename_i hle; symm; exact decide_eq_true (by omega)
    · rename_i hle
      rw [full_le (by omega) (by omega) (fun v hv => hp v (by simp [hv])) (by omega)]
      congr 1
      rw [Int.add_assoc]

/-- The answer for the counters of a limit. -/
theorem call_queryCounters {s : Srv} {B : Int} (h : Reached s B) (hB : B < 2 ^ 63) (h2 : Bool) {e : LimHttp.Env} (hc : ValidChoice e.ch) {pat : KVs Key}
    (hp : ValidKVs pat) (hu : KeysOk pat) :
    ∃ s' l, LimClient.call s h2 e (.queryCounters (limitQuery pat)) = (some s', .counters l) ∧ Limiter.abs s'.lim = Limiter.abs s.lim ∧ Reached s' B ∧
      ∀ kvs limit, applies pat kvs = true → 0 < limit →
        (full limit 0 (l.map (·.2)) = true ↔ Exact pat ∧ limit ≤ groupTotal (Limiter.abs s.lim).counters (pat.map (·.1)) kvs) := by
  have hv := limitQuery_valid hp
  have hnd : ((pat.map (fun kv => ((kv.1, ⟨kv.2, .eq, ⟨KeyOps.typ kv.2, KeyOps.typ kv.2⟩⟩) : GoString × ValueQuery Key))).map (·.1)).Nodup := by
    rw [List.map_map]; exact hp.2
  obtain ⟨s', res, g1, g2, g3, g4⟩ := call_read h hB h2 hc (c := .queryCounters (limitQuery pat)) hv
    (⟨fun s hs => by cases hs; exact hnd, trivial, trivial⟩) trivial
    (⟨⟨fun s hs => by
        cases hs
        intro x hx
        obtain ⟨kv, hkv, rfl⟩ := List.mem_map.1 hx
        exact hu kv hkv, trivial, trivial⟩, fun _ _ => rfl⟩) trivial (fun _ => limitQuery_ok hp) rfl
  simp only [LimClientSpec.asks, specHandle, queryAsked, Option.filter, hv, if_true, valid] at g2 g3
  obtain ⟨l, rfl, hl⟩ := g2
  refine ⟨s', l, g1, g3, g4, fun kvs limit ha hlim => ?_⟩
  have hinv := (reached_inv h).1
  have hpos : ∀ c ∈ (Limiter.abs s.lim).counters, 0 < c.value := by
    intro c hc
    obtain ⟨i, hi, rfl⟩ := List.mem_map.1 hc
    exact hinv.cpos i hi
  have htyp : ∀ c ∈ (Limiter.abs s.lim).counters, Typed c.kvs := by
    intro c hc
    obtain ⟨i, hi, rfl⟩ := List.mem_map.1 hc
    exact hinv.ctyp i hi
  have hl2 := hl.map (·.2)
  rw [List.map_map] at hl2
  by_cases hex : Exact pat
  · have hf : (Limiter.abs s.lim).counters.filter (fun c => satisfies (limitQuery pat) (⟨0, c.kvs, c.value⟩ : Item Key Int)) =
        (Limiter.abs s.lim).counters.filter (fun c => agree (pat.map (·.1)) kvs c.kvs) :=
      List.filter_congr (fun c _ => satisfies_exact hp ha hex _)
    rw [hf] at hl2
    have hsum : (l.map (·.2)).sum = groupTotal (Limiter.abs s.lim).counters (pat.map (·.1)) kvs := perm_sum hl2
    have hp' : ∀ v ∈ l.map (·.2), 0 < v := by
      intro v hv
      obtain ⟨c, hc, rfl⟩ := List.mem_map.1 (hl2.mem_iff.1 hv)
      exact hpos c (List.mem_filter.1 hc).1
    have hle : groupTotal (Limiter.abs s.lim).counters (pat.map (·.1)) kvs ≤ B := by
      show groupTotal (s.lim.counters.items.map absCounter) (pat.map (·.1)) kvs ≤ B
      rw [groupTotal_abs]
      have := pos_sum_filter (fun i => agree (pat.map (·.1)) kvs i.kvs) hinv.cpos
      have := hinv.csum
      omega
    rw [full_le (Int.le_refl 0) hlim hp' (by omega), hsum, Int.zero_add]
    simp [hex]
  · have hf : (Limiter.abs s.lim).counters.filter (fun c => satisfies (limitQuery pat) (⟨0, c.kvs, c.value⟩ : Item Key Int)) = [] := by
      rw [List.filter_eq_nil_iff]
      intro c hc
      rw [satisfies_wild hex (htyp c hc)]
      simp
    rw [hf] at hl2
    have : l.map (·.2) = [] := by simpa using hl2.eq_nil
    rw [this]
    simp [full, hex]

/-! ### What is known and what is still to be looked at -/

/-- A limit that the check notices. -/
def Noticed (w : LimSpec.St) (kvs : KVs Key) (x : KVs Key × Int) : Prop := x.2 = 0 ∨ (AtLimit w kvs x ∧ Exact x.1)

/-- A rule of the state that applies. -/
def IsRule (w : LimSpec.St) (kvs : KVs Key) (r : Entry Key) : Prop := ∃ x ∈ w.rules, showR x = r ∧ applies x.kvs kvs = true
/-- A limit in force. -/
def IsLimit (w : LimSpec.St) (kvs : KVs Key) (e : Entry Key) : Prop := (e.kvs, e.limit) ∈ inForce w kvs

/-- What the check holds belongs to the state. -/
def Fits (w : LimSpec.St) (kvs : KVs Key) : Pos → Prop
  | .overrides r rest => ∀ x ∈ r :: rest, IsRule w kvs x
  | .counters e es rest _ => (∀ x ∈ e :: es, IsLimit w kvs x) ∧ (∀ x ∈ rest, IsRule w kvs x) ∧ e.limit ≠ 0 ∧ e.limit ≠ -1
  | .crashed | .stuck => False
  | _ => True

/-- One of the limits of these rules is noticed. -/
def RulesPending (w : LimSpec.St) (kvs : KVs Key) (rs : List (Entry Key)) : Prop :=
  ∃ x ∈ w.rules, showR x ∈ rs ∧ ∃ y ∈ ruleInForce kvs x, Noticed w kvs y
/-- One of these limits is noticed. -/
def LimitsPending (w : LimSpec.St) (kvs : KVs Key) (es : List (Entry Key)) : Prop := ∃ e ∈ es, Noticed w kvs (e.kvs, e.limit)

/-- Something was or will be noticed. -/
def Pending (w : LimSpec.St) (kvs : KVs Key) : Pos → Prop
  | .rules => ∃ y ∈ inForce w kvs, Noticed w kvs y
  | .overrides r rest => RulesPending w kvs (r :: rest)
  | .counters e es rest under => under = false ∨ LimitsPending w kvs (e :: es) ∨ RulesPending w kvs rest
  | .sleep => True
  | _ => False

theorem nextRule_fits {w : LimSpec.St} {kvs : KVs Key} {rs : List (Entry Key)} (h : ∀ x ∈ rs, IsRule w kvs x) :
    Fits w kvs (nextRule rs) ∧ (Pending w kvs (nextRule rs) ↔ RulesPending w kvs rs) := by
  cases rs with
  | nil => exact ⟨trivial, by simp [nextRule, Pending, RulesPending]⟩
  | cons r rest => exact ⟨h, Iff.rfl⟩

theorem not_noticed {w : LimSpec.St} {kvs : KVs Key} {e : Entry Key} (h : e.limit = -1) : ¬ Noticed w kvs (e.kvs, e.limit) := by
  rintro (h' | h')
  · simp only at h'; omega
  · exact h'.1.1 h

theorem nextLimit_fits {w : LimSpec.St} {kvs : KVs Key} {rest : List (Entry Key)} (h : ∀ x ∈ rest, IsRule w kvs x) (under : Bool) :
    ∀ {es : List (Entry Key)}, (∀ x ∈ es, IsLimit w kvs x) →
      Fits w kvs (nextLimit rest under es) ∧
      (Pending w kvs (nextLimit rest under es) ↔ under = false ∨ LimitsPending w kvs es ∨ RulesPending w kvs rest)
  | [], _ => by
    cases under with
    | false => simp [nextLimit, Fits, Pending]
    | true =>
      have := nextRule_fits h
      simp only [nextLimit, if_true, LimitsPending, List.not_mem_nil, false_and, exists_false, false_or, Bool.true_eq_false]
      exact this
  | e :: es, hes => by
    simp only [nextLimit]
    split
    · rename_i h0
      refine ⟨trivial, ?_⟩
      simp only [Pending, true_iff]
      exact .inr (.inl ⟨e, by simp, .inl h0⟩)
    · split
      · rename_i h0 h1
        have := nextLimit_fits h under (es := es) (fun x hx => hes x (by simp [hx]))
        refine ⟨this.1, this.2.trans ?_⟩
        have : LimitsPending w kvs (e :: es) ↔ LimitsPending w kvs es := by
          unfold LimitsPending
          constructor
          · rintro ⟨x, hx, hn⟩
            rcases List.mem_cons.1 hx with rfl | hx
            · exact absurd hn (not_noticed h1)
            · exact ⟨x, hx, hn⟩
          · rintro ⟨x, hx, hn⟩; exact ⟨x, by simp [hx], hn⟩
        rw [this]
      · rename_i h0 h1
        exact ⟨⟨hes, h, h0, h1⟩, Iff.rfl⟩

/-! ### States of the limiter -/

theorem rules_valid {s : Srv} {B : Int} (h : Reached s B) : ((Limiter.abs s.lim).rules.map (·.id)).Nodup ∧
    ∀ r ∈ (Limiter.abs s.lim).rules, ValidKVs r.kvs ∧ ValidLimit r.limit ∧ ∀ o ∈ r.overrides, ValidKVs o.kvs ∧ ValidLimit o.limit := by
  have hinv := (reached_inv h).1
  refine ⟨?_, ?_⟩
  · have := hinv.rinv.ids
    simpa [Limiter.abs, absRule, Function.comp_def] using this
  · intro r hr
    obtain ⟨i, hi, rfl⟩ := List.mem_map.1 hr
    refine ⟨hinv.rinv.valid hi, hinv.rlim i hi, fun o ho => ?_⟩
    simp only [absRule, ovs] at ho
    split at ho
    · rename_i t hr
      obtain ⟨j, hj, rfl⟩ := List.mem_map.1 ho
      exact ⟨(hinv.oinv _ _ hr).valid hj, hinv.olim _ _ hr j hj⟩
    · cases ho

theorem unique_id {rs : List Rule} (h : (rs.map (·.id)).Nodup) {a b : Rule} (ha : a ∈ rs) (hb : b ∈ rs) (he : a.id = b.id) : a = b := by
  induction rs with
  | nil => cases ha
  | cons x l ih =>
    rw [List.map_cons, List.nodup_cons] at h
    rcases List.mem_cons.1 ha with rfl | ha' <;> rcases List.mem_cons.1 hb with rfl | hb'
    · rfl
    · exact absurd (List.mem_map.2 ⟨b, hb', he.symm⟩) h.1
    · exact absurd (List.mem_map.2 ⟨a, ha', he⟩) h.1
    · exact ih h.2 ha' hb'

theorem rule?_mem {w : LimSpec.St} {id : Nat} {r : Rule} (h : w.rule? id = some r) : r ∈ w.rules := List.mem_of_find?_eq_some h
theorem rule?_of_mem {w : LimSpec.St} (h : (w.rules.map (·.id)).Nodup) {r : Rule} (hr : r ∈ w.rules) : w.rule? r.id = some r := by
  cases hf : w.rule? r.id with
  | none => exact absurd (List.find?_eq_none.1 hf r hr) (by simp)
  | some x => rw [unique_id h hr (rule?_mem hf) (rule?_some_id hf).symm]

/-- The limits in force of a rule. -/
theorem ruleInForce_mem {kvs : KVs Key} {r : Rule} {x : KVs Key × Int} (h : x ∈ ruleInForce kvs r) :
    applies r.kvs kvs = true ∧ applies x.1 kvs = true ∧ (x = (r.kvs, r.limit) ∨ ∃ o ∈ r.overrides, x = (o.kvs, o.limit)) := by
  unfold ruleInForce at h
  split at h
  rotate_left
  · cases h
  rename_i ha
  split at h
  · simp only [List.mem_singleton] at h; subst h
    exact ⟨ha, ha, .inl rfl⟩
  · obtain ⟨o, ho, rfl⟩ := List.mem_map.1 h
    obtain ⟨h1, h2⟩ := List.mem_filter.1 ho
    exact ⟨ha, h2, .inr ⟨o, h1, rfl⟩⟩

theorem inForce_valid {s : Srv} {B : Int} (h : Reached s B) {kvs : KVs Key} {x : KVs Key × Int} (hx : x ∈ inForce (Limiter.abs s.lim) kvs) :
    applies x.1 kvs = true ∧ ValidKVs x.1 ∧ ValidLimit x.2 := by
  obtain ⟨r, hr, hx⟩ := List.mem_flatMap.1 hx
  obtain ⟨h1, h2, h3⟩ := ruleInForce_mem hx
  obtain ⟨v1, v2, v3⟩ := (rules_valid h).2 r hr
  rcases h3 with rfl | ⟨o, ho, rfl⟩
  · exact ⟨h2, v1, v2⟩
  · exact ⟨h2, v3 o ho⟩

/-- The limits that a check walks through for a rule are those in force. -/
theorem walk_rule {w : LimSpec.St} {kvs : KVs Key} {x : Rule} (hx : x ∈ w.rules) (ha : applies x.kvs kvs = true) {l : List (Entry Key)}
    (hl : l.Perm ((x.overrides.filter (fun o => applies o.kvs kvs)).map showO)) {es : List (Entry Key)} (he : (l = [] ∧ es = [showR x]) ∨ (l ≠ [] ∧ es = l)) :
    (∀ e ∈ es, IsLimit w kvs e) ∧ (LimitsPending w kvs es ↔ ∃ y ∈ ruleInForce kvs x, Noticed w kvs y) := by
  have key : ∀ y, y ∈ es.map (fun e => (e.kvs, e.limit)) ↔ y ∈ ruleInForce kvs x := by
    intro y
    unfold ruleInForce
    rw [if_pos ha]
    rcases he with ⟨rfl, rfl⟩ | ⟨hne, rfl⟩
    · have : x.overrides.filter (fun o => applies o.kvs kvs) = [] := by simpa using hl.symm.eq_nil
      rw [this]
      simp [showR]
    · have hm := (hl.map (fun e => (e.kvs, e.limit))).mem_iff (a := y)
      rw [hm]
      split
      · rename_i h0; rw [h0] at hl; exact absurd (by simpa using hl.eq_nil) hne
      · rw [List.map_map]; rfl
  refine ⟨fun e hes => List.mem_flatMap.2 ⟨x, hx, (key _).1 (List.mem_map.2 ⟨e, hes, rfl⟩)⟩, ?_⟩
  constructor
  · rintro ⟨e, hes, hn⟩
    exact ⟨_, (key _).1 (List.mem_map.2 ⟨e, hes, rfl⟩), hn⟩
  · rintro ⟨y, hy, hn⟩
    obtain ⟨e, hes, rfl⟩ := List.mem_map.1 ((key _).2 hy)
    exact ⟨e, hes, hn⟩

/-- One call of a check that fits the state. -/
theorem ask_step {s : Srv} {B : Int} (h : Reached s B) (hB : B < 2 ^ 63) (h2 : Bool) {e : LimHttp.Env} (hc : ValidChoice e.ch) {kvs : KVs Key} (hk : Sent kvs) {p : Pos}
    (hf : Fits (Limiter.abs s.lim) kvs p) {c : LimClient.Call} (ha : LimitWait.ask kvs p = some c) :
    ∃ s' res, LimClient.call s h2 e c = (some s', res) ∧ Limiter.abs s'.lim = Limiter.abs s.lim ∧ Reached s' B ∧
      Fits (Limiter.abs s.lim) kvs (answer p res) ∧ (Pending (Limiter.abs s.lim) kvs (answer p res) ↔ Pending (Limiter.abs s.lim) kvs p) := by
  cases p with
  | rules =>
    cases ha
    obtain ⟨s', l, g1, g2, g3, g4⟩ := call_matchRules h hB h2 hc hk
    refine ⟨s', _, g1, g2, g3, ?_⟩
    have hm : ∀ x, x ∈ l ↔ IsRule (Limiter.abs s.lim) kvs x := by
      intro x
      rw [g4.mem_iff, List.mem_map]
      unfold IsRule
      constructor
      · rintro ⟨r, hr, rfl⟩
        obtain ⟨h1, h2⟩ := List.mem_filter.1 hr
        exact ⟨r, h1, rfl, h2⟩
      · rintro ⟨r, h1, rfl, h2⟩
        exact ⟨r, List.mem_filter.2 ⟨h1, h2⟩, rfl⟩
    have := nextRule_fits (fun x hx => (hm x).1 hx)
    refine ⟨this.1, this.2.trans ?_⟩
    simp only [Pending, RulesPending, inForce]
    constructor
    · rintro ⟨x, hx, _, y, hy, hn⟩
      exact ⟨y, List.mem_flatMap.2 ⟨x, hx, hy⟩, hn⟩
    · rintro ⟨y, hy, hn⟩
      obtain ⟨x, hx, hy⟩ := List.mem_flatMap.1 hy
      exact ⟨x, hx, (hm _).2 ⟨x, hx, rfl, (ruleInForce_mem hy).1⟩, y, hy, hn⟩
  | overrides r rest =>
    cases ha
    obtain ⟨x, hx, rfl, hax⟩ := hf r (by simp)
    have hrest : ∀ y ∈ rest, IsRule (Limiter.abs s.lim) kvs y := fun y hy => hf y (by simp [hy])
    obtain ⟨s', res, g1, g2, g3, g4⟩ := call_matchOverrides h hB h2 hc hk (showR x).id
    have hnd := (rules_valid h).1
    have hid : (Limiter.abs s.lim).rule? (showR x).id = some x := rule?_of_mem hnd hx
    rw [hid] at g4
    rcases g4 with ⟨r', l, h1, rfl, hl⟩ | ⟨h1, _⟩
    rotate_left
    · cases h1
    cases h1
    have hpend : Pending (Limiter.abs s.lim) kvs (.overrides (showR x) rest) ↔
        ((∃ y ∈ ruleInForce kvs x, Noticed (Limiter.abs s.lim) kvs y) ∨ RulesPending (Limiter.abs s.lim) kvs rest) := by
      simp only [Pending, RulesPending]
      constructor
      · rintro ⟨z, hz, hm, y, hy, hn⟩
        rcases List.mem_cons.1 hm with he | hm
        · have : z = x := unique_id hnd hz hx (congrArg Entry.id he)
          subst this
          exact .inl ⟨y, hy, hn⟩
        · exact .inr ⟨z, hz, hm, y, hy, hn⟩
      · rintro (⟨y, hy, hn⟩ | ⟨z, hz, hm, hy⟩)
        · exact ⟨x, hx, by simp, y, hy, hn⟩
        · exact ⟨z, hz, by simp [hm], hy⟩
    refine ⟨s', _, g1, g2, g3, ?_⟩
    rw [hpend]
    cases l with
    | nil =>
      obtain ⟨w1, w2⟩ := walk_rule hx hax hl (.inl ⟨rfl, rfl⟩)
      have := nextLimit_fits hrest true w1
      simp only [answer]
      refine ⟨this.1, this.2.trans ?_⟩
      rw [w2]; simp
    | cons o os =>
      obtain ⟨w1, w2⟩ := walk_rule hx hax hl (.inr ⟨by simp, rfl⟩)
      have := nextLimit_fits hrest true w1
      simp only [answer]
      refine ⟨this.1, this.2.trans ?_⟩
      rw [w2]; simp
  | counters x es rest under =>
    cases ha
    obtain ⟨f1, f2, f3, f4⟩ := hf
    obtain ⟨v1, v2, v3⟩ := inForce_valid h (f1 x (by simp))
    obtain ⟨s', l, g1, g2, g3, g4⟩ := call_queryCounters h hB h2 hc v2 (keysOk_sub hk.utf8 v1)
    have hfull := g4 kvs x.limit v1 (by have := v3.1; simp only at this; omega)
    have := nextLimit_fits f2 (under && !full x.limit 0 (l.map (·.2))) (es := es) (fun y hy => f1 y (by simp [hy]))
    refine ⟨s', _, g1, g2, g3, this.1, this.2.trans ?_⟩
    have hn : full x.limit 0 (l.map (·.2)) = true ↔ Noticed (Limiter.abs s.lim) kvs (x.kvs, x.limit) := by
      rw [hfull]
      unfold Noticed AtLimit
      constructor
      · rintro ⟨h1, h2⟩; exact .inr ⟨⟨f4, h2⟩, h1⟩
      · rintro (h1 | ⟨⟨_, h1⟩, h2⟩)
        · exact absurd h1 f3
        · exact ⟨h2, h1⟩
    simp only [Pending, LimitsPending, List.mem_cons, exists_eq_or_imp]
    rw [← hn]
    cases under <;> cases full x.limit 0 (l.map (·.2)) <;> simp
  | sleep => cases ha
  | offer => cases ha
  | crashed => cases ha
  | stuck => cases ha

end Willow.LimitWait
