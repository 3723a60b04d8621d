import Verif.Proofs.LimiterSim
/-! Totals of groups of counters along histories. -/
namespace Willow.Limiter
open Willow Willow.Assoc Willow.Spec Willow.OTM Willow.OTMSpec Willow.LimSpec KeyOps BTree

/-! ### Agreement -/

theorem same_trans {a b c : Key} (h1 : same a b = true) (h2 : same b c = true) : same a c = true := by
  rw [same_eq_keq] at *; exact keq_trans h1 h2

theorem same_left_congr {a b : Key} (h : same a b = true) (c : Key) : same c a = same c b := by
  rw [Bool.eq_iff_iff]
  exact ⟨fun x => same_trans x h, fun x => same_trans x (by rw [same_comm]; exact h)⟩

theorem sameKVs_valueOf {a b : KVs Key} (ha : ValidKVs a) (hb : ValidKVs b) (h : sameKVs a b = true) (k : GoString) :
    (valueOf a k = none ∧ valueOf b k = none) ∨ ∃ v w, valueOf a k = some v ∧ valueOf b k = some w ∧ same v w = true := by
  have half : ∀ {a b : KVs Key}, ValidKVs a → ValidKVs b → sameKVs a b = true → ∀ v, valueOf a k = some v → ∃ w, valueOf b k = some w ∧ same v w = true := by
    intro a b _ hb h v hv
    unfold sameKVs at h
    rw [Bool.and_eq_true] at h
    have := List.all_eq_true.1 h.2 _ (valueOf_mem hv)
    obtain ⟨y, hy, e⟩ := List.any_eq_true.1 this
    rw [Bool.and_eq_true, beq_iff_eq] at e
    exact ⟨y.2, valueOf_of_mem hb.2 (by have e1 : k = y.1 := e.1; rw [e1]; exact hy), e.2⟩
  cases hva : valueOf a k with
  | some v =>
    obtain ⟨w, h1, h2⟩ := half ha hb h v hva
    exact .inr ⟨v, w, rfl, h1, h2⟩
  | none =>
    left
    refine ⟨rfl, ?_⟩
    cases hvb : valueOf b k with
    | none => rfl
    | some w =>
      obtain ⟨v, h1, _⟩ := half hb ha (sameKVs_symm ha hb h) w hvb
      rw [hva] at h1; cases h1

theorem agree_congr {keys : List GoString} {k a b : KVs Key} (ha : ValidKVs a) (hb : ValidKVs b) (h : sameKVs a b = true) : agree keys k a = agree keys k b := by
  unfold agree
  congr 1
  funext x
  rcases sameKVs_valueOf ha hb h x with ⟨h1, h2⟩ | ⟨v, w, h1, h2, h3⟩
  · rw [h1, h2]
  · rw [h1, h2]; cases valueOf k x <;> simp [same_left_congr h3]

theorem agree_valueOf {keys : List GoString} {a b : KVs Key} (h : agree keys a b = true) {k : GoString} (hk : k ∈ keys) :
    ∃ v w, valueOf a k = some v ∧ valueOf b k = some w ∧ same v w = true := by
  have := List.all_eq_true.1 h k hk
  cases h1 : valueOf a k <;> cases h2 : valueOf b k <;> simp [h1, h2] at this
  exact ⟨_, _, rfl, rfl, this⟩

/-- Whether a rule applies depends on the values of its keys only. -/
theorem applies_agree {pat a b : KVs Key} {keys : List GoString} (hk : ∀ k ∈ pat.map (·.1), k ∈ keys) (h : agree keys a b = true) : applies pat a = applies pat b := by
  unfold applies
  rw [Bool.eq_iff_iff, List.all_eq_true, List.all_eq_true]
  refine forall_congr' fun p => forall_congr' fun hp => ?_
  obtain ⟨v, w, h1, h2, h3⟩ := agree_valueOf h (hk _ (List.mem_map.2 ⟨p, hp, rfl⟩))
  rw [h1, h2]
  simp [same_left_congr h3]

theorem agree_symm {keys : List GoString} {a b : KVs Key} (h : agree keys a b = true) : agree keys b a = true := by
  unfold agree at *
  rw [List.all_eq_true] at *
  intro k hk
  have := h k hk
  cases h1 : valueOf a k <;> cases h2 : valueOf b k <;> simp [h1, h2] at this ⊢
  rw [same_comm]; exact this

theorem agree_trans {keys : List GoString} {a b c : KVs Key} (h1 : agree keys a b = true) (h2 : agree keys b c = true) : agree keys a c = true := by
  unfold agree
  rw [List.all_eq_true]
  intro k hk
  obtain ⟨v, w, e1, e2, e3⟩ := agree_valueOf h1 hk
  obtain ⟨w', x, e4, e5, e6⟩ := agree_valueOf h2 hk
  rw [e1, e5]
  rw [e2] at e4; cases e4
  exact same_trans e3 e6

theorem agree_left {keys : List GoString} {a b : KVs Key} (h : agree keys a b = true) (c : KVs Key) : agree keys a c = agree keys b c := by
  rw [Bool.eq_iff_iff]
  exact ⟨agree_trans (agree_symm h), agree_trans h⟩

theorem groupTotal_agree {cs : List Counter} {keys : List GoString} {a b : KVs Key} (h : agree keys a b = true) : groupTotal cs keys a = groupTotal cs keys b := by
  unfold groupTotal
  have : (fun c : Counter => agree keys a c.kvs) = (fun c => agree keys b c.kvs) := by funext c; exact agree_left h _
  rw [this]

/-! ### The plain state -/

/-- What holds of the plain state behind a limiter. -/
structure SInv (st : St) : Prop where
  cpos : ∀ c ∈ st.counters, 0 < c.value
  cval : ∀ c ∈ st.counters, ValidKVs c.kvs
  ctyp : ∀ c ∈ st.counters, Typed c.kvs
  cuniq : st.counters.Pairwise (fun a b => sameKVs a.kvs b.kvs = false)
  runiq : st.rules.Pairwise (fun a b => sameKVs a.kvs b.kvs = false ∧ a.id ≠ b.id)
  rval : ∀ r ∈ st.rules, ValidKVs r.kvs
  rfresh : ∀ r ∈ st.rules, r.id < st.nextId
  rlim : ∀ r ∈ st.rules, ValidLimit r.limit
  ouniq : ∀ r ∈ st.rules, r.overrides.Pairwise (fun a b => sameKVs a.kvs b.kvs = false ∧ a.id ≠ b.id)
  oval : ∀ r ∈ st.rules, ∀ o ∈ r.overrides, ValidKVs o.kvs
  ofresh : ∀ r ∈ st.rules, ∀ o ∈ r.overrides, o.id < r.nextId
  olim : ∀ r ∈ st.rules, ∀ o ∈ r.overrides, ValidLimit o.limit
  okeys : ∀ r ∈ st.rules, ∀ o ∈ r.overrides, ∀ k ∈ r.kvs.map (·.1), k ∈ o.kvs.map (·.1)
  ores : ∀ r ∈ st.rules, ∀ o ∈ r.overrides, reservedID ∉ o.kvs.map (·.1)

theorem pairwise_items {V : Type} {t : ATree Key V} (h : Assoc.Inv t) : t.items.Pairwise (fun a b => sameKVs a.kvs b.kvs = false ∧ a.id ≠ b.id) := by
  have hn : t.items.Pairwise (fun a b => a.id ≠ b.id) := by
    have := h.ids; rwa [List.Nodup, List.pairwise_map] at this
  refine (List.pairwise_iff_forall_sublist.2 ?_)
  intro a b hs
  have hne : a.id ≠ b.id := List.pairwise_iff_forall_sublist.1 hn hs
  have ha : a ∈ t.items := hs.subset (by simp)
  have hb : b ∈ t.items := hs.subset (by simp)
  refine ⟨?_, hne⟩
  cases e : sameKVs a.kvs b.kvs with
  | false => rfl
  | true => exact absurd (congrArg _ (h.uniq ha hb e)) hne

theorem missesKey_false {a b : KVs Key} (h : missesKey a b = false) : ∀ k ∈ a.map (·.1), k ∈ b.map (·.1) := by
  intro k hk
  obtain ⟨kv, hkv, rfl⟩ := List.mem_map.1 hk
  have h1 := List.any_eq_false.1 h kv hkv
  simp only [Bool.not_eq_true', Bool.not_eq_false] at h1
  obtain ⟨x, hx, e⟩ := List.any_eq_true.1 h1
  rw [beq_iff_eq] at e
  exact List.mem_map.2 ⟨x, hx, e⟩

theorem LInv.sinv {st : State Key} {B : Int} (h : LInv st B) : SInv (abs st) := by
  have hov : ∀ i ∈ st.rules.items, ∀ o ∈ ovs st.overrides i.id, ∃ t j, rel st.overrides (idStr i.id) = some t ∧ j ∈ t.items ∧ o = ⟨j.id, j.kvs, j.value.value⟩ := by
    intro i _ o ho
    unfold ovs at ho
    cases hr : rel st.overrides (idStr i.id) with
    | none => rw [hr] at ho; cases ho
    | some t =>
      rw [hr] at ho
      obtain ⟨j, hj, rfl⟩ := List.mem_map.1 ho
      exact ⟨t, j, rfl, hj, rfl⟩
  refine ⟨?_, ?_, ?_, ?_, ?_, ?_, ?_, ?_, ?_, ?_, ?_, ?_, ?_, ?_⟩
  · intro c hc; obtain ⟨i, hi, rfl⟩ := List.mem_map.1 hc; exact h.cpos i hi
  · intro c hc; obtain ⟨i, hi, rfl⟩ := List.mem_map.1 hc; exact h.cinv.valid hi
  · intro c hc; obtain ⟨i, hi, rfl⟩ := List.mem_map.1 hc; exact h.ctyp i hi
  · simp only [abs, List.pairwise_map]; exact (pairwise_items h.cinv).imp (fun x => x.1)
  · simp only [abs, List.pairwise_map]; exact pairwise_items h.rinv
  · intro c hc; obtain ⟨i, hi, rfl⟩ := List.mem_map.1 hc; exact h.rinv.valid hi
  · intro c hc; obtain ⟨i, hi, rfl⟩ := List.mem_map.1 hc; exact h.rinv.fresh i hi
  · intro c hc; obtain ⟨i, hi, rfl⟩ := List.mem_map.1 hc; exact h.rlim i hi
  · intro c hc; obtain ⟨i, hi, rfl⟩ := List.mem_map.1 hc
    simp only [absRule, ovs]
    cases hr : rel st.overrides (idStr i.id) with
    | none => exact .nil
    | some t => simp only [List.pairwise_map]; exact pairwise_items (h.oinv _ _ hr)
  · intro c hc o ho; obtain ⟨i, hi, rfl⟩ := List.mem_map.1 hc
    obtain ⟨t, j, hr, hj, rfl⟩ := hov i hi o ho
    exact (h.oinv _ _ hr).valid hj
  · intro c hc o ho; obtain ⟨i, hi, rfl⟩ := List.mem_map.1 hc
    obtain ⟨t, j, hr, hj, rfl⟩ := hov i hi o ho
    simp only [absRule, nxt, hr]
    exact (h.oinv _ _ hr).fresh j hj
  · intro c hc o ho; obtain ⟨i, hi, rfl⟩ := List.mem_map.1 hc
    obtain ⟨t, j, hr, hj, rfl⟩ := hov i hi o ho
    exact h.olim _ _ hr j hj
  · intro c hc o ho; obtain ⟨i, hi, rfl⟩ := List.mem_map.1 hc
    obtain ⟨t, j, hr, hj, rfl⟩ := hov i hi o ho
    exact missesKey_false (h.sup i hi t hr j hj)
  · intro c hc o ho; obtain ⟨i, hi, rfl⟩ := List.mem_map.1 hc
    obtain ⟨t, j, hr, hj, rfl⟩ := hov i hi o ho
    have := (h.otag _ _ hr j hj).2.2.2
    intro hm
    obtain ⟨kv, hkv, e⟩ := List.mem_map.1 hm
    exact this (List.any_eq_true.2 ⟨kv, hkv, by simpa using e⟩)

/-! ### Totals -/

theorem groupTotal_cons (c : Counter) (cs : List Counter) (keys : List GoString) (kvs : KVs Key) :
    groupTotal (c :: cs) keys kvs = (if agree keys kvs c.kvs then c.value else 0) + groupTotal cs keys kvs := by
  unfold groupTotal
  rw [List.filter_cons]
  split <;> simp

theorem groupTotal_append (a b : List Counter) (keys : List GoString) (kvs : KVs Key) :
    groupTotal (a ++ b) keys kvs = groupTotal a keys kvs + groupTotal b keys kvs := by
  unfold groupTotal; simp [List.filter_append, List.sum_append]

theorem groupTotal_remove {cs : List Counter} (hp : ∀ c ∈ cs, 0 < c.value) (k : KVs Key) (keys : List GoString) (kvs : KVs Key) :
    groupTotal (removeCounter cs k) keys kvs ≤ groupTotal cs keys kvs := by
  induction cs with
  | nil => exact Int.le_refl _
  | cons c cs ih =>
    have h1 := ih (fun x hx => hp x (by simp [hx]))
    have h2 := hp c (by simp)
    unfold removeCounter at *
    rw [List.filter_cons, groupTotal_cons]
    split
    · rw [groupTotal_cons]; omega
    · split <;> omega

theorem groupTotal_change_le {cs : List Counter} (k : KVs Key) {f : Int → Int} (hf : ∀ v, f v ≤ v) (keys : List GoString) (kvs : KVs Key) :
    groupTotal (changeCounter cs k f) keys kvs ≤ groupTotal cs keys kvs := by
  induction cs with
  | nil => exact Int.le_refl _
  | cons c cs ih =>
    unfold changeCounter at *
    rw [List.map_cons, groupTotal_cons, groupTotal_cons]
    have := hf c.value
    split
    · simp only; split <;> omega
    · omega

theorem change_not_present {cs : List Counter} {k : KVs Key} {f : Int → Int} (h : present cs k = false) : changeCounter cs k f = cs := by
  unfold changeCounter
  conv => rhs; rw [← List.map_id cs]
  apply List.map_congr_left
  intro c hc
  simp only [present, List.any_eq_false] at h
  rw [if_neg (h c hc)]; rfl

theorem groupTotal_change_add {cs : List Counter} (hu : cs.Pairwise (fun a b => sameKVs a.kvs b.kvs = false)) (hcv : ∀ c ∈ cs, ValidKVs c.kvs)
    {k : KVs Key} (hk : ValidKVs k) (hpr : present cs k = true) (d : Int) (keys : List GoString) (kvs : KVs Key) :
    groupTotal (changeCounter cs k (· + d)) keys kvs = groupTotal cs keys kvs + if agree keys kvs k then d else 0 := by
  induction cs with
  | nil => cases hpr
  | cons c cs ih =>
    have hcons : changeCounter (c :: cs) k (· + d) = (if sameKVs k c.kvs then { c with value := c.value + d } else c) :: changeCounter cs k (· + d) := rfl
    rw [hcons, groupTotal_cons, groupTotal_cons]
    rw [List.pairwise_cons] at hu
    have hc := hcv c (by simp)
    by_cases h1 : sameKVs k c.kvs = true
    · have hno : present cs k = false := by
        simp only [present, List.any_eq_false]
        intro x hx hs
        have := hu.1 x hx
        rw [sameKVs_trans (sameKVs_symm hk hc h1) hs] at this; cases this
      rw [change_not_present hno, if_pos h1, ← agree_congr hk hc h1]
      simp only
      split <;> omega
    · have hpr' : present cs k = true := by simpa [present, h1] using hpr
      rw [if_neg h1, ih hu.2 (fun x hx => hcv x (by simp [hx])) hpr']
      omega

theorem groupTotal_put {cs : List Counter} (hu : cs.Pairwise (fun a b => sameKVs a.kvs b.kvs = false)) (hcv : ∀ c ∈ cs, ValidKVs c.kvs)
    {k : KVs Key} (hk : ValidKVs k) (d : Int) (keys : List GoString) (kvs : KVs Key) :
    groupTotal (putCounter cs k d (· + d)) keys kvs = groupTotal cs keys kvs + if agree keys kvs k then d else 0 := by
  unfold putCounter
  split
  · rename_i h; exact groupTotal_change_add hu hcv hk h d keys kvs
  · rw [groupTotal_append, groupTotal_cons]; simp [groupTotal]

/-- What a request can do to the total of a group: nothing can raise it but a `setCounter` to a positive value and an accepted increment
of a counter of the group. -/
theorem specStep_total {st : St} (h : SInv st) {op : Op Key} (hv : LimSpec.ValidOp op) (hset : ∀ k c, op = .setCounter k c → c ≤ 0)
    (keys : List GoString) (kvs : KVs Key) :
    groupTotal (specStep st op).1.counters keys kvs ≤ groupTotal st.counters keys kvs ∨
    ∃ ch k c, op = .upsert ch k c ∧ 0 < c ∧ agree keys kvs k = true ∧ allowed st k = true ∧
      groupTotal (specStep st op).1.counters keys kvs = groupTotal st.counters keys kvs + c := by
  cases op with
  | upsert ch k c =>
    simp only [specStep]
    split
    · rename_i hc
      split
      · rename_i ha
        simp only
        rw [groupTotal_put h.cuniq h.cval hv.1]
        by_cases hg : agree keys kvs k = true
        · right; exact ⟨ch, k, c, rfl, hc, hg, ha, by rw [if_pos hg]⟩
        · left; rw [if_neg hg]; omega
      · left; exact Int.le_refl _
    · left
      split
      · exact groupTotal_remove h.cpos _ _ _
      · exact groupTotal_change_le k (f := (· + c)) (fun v => by omega) _ _
  | setCounter k c =>
    left
    have := hset k c rfl
    simp only [specStep, if_pos this]
    exact groupTotal_remove h.cpos _ _ _
  | createRule _ _ => left; simp only [specStep]; split <;> exact Int.le_refl _
  | getRule _ => left; simp only [specStep]; split <;> exact Int.le_refl _
  | updateRule _ _ => left; simp only [specStep]; split <;> exact Int.le_refl _
  | deleteRule _ _ => left; simp only [specStep]; split <;> exact Int.le_refl _
  | createOverride _ _ _ => left; simp only [specStep]; repeat' split
                            all_goals exact Int.le_refl _
  | getOverride _ _ => left; simp only [specStep]; repeat' split
                       all_goals exact Int.le_refl _
  | updateOverride _ _ _ => left; simp only [specStep]; repeat' split
                            all_goals exact Int.le_refl _
  | deleteOverride _ _ => left; simp only [specStep]; split <;> exact Int.le_refl _
  | queryCounters _ => left; exact Int.le_refl _

/-! ### A limit that stays in force -/

theorem allowed_lt {st : St} {k : KVs Key} {keys : List GoString} {L : Int} (h : allowed st k = true) (hm : (keys, L) ∈ effective st.rules k) (hL : L ≠ -1) :
    groupTotal st.counters keys k < L := by
  have := List.all_eq_true.1 h _ hm
  simpa [hL] using this

theorem total_bound {P : St → Prop} {keys : List GoString} {kvs : KVs Key} {L m : Int} (hL : L ≠ -1)
    (hP : ∀ st, P st → ∀ k, agree keys kvs k = true → (keys, L) ∈ effective st.rules k) {ops : List (Op Key)} :
    ∀ {st : State Key} {B : Int}, LInv st B → P (abs st) → (∀ op ∈ ops, LimSpec.ValidOp op) → B + totalAmount ops < 2 ^ 63 →
    (∀ op ∈ ops, (∀ k c, op = .setCounter k c → c ≤ 0) ∧ (∀ ch k c, op = .upsert ch k c → c ≤ m) ∧ ∀ st, SInv st → P st → P (specStep st op).1) →
    ∃ st' outs, run st ops = some (st', outs) ∧ LInv st' (B + totalAmount ops) ∧ P (abs st') ∧
      groupTotal (abs st').counters keys kvs ≤ max (L - 1 + m) (groupTotal (abs st).counters keys kvs) := by
  induction ops with
  | nil => intro st B h hp _ _ _; exact ⟨st, [], rfl, by simpa [totalAmount] using h, hp, by omega⟩
  | cons op ops ih =>
    intro st B h hp hv hB hok
    rw [totalAmount_cons] at hB ⊢
    have := totalAmount_nonneg ops
    obtain ⟨hs, hu, hkeep⟩ := hok op (by simp)
    obtain ⟨st1, out, e1, h1, a1, s1⟩ := sim_step h (hv op (by simp)) (by omega)
    have hp1 : P (abs st1) := by rw [a1]; exact hkeep _ h.sinv hp
    obtain ⟨st2, outs, e2, h2, hp2, hle⟩ := ih h1 hp1 (fun op' ho => hv op' (by simp [ho])) (by omega) (fun op' ho => hok op' (by simp [ho]))
    refine ⟨st2, out :: outs, by simp [run, e1, e2], by rw [← Int.add_assoc]; exact h2, hp2, ?_⟩
    have hst : groupTotal (abs st1).counters keys kvs ≤ max (L - 1 + m) (groupTotal (abs st).counters keys kvs) := by
      rw [a1]
      rcases specStep_total h.sinv (hv op (by simp)) hs keys kvs with hle | ⟨ch, k, c, rfl, hc, hg, hal, he⟩
      · omega
      · have h3 := allowed_lt hal (hP _ hp k hg) hL
        rw [← groupTotal_agree hg] at h3
        have := hu ch k c rfl
        omega
    omega

theorem effective_rule {id : Nat} {rk : KVs Key} {L : Int} {st : St} (h : HasRule id rk L st) {kvs : KVs Key} (ha : applies rk kvs = true) {k : KVs Key}
    (hk : agree (rk.map (·.1)) kvs k = true) : (rk.map (·.1), L) ∈ effective st.rules k := by
  obtain ⟨r, hr, rfl, rfl, rfl, ho⟩ := h
  refine List.mem_flatMap.2 ⟨r, hr, ?_⟩
  have : applies r.kvs k = true := by rw [← applies_agree (fun _ h => h) hk]; exact ha
  simp [ruleLimits, this, ho]

theorem effective_override {id : Nat} {rk : KVs Key} {oid : Nat} {ok : KVs Key} {L : Int} {st : St} (h : HasOverride id rk oid ok L st)
    (hsub : ∀ x ∈ rk.map (·.1), x ∈ ok.map (·.1)) {kvs : KVs Key}
    (hr : applies rk kvs = true) (ha : applies ok kvs = true) {k : KVs Key} (hk : agree (ok.map (·.1)) kvs k = true) : (ok.map (·.1), L) ∈ effective st.rules k := by
  obtain ⟨r, hrm, rfl, rfl, o, hom, rfl, rfl, rfl⟩ := h
  refine List.mem_flatMap.2 ⟨r, hrm, ?_⟩
  have h1 : applies r.kvs k = true := by rw [← applies_agree hsub hk]; exact hr
  have h2 : applies o.kvs k = true := by rw [← applies_agree (fun _ h => h) hk]; exact ha
  have hm : o ∈ r.overrides.filter (fun o => applies o.kvs k) := List.mem_filter.2 ⟨hom, h2⟩
  simp only [ruleLimits, h1, if_true]
  split
  · rename_i e; rw [e] at hm; cases hm
  · exact List.mem_map.2 ⟨o, hm, rfl⟩

theorem mem_setRule {st : St} {r : Rule} (hr : r ∈ st.rules) (id : Nat) (F : Rule → Rule) : (if r.id == id then F r else r) ∈ (st.setRule id F).rules :=
  List.mem_map.2 ⟨r, hr, rfl⟩

theorem keeps_rule {id : Nat} {rk : KVs Key} {L : Int} {op : Op Key} (hk : KeepsRule id op) {st : St} (h : HasRule id rk L st) : HasRule id rk L (specStep st op).1 := by
  obtain ⟨r, hr, rfl, rfl, rfl, ho⟩ := h
  have hset : ∀ i F, (i ≠ r.id ∨ ((F r).id = r.id ∧ (F r).kvs = r.kvs ∧ (F r).limit = r.limit ∧ (F r).overrides = [])) → HasRule r.id r.kvs r.limit (st.setRule i F) := by
    intro i F hF
    refine ⟨_, mem_setRule hr i F, ?_⟩
    split
    · rename_i e
      rw [beq_iff_eq] at e
      rcases hF with hF | hF
      · exact absurd e.symm hF
      · exact hF
    · exact ⟨rfl, rfl, rfl, ho⟩
  cases op with
  | createRule kvs l =>
    simp only [specStep]; split
    · exact ⟨r, hr, rfl, rfl, rfl, ho⟩
    · exact ⟨r, List.mem_append_left _ hr, rfl, rfl, rfl, ho⟩
  | getRule i => simp only [specStep]; split <;> exact ⟨r, hr, rfl, rfl, rfl, ho⟩
  | updateRule i l =>
    simp only [specStep]; split
    · exact ⟨r, hr, rfl, rfl, rfl, ho⟩
    · exact hset _ _ (.inl hk)
  | deleteRule ch i =>
    simp only [specStep]; split
    · exact ⟨r, hr, rfl, rfl, rfl, ho⟩
    · exact ⟨r, List.mem_filter.2 ⟨hr, by simpa using fun e => hk e.symm⟩, rfl, rfl, rfl, ho⟩
  | createOverride i kvs l =>
    simp only [specStep]; repeat' split
    all_goals first | exact ⟨r, hr, rfl, rfl, rfl, ho⟩ | exact hset _ _ (.inl hk)
  | getOverride i j => simp only [specStep]; repeat' split
                       all_goals exact ⟨r, hr, rfl, rfl, rfl, ho⟩
  | updateOverride i j l =>
    simp only [specStep]; repeat' split
    all_goals first | exact ⟨r, hr, rfl, rfl, rfl, ho⟩ | exact hset _ _ (.inr ⟨rfl, rfl, rfl, by simp [Rule.setOverride, ho]⟩)
  | deleteOverride i j =>
    simp only [specStep]; split
    · exact ⟨r, hr, rfl, rfl, rfl, ho⟩
    · exact hset _ _ (.inr ⟨rfl, rfl, rfl, by simp [ho]⟩)
  | upsert ch k c => simp only [specStep]; repeat' split
                     all_goals exact ⟨r, hr, rfl, rfl, rfl, ho⟩
  | setCounter k c => simp only [specStep]; split <;> exact ⟨r, hr, rfl, rfl, rfl, ho⟩
  | queryCounters q => exact ⟨r, hr, rfl, rfl, rfl, ho⟩

theorem keeps_override {id oid : Nat} {rk ok : KVs Key} {L : Int} {op : Op Key} (hk : KeepsOverride id oid op) {st : St} (h : HasOverride id rk oid ok L st) :
    HasOverride id rk oid ok L (specStep st op).1 := by
  obtain ⟨r, hr, rfl, rfl, o, ho, rfl, rfl, rfl⟩ := h
  have triv : ∀ {s : St}, r ∈ s.rules → HasOverride r.id r.kvs o.id o.kvs o.limit s := fun h => ⟨r, h, rfl, rfl, o, ho, rfl, rfl, rfl⟩
  have hset : ∀ i F, (i ≠ r.id ∨ ((F r).id = r.id ∧ (F r).kvs = r.kvs ∧ o ∈ (F r).overrides)) → HasOverride r.id r.kvs o.id o.kvs o.limit (st.setRule i F) := by
    intro i F hF
    refine ⟨_, mem_setRule hr i F, ?_⟩
    split
    · rename_i e
      rw [beq_iff_eq] at e
      rcases hF with hF | hF
      · exact absurd e.symm hF
      · exact ⟨hF.1, hF.2.1, o, hF.2.2, rfl, rfl, rfl⟩
    · exact ⟨rfl, rfl, o, ho, rfl, rfl, rfl⟩
  cases op with
  | createRule kvs l =>
    simp only [specStep]; split
    · exact triv hr
    · exact triv (List.mem_append_left _ hr)
  | getRule i => simp only [specStep]; split <;> exact triv hr
  | updateRule i l =>
    simp only [specStep]; split
    · exact triv hr
    · exact hset _ _ (.inr ⟨rfl, rfl, ho⟩)
  | deleteRule ch i =>
    simp only [specStep]; split
    · exact triv hr
    · exact triv (List.mem_filter.2 ⟨hr, by simpa using fun e => hk e.symm⟩)
  | createOverride i kvs l =>
    simp only [specStep]; repeat' split
    all_goals first | exact triv hr | exact hset _ _ (.inr ⟨rfl, rfl, List.mem_append_left _ ho⟩)
  | getOverride i j => simp only [specStep]; repeat' split
                       all_goals exact triv hr
  | updateOverride i j l =>
    simp only [specStep]; repeat' split
    · exact triv hr
    · exact triv hr
    · by_cases e : i = r.id
      · refine hset _ _ (.inr ⟨rfl, rfl, ?_⟩)
        simp only [Rule.setOverride]
        refine List.mem_map.2 ⟨o, ho, ?_⟩
        rw [if_neg]
        simpa using fun e' => hk ⟨e, e'.symm⟩
      · exact hset _ _ (.inl e)
  | deleteOverride i j =>
    simp only [specStep]; split
    · exact triv hr
    · by_cases e : i = r.id
      · refine hset _ _ (.inr ⟨rfl, rfl, ?_⟩)
        refine List.mem_filter.2 ⟨ho, ?_⟩
        simpa using fun e' => hk ⟨e, e'.symm⟩
      · exact hset _ _ (.inl e)
  | upsert ch k c => simp only [specStep]; repeat' split
                     all_goals exact triv hr
  | setCounter k c => simp only [specStep]; split <;> exact triv hr
  | queryCounters q => exact triv hr

/-! ### The value of one counter -/

theorem find_cons' (c : Counter) (cs : List Counter) (k : KVs Key) :
    valueAt (c :: cs) k = if sameKVs k c.kvs then c.value else valueAt cs k := by
  unfold valueAt
  rw [List.find?_cons]
  by_cases h : sameKVs k c.kvs = true
  · rw [if_pos h]; simp [h]
  · rw [if_neg h]; simp [h]

theorem sameKVs_congr {a b c : KVs Key} (ha : ValidKVs a) (hb : ValidKVs b) (h : sameKVs a b = true) : sameKVs a c = sameKVs b c := by
  rw [Bool.eq_iff_iff]
  exact ⟨fun x => sameKVs_trans (sameKVs_symm ha hb h) x, fun x => sameKVs_trans h x⟩

theorem valueAt_nil_of {cs : List Counter} {k : KVs Key} (h : present cs k = false) : valueAt cs k = 0 := by
  unfold valueAt
  have : cs.find? (fun c => sameKVs k c.kvs) = none := by
    rw [List.find?_eq_none]; intro c hc; exact List.any_eq_false.1 h c hc
  rw [this]

theorem valueAt_remove {cs : List Counter} (hcv : ∀ c ∈ cs, ValidKVs c.kvs) {k x : KVs Key} (hk : ValidKVs k) (hx : ValidKVs x) :
    valueAt (removeCounter cs k) x = if sameKVs k x then 0 else valueAt cs x := by
  induction cs with
  | nil => simp [removeCounter, valueAt]
  | cons c cs ih =>
    have hc := hcv c (by simp)
    have ih := ih (fun y hy => hcv y (by simp [hy]))
    unfold removeCounter at *
    rw [List.filter_cons]
    by_cases h : sameKVs k c.kvs = true
    · rw [if_neg (by simp [h]), ih, find_cons']
      by_cases h2 : sameKVs k x = true
      · rw [if_pos h2, if_pos h2]
      · rw [if_neg h2, if_neg h2, if_neg]
        intro h3
        exact h2 (sameKVs_trans h (sameKVs_symm hx hc h3))
    · rw [if_pos (by simp [h]), find_cons', find_cons', ih]
      by_cases h2 : sameKVs k x = true
      · rw [if_pos h2, if_pos h2, if_neg]
        rw [← sameKVs_congr hk hx h2]; exact h
      · rw [if_neg h2, if_neg h2]

theorem valueAt_change {cs : List Counter} (hcv : ∀ c ∈ cs, ValidKVs c.kvs) {k x : KVs Key} (hk : ValidKVs k) (hx : ValidKVs x) (f : Int → Int) :
    valueAt (changeCounter cs k f) x = if sameKVs k x then (if present cs k then f (valueAt cs x) else 0) else valueAt cs x := by
  induction cs with
  | nil => simp [changeCounter, valueAt, present]
  | cons c cs ih =>
    have hc := hcv c (by simp)
    have ih := ih (fun y hy => hcv y (by simp [hy]))
    have hcons : changeCounter (c :: cs) k f = (if sameKVs k c.kvs then { c with value := f c.value } else c) :: changeCounter cs k f := rfl
    rw [hcons, find_cons', find_cons', ih]
    have hpc : present (c :: cs) k = (sameKVs k c.kvs || present cs k) := rfl
    rw [hpc]
    by_cases h2 : sameKVs k x = true
    · rw [if_pos h2, if_pos h2]
      rw [← sameKVs_congr (c := c.kvs) hk hx h2]
      by_cases h : sameKVs k c.kvs = true
      · rw [if_pos h]; simp only [h, Bool.true_or, if_true, ← sameKVs_congr (c := c.kvs) hk hx h2]
      · simp only [if_neg h, ← sameKVs_congr (c := c.kvs) hk hx h2]
        simp [h]
    · rw [if_neg h2, if_neg h2]
      by_cases h : sameKVs k c.kvs = true
      · have : ¬ sameKVs x c.kvs = true := fun h3 => h2 (sameKVs_trans h (sameKVs_symm hx hc h3))
        rw [if_pos h, if_neg this, if_neg this]
      · rw [if_neg h]

theorem present_value {cs : List Counter} (hp : ∀ c ∈ cs, 0 < c.value) (k : KVs Key) : present cs k = true ↔ 0 < valueAt cs k := by
  constructor
  · intro h
    unfold valueAt
    cases hf : cs.find? (fun c => sameKVs k c.kvs) with
    | none =>
      obtain ⟨c, hc, hs⟩ := List.any_eq_true.1 h
      exact absurd hs (List.find?_eq_none.1 hf c hc)
    | some c => exact hp c (List.mem_of_find?_eq_some hf)
  · intro h
    cases hpr : present cs k with
    | true => rfl
    | false => rw [valueAt_nil_of hpr] at h; omega

theorem valueAt_append_of {cs : List Counter} {c : Counter} {x : KVs Key} : valueAt (cs ++ [c]) x = if present cs x then valueAt cs x else if sameKVs x c.kvs then c.value else 0 := by
  induction cs with
  | nil =>
    rw [List.nil_append, find_cons']
    simp [present, valueAt]
  | cons a cs ih =>
    rw [List.cons_append, find_cons', find_cons', ih]
    have hpc : present (a :: cs) x = (sameKVs x a.kvs || present cs x) := rfl
    rw [hpc]
    by_cases h : sameKVs x a.kvs = true
    · simp [h]
    · simp [h]

theorem valueAt_put {cs : List Counter} (hcv : ∀ c ∈ cs, ValidKVs c.kvs) (hp : ∀ c ∈ cs, 0 < c.value) {k x : KVs Key} (hk : ValidKVs k) (hx : ValidKVs x)
    (d : Int) (f : Int → Int) :
    valueAt (putCounter cs k d f) x = if sameKVs k x then (if valueAt cs k = 0 then d else f (valueAt cs k)) else valueAt cs x := by
  have hval : sameKVs k x = true → valueAt cs k = valueAt cs x := by
    intro h
    unfold valueAt
    have : (fun c : Counter => sameKVs k c.kvs) = (fun c => sameKVs x c.kvs) := by funext c; exact sameKVs_congr hk hx h
    rw [this]
  unfold putCounter
  by_cases h : present cs k = true
  · have h0 := (present_value hp k).1 h
    rw [if_pos h, valueAt_change hcv hk hx, if_pos h]
    split
    · rename_i h2; rw [if_neg (by omega), hval h2]
    · rfl
  · have h' : present cs k = false := by simpa using h
    rw [if_neg h, valueAt_append_of, valueAt_nil_of h']
    simp only [if_true]
    by_cases h2 : sameKVs k x = true
    · have : present cs x = false := by
        cases hpx : present cs x with
        | false => rfl
        | true =>
          obtain ⟨c, hc, hs⟩ := List.any_eq_true.1 hpx
          exact absurd (List.any_eq_true.2 ⟨c, hc, sameKVs_trans h2 hs⟩) h
      rw [if_pos h2, this, if_pos (sameKVs_symm hk hx h2)]; simp
    · rw [if_neg h2]
      split
      · rfl
      · rename_i h3
        rw [if_neg, valueAt_nil_of (by simpa using h3)]
        intro h4; exact h2 (sameKVs_symm hx hk h4)

end Willow.Limiter
