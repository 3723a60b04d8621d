import Verif.Proofs.AssocOps
/-! Queries of the associated tree. -/
namespace Willow.Assoc
open KeyOps BTree Spec

variable {K V : Type}

section
variable [LawfulKey K]

/-! ### One comparison -/

theorem lt_congr_left {a b c : K} (h : keq a b = true) : lt a c = lt b c := by
  rw [Bool.eq_iff_iff]; exact ⟨lt_of_keq_lt (keq_symm h), lt_of_keq_lt h⟩
theorem lt_congr_right {a b c : K} (h : keq a b = true) : lt c a = lt c b := by
  rw [Bool.eq_iff_iff]; exact ⟨fun h' => lt_of_lt_keq h' h, fun h' => lt_of_lt_keq h' (keq_symm h)⟩

theorem inRange_eq_inside (tr : TypeRestrictions) (v : K) : inRange tr v = inside tr v := by
  unfold inRange inside TypeRestrictions.typeWithinRange
  grind

theorem treeSelects_congr {c : Cmp} {q v v' : K} {tr : TypeRestrictions} (h : keq v v' = true) :
    treeSelects c q tr v = treeSelects c q tr v' := by
  have h1 := keq_typ h
  have h2 : veq v q = veq v' q := veq_equiv.congr h q
  have h3 : lt v q = lt v' q := lt_congr_left h
  have h4 : lt q v = lt q v' := lt_congr_right h
  cases c <;> simp only [treeSelects, inRange, h1, h2, h3, h4]

theorem equalsMatch_congr {q v v' : K} {tr : TypeRestrictions} (h : keq v v' = true) : equalsMatch q tr v = equalsMatch q tr v' := by
  have h2 : same v q = same v' q := veq_equiv.congr h q
  simp only [equalsMatch, inside, wild, keq_typ h, h2]

theorem isAny_le {n : Int} (h : DataType.isGeneral n = true ∨ DataType.isAny n = true) : n ≤ DataType.any := by
  rcases h with h | h
  · simp only [DataType.isGeneral, Bool.or_eq_true, beq_iff_eq, DataType.uint, DataType.uint8, DataType.uint16, DataType.uint32, DataType.uint64,
      DataType.int, DataType.int8, DataType.int16, DataType.int32, DataType.int64, DataType.float32, DataType.float64, DataType.string, DataType.any] at *; omega
  · simp [DataType.isAny, DataType.any] at *; omega

theorem validTR_hi_le {tr : TypeRestrictions} (h : ValidTR tr) : tr.hi ≤ DataType.any := isAny_le (by simpa using h.2.1)

theorem treeSelects_equals {q v : K} {tr : TypeRestrictions} (h : ValidTR tr) : treeSelects .eq q tr v = equalsMatch q tr v := by
  have hhi := validTR_hi_le h
  have hle := h.2.2
  have ht := LawfulKey.typ_le v
  have htq := LawfulKey.typ_le q
  simp only [treeSelects, inRange_eq_inside, equalsMatch, inside, wild]
  change (if typ q = DataType.any then _ else keq v q && _ || _) = (_ && (keq v q || _ || _))
  by_cases hq : typ q = DataType.any
  · simp [hq]
  · by_cases hv : typ v = DataType.any
    · have : keq v q = false := by
        cases hk : keq v q with
        | false => rfl
        | true => exact absurd ((keq_typ hk).symm.trans hv) hq
      simp only [hq, hv, this, if_false]
      rw [Bool.eq_iff_iff]; simp; omega
    · cases hk : keq v q
      · simp [hq, hv]
      · simp [hq, hv, keq_typ hk]

theorem treeSelects_ne {q v : K} {tr : TypeRestrictions} (h : ValidTR tr) : treeSelects .ne q tr v = equalsMatch q tr v :=
  (show treeSelects .ne q tr v = treeSelects .eq q tr v from rfl).trans (treeSelects_equals h)

theorem treeSelects_holds {vq : ValueQuery K} (hv : ValidVQ vq) (ht : TrOk vq) (v : K) :
    treeSelects vq.cmp vq.value vq.tr v = if vq.cmp = .ne then !valueHolds vq (some v) else valueHolds vq (some v) := by
  obtain ⟨q, cmp, tr⟩ := vq
  obtain ⟨htr, hcmp⟩ := hv
  obtain ⟨t1, t2⟩ := ht
  simp only at *
  have hhi := validTR_hi_le htr
  have hle := htr.2.2
  have htv := LawfulKey.typ_le v
  have hany : typ v = DataType.any → typ q ≠ DataType.any → lt q v = true := by
    intro h1 h2; exact LawfulKey.typ_lt (by have := LawfulKey.typ_le q; omega)
  have hanyr : typ v = DataType.any → lt v q = false := by
    intro h1
    cases h : lt v q with
    | false => rfl
    | true => exact absurd h1 (LawfulKey.any_top h)
  have hl1 : lt v q = true → typ v ≤ typ q := LawfulKey.lt_typ
  have hl2 : lt q v = true → typ q ≤ typ v := LawfulKey.lt_typ
  have hl3 : lt v q = false → typ q ≤ typ v := by
    intro h; apply Int.not_lt.1; intro h'; rw [LawfulKey.typ_lt h'] at h; cases h
  have hl4 : lt q v = false → typ v ≤ typ q := by
    intro h; apply Int.not_lt.1; intro h'; rw [LawfulKey.typ_lt h'] at h; cases h
  cases cmp
  · simp [valueHolds, treeSelects_equals htr]
  · simp [valueHolds, treeSelects_ne htr]
  all_goals
    simp only [reduceCtorEq, or_true, true_or, or_false, false_or, true_imp_iff, false_imp_iff] at t1 t2 hcmp
    simp only [treeSelects, valueHolds, inside, before, wild, reduceCtorEq, if_false]
    rw [Bool.eq_iff_iff]
    simp only [Bool.or_eq_true, Bool.and_eq_true, decide_eq_true_eq, Bool.not_eq_true']
    cases h1 : lt v q <;> cases h2 : lt q v <;> simp [h1, h2] at * <;> omega

theorem less_eq' {a b : K} : less a b = (lt a b && !wild a && !wild b) := by
  unfold wild
  by_cases ha : typ a = DataType.any
  · rw [LawfulKey.less_any (.inl ha)]; simp [ha]
  · by_cases hb : typ b = DataType.any
    · rw [LawfulKey.less_any (.inr hb)]; simp [hb]
    · rw [LawfulKey.less_eq ha hb]; simp [ha, hb]

theorem matchOne_holds {vq : ValueQuery K} (hv : ValidVQ vq) (v : Option K) : matchOne vq v = valueHolds vq v := by
  obtain ⟨q, cmp, tr⟩ := vq
  obtain ⟨htr, hcmp⟩ := hv
  simp only at *
  cases v with
  | none => cases cmp <;> rfl
  | some v =>
    have hhi := validTR_hi_le htr
    have hle := htr.2.2
    have hanyr : typ v = DataType.any → lt v q = false := by
      intro h1
      cases h : lt v q with
      | false => rfl
      | true => exact absurd h1 (LawfulKey.any_top h)
    have hanyq : typ q = DataType.any → lt q v = false := by
      intro h1
      cases h : lt q v with
      | false => rfl
      | true => exact absurd h1 (LawfulKey.any_top h)
    have hany : typ v = DataType.any → typ q ≠ DataType.any → lt q v = true := by
      intro h1 h2; exact LawfulKey.typ_lt (by have := LawfulKey.typ_le q; omega)
    have eqm : (inRange tr v && (!less v q && !less q v)) = equalsMatch q tr v := by
      rw [inRange_eq_inside, less_eq', less_eq']
      unfold equalsMatch same wild
      cases h1 : lt v q <;> cases h2 : lt q v <;> by_cases h3 : typ v = DataType.any <;> by_cases h4 : typ q = DataType.any <;> simp_all
    have hin : inside tr v = true → typ v ≤ tr.hi := by simp [inside]
    have hg : DataType.isGeneral tr.hi = true → tr.hi ≠ DataType.any := by
      intro h e; rw [e] at h; exact absurd h (by decide)
    have hgeneral : DataType.isGeneral tr.hi = true ∨ (DataType.isGeneral tr.hi = false ∧ DataType.isAny tr.hi = true ∧ tr.hi = DataType.any) := by
      rcases htr.2.1 with h | h
      · exact .inl h
      · cases hx : DataType.isGeneral tr.hi
        · exact .inr ⟨rfl, h, by simpa [DataType.isAny] using h⟩
        · exact .inl rfl
    cases cmp
    · simp only [matchOne, valueHolds]; exact eqm
    · simp only [matchOne, valueHolds]; rw [eqm]
    all_goals
      simp only [reduceCtorEq, or_true, true_or, or_false, false_or] at hcmp
      simp only [matchOne, valueHolds, inRange_eq_inside, less_eq', before]
      cases hi : inside tr v
      · rfl
      · simp only [Bool.true_and]
        have hi' := hin hi
        have htv := LawfulKey.typ_le v
        rcases hgeneral with h | ⟨h, h', h''⟩
        · have hv : typ v ≠ DataType.any := by intro e; have := hg h; omega
          have hwv : wild v = false := by simp [wild, hv]
          have hwq : wild q = false := by simp [wild, hcmp]
          simp only [h, if_true, hwv, hwq]
          cases h1 : lt v q <;> cases h2 : lt q v <;> simp
          all_goals (have := asymm h1; rw [h2] at this; cases this)
        · by_cases hv : typ v = DataType.any
          · simp [h, h', hv, wild]
          · have hwv : wild v = false := by simp [wild, hv]
            have hwq : wild q = false := by simp [wild, hcmp]
            simp only [h, h', hv, hwv, hwq]
            cases h1 : lt v q <;> cases h2 : lt q v <;> simp
            all_goals (have := asymm h1; rw [h2] at this; cases this)

theorem inBounds_eq {min max : Option Int} {n : Nat} : inBounds min max n = sizeInside min max n := by
  cases min <;> cases max <;> rfl

theorem alookup_eq_valueOf {k : GoString} {kvs : KVs K} : alookup seq k kvs = valueOf kvs k := rfl

theorem matchKeyValues_holds {sel : Selection K} (hs : ValidSel sel) (kvs : KVs K) : sel.matchKeyValues kvs = selHolds sel kvs := by
  unfold Selection.matchKeyValues selHolds
  rw [inBounds_eq]
  congr 1
  rw [Bool.eq_iff_iff]; simp only [List.all_eq_true]
  constructor
  · intro h x hx; rw [← alookup_eq_valueOf, ← matchOne_holds (hs.2.1 x hx)]; exact h x hx
  · intro h x hx; rw [matchOne_holds (hs.2.1 x hx)]; exact h x hx

/-! ### One selection -/

theorem mem_nodeIds {min max : Option Int} {nd : IdNode} {x : Nat} :
    x ∈ nodeIds min max nd ↔ ∃ n, inBounds min max (n + 1) = true ∧ x ∈ nd.getD n [] := by
  unfold nodeIds
  simp only [List.mem_flatMap, List.mem_filter]
  constructor
  · rintro ⟨⟨l, n⟩, ⟨h1, h2⟩, h3⟩
    rw [List.mem_zipIdx_iff_getElem?] at h1
    exact ⟨n, h2, by rw [List.getD_eq_getElem?_getD, h1]; exact h3⟩
  · rintro ⟨n, h1, h2⟩
    have hl := length_of_mem h2
    refine ⟨(nd[n], n), ⟨?_, h1⟩, ?_⟩
    · rw [List.mem_zipIdx_iff_getElem?]; simp [hl]
    · rw [List.getD_eq_getElem?_getD, List.getElem?_eq_getElem hl] at h2; exact h2

theorem valueOf_mem {kvs : KVs K} {k : GoString} {v : K} (h : valueOf kvs k = some v) : (k, v) ∈ kvs := by
  rw [← alookup_eq_valueOf] at h
  obtain ⟨k', hm, e⟩ := alookup_mem h
  simp [seq] at e; subst e; exact hm

theorem uniq_of_nodup {B : Type} {l : List (GoString × B)} (h : (l.map (·.1)).Nodup) : Uniq seq l := by
  unfold Uniq
  rw [List.Nodup, List.pairwise_map] at h
  exact h.imp (by intro a b hab; simpa [seq] using hab)

theorem valueOf_of_mem {kvs : KVs K} (hv : (kvs.map (·.1)).Nodup) {k : GoString} {v : K} (h : (k, v) ∈ kvs) : valueOf kvs k = some v := by
  rw [← alookup_eq_valueOf]; exact alookup_of_mem seq_equiv (uniq_of_nodup hv) h

/-- The ids found under the values of a key that satisfy `p`. -/
theorem mem_keyScan {ix : Index K} {ents : List (Nat × KVs K)} (h : IxInv ix ents) {k : GoString} {p : K → Bool}
    (hp : ∀ v v', keq v v' = true → p v = p v') {min max : Option Int} {x : Nat} :
    x ∈ ((((alookup seq k ix).getD []).filter (fun vn => p vn.1)).flatMap (fun vn => nodeIds min max vn.2)) ↔
      ∃ e ∈ ents, e.1 = x ∧ inBounds min max e.2.length = true ∧ ∃ v, valueOf e.2 k = some v ∧ p v = true := by
  simp only [List.mem_flatMap, List.mem_filter, mem_nodeIds]
  constructor
  · rintro ⟨⟨v, nd⟩, ⟨hm, hpv⟩, n, hb, hx⟩
    simp only at hpv hx
    cases hl : alookup seq k ix with
    | none => rw [hl] at hm; simp at hm
    | some vs =>
      rw [hl] at hm; simp only [Option.getD_some] at hm
      obtain ⟨k', hm', hk'⟩ := alookup_mem hl
      have hu := h.wf.vals _ hm'
      have hnd : ix.node k v = some nd := by
        unfold Index.node; rw [hl]; exact alookup_of_mem veq_equiv hu hm
      have : x ∈ idsOf ix k v n := by unfold idsOf; rw [hnd]; exact hx
      obtain ⟨e, he, hex, hel, hk⟩ := (h.mem k v n x).1 this
      obtain ⟨y, hy, rfl, hyv⟩ := hasKV_iff.1 hk
      exact ⟨e, he, hex, by rw [hel]; exact hb, y.2, valueOf_of_mem (h.valid e he).2 hy, by rw [hp _ _ hyv]; exact hpv⟩
  · rintro ⟨e, he, rfl, hb, v, hv, hpv⟩
    have hm := valueOf_mem hv
    have hlen : 0 < e.2.length := List.length_pos_iff.2 (List.ne_nil_of_mem hm)
    have hin := (h.mem k v (e.2.length - 1) e.1).2 ⟨e, he, rfl, by omega, hasKV_iff.2 ⟨_, hm, rfl, keq_refl _⟩⟩
    unfold idsOf Index.node at hin
    cases hl : alookup seq k ix with
    | none => rw [hl] at hin; simp at hin
    | some vs =>
      rw [hl] at hin; simp only [Option.bind_some] at hin
      cases hl2 : alookup veq v vs with
      | none => rw [hl2] at hin; simp at hin
      | some nd =>
        rw [hl2] at hin; simp only [Option.getD_some] at hin
        obtain ⟨v', hm', hv'⟩ := alookup_mem hl2
        refine ⟨(v', nd), ⟨hm', ?_⟩, e.2.length - 1, ?_, hin⟩
        · rw [hp v' v hv']; exact hpv
        · have : e.2.length - 1 + 1 = e.2.length := by omega
          rw [this]; exact hb

/-- The entries with all ids, when no key is asked for. -/
theorem mem_allScan {ix : Index K} {ents : List (Nat × KVs K)} (h : IxInv ix ents) {min max : Option Int} {x : Nat} :
    x ∈ ix.flatMap (fun kv => kv.2.flatMap (fun vn => nodeIds min max vn.2)) ↔
      ∃ e ∈ ents, e.1 = x ∧ inBounds min max e.2.length = true := by
  constructor
  · intro hx
    obtain ⟨⟨k, vs⟩, hk, hx⟩ := List.mem_flatMap.1 hx
    have hl := alookup_of_mem seq_equiv h.wf.keys hk
    have := (mem_keyScan h (k := k) (p := fun _ => true) (fun _ _ _ => rfl) (min := min) (max := max) (x := x)).1 (by
      rw [hl]; simpa using hx)
    obtain ⟨e, he, h1, h2, _⟩ := this
    exact ⟨e, he, h1, h2⟩
  · rintro ⟨e, he, rfl, hb⟩
    obtain ⟨kv, hkv⟩ := List.exists_mem_of_ne_nil e.2 (h.valid e he).1
    have := (mem_keyScan h (k := kv.1) (p := fun _ => true) (fun _ _ _ => rfl) (min := min) (max := max) (x := e.1)).2
      ⟨e, he, rfl, hb, kv.2, valueOf_of_mem (h.valid e he).2 hkv, rfl⟩
    cases hl : alookup seq kv.1 ix with
    | none => rw [hl] at this; simp at this
    | some vs =>
      rw [hl] at this
      obtain ⟨k', hm', _⟩ := alookup_mem hl
      exact List.mem_flatMap.2 ⟨(k', vs), hm', by simpa using this⟩

/-- The tree search for one query key selects the value. -/
def treeHolds (kvs : KVs K) (kq : GoString × ValueQuery K) : Bool :=
  match valueOf kvs kq.1 with
  | some v => treeSelects kq.2.cmp kq.2.value kq.2.tr v
  | none => false

/-- State of the loop after the query keys `done`. -/
structure LoopInv (ents : List (Nat × KVs K)) (sel : Selection K) (done : List (GoString × ValueQuery K)) (st : FindState) : Prop where
  valid : match st.valid with
    | none => ∀ kq ∈ done, kq.2.cmp = .ne
    | some s => s.Nodup ∧ ∀ x, x ∈ s ↔ ∃ e ∈ ents, e.1 = x ∧ inBounds sel.min sel.max e.2.length = true ∧ ∀ kq ∈ done, kq.2.cmp ≠ .ne → treeHolds e.2 kq = true
  invalid : match st.invalid with
    | none => ∀ kq ∈ done, kq.2.cmp ≠ .ne
    | some s => (∃ kq ∈ done, kq.2.cmp = .ne) ∧ ∀ x, x ∈ s ↔ ∃ e ∈ ents, e.1 = x ∧ inBounds sel.min sel.max e.2.length = true ∧ ∀ kq ∈ done, kq.2.cmp = .ne → treeHolds e.2 kq = true

theorem loop_step {t : ATree K V} {ents : List (Nat × KVs K)} (h : IxInv t.keys ents) {sel : Selection K}
    {done : List (GoString × ValueQuery K)} {st : FindState} (hi : LoopInv ents sel done st) (kq : GoString × ValueQuery K) :
    LoopInv ents sel (done ++ [kq]) (findStep t sel st kq.1 kq.2) := by
  have hall : ∀ x, x ∈ (((alookup seq kq.1 t.keys).getD []).filter (fun vn => treeSelects kq.2.cmp kq.2.value kq.2.tr vn.1)).flatMap
      (fun vn => nodeIds sel.min sel.max vn.2) ↔ ∃ e ∈ ents, e.1 = x ∧ inBounds sel.min sel.max e.2.length = true ∧ treeHolds e.2 kq = true := by
    intro x
    rw [mem_keyScan h (fun v v' hk => treeSelects_congr hk)]
    apply exists_congr; intro e
    apply and_congr_right; intro _
    apply and_congr_right; intro _
    apply and_congr_right; intro _
    unfold treeHolds
    cases valueOf e.2 kq.1 <;> simp
  have hmerge : ∀ (c : ValueQuery K → Prop) (e e' : Nat × KVs K), e ∈ ents → e' ∈ ents → e.1 = e'.1 → e = e' := fun _ e e' he he' hh => ent_eq h.ids he he' hh
  obtain ⟨hv, hinv⟩ := hi
  unfold findStep
  by_cases hc : kq.2.cmp = .ne
  · simp only [hc, if_true]
    simp only [hc] at hall
    constructor
    · simp only
      cases hsv : st.valid with
      | none =>
        rw [hsv] at hv; simp only at hv ⊢
        intro x hx
        rcases List.mem_append.1 hx with hx | hx
        · exact hv x hx
        · simp at hx; subst hx; exact hc
      | some s =>
        rw [hsv] at hv; simp only at hv ⊢
        refine ⟨hv.1, fun x => ?_⟩
        rw [hv.2]
        apply exists_congr; intro e
        apply and_congr_right; intro _
        apply and_congr_right; intro _
        apply and_congr_right; intro _
        constructor
        · intro hd y hy hyc
          rcases List.mem_append.1 hy with hy | hy
          · exact hd y hy hyc
          · simp at hy; subst hy; exact absurd hc hyc
        · intro hd y hy; exact hd y (by simp [hy])
    · simp only
      cases hsv : st.invalid with
      | none =>
        rw [hsv] at hinv; simp only at hinv ⊢
        refine ⟨⟨kq, by simp, hc⟩, fun x => ?_⟩
        rw [GSet.mem_new, hall]
        apply exists_congr; intro e
        apply and_congr_right; intro _
        apply and_congr_right; intro _
        apply and_congr_right; intro _
        constructor
        · intro hh y hy hyc
          rcases List.mem_append.1 hy with hy | hy
          · exact absurd hyc (hinv y hy)
          · simp at hy; subst hy; exact hh
        · intro hd; exact hd kq (by simp) hc
      | some s =>
        rw [hsv] at hinv; simp only at hinv ⊢
        refine ⟨⟨kq, by simp, hc⟩, fun x => ?_⟩
        rw [GSet.mem_inter, hall, hinv.2]
        constructor
        · rintro ⟨⟨e, he, rfl, h1, h2⟩, e', he', hee, h1', h2'⟩
          have := ent_eq h.ids he' he hee; subst this
          refine ⟨e', he', rfl, h1, ?_⟩
          intro y hy hyc
          rcases List.mem_append.1 hy with hy | hy
          · exact h2 y hy hyc
          · simp at hy; subst hy; exact h2'
        · rintro ⟨e, he, rfl, h1, h2⟩
          exact ⟨⟨e, he, rfl, h1, fun y hy => h2 y (by simp [hy])⟩, e, he, rfl, h1, h2 kq (by simp) hc⟩
  · simp only [hc, if_false]
    constructor
    · simp only
      cases hsv : st.valid with
      | none =>
        rw [hsv] at hv; simp only at hv ⊢
        refine ⟨GSet.nodup_new, fun x => ?_⟩
        rw [GSet.mem_new, hall]
        apply exists_congr; intro e
        apply and_congr_right; intro _
        apply and_congr_right; intro _
        apply and_congr_right; intro _
        constructor
        · intro hh y hy hyc
          rcases List.mem_append.1 hy with hy | hy
          · exact absurd (hv y hy) hyc
          · simp at hy; subst hy; exact hh
        · intro hd; exact hd kq (by simp) hc
      | some s =>
        rw [hsv] at hv; simp only at hv ⊢
        refine ⟨GSet.nodup_inter, fun x => ?_⟩
        rw [GSet.mem_inter, hall, hv.2]
        constructor
        · rintro ⟨⟨e, he, rfl, h1, h2⟩, e', he', hee, h1', h2'⟩
          have := ent_eq h.ids he' he hee; subst this
          refine ⟨e', he', rfl, h1, ?_⟩
          intro y hy hyc
          rcases List.mem_append.1 hy with hy | hy
          · exact h2 y hy hyc
          · simp at hy; subst hy; exact h2'
        · rintro ⟨e, he, rfl, h1, h2⟩
          exact ⟨⟨e, he, rfl, h1, fun y hy => h2 y (by simp [hy])⟩, e, he, rfl, h1, h2 kq (by simp) hc⟩
    · simp only
      cases hsv : st.invalid with
      | none =>
        rw [hsv] at hinv; simp only at hinv ⊢
        intro x hx
        rcases List.mem_append.1 hx with hx | hx
        · exact hinv x hx
        · simp at hx; subst hx; exact hc
      | some s =>
        rw [hsv] at hinv; simp only at hinv ⊢
        refine ⟨?_, fun x => ?_⟩
        · obtain ⟨y, hy, hyc⟩ := hinv.1; exact ⟨y, by simp [hy], hyc⟩
        rw [hinv.2]
        apply exists_congr; intro e
        apply and_congr_right; intro _
        apply and_congr_right; intro _
        apply and_congr_right; intro _
        constructor
        · intro hd y hy hyc
          rcases List.mem_append.1 hy with hy | hy
          · exact hd y hy hyc
          · simp at hy; subst hy; exact absurd hyc hc
        · intro hd y hy; exact hd y (by simp [hy])

theorem loop_spec {t : ATree K V} {ents : List (Nat × KVs K)} (h : IxInv t.keys ents) {sel : Selection K} :
    ∀ (rest done : List (GoString × ValueQuery K)) (st : FindState), LoopInv ents sel done st →
    match findLoop t sel rest st with
    | .inl s => s = [] ∧ ∀ e ∈ ents, inBounds sel.min sel.max e.2.length = true → ∃ kq ∈ done ++ rest, kq.2.cmp ≠ .ne ∧ treeHolds e.2 kq = false
    | .inr st' => LoopInv ents sel (done ++ rest) st' := by
  intro rest
  induction rest with
  | nil => intro done st hi; simpa [findLoop] using hi
  | cons kq rest ih =>
    intro done st hi
    have hstep := loop_step h hi kq
    have hrec := ih _ _ hstep
    rw [List.append_assoc, List.singleton_append] at hrec
    unfold findLoop
    simp only
    cases hv : (findStep t sel st kq.1 kq.2).valid with
    | none => simp only; exact hrec
    | some s =>
      cases s with
      | cons a s => simp only; exact hrec
      | nil =>
        simp only
        refine ⟨trivial, fun e he hb => ?_⟩
        have hval := hstep.valid
        rw [hv] at hval; simp only at hval
        have hnot : ¬ ∀ kq' ∈ done ++ [kq], kq'.2.cmp ≠ .ne → treeHolds e.2 kq' = true := by
          intro hall
          have := (hval.2 e.1).2 ⟨e, he, rfl, hb, hall⟩
          simp at this
        rw [Classical.not_forall] at hnot
        obtain ⟨y, hy⟩ := hnot
        rw [Classical.not_forall] at hy
        obtain ⟨hym, hy⟩ := hy
        rw [Classical.not_forall] at hy
        obtain ⟨hyc, hy⟩ := hy
        refine ⟨y, ?_, hyc, by simpa using hy⟩
        rcases List.mem_append.1 hym with h1 | h1
        · simp [h1]
        · simp at h1; simp [h1]

/-- What the index search of a selection without ids really computes. -/
def selTree (sel : Selection K) (kvs : KVs K) : Bool :=
  inBounds sel.min sel.max kvs.length && sel.kvs.all (fun kq => decide (kq.2.cmp = .ne) || treeHolds kvs kq) &&
    !(sel.kvs.any (fun kq => decide (kq.2.cmp = .ne)) && sel.kvs.all (fun kq => decide (kq.2.cmp ≠ .ne) || treeHolds kvs kq))

theorem findIDs_noIds {t : ATree K V} {ents : List (Nat × KVs K)} (h : IxInv t.keys ents) {sel : Selection K} (hid : sel.ids = []) :
    (t.findIDs sel).Nodup ∧ ∀ x, x ∈ t.findIDs sel ↔ ∃ e ∈ ents, e.1 = x ∧ selTree sel e.2 = true := by
  have hl := loop_spec h (sel := sel) sel.kvs [] ⟨none, none⟩ ⟨by simp, by simp⟩
  simp only [List.nil_append] at hl
  unfold ATree.findIDs
  simp only [hid, ne_eq, not_true_eq_false, if_false]
  have hst : ∀ kvs : KVs K, selTree sel kvs = true ↔ inBounds sel.min sel.max kvs.length = true ∧
      (∀ kq ∈ sel.kvs, kq.2.cmp ≠ .ne → treeHolds kvs kq = true) ∧
      ¬ ((∃ kq ∈ sel.kvs, kq.2.cmp = .ne) ∧ ∀ kq ∈ sel.kvs, kq.2.cmp = .ne → treeHolds kvs kq = true) := by
    intro kvs
    simp only [selTree, Bool.and_eq_true, List.all_eq_true, Bool.or_eq_true, decide_eq_true_eq, Bool.not_eq_true', Bool.and_eq_false_iff, List.any_eq_false,
      List.all_eq_false, and_assoc]
    apply and_congr_right; intro _
    apply and_congr
    · exact forall_congr' fun kq => forall_congr' fun _ => Classical.or_iff_not_imp_left
    · grind
  cases hf : findLoop t sel sel.kvs ⟨none, none⟩ with
  | inl s =>
    rw [hf] at hl; simp only at hl ⊢
    obtain ⟨rfl, hno⟩ := hl
    refine ⟨List.nodup_nil, fun x => ?_⟩
    constructor
    · intro hx; cases hx
    · rintro ⟨e, he, rfl, hs⟩
      rw [hst] at hs
      obtain ⟨kq, hkq, hc, hf⟩ := hno e he hs.1
      rw [hs.2.1 kq hkq hc] at hf; cases hf
  | inr st =>
    rw [hf] at hl; simp only at hl ⊢
    obtain ⟨hv, hi⟩ := hl
    have hvalid : ∃ s : GSet, st.valid.getD (GSet.new (t.keys.flatMap (fun kv => kv.2.flatMap (fun vn => nodeIds sel.min sel.max vn.2)))) = s ∧ s.Nodup ∧
        ∀ x, x ∈ s ↔ ∃ e ∈ ents, e.1 = x ∧ inBounds sel.min sel.max e.2.length = true ∧ ∀ kq ∈ sel.kvs, kq.2.cmp ≠ .ne → treeHolds e.2 kq = true := by
      cases hsv : st.valid with
      | none =>
        rw [hsv] at hv; simp only at hv
        refine ⟨_, rfl, GSet.nodup_new, fun x => ?_⟩
        simp only [Option.getD_none]; rw [GSet.mem_new, mem_allScan h]
        apply exists_congr; intro e
        apply and_congr_right; intro _
        apply and_congr_right; intro _
        constructor
        · intro hb; exact ⟨hb, fun kq hkq hc => absurd (hv kq hkq) hc⟩
        · intro hb; exact hb.1
      | some s => rw [hsv] at hv; simp only at hv; exact ⟨s, rfl, hv⟩
    obtain ⟨s, hs, hnd, hmem⟩ := hvalid
    rw [hs]
    refine ⟨GSet.nodup_removeAll hnd, fun x => ?_⟩
    rw [GSet.mem_removeAll, hmem]
    have hinv : ∀ e ∈ ents, inBounds sel.min sel.max e.2.length = true →
        (e.1 ∈ st.invalid.getD [] ↔ (∃ kq ∈ sel.kvs, kq.2.cmp = .ne) ∧ ∀ kq ∈ sel.kvs, kq.2.cmp = .ne → treeHolds e.2 kq = true) := by
      intro e he hb
      cases hsi : st.invalid with
      | none =>
        rw [hsi] at hi; simp only at hi
        simp only [Option.getD_none]
        constructor
        · intro hx; cases hx
        · rintro ⟨⟨kq, h1, h2⟩, _⟩; exact absurd h2 (hi kq h1)
      | some s =>
        rw [hsi] at hi; simp only at hi
        simp only [Option.getD_some]
        rw [hi.2]
        constructor
        · rintro ⟨e', he', hee, _, h2⟩
          have := ent_eq h.ids he' he hee; subst this
          exact ⟨hi.1, h2⟩
        · rintro ⟨_, h2⟩; exact ⟨e, he, rfl, hb, h2⟩
    constructor
    · rintro ⟨⟨e, he, rfl, hb, hp⟩, hx⟩
      exact ⟨e, he, rfl, (hst _).2 ⟨hb, hp, fun hh => hx ((hinv e he hb).2 hh)⟩⟩
    · rintro ⟨e, he, rfl, hse⟩
      obtain ⟨hb, hp, hn⟩ := (hst _).1 hse
      exact ⟨⟨e, he, rfl, hb, hp⟩, fun hx => hn ((hinv e he hb).1 hx)⟩

theorem selTree_holds {sel : Selection K} (hv : ValidSel sel) (hid : sel.ids = []) (he : SelExact sel) (kvs : KVs K) :
    selTree sel kvs = selHolds sel kvs := by
  rcases he with he | ⟨htr, hone⟩
  · exact absurd hid he
  have hpos : ∀ kq ∈ sel.kvs, kq.2.cmp ≠ .ne → treeHolds kvs kq = valueHolds kq.2 (valueOf kvs kq.1) := by
    intro kq hkq hc
    unfold treeHolds
    cases valueOf kvs kq.1 with
    | none => unfold valueHolds; cases h : kq.2.cmp <;> simp_all
    | some v => simp only; rw [treeSelects_holds (hv.2.1 kq hkq) (htr kq hkq)]; simp [hc]
  have hneg : ∀ kq ∈ sel.kvs, kq.2.cmp = .ne → treeHolds kvs kq = !valueHolds kq.2 (valueOf kvs kq.1) := by
    intro kq hkq hc
    unfold treeHolds
    cases valueOf kvs kq.1 with
    | none => simp only [valueHolds, hc]; rfl
    | some v => simp only; rw [treeSelects_holds (hv.2.1 kq hkq) (htr kq hkq)]; simp [hc]
  unfold selTree selHolds
  rw [inBounds_eq, Bool.and_assoc]
  congr 1
  rw [Bool.eq_iff_iff]
  simp only [Bool.and_eq_true, List.all_eq_true, Bool.or_eq_true, decide_eq_true_eq, Bool.not_eq_true', Bool.and_eq_false_iff, List.any_eq_false, List.all_eq_false]
  constructor
  · rintro ⟨h1, h2⟩ kq hkq
    by_cases hc : kq.2.cmp = .ne
    · rcases h2 with h2 | ⟨y, hy, hh⟩
      · exact absurd hc (h2 kq hkq)
      · rw [not_or] at hh
        have hyc : y.2.cmp = .ne := by have := hh.1; simpa using this
        have := hone kq hkq y hy hc hyc
        subst this
        have := hneg kq hkq hc
        rw [this] at hh; simpa using hh.2
    · rcases h1 kq hkq with h | h
      · exact absurd h hc
      · rw [← hpos kq hkq hc]; exact h
  · intro h
    refine ⟨fun kq hkq => ?_, ?_⟩
    · by_cases hc : kq.2.cmp = .ne
      · exact .inl hc
      · exact .inr (by rw [hpos kq hkq hc]; exact h kq hkq)
    · by_cases hex : ∃ kq ∈ sel.kvs, kq.2.cmp = .ne
      · obtain ⟨kq, hkq, hc⟩ := hex
        refine .inr ⟨kq, hkq, ?_⟩
        rw [hneg kq hkq hc, h kq hkq]; simp [hc]
      · exact .inl fun kq hkq hc => hex ⟨kq, hkq, hc⟩

end
end Willow.Assoc
