import Verif.Proofs.AssocQuery
/-! Whole queries and histories of the associated tree. -/
namespace Willow.Assoc
open KeyOps BTree Spec

variable {K V : Type}

section
variable [LawfulKey K]

/-- The set holds exactly the ids of the stored items with property `p`. -/
def Repr (t : ATree K V) (s : GSet) (p : Item K V → Bool) : Prop :=
  s.Nodup ∧ ∀ x, x ∈ s ↔ ∃ i ∈ t.items, i.id = x ∧ p i = true

theorem Repr.congr {t : ATree K V} {s : GSet} {p q : Item K V → Bool} (h : Repr t s p) (e : ∀ i ∈ t.items, p i = q i) : Repr t s q := by
  refine ⟨h.1, fun x => (h.2 x).trans ?_⟩
  constructor
  · rintro ⟨i, hi, h1, h2⟩; exact ⟨i, hi, h1, e i hi ▸ h2⟩
  · rintro ⟨i, hi, h1, h2⟩; exact ⟨i, hi, h1, (e i hi).symm ▸ h2⟩

theorem Repr.inter {t : ATree K V} (hI : Inv t) {s s' : GSet} {p q : Item K V → Bool} (h : Repr t s p) (h' : Repr t s' q) :
    Repr t (s.inter s') (fun i => p i && q i) := by
  refine ⟨GSet.nodup_inter, fun x => ?_⟩
  rw [GSet.mem_inter, h.2, h'.2]
  constructor
  · rintro ⟨⟨i, hi, rfl, hp⟩, j, hj, hij, hq⟩
    have := hI.item_eq hj hi hij; subst this
    exact ⟨j, hj, rfl, by simp [hp, hq]⟩
  · rintro ⟨i, hi, rfl, hpq⟩
    simp at hpq
    exact ⟨⟨i, hi, rfl, hpq.1⟩, i, hi, rfl, hpq.2⟩

theorem Repr.union {t : ATree K V} {s s' : GSet} {p q : Item K V → Bool} (h : Repr t s p) (h' : Repr t s' q) :
    Repr t (s.addBulk s') (fun i => p i || q i) := by
  refine ⟨GSet.nodup_addBulk h.1, fun x => ?_⟩
  rw [GSet.mem_addBulk, h.2, h'.2]
  constructor
  · rintro (⟨i, hi, rfl, hp⟩ | ⟨i, hi, rfl, hp⟩) <;> exact ⟨i, hi, rfl, by simp [hp]⟩
  · rintro ⟨i, hi, rfl, hpq⟩
    simp at hpq
    rcases hpq with hpq | hpq
    · exact .inl ⟨i, hi, rfl, hpq⟩
    · exact .inr ⟨i, hi, rfl, hpq⟩

/-- `idOk` for an item. -/
def idOkOf (i : Item K V) : List Nat → Bool := fun ids => ids.isEmpty || ids.contains i.id

/-- The search for one selection is exact. -/
theorem findIDs_spec {t : ATree K V} (h : Inv t) {sel : Selection K} (hv : ValidSel sel) (he : SelExact sel) :
    Repr t (t.findIDs sel) (fun i => idOkOf i sel.ids && selHolds sel i.kvs) := by
  by_cases hid : sel.ids = []
  · obtain ⟨h1, h2⟩ := findIDs_noIds h.ix hid (sel := sel)
    refine ⟨h1, fun x => (h2 x).trans ?_⟩
    simp only [idOkOf, hid, List.isEmpty_nil, Bool.true_or, Bool.true_and]
    constructor
    · rintro ⟨e, he', rfl, hs⟩
      obtain ⟨i, hi, rfl⟩ := List.mem_map.1 he'
      exact ⟨i, hi, rfl, by rw [← selTree_holds hv hid he]; exact hs⟩
    · rintro ⟨i, hi, rfl, hs⟩
      exact ⟨(i.id, i.kvs), List.mem_map.2 ⟨i, hi, rfl⟩, rfl, by rw [selTree_holds hv hid he]; exact hs⟩
  · unfold ATree.findIDs
    simp only [ne_eq, hid, not_false_eq_true, if_true]
    have key : ∀ (l : List Nat) (s0 : GSet), s0.Nodup →
        (l.foldl (fun s id => match t.itemById id with
          | some i => if sel.matchKeyValues i.kvs then GSet.add s id else s
          | none => s) s0).Nodup ∧ ∀ x, x ∈ (l.foldl (fun s id => match t.itemById id with
          | some i => if sel.matchKeyValues i.kvs then GSet.add s id else s
          | none => s) s0) ↔ x ∈ s0 ∨ ∃ i ∈ t.items, i.id = x ∧ x ∈ l ∧ selHolds sel i.kvs = true := by
      intro l
      induction l with
      | nil => intro s0 hs; exact ⟨hs, fun x => by simp⟩
      | cons a l ih =>
        intro s0 hs
        rw [List.foldl_cons]
        cases hb : t.itemById a with
        | none =>
          simp only
          obtain ⟨h1, h2⟩ := ih s0 hs
          refine ⟨h1, fun x => (h2 x).trans (or_congr Iff.rfl ?_)⟩
          constructor
          · rintro ⟨i, hi, rfl, hm, hp⟩; exact ⟨i, hi, rfl, by simp [hm], hp⟩
          · rintro ⟨i, hi, rfl, hm, hp⟩
            refine ⟨i, hi, rfl, ?_, hp⟩
            rcases List.mem_cons.1 hm with e | hm
            · rw [← e, h.itemById hi] at hb; cases hb
            · exact hm
        | some j =>
          obtain ⟨hj, rfl⟩ := itemById_some hb
          simp only [matchKeyValues_holds hv]
          cases hp : selHolds sel j.kvs
          · simp only [Bool.false_eq_true, if_false]
            obtain ⟨h1, h2⟩ := ih s0 hs
            simp only [matchKeyValues_holds hv] at h1 h2
            refine ⟨h1, fun x => (h2 x).trans (or_congr Iff.rfl ?_)⟩
            constructor
            · rintro ⟨i, hi, rfl, hm, hp⟩; exact ⟨i, hi, rfl, by simp [hm], hp⟩
            · rintro ⟨i, hi, rfl, hm, hp'⟩
              refine ⟨i, hi, rfl, ?_, hp'⟩
              rcases List.mem_cons.1 hm with e | hm
              · have := h.item_eq hi hj e; subst this; rw [hp] at hp'; cases hp'
              · exact hm
          · simp only [if_true]
            obtain ⟨h1, h2⟩ := ih (GSet.add s0 j.id) (GSet.nodup_add hs)
            simp only [matchKeyValues_holds hv] at h1 h2
            refine ⟨h1, fun x => (h2 x).trans ?_⟩
            rw [GSet.mem_add]
            constructor
            · rintro ((hx | rfl) | ⟨i, hi, rfl, hm, hp⟩)
              · exact .inl hx
              · exact .inr ⟨j, hj, rfl, by simp, hp⟩
              · exact .inr ⟨i, hi, rfl, by simp [hm], hp⟩
            · rintro (hx | ⟨i, hi, rfl, hm, hp'⟩)
              · exact .inl (.inl hx)
              · rcases List.mem_cons.1 hm with e | hm
                · exact .inl (.inr e)
                · exact .inr ⟨i, hi, rfl, hm, hp'⟩
    obtain ⟨h1, h2⟩ := key sel.ids [] List.nodup_nil
    refine ⟨h1, fun x => (h2 x).trans ?_⟩
    have hne : sel.ids.isEmpty = false := by simpa using hid
    simp only [List.not_mem_nil, false_or, idOkOf, hne, Bool.false_or, Bool.and_eq_true, List.contains_iff_mem]
    constructor
    · rintro ⟨i, hi, rfl, hm, hp⟩; exact ⟨i, hi, rfl, hm, hp⟩
    · rintro ⟨i, hi, rfl, hm, hp⟩; exact ⟨i, hi, rfl, hm, hp⟩

/-- Valid and exact selection. -/
def SelOk (sel : Selection K) : Prop := ValidSel sel ∧ SelExact sel

mutual
theorem query_spec {t : ATree K V} (h : Inv t) : ∀ (q : Query K), everywhere SelOk Asks q → Asks q →
    ∃ s, t.query q = some (some s) ∧ Repr t s (fun i => queryHolds (idOkOf i) i.kvs q)
  | .mk sel or and nl, he, ha => by
    simp only [everywhere] at he
    obtain ⟨hsel, hor, hand⟩ := he
    simp only [ATree.query]
    cases sel with
    | some s =>
      have hs := hsel s rfl
      obtain ⟨s1, e1, r1⟩ := queryAnds_some h and hand (t.findIDs s) _ (findIDs_spec h hs.1 hs.2)
      obtain ⟨s2, e2, r2⟩ := queryOrs_some h or hor s1 _ r1
      refine ⟨s2, ?_, r2.congr ?_⟩
      · simp only [Option.isSome_some, Option.map_some]; rw [e1]; exact e2
      · intro i _; simp [queryHolds, Option.all]
    | none =>
      simp only [Option.isSome_none, Option.map_none]
      cases and with
      | nil =>
        cases or with
        | nil => simp [Asks] at ha
        | cons o or =>
          simp only [ATree.queryAnds, ATree.queryOrs]
          simp only [everywhereL] at hor
          obtain ⟨s1, e1, r1⟩ := query_spec h o hor.2.1 hor.1
          obtain ⟨s2, e2, r2⟩ := queryOrs_some h or hor.2.2 s1 _ r1
          refine ⟨s2, ?_, r2.congr ?_⟩
          · rw [e1]; simp only [Bool.false_eq_true, if_false]; exact e2
          · intro i _; simp [queryHolds, anyHolds, Option.all]
      | cons a and =>
        simp only [everywhereL] at hand
        obtain ⟨s0, e0, r0⟩ := query_spec h a hand.2.1 hand.1
        obtain ⟨s1, e1, r1⟩ := queryAnds_some h and hand.2.2 s0 _ r0
        obtain ⟨s2, e2, r2⟩ := queryOrs_some h or hor s1 _ r1
        refine ⟨s2, ?_, r2.congr ?_⟩
        · simp only [ATree.queryAnds]; rw [e0]; simp only [Bool.false_eq_true, if_false]; rw [e1]; exact e2
        · intro i _; simp [queryHolds, allHold, Option.all]
theorem queryAnds_some {t : ATree K V} (h : Inv t) : ∀ (qs : List (Query K)), everywhereL SelOk Asks qs → ∀ (s : GSet) (p : Item K V → Bool), Repr t s p →
    ∃ s', t.queryAnds true (some s) qs = some (true, some s') ∧ Repr t s' (fun i => p i && allHold (idOkOf i) i.kvs qs)
  | [], _, s, p, r => ⟨s, by simp [ATree.queryAnds], r.congr fun i _ => by simp [allHold]⟩
  | q :: qs, he, s, p, r => by
    simp only [everywhereL] at he
    cases s with
    | nil =>
      refine ⟨[], by simp [ATree.queryAnds], List.nodup_nil, fun x => ?_⟩
      constructor
      · intro hx; cases hx
      · rintro ⟨i, hi, rfl, hp⟩
        simp only [Bool.and_eq_true] at hp
        have := (r.2 i.id).2 ⟨i, hi, rfl, hp.1⟩
        cases this
    | cons a s =>
      obtain ⟨s0, e0, r0⟩ := query_spec h q he.2.1 he.1
      obtain ⟨s1, e1, r1⟩ := queryAnds_some h qs he.2.2 _ _ (r.inter h r0)
      refine ⟨s1, ?_, r1.congr ?_⟩
      · simp only [ATree.queryAnds]; rw [e0]; exact e1
      · intro i _; simp [allHold, Bool.and_assoc]
theorem queryOrs_some {t : ATree K V} (h : Inv t) : ∀ (qs : List (Query K)), everywhereL SelOk Asks qs → ∀ (s : GSet) (p : Item K V → Bool), Repr t s p →
    ∃ s', t.queryOrs true (some s) qs = some (some s') ∧ Repr t s' (fun i => p i || anyHolds (idOkOf i) i.kvs qs)
  | [], _, s, p, r => ⟨s, by simp [ATree.queryOrs], r.congr fun i _ => by simp [anyHolds]⟩
  | q :: qs, he, s, p, r => by
    simp only [everywhereL] at he
    obtain ⟨s0, e0, r0⟩ := query_spec h q he.2.1 he.1
    obtain ⟨s1, e1, r1⟩ := queryOrs_some h qs he.2.2 _ _ (r.union r0)
    refine ⟨s1, ?_, r1.congr ?_⟩
    · simp only [ATree.queryOrs]; rw [e0]; exact e1
    · intro i _; simp [anyHolds, Bool.or_assoc]
end

theorem nodup_of_ids {l : List (Item K V)} (h : (l.map (·.id)).Nodup) : l.Nodup := by
  rw [List.Nodup, List.pairwise_map] at h
  exact h.imp (fun hne e => hne (congrArg _ e))

theorem Repr.items {t : ATree K V} (h : Inv t) {s : GSet} {p : Item K V → Bool} (r : Repr t s p) :
    (s.filterMap t.itemById).Perm (t.items.filter p) := by
  have hnd : (s.filterMap t.itemById).Nodup := by
    apply nodup_of_ids
    have : (s.filterMap t.itemById).map (·.id) = s := by
      have key : ∀ l : List Nat, (∀ x ∈ l, ∃ i ∈ t.items, i.id = x) → (l.filterMap t.itemById).map (·.id) = l := by
        intro l
        induction l with
        | nil => intro _; rfl
        | cons a l ih =>
          intro hh
          obtain ⟨i, hi, rfl⟩ := hh a (by simp)
          rw [List.filterMap_cons_some (h.itemById hi)]
          simp [ih (fun x hx => hh x (by simp [hx]))]
      apply key
      intro x hx
      obtain ⟨i, hi, e, _⟩ := (r.2 x).1 hx
      exact ⟨i, hi, e⟩
    rw [this]; exact r.1
  rw [List.perm_ext_iff_of_nodup hnd ((nodup_of_ids h.ids).filter _)]
  intro i
  rw [List.mem_filterMap, List.mem_filter]
  constructor
  · rintro ⟨x, hx, hxi⟩
    obtain ⟨hi, rfl⟩ := itemById_some hxi
    obtain ⟨j, hj, hij, hp⟩ := (r.2 i.id).1 hx
    have := h.item_eq hj hi hij; subst this
    exact ⟨hi, hp⟩
  · rintro ⟨hi, hp⟩
    exact ⟨i.id, (r.2 _).2 ⟨i, hi, rfl, hp⟩, h.itemById hi⟩

/-- A whole query. -/
theorem queryAction_spec {t : ATree K V} (h : Inv t) {q : Query K} (he : everywhere SelOk Asks q) (ha : IsEmptyQuery q ∨ Asks q) :
    ∃ l, t.queryAction q = some l ∧ l.Perm (t.items.filter (satisfies q)) := by
  obtain ⟨sel, or, and, nl⟩ := q
  by_cases hem : IsEmptyQuery (.mk sel or and nl)
  · obtain ⟨rfl, rfl, rfl, rfl⟩ := hem
    refine ⟨t.items, rfl, ?_⟩
    have : t.items.filter (satisfies (.mk none [] [] true)) = t.items := by
      rw [List.filter_eq_self]; intro i _; simp [satisfies, queryHolds, allHold, Option.all]
    rw [this]
  · have ha : Asks (.mk sel or and nl) := ha.resolve_left hem
    obtain ⟨s, e, r⟩ := query_spec h _ he ha
    refine ⟨s.filterMap t.itemById, ?_, r.items h⟩
    unfold ATree.queryAction
    split
    · rename_i heq; cases heq; exact absurd ⟨rfl, rfl, rfl, rfl⟩ hem
    · rw [e]

/-! ### The exact query -/

theorem isGeneral_or_any (v : K) : DataType.isGeneral (typ v) = true ∨ DataType.isAny (typ v) = true := by
  rcases LawfulKey.typ_valid v with h | h
  · exact .inl h
  · exact .inr (by simp [DataType.isAny, h])

theorem exactQuery_ok {kvs : KVs K} (hv : ValidKVs kvs) : everywhere SelOk Asks (exactQuery kvs) := by
  refine ⟨?_, trivial, trivial⟩
  rintro s hs
  cases hs
  refine ⟨⟨?_, ?_, .inr (.inl ?_)⟩, .inr ⟨?_, ?_⟩⟩
  · simpa [Function.comp_def] using hv.2
  · intro kq hkq
    obtain ⟨kv, _, rfl⟩ := List.mem_map.1 hkq
    exact ⟨⟨isGeneral_or_any _, isGeneral_or_any _, Int.le_refl _⟩, .inl rfl⟩
  · simpa using hv.1
  · intro kq hkq
    obtain ⟨kv, _, rfl⟩ := List.mem_map.1 hkq
    exact ⟨fun _ => Int.le_refl _, fun _ => Int.le_refl _⟩
  · intro kq hkq kq' _ hc
    obtain ⟨kv, _, rfl⟩ := List.mem_map.1 hkq
    cases hc

theorem exact_satisfies {kvs : KVs K} (i : Item K V) (hi : ValidKVs i.kvs) : satisfies (exactQuery kvs) i = sameKVs kvs i.kvs := by
  have e1 : satisfies (exactQuery kvs) i = (sizeInside (some kvs.length) (some kvs.length) i.kvs.length &&
      (kvs.map (fun kv => (kv.1, (⟨kv.2, .eq, ⟨typ kv.2, typ kv.2⟩⟩ : ValueQuery K)))).all (fun kq => valueHolds kq.2 (valueOf i.kvs kq.1))) := by
    simp [satisfies, exactQuery, queryHolds, allHold, anyHolds, selHolds, Option.all]
  rw [e1, Bool.eq_iff_iff, sameKVs_iff]
  simp only [Bool.and_eq_true, sizeInside, Option.all, decide_eq_true_eq, List.all_eq_true, List.mem_map, forall_exists_index, and_imp,
    forall_apply_eq_imp_iff₂]
  apply and_congr
  · omega
  · apply forall_congr'; intro kv; apply forall_congr'; intro _
    constructor
    · intro hh
      cases hval : valueOf i.kvs kv.1 with
      | none => rw [hval] at hh; simp [valueHolds] at hh
      | some v =>
        rw [hval] at hh
        simp only [valueHolds, equalsMatch, Bool.and_eq_true, inside, decide_eq_true_eq, Bool.or_eq_true, wild] at hh
        refine hasKV_iff.2 ⟨_, valueOf_mem hval, rfl, ?_⟩
        obtain ⟨⟨h1, h2⟩, h3⟩ := hh
        have htt : typ v = typ kv.2 := by omega
        rcases h3 with (h3 | h3) | h3
        · exact h3
        · rw [LawfulKey.any_unique h3, LawfulKey.any_unique (htt.symm.trans h3)]; exact keq_refl _
        · rw [LawfulKey.any_unique h3, LawfulKey.any_unique (htt.trans h3)]; exact keq_refl _
    · intro hk
      obtain ⟨y, hy, hy1, hy2⟩ := hasKV_iff.1 hk
      have : valueOf i.kvs kv.1 = some y.2 := by rw [← hy1]; exact valueOf_of_mem hi.2 hy
      rw [this]
      have htt := keq_typ hy2
      simp only [valueHolds, equalsMatch, Bool.and_eq_true, inside, decide_eq_true_eq, Bool.or_eq_true]
      exact ⟨⟨by omega, by omega⟩, .inl (.inl hy2)⟩

theorem Inv.createOrFind {t : ATree K V} (h : Inv t) {kvs : KVs K} (hv : ValidKVs kvs) (onCreate : Option V) :
    ∃ t' o, t.createOrFind kvs onCreate = some (t', o) ∧ Inv t' ∧
    storeStep ⟨t.items, t.next⟩ (.createOrFind kvs onCreate) = (⟨t'.items, t'.next⟩, seen o) := by
  obtain ⟨l, hl, hp⟩ := queryAction_spec h (exactQuery_ok hv) (.inr (by simp [Asks, exactQuery]))
  have hfilter : t.items.filter (satisfies (exactQuery kvs)) = t.items.filter (fun i => sameKVs kvs i.kvs) := by
    apply List.filter_congr; intro i hi; exact exact_satisfies i (h.valid hi)
  rw [hfilter] at hp
  unfold ATree.createOrFind
  rw [hl]
  cases l with
  | nil =>
    obtain ⟨h1, h2⟩ := h.insert hv onCreate true
    exact ⟨_, _, rfl, h1, h2⟩
  | cons i l =>
    have hi : i ∈ t.items ∧ sameKVs kvs i.kvs = true := by
      have := hp.mem_iff.1 (List.mem_cons_self : i ∈ i :: l); simpa using this
    refine ⟨t, .found i, rfl, h, ?_⟩
    have hf := find_same h hi.1 hi.2 hv
    simp [storeStep, hf, seen]

theorem idQuery_ok (id : Nat) : everywhere (K := K) SelOk Asks (.mk (some { ids := [id] }) [] [] true) := by
  refine ⟨?_, trivial, trivial⟩
  rintro s hs
  cases hs
  exact ⟨⟨by simp, by simp, .inl (by simp)⟩, .inl (by simp)⟩

theorem Inv.find_id {t : ATree K V} (h : Inv t) {i : Item K V} (hi : i ∈ t.items) : t.items.find? (fun j => j.id == i.id) = some i := h.itemById hi

theorem Inv.deleteById {t : ATree K V} (h : Inv t) (id : Nat) (can : Option (Item K V → Bool)) :
    ∃ t' o, t.deleteById id can = some (t', o) ∧ Inv t' ∧
    storeStep ⟨t.items, t.next⟩ (.deleteById id can) = (⟨t'.items, t'.next⟩, .deleted o) := by
  obtain ⟨l, hl, hp⟩ := queryAction_spec h (idQuery_ok id) (.inr (by simp [Asks]))
  have hfilter : t.items.filter (satisfies (.mk (some { ids := [id] }) [] [] true)) = t.items.filter (fun i => i.id == id) := by
    apply List.filter_congr; intro i hi
    simp [satisfies, queryHolds, allHold, anyHolds, selHolds, Option.all, sizeInside]
    rfl
  rw [hfilter] at hp
  unfold ATree.deleteById
  rw [hl]
  cases l with
  | nil =>
    refine ⟨t, none, rfl, h, ?_⟩
    have : t.items.find? (fun i => i.id == id) = none := by
      rw [List.find?_eq_none]; intro i hi hc
      have : i ∈ t.items.filter (fun i => i.id == id) := List.mem_filter.2 ⟨hi, hc⟩
      rw [← hp.mem_iff] at this; cases this
    simp [storeStep, Store.remove, this]
  | cons i l =>
    have hi : i ∈ t.items ∧ i.id = id := by
      have := hp.mem_iff.1 (List.mem_cons_self : i ∈ i :: l); simpa using this
    obtain ⟨hi, rfl⟩ := hi
    obtain ⟨h1, h2⟩ := h.delete (h.valid hi) can
    refine ⟨(t.delete i.kvs can).1, (t.delete i.kvs can).2, rfl, h1, ?_⟩
    rw [← h2]
    simp only [storeStep, Store.remove]
    rw [h.find_id hi, find_same h hi (sameKVs_refl _) (h.valid hi)]

/-! ### Destroy -/

theorem drop_spec {ix : Index K} {n id : Nat} (w : ix.WF) {kvs : KVs K} (hnd : (kvs.map (·.1)).Nodup)
    (hp : ∀ kv ∈ kvs, idPresent ix n kv = true) :
    ∃ ix', dropKeyValues id n kvs ix = some ix' ∧ ix'.WF ∧
      ∀ k v, ix'.node k v = if hasKV kvs k v then (ix.node k v).bind (fun nd => keepNE (removeId n id nd)) else ix.node k v := by
  induction kvs generalizing ix with
  | nil => exact ⟨ix, rfl, w, fun k v => by simp [hasKV]⟩
  | cons kv kvs ih =>
    simp only [List.map_cons, List.nodup_cons] at hnd
    unfold dropKeyValues
    rw [hp kv (by simp), if_pos rfl]
    obtain ⟨ix', e, w', hn⟩ := ih (ix := ix.cleanup kv.1 kv.2 (removeId n id)) (wf_cleanup w) hnd.2 (by
      intro x hx
      have hne : hits kv x.1 x.2 = false := by
        cases hh : hits kv x.1 x.2 with
        | false => rfl
        | true =>
          simp [hits, seq] at hh
          exact absurd (hh.1 ▸ List.mem_map.2 ⟨x, hx, rfl⟩) hnd.1
      have := hp x (by simp [hx])
      unfold idPresent at this ⊢
      rw [node_cleanup w, hne]; simpa using this)
    refine ⟨ix', e, w', fun k v => ?_⟩
    rw [hn, node_cleanup w]
    have hs : hasKV (kv :: kvs) k v = (hits kv k v || hasKV kvs k v) := by simp [hasKV]
    rw [hs]
    cases h1 : hits kv k v
    · simp
    · have hk : kv.1 = k := by simp [hits, seq] at h1; exact h1.1
      have h2 : hasKV kvs k v = false := not_hasKV_of_key (hk ▸ hnd.1)
      simp [h2, hits_node_congr h1]

theorem Inv.drop {t : ATree K V} (h : Inv t) {i : Item K V} (hi : i ∈ t.items) :
    ∃ ix, dropKeyValues i.id i.kvs.length i.kvs t.keys = some ix ∧
      Inv ({ t with keys := ix, items := t.items.filter (fun j => j.id != i.id) }) := by
  have hv := h.valid hi
  have he : (i.id, i.kvs) ∈ entsOf t.items := List.mem_map.2 ⟨i, hi, rfl⟩
  obtain ⟨ix, e, w, hn⟩ := drop_spec (id := i.id) (n := i.kvs.length) h.ix.wf hv.2 (by
    intro kv hkv
    obtain ⟨nd, h1, h2⟩ := node_self_of_mem h.ix he (sameKVs_refl i.kvs) hkv
    unfold idPresent; rw [h1]; simpa using h2)
  refine ⟨ix, e, ⟨?_, ?_⟩⟩
  · have := h.ix.removed he hv (sameKVs_refl _) ⟨w, hn⟩
    rw [entsOf_filter] at this; exact this
  · intro j hj; exact h.fresh j (List.mem_filter.1 hj).1

theorem Inv.destroyById {t : ATree K V} (h : Inv t) (id : Nat) (can : Option (Item K V → Bool)) :
    ∃ t' o, t.destroyById id can = some (t', o) ∧ Inv t' ∧
    storeStep ⟨t.items, t.next⟩ (.destroyById id can) = (⟨t'.items, t'.next⟩, .deleted o) := by
  unfold ATree.destroyById
  cases hb : t.itemById id with
  | none =>
    refine ⟨t, none, rfl, h, ?_⟩
    unfold ATree.itemById at hb
    simp [storeStep, Store.remove, hb]
  | some i =>
    obtain ⟨hi, rfl⟩ := itemById_some hb
    obtain ⟨ix, e, hI⟩ := h.drop hi
    have hf := h.find_id hi
    cases can with
    | none =>
      simp only [if_true]; rw [e]
      exact ⟨_, _, rfl, hI, by simp [storeStep, Store.remove, hf]⟩
    | some f =>
      simp only
      by_cases hfi : f i = true
      rotate_left
      · rw [if_neg hfi]; exact ⟨t, some i, rfl, h, by simp [storeStep, Store.remove, hf, hfi]⟩
      · rw [if_pos hfi, e]
        exact ⟨_, _, rfl, hI, by simp [storeStep, Store.remove, hf, hfi]⟩

/-! ### Histories -/

theorem step_spec {t : ATree K V} (h : Inv t) {op : AOp K V} (hv : op.Valid) :
    ∃ t' o, assocStep t op = some (t', o) ∧ Inv t' ∧ storeStep ⟨t.items, t.next⟩ op = (⟨t'.items, t'.next⟩, o) := by
  cases op with
  | create kvs v =>
    obtain ⟨h1, h2⟩ := h.insert hv v false
    exact ⟨_, _, rfl, h1, h2⟩
  | createOrFind kvs v =>
    obtain ⟨t', o, e, hI, hs⟩ := h.createOrFind hv v
    exact ⟨t', seen o, by simp [assocStep, e], hI, hs⟩
  | delete kvs can =>
    obtain ⟨h1, h2⟩ := h.delete hv can
    exact ⟨_, _, rfl, h1, h2⟩
  | deleteById id can =>
    obtain ⟨t', o, e, hI, hs⟩ := h.deleteById id can
    exact ⟨t', .deleted o, by simp [assocStep, e], hI, hs⟩
  | destroyById id can =>
    obtain ⟨t', o, e, hI, hs⟩ := h.destroyById id can
    exact ⟨t', .deleted o, by simp [assocStep, e], hI, hs⟩

theorem run_spec {ops : List (AOp K V)} (hv : ∀ op ∈ ops, op.Valid) : ∀ {t : ATree K V}, Inv t →
    ∃ t' outs, assocRun t ops = some (t', outs) ∧ Inv t' ∧ storeRun ⟨t.items, t.next⟩ ops = (⟨t'.items, t'.next⟩, outs) := by
  induction ops with
  | nil => intro t h; exact ⟨t, [], rfl, h, rfl⟩
  | cons op ops ih =>
    intro t h
    obtain ⟨t1, o, e1, h1, s1⟩ := step_spec h (hv op (by simp))
    obtain ⟨t2, os, e2, h2, s2⟩ := ih (fun op hop => hv op (by simp [hop])) h1
    refine ⟨t2, o :: os, ?_, h2, ?_⟩
    · simp [assocRun, e1, e2]
    · simp [storeRun, s1, s2]

theorem reachable_inv {t : ATree K V} (h : AReachable t) : Inv t := by
  obtain ⟨ops, outs, hv, hr⟩ := h
  obtain ⟨t', outs', e, hI, _⟩ := run_spec hv (inv_new (K := K) (V := V))
  rw [hr] at e; cases e; exact hI

end
end Willow.Assoc
