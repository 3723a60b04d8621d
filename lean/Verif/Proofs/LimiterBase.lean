import Verif.Proofs.OneToMany
import Verif.Spec.Limiter
/-! Basic facts for the limiter: in-place changes, lookups by id, which rules and counters are found, the int64 sum. -/
namespace Willow.Limiter
open Willow Willow.Assoc Willow.Spec Willow.OTM Willow.LimSpec KeyOps BTree

variable {V : Type}

/-! ### modify -/

theorem entsOf_modify {t : ATree Key V} {id : Nat} {f : V → V} : entsOf (modify t id f).items = entsOf t.items := by
  unfold entsOf modify
  simp only [List.map_map]
  apply List.map_congr_left
  intro i _
  simp only [Function.comp]
  split <;> rfl

theorem inv_modify {t : ATree Key V} (h : Assoc.Inv t) (id : Nat) (f : V → V) : Assoc.Inv (modify t id f) := by
  refine ⟨?_, ?_⟩
  · rw [entsOf_modify]; exact h.ix
  · intro i hi
    simp only [modify, List.mem_map] at hi
    obtain ⟨j, hj, rfl⟩ := hi
    have := h.fresh j hj
    split <;> exact this

/-! ### Lookups by id -/

theorem filter_id {l : List (Item Key V)} (nd : (l.map (·.id)).Nodup) (id : Nat) :
    l.filter (fun i => i.id == id) = (l.find? (fun i => i.id == id)).toList := by
  induction l with
  | nil => rfl
  | cons i l ih =>
    simp only [List.map_cons, List.nodup_cons] at nd
    rw [List.filter_cons, List.find?_cons]
    cases h : (i.id == id)
    · simp only [Bool.false_eq_true, if_false]; exact ih nd.2
    · simp only [if_true, Option.toList_some, List.cons.injEq, true_and, List.filter_eq_nil_iff]
      intro j hj
      have := fun e => nd.1 (List.mem_map.2 ⟨j, hj, e⟩)
      simp only [beq_iff_eq] at h ⊢
      subst h; exact this

theorem queryAction_id {t : ATree Key V} (h : Assoc.Inv t) (id : Nat) : t.queryAction (idQuery id) = some (t.itemById id).toList := by
  obtain ⟨l, e, hp⟩ := queryAction_spec h (idQuery_ok id) (.inr (by simp [Asks]))
  rw [show idQuery id = (.mk (some { ids := [id] }) [] [] true : Query Key) from rfl, e]
  have hs : t.items.filter (satisfies (.mk (some { ids := [id] }) [] [] true)) = t.items.filter (fun i => i.id == id) := by
    apply List.filter_congr
    intro i _
    simp [satisfies, queryHolds, allHold, anyHolds, Option.all, selHolds, sizeInside]
    by_cases e : i.id = id
    · subst e; simp
    · have e' : ¬ id = i.id := fun h => e h.symm
      simp [e, e']
  rw [hs, filter_id h.ids] at hp
  congr 1
  unfold ATree.itemById
  cases hf : t.items.find? (fun i => i.id == id) with
  | none => rw [hf] at hp; exact List.perm_nil.1 hp
  | some i => rw [hf] at hp; exact List.perm_singleton.1 hp

/-! ### Which rules apply -/

theorem same_typ {a b : Key} (h : same a b = true) : typ a = typ b := keq_typ h

theorem same_comm (a b : Key) : same a b = same b a := by
  unfold same; rw [Bool.and_comm]

theorem typ_le_any (v : Key) : typ v ≤ DataType.any := isAny_le (isGeneral_or_any v)

theorem equalsMatch_any {q v : Key} (hq : wild q = false) : equalsMatch q ⟨typ q, DataType.any⟩ v = (same v q || wild v) := by
  unfold equalsMatch inside
  rw [hq]
  have h1 := typ_le_any v
  have h2 := typ_le_any q
  cases hs : same v q
  · cases hw : wild v
    · simp
    · simp only [wild, decide_eq_true_eq] at hw; simp [hw, h2]
  · have := same_typ hs; simp [this, h2]

theorem covered_any {kvs pat : KVs Key} (hv : ValidKVs kvs) (ht : Typed kvs) : covered (anyMatchQuery kvs) pat = applies pat kvs := by
  unfold covered applies anyMatchQuery
  simp only [sizeInside, Option.all_none, Bool.and_true, List.any_map]
  rw [Bool.eq_iff_iff, List.all_eq_true, List.all_eq_true]
  refine forall_congr' fun p => forall_congr' fun hp => ?_
  cases hvo : valueOf kvs p.1 with
  | none =>
    simp only [Bool.false_eq_true, iff_false, List.any_eq_true, Function.comp, not_exists, not_and]
    intro x hx
    simp only [Bool.and_eq_true, beq_iff_eq, not_and]
    intro e
    have := valueOf_of_mem hv.2 (show (p.1, x.2) ∈ kvs by rw [← e]; exact hx)
    rw [this] at hvo; cases hvo
  | some v =>
    have hm := valueOf_mem hvo
    simp only [List.any_eq_true, Function.comp, Bool.and_eq_true, beq_iff_eq]
    constructor
    · rintro ⟨x, hx, e, he⟩
      have := valueOf_of_mem hv.2 (show (p.1, x.2) ∈ kvs by rw [← e]; exact hx)
      rw [this] at hvo; cases hvo
      rw [equalsMatch_any (ht x hx)] at he
      exact he
    · intro he
      exact ⟨(p.1, v), hm, rfl, by rw [equalsMatch_any (ht _ hm)]; exact he⟩

theorem validMatch_any {kvs : KVs Key} (hv : ValidKVs kvs) : ValidMatch (anyMatchQuery kvs) := by
  refine ⟨?_, ?_, ?_⟩
  · simp only [anyMatchQuery, ne_eq, List.map_eq_nil_iff]; exact hv.1
  · simp only [anyMatchQuery, List.map_map]; exact hv.2
  · intro r hr
    simp only [anyMatchQuery, List.mem_map] at hr
    obtain ⟨kv, _, rfl⟩ := hr
    exact ⟨isGeneral_or_any _, .inr (by simp [DataType.isAny]), typ_le_any _⟩

/-- The keys of an applying rule are keys of the counter. -/
theorem applies_keys {pat kvs : KVs Key} (h : applies pat kvs = true) {k : GoString} (hk : k ∈ pat.map (·.1)) : ∃ v, valueOf kvs k = some v := by
  obtain ⟨p, hp, rfl⟩ := List.mem_map.1 hk
  have := List.all_eq_true.1 h p hp
  cases hv : valueOf kvs p.1 with
  | none => rw [hv] at this; simp at this
  | some v => exact ⟨v, rfl⟩

/-! ### Which counters are counted -/

theorem checkQuery_ok {keys : List GoString} {kvs : KVs Key} (hv : ValidKVs kvs) (hne : keys ≠ []) (hk : ∀ k ∈ keys, ∃ v, valueOf kvs k = some v) :
    everywhere SelOk Asks (checkQuery keys kvs) := by
  refine ⟨?_, trivial, trivial⟩
  rintro s hs
  cases hs
  refine ⟨⟨?_, ?_, ?_⟩, .inr ⟨?_, ?_⟩⟩
  · simp only [List.map_map]
    exact (hv.2.sublist ((List.filter_sublist).map _) : _)
  · intro kq hkq
    simp only [List.mem_map] at hkq
    obtain ⟨kv, _, rfl⟩ := hkq
    exact ⟨⟨isGeneral_or_any _, isGeneral_or_any _, Int.le_refl _⟩, .inl rfl⟩
  · right; left
    obtain ⟨k, hk'⟩ := List.exists_mem_of_ne_nil _ hne
    obtain ⟨v, hv'⟩ := hk k hk'
    simp only [ne_eq, List.map_eq_nil_iff, List.filter_eq_nil_iff]
    exact fun h => h (k, v) (valueOf_mem hv') (by simp [hk'])
  · intro kq hkq
    simp only [List.mem_map] at hkq
    obtain ⟨kv, _, rfl⟩ := hkq
    exact ⟨fun h => by simp at h, fun h => by simp at h⟩
  · intro kq hkq kq' hkq' h
    simp only [List.mem_map] at hkq
    obtain ⟨kv, _, rfl⟩ := hkq
    simp at h

theorem equalsMatch_typed {q v : Key} (hq : wild q = false) : equalsMatch q ⟨typ q, typ q⟩ v = same v q := by
  unfold equalsMatch inside
  rw [hq]
  cases hs : same v q
  · cases hw : wild v
    · simp
    · simp only [wild, decide_eq_true_eq] at hw
      have : typ q ≠ DataType.any := by simpa [wild] using hq
      have := typ_le_any q
      simp [hw]; omega
  · have := same_typ hs; simp [this]

theorem satisfies_check {keys : List GoString} {kvs : KVs Key} (hv : ValidKVs kvs) (ht : Typed kvs) (hk : ∀ k ∈ keys, ∃ v, valueOf kvs k = some v)
    (i : Item Key V) : satisfies (checkQuery keys kvs) i = agree keys kvs i.kvs := by
  simp only [satisfies, checkQuery, queryHolds, allHold, anyHolds, Option.all, selHolds, sizeInside, Option.isSome_some, Bool.true_or,
    Bool.true_and, List.isEmpty_nil, Bool.and_true, Bool.or_false, List.all_map]
  unfold agree
  rw [Bool.eq_iff_iff, List.all_eq_true, List.all_eq_true]
  constructor
  · intro h k hkk
    obtain ⟨v, hvv⟩ := hk k hkk
    have hm := valueOf_mem hvv
    have := h (k, v) (List.mem_filter.2 ⟨hm, by simp [hkk]⟩)
    simp only [Function.comp] at this
    rw [hvv]
    cases hi : valueOf i.kvs k with
    | none => rw [hi] at this; simp [valueHolds] at this
    | some w =>
      rw [hi] at this
      simp only [valueHolds] at this
      rw [equalsMatch_typed (ht _ hm)] at this
      simp only; rw [same_comm]; exact this
  · intro h kv hkv
    obtain ⟨hm, hc⟩ := List.mem_filter.1 hkv
    have := h kv.1 (by simpa using hc)
    rw [valueOf_of_mem hv.2 (show (kv.1, kv.2) ∈ kvs from hm)] at this
    simp only [Function.comp]
    cases hi : valueOf i.kvs kv.1 with
    | none => rw [hi] at this; simp at this
    | some w =>
      rw [hi] at this
      simp only [valueHolds]
      rw [equalsMatch_typed (ht _ hm), same_comm]; exact this

/-! ### The int64 sum -/

theorem add64_eq {a b : Int} (h1 : -2 ^ 63 ≤ a + b) (h2 : a + b < 2 ^ 63) : add64 a b = a + b := by
  unfold add64
  rw [Int.bmod_eq_iff (by decide)]
  refine ⟨by omega, by omega, ?_⟩
  simp

theorem sum_nonneg : ∀ {l : List Int}, (∀ v ∈ l, 0 < v) → 0 ≤ l.sum
  | [], _ => by simp
  | a :: l, h => by
    have := sum_nonneg (l := l) (fun v hv => h v (by simp [hv]))
    have := h a (by simp)
    simp only [List.sum_cons]; omega

theorem sumUntil_lt {limit : Int} : ∀ {l : List Int} {acc : Int}, 0 ≤ acc → (∀ v ∈ l, 0 < v) → acc + l.sum < 2 ^ 63 →
    decide (sumUntil limit acc l < limit) = decide (acc + l.sum < limit)
  | [], acc, _, _, _ => by rw [Bool.eq_iff_iff, decide_eq_true_iff, decide_eq_true_iff]; simp [sumUntil]
  | v :: l, acc, h0, hp, hs => by
    have hv := hp v (by simp)
    have hl := sum_nonneg (l := l) (fun v hv => hp v (by simp [hv]))
    simp only [List.sum_cons] at hs ⊢
    have e : add64 acc v = acc + v := add64_eq (by omega) (by omega)
    simp only [sumUntil, e]
    by_cases h : acc + v < limit
    · rw [if_pos h, sumUntil_lt (by omega) (fun v hv => hp v (by simp [hv])) (by omega)]
      congr 1; simp only [eq_iff_iff]; omega
    · rw [if_neg h]
      have a1 : ¬ acc + (v + l.sum) < limit := by omega
      simp [h, a1]

theorem perm_sum {l l' : List Int} (h : l.Perm l') : l.sum = l'.sum := by
  induction h with
  | nil => rfl
  | cons a _ ih => simp [ih]
  | swap a b l => simp only [List.sum_cons]; omega
  | trans _ _ h1 h2 => exact h1.trans h2

end Willow.Limiter
