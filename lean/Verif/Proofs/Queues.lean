import Verif.Spec.Queues
import Verif.Proofs.LimiterSim
import Verif.Proofs.QueueKeys
import Verif.Proofs.BTreeFail
/-! The queues refine a map from names to limits. -/
namespace Willow.BTree
open KeyOps LawfulKey Spec
variable {K V : Type} [LawfulKey K]

/-- A failed create of a stored key changes nothing. -/
theorem tree_create_fail_found {b : Tree K V} {l} (hr : RepW b l) (key : K) {kv : K × V} (hl : lookupL key l = some kv) :
    ∃ kv', b.create key none = some (b, .found kv') := by
  obtain ⟨hn, hs, h3⟩ := hr
  cases hroot : b.root with
  | none => simp only [hroot] at h3; subst h3; simp [lookupL] at hl
  | some r =>
    simp only [hroot] at h3
    obtain ⟨h, a, c, d⟩ := h3
    rcases create_fail_spec hn key h (r.depth + 1) r a (by rw [c]; exact hs) (by rw [depth_of_WF a]; omega)
      with ⟨kv, q1, q2⟩ | ⟨t', q1, q2, q3, q4, q5⟩
    · exact ⟨kv, by simp only [Tree.create, hroot, q1]; rw [← hroot]⟩
    · rw [c, hl] at q2; cases q2

/-- A failed create of a key with at most one greater key leaves the items alone. -/
theorem tree_create_fail_last {b : Tree K V} {l} (hr : RepW b l) (key : K) (hl : lookupL key l = none) (hg : (l.filter (fun kv => lt key kv.1)).length ≤ 1) :
    ∃ b', b.create key none = some (b', .created) ∧ RepW b' l := by
  obtain ⟨hn, hs, h3⟩ := hr
  cases hroot : b.root with
  | none =>
    simp only [hroot] at h3; subst h3
    refine ⟨{ b with root := some (.mk [] []) }, ?_, hn, hs, ?_⟩
    · simp only [Tree.create, hroot]
      simp [create, hit, scan, Node.isLeaf, leafInsert, Node.depth]
    · exact ⟨0, ⟨rfl, by simp⟩, rfl, fun h => absurd rfl h⟩
  | some r =>
    simp only [hroot] at h3
    obtain ⟨h, a, c, d⟩ := h3
    rcases create_fail_spec hn key h (r.depth + 1) r a (by rw [c]; exact hs) (by rw [depth_of_WF a]; omega)
      with ⟨kv, q1, q2⟩ | ⟨t', q1, q2, q3, q4, q5⟩
    · rw [c, hl] at q2; cases q2
    · refine ⟨{ b with root := some t' }, by simp only [Tree.create, hroot, q1], hn, hs, h, q3, ?_, fun hh => by rw [q4]; exact d hh⟩
      rcases q5 with q5 | ⟨A, x, xs, C, y1, y2, y3⟩
      · rw [q5, c]
      · rw [c] at y1
        rw [y1, List.filter_append, List.filter_append, List.filter_cons, if_pos y3] at hg
        have hxs : xs = [] := by
          cases xs with
          | nil => rfl
          | cons z zs =>
            exfalso
            have hs' := hs
            rw [y1] at hs'
            have hxz : lt x.1 z.1 = true := by
              have h1 := (List.pairwise_append.1 hs').1
              have h2 := (List.pairwise_append.1 h1).2.1
              exact (List.pairwise_cons.1 h2).1 z (by simp)
            rw [List.filter_cons, if_pos (LawfulKey.trans y3 hxz)] at hg
            simp at hg; omega
        rw [y2, hxs, y1, hxs]; simp

end Willow.BTree

namespace Willow.Limiter
open Willow Willow.Assoc Willow.Spec Willow.OTM Willow.OTMSpec Willow.LimSpec KeyOps BTree

/-- A query of overrides answers with the overrides that satisfy it. -/
theorem queryOverrides_spec {st : State Key} (h : RInv st) {q : Query Key} (hv : everywhere (fun s => ValidSel s ∧ SelExact s ∧ s.ids = []) Asks q)
    (hq : IsEmptyQuery q ∨ Asks q) {r : Rule} (hr : r ∈ (abs st).rules) :
    ∃ l, queryOverrides st r.id q = some (some l) ∧
      (l.map (fun o => (⟨o.manyID, o.kvs, o.value⟩ : Override))).Perm (r.overrides.filter (fun o => satisfies q (⟨0, o.kvs, o.limit⟩ : Item Key Int))) := by
  have hv1 : everywhere SelOk Asks q := everywhere_imp (fun s hs => ⟨hs.1, hs.2.1⟩) (fun _ h => h) q hv
  have hv2 : everywhere (fun s => s.ids = []) (fun _ => True) q := everywhere_imp (fun s hs => hs.2.2) (fun _ _ => trivial) q hv
  simp only [abs, List.mem_map] at hr
  obtain ⟨i, hi, rfl⟩ := hr
  have e : st.rules.itemById i.id = some i := h.rinv.itemById hi
  simp only [queryOverrides, queryAction_id h.rinv, absRule, e, Option.toList_some, OTM.query, onRelation, if_neg (idStr_ne i.id)]
  cases hrel : rel st.overrides (idStr i.id) with
  | none => exact ⟨[], rfl, by simp [ovs, hrel]⟩
  | some t =>
    obtain ⟨l, e2, hp⟩ := queryAction_spec (h.oinv _ _ hrel) hv1 hq
    simp only [e2, Option.map_some]
    refine ⟨_, rfl, ?_⟩
    simp only [ovs, hrel, List.filter_map, List.map_map]
    have h1 := hp.map (fun j : Item Key (OItem Key Int) => (⟨j.id, j.kvs, j.value.value⟩ : Override))
    refine List.Perm.trans (List.Perm.of_eq ?_) (h1.trans (List.Perm.of_eq ?_))
    · apply List.map_congr_left
      intro j hj
      have := h.otag _ _ hrel j (List.mem_filter.1 (hp.mem_iff.1 hj)).1
      simp only [Function.comp, this.2.1, this.2.2.1]
    · congr 1
      apply List.filter_congr
      intro j _
      have hh : ∀ {V : Type} (j : Item Key V), satisfies q j = queryHolds (fun _ => true) j.kvs q := by
        intro V j
        unfold satisfies
        rw [queryHolds_noIds (by simp) q hv2, ← queryHolds_noIds (f := fun _ => true) rfl q hv2]
      simp only [Function.comp, hh]

end Willow.Limiter

namespace Willow.Queues
open Willow Willow.Assoc Willow.Spec Willow.OTM Willow.LimSpec Willow.Limiter Willow.Queue Willow.QueuesSpec KeyOps BTree

/-! ### Names as keys -/

theorem lt_vString (x y : GoString) : KeyOps.lt (vString x) (vString y) = strLt x y := by
  have h13 : DataType.lessMatchType 13 13 = false := by decide
  simp only [KeyOps.lt, vString, EncapsulatedValue.lessMatchType, DataType.string, h13, Bool.false_eq_true, if_false]
  have : ∀ o : Bool, (some o == some true) = o := by decide
  simp [EncapsulatedValue.lessValueMatchType, DataType.uint, DataType.uint8, DataType.uint16, DataType.uint32, DataType.uint64, DataType.int,
    DataType.int8, DataType.int16, DataType.int32, DataType.int64, DataType.float32, DataType.float64, DataType.string, this]

theorem keq_vString (a b : GoString) : keq (vString a) (vString b) = (a == b) := by
  rw [Bool.eq_iff_iff, beq_iff_eq]
  constructor
  · intro h; exact same_vString h
  · rintro rfl; exact keq_refl _

theorem vString_inj {a b : GoString} (h : vString a = vString b) : a = b := by
  have := keq_vString a b
  rw [h, keq_refl] at this
  simpa using this.symm

/-! ### The map -/

theorem get?_some {m : Map} (hm : (m.map (·.1)).Nodup) {n : GoString} {l : Int} : m.get? n = some l ↔ (n, l) ∈ m := by
  unfold Map.get?
  constructor
  · intro h
    obtain ⟨q, hq, rfl⟩ := Option.map_eq_some_iff.1 h
    have h1 := List.mem_of_find?_eq_some hq
    have h2 := List.find?_some hq
    simp at h2; subst h2; exact h1
  · intro h
    induction m with
    | nil => simp at h
    | cons q m ih =>
      simp only [List.map_cons, List.nodup_cons] at hm
      rw [List.find?_cons]
      rcases List.mem_cons.1 h with rfl | h
      · simp
      · have : q.1 ≠ n := by rintro rfl; exact hm.1 (List.mem_map.2 ⟨_, h, rfl⟩)
        simp only [beq_eq_false_iff_ne.2 this]
        exact ih hm.2 h

theorem get?_none {m : Map} {n : GoString} : m.get? n = none ↔ ∀ q ∈ m, q.1 ≠ n := by
  unfold Map.get?
  rw [Option.map_eq_none_iff, List.find?_eq_none]
  simp

/-! ### Entries of the tree -/

/-- A queue in the tree: name, pointer, limit. -/
structure Entry where
  name : GoString
  ref : Nat
  limit : Int

/-- The stored pair. -/
def Entry.kv (e : Entry) : Key × Nat := (vString e.name, e.ref)
/-- The queue. -/
def Entry.q (e : Entry) : GoString × Int := (e.name, e.limit)

theorem lookupL_entries (n : GoString) (es : List Entry) : lookupL (vString n) (es.map Entry.kv) = (es.find? (fun e => e.name == n)).map Entry.kv := by
  unfold lookupL
  rw [List.find?_map]
  congr 2
  funext e
  simp [Function.comp, Entry.kv, keq_vString]

theorem insertL_entries (e : Entry) : ∀ es : List Entry, ∃ es' : List Entry, insertL (vString e.name) e.ref (es.map Entry.kv) = es'.map Entry.kv ∧ es'.Perm (e :: es)
  | [] => ⟨[e], rfl, List.Perm.refl _⟩
  | x :: es => by
    simp only [List.map_cons, insertL]
    split
    · obtain ⟨es', h1, h2⟩ := insertL_entries e es
      exact ⟨x :: es', by rw [h1]; rfl, (h2.cons x).trans (List.Perm.swap _ _ _)⟩
    · exact ⟨e :: x :: es, rfl, List.Perm.refl _⟩

theorem eraseL_entries (n : GoString) (es : List Entry) : eraseL (vString n) (es.map Entry.kv) = (es.filter (fun e => e.name != n)).map Entry.kv := by
  unfold eraseL
  rw [List.filter_map]
  congr 2
  funext e
  simp [Function.comp, Entry.kv, keq_vString, bne]

/-- The invariant. -/
structure QInv (s : Queues.St) (m : Map) (B : Int) : Prop where
  lim : LInv s.lim B
  enf : Enforced s m
  names : (m.map (·.1)).Nodup
  tree : ∃ es : List Entry, RepW s.tree (es.map Entry.kv) ∧ (∀ e ∈ es, s.heap[e.ref]? = some ⟨e.limit, e.name⟩) ∧ (es.map (·.ref)).Nodup ∧
    (es.map Entry.q).Perm m

theorem find_entry {es : List Entry} {m : Map} (hm : (m.map (·.1)).Nodup) (hp : (es.map Entry.q).Perm m) (n : GoString) :
    (es.find? (fun e => e.name == n) = none ∧ m.get? n = none) ∨ ∃ e ∈ es, es.find? (fun e => e.name == n) = some e ∧ e.name = n ∧ m.get? n = some e.limit := by
  cases h : es.find? (fun e => e.name == n) with
  | none =>
    refine .inl ⟨rfl, get?_none.2 ?_⟩
    intro q hq hn
    obtain ⟨e, he, rfl⟩ := List.mem_map.1 (hp.mem_iff.2 hq)
    have := List.find?_eq_none.1 h e he
    exact this (by simpa [Entry.q] using hn)
  | some e =>
    have h1 := List.mem_of_find?_eq_some h
    have h2 := List.find?_some h
    simp at h2
    refine .inr ⟨e, h1, rfl, h2, (get?_some hm).2 ?_⟩
    have := hp.mem_iff.1 (List.mem_map.2 ⟨e, h1, rfl⟩)
    rw [← h2]; exact this

/-! ### The rule of willow -/

theorem rule?_of_mem {st : State Key} (h : RInv st) {r : LimSpec.Rule} (hr : r ∈ (Limiter.abs st).rules) : (Limiter.abs st).rule? r.id = some r := by
  rw [rule?_abs]
  simp only [Limiter.abs, List.mem_map] at hr
  obtain ⟨i, hi, rfl⟩ := hr
  have : (absRule st.overrides i).id = i.id := rfl
  rw [this, h.rinv.itemById hi]; rfl

theorem overrides_uniq {st : State Key} (h : RInv st) {r : LimSpec.Rule} (hr : r ∈ (Limiter.abs st).rules) :
    (r.overrides.map (·.id)).Nodup ∧ ∀ o ∈ r.overrides, ∀ o' ∈ r.overrides, o.kvs = o'.kvs → o = o' := by
  simp only [Limiter.abs, List.mem_map] at hr
  obtain ⟨i, hi, rfl⟩ := hr
  simp only [absRule, ovs]
  cases hrel : rel st.overrides (idStr i.id) with
  | none => simp
  | some t =>
    have ht := h.oinv _ _ hrel
    refine ⟨by rw [List.map_map]; exact ht.ids, ?_⟩
    intro o ho o' ho' e
    obtain ⟨j, hj, rfl⟩ := List.mem_map.1 ho
    obtain ⟨j', hj', rfl⟩ := List.mem_map.1 ho'
    simp only at e
    have := ht.uniq hj hj' (by rw [e]; exact sameKVs_refl _)
    rw [this]

theorem satisfies_pair (a b : GoString) (l : Int) (mn mx : Option Int) (hs : sizeInside mn mx 2 = true) :
    satisfies (.mk (some { ids := [], kvs := [(Queue.pre ++ sQueueName, isString a), (Queue.pre ++ sEnqueued, isString sTrue)], min := mn, max := mx }) [] [] true)
      (⟨0, overrideKVs b, l⟩ : Item Key Int) = (a == b) := by
  have hw : ∀ x, wild (vString x) = false := fun x => rfl
  have hm : ∀ x y, valueHolds (isString x) (some (vString y)) = (y == x) := by
    intro x y
    have := equalsMatch_typed (q := vString x) (v := vString y) (hw x)
    have t : typ (vString x) = DataType.string := rfl
    rw [t] at this
    simp only [valueHolds, isString, strOnly, this]
    exact keq_vString y x
  have h1 : valueOf (overrideKVs b) (Queue.pre ++ sQueueName) = some (vString b) := by
    rw [overrideKVs, valueOf_cons, if_pos rfl]
  have h2 : valueOf (overrideKVs b) (Queue.pre ++ sEnqueued) = some (vString sTrue) := by
    rw [overrideKVs, valueOf_cons, if_neg (by decide), valueOf_cons, if_pos rfl]
  have h3 : (overrideKVs b).length = 2 := rfl
  simp only [satisfies, queryHolds, selHolds, allHold, anyHolds, Option.all_some, List.all_cons, List.all_nil, h1, h2, h3, hm, hs]
  rw [BEq.comm]; simp

theorem filter_single {A B : Type} [DecidableEq B] {f : A → B} {p : A → Bool} {x : A} : ∀ {l : List A}, (l.map f).Nodup → x ∈ l → (∀ y ∈ l, p y = true ↔ y = x) → l.filter p = [x]
  | [], _, h, _ => by simp at h
  | y :: l, hn, h, hp => by
    simp only [List.map_cons, List.nodup_cons] at hn
    by_cases hy : y = x
    · subst hy
      have : l.filter p = [] := by
        rw [List.filter_eq_nil_iff]
        intro z hz hpz
        have := (hp z (List.mem_cons_of_mem _ hz)).1 hpz
        subst this
        exact hn.1 (List.mem_map.2 ⟨_, hz, rfl⟩)
      rw [List.filter_cons, if_pos ((hp y (by simp)).2 rfl), this]
    · rw [List.filter_cons, if_neg (fun h => hy ((hp y (by simp)).1 h))]
      exact filter_single hn.2 ((List.mem_cons.1 h).resolve_left (fun e => hy e.symm)) (fun z hz => hp z (List.mem_cons_of_mem _ hz))

theorem overrideKVs_inj {a b : GoString} (h : overrideKVs a = overrideKVs b) : a = b := by
  simp only [overrideKVs, List.cons.injEq, Prod.mk.injEq, true_and, and_true] at h
  exact vString_inj h

/-- The query of a queue finds exactly its override. -/
theorem onlyOverride_spec {s : Queues.St} {m : Map} {B : Int} (h : LInv s.lim B) {r : LimSpec.Rule} (hr : r ∈ (Limiter.abs s.lim).rules) (hid : r.id = s.rule)
    (he : ∀ kvs l, (∃ o ∈ r.overrides, o.kvs = kvs ∧ o.limit = l) ↔ ∃ q ∈ m, kvs = overrideKVs q.1 ∧ l = q.2)
    {n : GoString} {l : Int} (hn : (n, l) ∈ m) (q : Query Key) (hq : q = updateQuery n ∨ q = destroyQuery n) :
    ∃ o ∈ r.overrides, o.kvs = overrideKVs n ∧ onlyOverride s q true = some o.id := by
  obtain ⟨o, ho, hok, hol⟩ := (he (overrideKVs n) l).2 ⟨_, hn, rfl, rfl⟩
  obtain ⟨u1, u2⟩ := overrides_uniq h.toRInv hr
  refine ⟨o, ho, hok, ?_⟩
  have hsat : ∀ o' ∈ r.overrides, satisfies q (⟨0, o'.kvs, o'.limit⟩ : Item Key Int) = true ↔ o' = o := by
    intro o' ho'
    obtain ⟨q', _, hk', _⟩ := (he o'.kvs o'.limit).1 ⟨o', ho', rfl, rfl⟩
    have : satisfies q (⟨0, o'.kvs, o'.limit⟩ : Item Key Int) = (n == q'.1) := by
      rw [hk']
      rcases hq with rfl | rfl
      · exact satisfies_pair n q'.1 _ (some 2) (some 2) (by decide)
      · exact satisfies_pair n q'.1 _ none none (by decide)
    rw [this, beq_iff_eq]
    constructor
    · intro e; exact u2 _ ho' _ ho (by rw [hk', hok, e])
    · intro e; exact overrideKVs_inj (by rw [← hok, ← e, hk'])
  have hfs := filter_single u1 ho hsat
  have hv : everywhere (fun s => ValidSel s ∧ SelExact s ∧ s.ids = []) Asks q ∧ (IsEmptyQuery q ∨ Asks q) := by
    have key : ∀ mn mx, ValidSel (⟨[], [(Queue.pre ++ sQueueName, isString n), (Queue.pre ++ sEnqueued, isString sTrue)], mn, mx⟩ : Selection Key) ∧
        SelExact (⟨[], [(Queue.pre ++ sQueueName, isString n), (Queue.pre ++ sEnqueued, isString sTrue)], mn, mx⟩ : Selection Key) := by
      intro mn mx
      have hv : ∀ x, ValidVQ (isString x) := fun x => ⟨⟨by simp [isString, strOnly]; decide, by simp [isString, strOnly]; decide, by simp [isString, strOnly]⟩, .inl rfl⟩
      refine ⟨⟨(by decide : [Queue.pre ++ sQueueName, Queue.pre ++ sEnqueued].Nodup), ?_, .inr (.inl (by simp))⟩, .inr ⟨?_, ?_⟩⟩
      · intro kq hk
        simp only [List.mem_cons, List.not_mem_nil, or_false] at hk
        rcases hk with rfl | rfl <;> exact hv _
      · intro kq hk
        simp only [List.mem_cons, List.not_mem_nil, or_false] at hk
        rcases hk with rfl | rfl <;> simp [TrOk, isString]
      · intro kq hk kq' _ e
        simp only [List.mem_cons, List.not_mem_nil, or_false] at hk
        rcases hk with rfl | rfl <;> simp [isString] at e
    rcases hq with rfl | rfl
    · exact ⟨⟨fun s e => by cases e; exact ⟨(key _ _).1, (key _ _).2, rfl⟩, trivial, trivial⟩, .inr (.inl rfl)⟩
    · exact ⟨⟨fun s e => by cases e; exact ⟨(key _ _).1, (key _ _).2, rfl⟩, trivial, trivial⟩, .inr (.inl rfl)⟩
  obtain ⟨lst, e1, e2⟩ := queryOverrides_spec h.toRInv hv.1 hv.2 hr
  rw [hfs] at e2
  have e3 := List.perm_singleton.1 e2
  match lst, e3 with
  | [x], e3 =>
    simp only [List.map_cons, List.map_nil, List.cons.injEq, and_true] at e3
    simp only [onlyOverride, if_true, ← hid, e1, ← e3]

/-! ### Limits enforced -/

theorem same_override (a b : GoString) : sameKVs (overrideKVs a) (overrideKVs b) = (a == b) := by
  have h1 : ∀ x y, same (vString x) (vString y) = (x == y) := keq_vString
  simp only [sameKVs, overrideKVs, List.length_cons, List.length_nil, List.all_cons, List.all_nil, List.any_cons, List.any_nil, h1]
  have e1 : (Queue.pre ++ sQueueName == Queue.pre ++ sEnqueued) = false := by decide
  have e2 : (Queue.pre ++ sEnqueued == Queue.pre ++ sQueueName) = false := by decide
  simp [e1, e2]

/-- The overrides of the rule are those of the map. -/
def Ovs (os : List LimSpec.Override) (m : Map) : Prop := ∀ kvs l, (∃ o ∈ os, o.kvs = kvs ∧ o.limit = l) ↔ ∃ q ∈ m, kvs = overrideKVs q.1 ∧ l = q.2

theorem Ovs.create {os : List LimSpec.Override} {m : Map} (h : Ovs os m) (i : Nat) (n : GoString) (l : Int) :
    Ovs (os ++ [⟨i, overrideKVs n, l⟩]) (m ++ [(n, l)]) := by
  intro kvs l'
  have := h kvs l'
  constructor
  · rintro ⟨o, ho, h1, h2⟩
    rcases List.mem_append.1 ho with ho | ho
    · obtain ⟨q, hq, h3⟩ := this.1 ⟨o, ho, h1, h2⟩
      exact ⟨q, List.mem_append.2 (.inl hq), h3⟩
    · simp at ho; subst ho
      exact ⟨(n, l), by simp, h1.symm, h2.symm⟩
  · rintro ⟨q, hq, h1, h2⟩
    rcases List.mem_append.1 hq with hq | hq
    · obtain ⟨o, ho, h3⟩ := this.2 ⟨q, hq, h1, h2⟩
      exact ⟨o, List.mem_append.2 (.inl ho), h3⟩
    · simp at hq; subst hq
      exact ⟨_, List.mem_append.2 (.inr (List.mem_singleton.2 rfl)), h1.symm, h2.symm⟩

theorem Ovs.name {os : List LimSpec.Override} {m : Map} (h : Ovs os m) {o : LimSpec.Override} (ho : o ∈ os) : ∃ n, o.kvs = overrideKVs n ∧ (n, o.limit) ∈ m := by
  obtain ⟨q, hq, h1, h2⟩ := (h o.kvs o.limit).1 ⟨o, ho, rfl, rfl⟩
  exact ⟨q.1, h1, by rw [h2]; exact hq⟩

theorem Ovs.of {os : List LimSpec.Override} {m : Map} (h1 : ∀ o ∈ os, ∃ n, o.kvs = overrideKVs n ∧ (n, o.limit) ∈ m)
    (h2 : ∀ q ∈ m, ∃ o ∈ os, o.kvs = overrideKVs q.1 ∧ o.limit = q.2) : Ovs os m := by
  intro kvs l
  constructor
  · rintro ⟨o, ho, rfl, rfl⟩
    obtain ⟨n, e, hm⟩ := h1 o ho
    exact ⟨_, hm, e, rfl⟩
  · rintro ⟨q, hq, rfl, rfl⟩; exact h2 q hq

theorem map_inj {A B : Type} {f : A → B} : ∀ {l : List A}, (l.map f).Nodup → ∀ {a b : A}, a ∈ l → b ∈ l → f a = f b → a = b
  | [], _, _, _, ha, _, _ => by simp at ha
  | x :: l, h, a, b, ha, hb, e => by
    simp only [List.map_cons, List.nodup_cons] at h
    rcases List.mem_cons.1 ha with h1 | h1 <;> rcases List.mem_cons.1 hb with h2 | h2
    · rw [h1, h2]
    · exact absurd (List.mem_map.2 ⟨_, h2, by rw [← e, h1]⟩) h.1
    · exact absurd (List.mem_map.2 ⟨_, h1, by rw [e, h2]⟩) h.1
    · exact map_inj h.2 h1 h2 e

theorem id_uniq {os : List LimSpec.Override} (h : (os.map (·.id)).Nodup) {a b : LimSpec.Override} (ha : a ∈ os) (hb : b ∈ os) (e : a.id = b.id) : a = b := by
  induction os with
  | nil => simp at ha
  | cons x os ih =>
    simp only [List.map_cons, List.nodup_cons] at h
    rcases List.mem_cons.1 ha with h1 | h1 <;> rcases List.mem_cons.1 hb with h2 | h2
    · rw [h1, h2]
    · exact absurd (List.mem_map.2 ⟨_, h2, by rw [← e, h1]⟩) h.1
    · exact absurd (List.mem_map.2 ⟨_, h1, by rw [e, h2]⟩) h.1
    · exact ih h.2 h1 h2

theorem Ovs.update {os : List LimSpec.Override} {m : Map} (h : Ovs os m) (u1 : (os.map (·.id)).Nodup) (u2 : ∀ o ∈ os, ∀ o' ∈ os, o.kvs = o'.kvs → o = o')
    {o : LimSpec.Override} (ho : o ∈ os) {n : GoString} (hn : o.kvs = overrideKVs n) (l : Int) :
    Ovs (os.map (fun x => if x.id == o.id then { x with limit := l } else x)) (m.set n l) := by
  obtain ⟨n0, e0, hm0⟩ := h.name ho
  have hn0 : n0 = n := overrideKVs_inj (by rw [← e0, hn])
  subst hn0
  apply Ovs.of
  · intro y hy
    obtain ⟨x, hx, rfl⟩ := List.mem_map.1 hy
    by_cases hi : x.id = o.id
    · have := id_uniq u1 hx ho hi; subst this
      simp only [beq_self_eq_true, if_true]
      exact ⟨n0, hn, List.mem_map.2 ⟨_, hm0, by simp⟩⟩
    · simp only [beq_eq_false_iff_ne.2 hi, Bool.false_eq_true, if_false]
      obtain ⟨n', e', hm'⟩ := h.name hx
      refine ⟨n', e', List.mem_map.2 ⟨_, hm', ?_⟩⟩
      have : n' ≠ n0 := by rintro rfl; exact hi (by rw [u2 _ hx _ ho (by rw [e', hn])])
      simp [this]
  · intro q hq
    obtain ⟨q', hq', rfl⟩ := List.mem_map.1 hq
    obtain ⟨x, hx, e1, e2⟩ := (h (overrideKVs q'.1) q'.2).2 ⟨q', hq', rfl, rfl⟩
    refine ⟨_, List.mem_map.2 ⟨x, hx, rfl⟩, ?_⟩
    by_cases hi : x.id = o.id
    · have := id_uniq u1 hx ho hi; subst this
      have : q'.1 = n0 := overrideKVs_inj (by rw [← e1, hn])
      simp [this, hn]
    · have : q'.1 ≠ n0 := by intro e; exact hi (by rw [u2 _ hx _ ho (by rw [e1, e, hn])])
      simp [this, hi, e1, e2]

theorem Ovs.delete {os : List LimSpec.Override} {m : Map} (h : Ovs os m) (u1 : (os.map (·.id)).Nodup) (u2 : ∀ o ∈ os, ∀ o' ∈ os, o.kvs = o'.kvs → o = o')
    {o : LimSpec.Override} (ho : o ∈ os) {n : GoString} (hn : o.kvs = overrideKVs n) :
    Ovs (os.filter (fun x => x.id != o.id)) (m.del n) := by
  apply Ovs.of
  · intro x hx
    obtain ⟨hx, hi⟩ := List.mem_filter.1 hx
    have hi : x.id ≠ o.id := by simpa using hi
    obtain ⟨n', e', hm'⟩ := h.name hx
    refine ⟨n', e', List.mem_filter.2 ⟨hm', ?_⟩⟩
    have : n' ≠ n := by rintro rfl; exact hi (by rw [u2 _ hx _ ho (by rw [e', hn])])
    simp [this]
  · intro q hq
    obtain ⟨hq, hne⟩ := List.mem_filter.1 hq
    have hne : q.1 ≠ n := by simpa using hne
    obtain ⟨x, hx, e1, e2⟩ := (h (overrideKVs q.1) q.2).2 ⟨q, hq, rfl, rfl⟩
    refine ⟨x, List.mem_filter.2 ⟨hx, ?_⟩, e1, e2⟩
    have : x.id ≠ o.id := by
      intro e; have := id_uniq u1 hx ho e; subst this
      exact hne (overrideKVs_inj (by rw [← e1, hn]))
    simpa using this

/-- The rule with changed overrides. -/
theorem setRule_mem {st : LimSpec.St} {r : LimSpec.Rule} (hr : r ∈ st.rules) (f : LimSpec.Rule → LimSpec.Rule) : f r ∈ (st.setRule r.id f).rules := by
  simp only [LimSpec.St.setRule]
  exact List.mem_map.2 ⟨r, hr, by simp⟩

/-- A request of another user leaves the overrides of the rule alone. -/
theorem offRule_keeps {st : LimSpec.St} {rule : Nat} {op : Limiter.Op Key} (ho : OffRule rule op) {r : LimSpec.Rule} (hr : r ∈ st.rules) (hid : r.id = rule) :
    ∃ r' ∈ (LimSpec.specStep st op).1.rules, r'.id = rule ∧ r'.kvs = r.kvs ∧ r'.limit = r.limit ∧ r'.overrides = r.overrides := by
  have set : ∀ (i : Nat) (f : LimSpec.Rule → LimSpec.Rule), (∀ x, (f x).id = x.id ∧ (f x).kvs = x.kvs) → (i ≠ rule ∨ ∀ x, (f x).limit = x.limit ∧ (f x).overrides = x.overrides) →
      ∃ r' ∈ (st.setRule i f).rules, r'.id = rule ∧ r'.kvs = r.kvs ∧ r'.limit = r.limit ∧ r'.overrides = r.overrides := by
    intro i f hf hc
    by_cases hi : r.id = i
    · subst hi
      refine ⟨_, setRule_mem hr f, by rw [(hf r).1, hid], (hf r).2, ?_⟩
      rcases hc with hc | hc
      · exact absurd hid hc
      · exact hc r
    · exact ⟨r, List.mem_map.2 ⟨r, hr, by simp [hi]⟩, hid, rfl, rfl, rfl⟩
  cases op with
  | createRule kvs l =>
    simp only [LimSpec.specStep]
    split
    · exact ⟨r, hr, hid, rfl, rfl, rfl⟩
    · exact ⟨r, List.mem_append.2 (.inl hr), hid, rfl, rfl, rfl⟩
  | getRule id => simp only [LimSpec.specStep]; split <;> exact ⟨r, hr, hid, rfl, rfl, rfl⟩
  | updateRule id l =>
    simp only [LimSpec.specStep]
    split
    · exact ⟨r, hr, hid, rfl, rfl, rfl⟩
    · exact set _ _ (fun x => ⟨rfl, rfl⟩) (.inl ho)
  | deleteRule ch id =>
    simp only [LimSpec.specStep]
    split
    · exact ⟨r, hr, hid, rfl, rfl, rfl⟩
    · exact ⟨r, List.mem_filter.2 ⟨hr, by have : id ≠ rule := ho; simp [hid]; exact fun e => this e.symm⟩, hid, rfl, rfl, rfl⟩
  | createOverride i kvs l =>
    simp only [LimSpec.specStep]
    split
    · exact ⟨r, hr, hid, rfl, rfl, rfl⟩
    · split
      · exact ⟨r, hr, hid, rfl, rfl, rfl⟩
      · split
        · exact ⟨r, hr, hid, rfl, rfl, rfl⟩
        · split
          · exact ⟨r, hr, hid, rfl, rfl, rfl⟩
          · exact set _ _ (fun x => ⟨rfl, rfl⟩) (.inl ho)
  | getOverride i id =>
    simp only [LimSpec.specStep]
    split
    · exact ⟨r, hr, hid, rfl, rfl, rfl⟩
    · split <;> exact ⟨r, hr, hid, rfl, rfl, rfl⟩
  | updateOverride i id l =>
    simp only [LimSpec.specStep]
    split
    · exact ⟨r, hr, hid, rfl, rfl, rfl⟩
    · split
      · exact ⟨r, hr, hid, rfl, rfl, rfl⟩
      · exact set _ _ (fun x => ⟨rfl, rfl⟩) (.inl ho)
  | deleteOverride i id =>
    simp only [LimSpec.specStep]
    split
    · exact ⟨r, hr, hid, rfl, rfl, rfl⟩
    · exact set _ _ (fun x => ⟨rfl, rfl⟩) (.inl ho)
  | upsert ch kvs c =>
    simp only [LimSpec.specStep]
    split <;> split <;> exact ⟨r, hr, hid, rfl, rfl, rfl⟩
  | setCounter kvs c => simp only [LimSpec.specStep]; split <;> exact ⟨r, hr, hid, rfl, rfl, rfl⟩
  | queryCounters q => exact ⟨r, hr, hid, rfl, rfl, rfl⟩

/-! ### Requests -/

theorem findRef_spec {s : Queues.St} {es : List Entry} (ht : RepW s.tree (es.map Entry.kv)) (n : GoString) :
    findRef s n = some ((es.find? (fun e => e.name == n)).map (·.ref)) := by
  have h := find_exact_spec ht (key := vString n) (by decide : DataType.string ≠ DataType.any) strOnly (fun (_ : Option Nat) _ r => (some r, false)) none
  unfold findRef
  rw [h, lookupL_entries]
  have h1 : strOnly.lo ≤ typ (vString n) ∧ typ (vString n) ≤ strOnly.hi := ⟨Int.le_refl 13, Int.le_refl 13⟩
  have h2 : ¬ strOnly.hi = DataType.any := by decide
  rw [if_pos h1, if_neg h2]
  cases es.find? (fun e => e.name == n) with
  | none => rfl
  | some e => rfl

theorem spec_create {s : Queues.St} {m : Map} {B : Int} (h : QInv s m B) {n : GoString} {l : Int} (hl : ValidLimit l) (hn : m.get? n = none) :
    ∃ lim', (∃ id, createOverride s.lim s.rule (overrideKVs n) l = some (lim', .created id)) ∧ LInv lim' B ∧
      Enforced { s with lim := lim' } (m ++ [(n, l)]) := by
  obtain ⟨r, hr, hid, hk, hz, he⟩ := h.enf
  obtain ⟨st', out, e1, e2, e3, e4⟩ := sim_createOverride h.lim s.rule (kvs := overrideKVs n) ⟨by simp [overrideKVs], (by decide : [Queue.pre ++ sQueueName, Queue.pre ++ sEnqueued].Nodup)⟩ hl
  have hrule : (Limiter.abs s.lim).rule? s.rule = some r := by rw [← hid]; exact rule?_of_mem h.lim.toRInv hr
  have hany : r.overrides.any (fun o => sameKVs (overrideKVs n) o.kvs) = false := by
    rw [List.any_eq_false]
    intro o ho hs
    obtain ⟨n', e', hm'⟩ := Ovs.name he ho
    rw [e', same_override] at hs
    simp at hs; subst hs
    exact get?_none.1 hn _ hm' rfl
  have hspec : LimSpec.specStep (Limiter.abs s.lim) (.createOverride s.rule (overrideKVs n) l) =
      ((Limiter.abs s.lim).setRule s.rule (fun r => { r with overrides := r.overrides ++ [⟨r.nextId, overrideKVs n, l⟩], nextId := r.nextId + 1 }), .created r.nextId) := by
    have c1 : (ruleKVs.any (fun kv => !(overrideKVs n).any (fun x => x.1 == kv.1))) = false := by
      simp [ruleKVs, overrideKVs]
    have c2 : ((overrideKVs n).any (fun kv => kv.1 == OTM.reservedID)) = false := by
      simp only [overrideKVs, List.any_cons, List.any_nil]; decide
    simp only [LimSpec.specStep, hrule, hk, c1, c2, hany, Bool.false_eq_true, if_false]
  rw [hspec] at e3 e4
  have e1' : createOverride s.lim s.rule (overrideKVs n) l = some (st', out) := e1
  have : out = .created r.nextId := by cases out <;> first | exact e4 | cases e4
  subst this
  refine ⟨st', ⟨_, e1'⟩, by simpa [amount] using e2, ?_⟩
  refine ⟨{ r with overrides := r.overrides ++ [⟨r.nextId, overrideKVs n, l⟩], nextId := r.nextId + 1 }, ?_, hid, hk, hz, Ovs.create he _ n l⟩
  show _ ∈ (Limiter.abs st').rules
  rw [e3, ← hid]
  exact setRule_mem hr _

theorem spec_update {s : Queues.St} {m : Map} {B : Int} (h : LInv s.lim B) (henf : Enforced s m) {n : GoString} {l0 l : Int} (hl : ValidLimit l)
    (hn : (n, l0) ∈ m) :
    ∃ id lim', onlyOverride s (updateQuery n) true = some id ∧ updateOverride s.lim s.rule id l = some (lim', .ok) ∧ LInv lim' B ∧
      Enforced { s with lim := lim' } (m.set n l) := by
  obtain ⟨r, hr, hid, hk, hz, he⟩ := henf
  obtain ⟨o, ho, hok, hq⟩ := onlyOverride_spec h hr hid he hn _ (.inl rfl)
  obtain ⟨st', out, e1, e2, e3, e4⟩ := sim_updateOverride h s.rule o.id hl
  have hrule : (Limiter.abs s.lim).rule? s.rule = some r := by rw [← hid]; exact rule?_of_mem h.toRInv hr
  obtain ⟨u1, u2⟩ := overrides_uniq h.toRInv hr
  have ho? : ∃ x, r.override? o.id = some x := by
    cases hf : r.override? o.id with
    | some x => exact ⟨x, rfl⟩
    | none => exact absurd (List.find?_eq_none.1 hf o ho) (by simp)
  obtain ⟨x, hx⟩ := ho?
  have hspec : LimSpec.specStep (Limiter.abs s.lim) (.updateOverride s.rule o.id l) =
      ((Limiter.abs s.lim).setRule s.rule (fun r => r.setOverride o.id l), .ok) := by
    simp only [LimSpec.specStep, hrule, hx]
  rw [hspec] at e3 e4
  have e1' : updateOverride s.lim s.rule o.id l = some (st', out) := e1
  have : out = .ok := by cases out <;> first | exact e4 | cases e4
  subst this
  refine ⟨o.id, st', hq, e1', by simpa [amount] using e2, ?_⟩
  refine ⟨r.setOverride o.id l, ?_, hid, hk, hz, Ovs.update he u1 u2 ho hok l⟩
  show _ ∈ (Limiter.abs st').rules
  rw [e3, ← hid]
  exact setRule_mem hr _

theorem spec_delete {s : Queues.St} {m : Map} {B : Int} (h : LInv s.lim B) (henf : Enforced s m) {n : GoString} {l0 : Int} (hn : (n, l0) ∈ m) :
    ∃ id lim', onlyOverride s (destroyQuery n) true = some id ∧ deleteOverride s.lim s.rule id = some (lim', .ok) ∧ LInv lim' B ∧
      Enforced { s with lim := lim' } (m.del n) := by
  obtain ⟨r, hr, hid, hk, hz, he⟩ := henf
  obtain ⟨o, ho, hok, hq⟩ := onlyOverride_spec h hr hid he hn _ (.inr rfl)
  obtain ⟨st', out, e1, e2, e3, e4⟩ := sim_deleteOverride h s.rule o.id
  have hrule : (Limiter.abs s.lim).rule? s.rule = some r := by rw [← hid]; exact rule?_of_mem h.toRInv hr
  obtain ⟨u1, u2⟩ := overrides_uniq h.toRInv hr
  have hspec : LimSpec.specStep (Limiter.abs s.lim) (.deleteOverride s.rule o.id) =
      ((Limiter.abs s.lim).setRule s.rule (fun r => { r with overrides := r.overrides.filter (fun x => x.id != o.id) }), .ok) := by
    simp only [LimSpec.specStep, hrule]
  rw [hspec] at e3 e4
  have e1' : deleteOverride s.lim s.rule o.id = some (st', out) := e1
  have : out = .ok := by cases out <;> first | exact e4 | cases e4
  subst this
  refine ⟨o.id, st', hq, e1', by simpa [amount] using e2, ?_⟩
  refine ⟨{ r with overrides := r.overrides.filter (fun x => x.id != o.id) }, ?_, hid, hk, hz, Ovs.delete he u1 u2 ho hok⟩
  show _ ∈ (Limiter.abs st').rules
  rw [e3, ← hid]
  exact setRule_mem hr _

theorem insertEntry_name {es : List Entry} {n : GoString} (h : es.find? (fun e => e.name == n) = none) : lookupL (vString n) (es.map Entry.kv) = none := by
  rw [lookupL_entries, h]; rfl

theorem step_create {s : Queues.St} {m : Map} {B : Int} (h : QInv s m B) {n : GoString} {l : Int} {up : Bool} (hl : LimSpec.Int64 l) (hsafe : Safe m (.create n l up)) :
    ∃ s' o, createQueue s n l up = some (s', o) ∧ QInv s' (QueuesSpec.specStep m (.create n l up)).1 B ∧ QueuesSpec.Same o (QueuesSpec.specStep m (.create n l up)).2 ∧ s'.rule = s.rule := by
  obtain ⟨es, ht, hh, href, hp⟩ := h.tree
  rcases find_entry h.names hp n with ⟨hf, hg⟩ | ⟨e, he, hf, hen, hg⟩
  · -- a new name
    by_cases hok : up = true ∧ -1 ≤ l
    · obtain ⟨lim', ⟨id, ec⟩, hlim, henf⟩ := spec_create h (l := l) ⟨hok.2, hl.2⟩ hg
      obtain ⟨b', o, c1, c2⟩ := tree_create_spec ht (vString n) s.heap.length
      rw [insertEntry_name hf] at c2
      have hmem : memNew s n l up = some (lim', true) := by
        simp only [memNew, sendable, hok.1, Bool.true_and, decide_eq_true hok.2, if_true, ec]
      cases o with
      | found kv => exact absurd c2.1 (by simp)
      | created =>
        obtain ⟨es', i1, i2⟩ := insertL_entries ⟨n, s.heap.length, l⟩ es
        simp only at i1
        rw [i1] at c2
        refine ⟨{ s with tree := b', heap := s.heap ++ [⟨l, n⟩], lim := lim' }, .ok, by simp only [createQueue, hmem, newRef, c1], ?_, ?_, rfl⟩
        · simp only [QueuesSpec.specStep, hg, hok, and_self, if_true]
          refine ⟨hlim, henf, ?_, es', c2.2.weak, ?_, ?_, ?_⟩
          · rw [List.map_append, List.nodup_append]
            refine ⟨h.names, by simp, ?_⟩
            intro a ha b hb
            simp at hb; subst hb
            rintro rfl
            obtain ⟨q, hq, hqn⟩ := List.mem_map.1 ha
            exact get?_none.1 hg q hq hqn
          · intro x hx
            rcases List.mem_cons.1 (i2.mem_iff.1 hx) with rfl | hx
            · simp
            · have := hh x hx
              have hlt := (List.getElem?_eq_some_iff.1 this).1
              simp only [List.getElem?_append_left hlt, this]
          · have := (i2.map Entry.ref).nodup_iff
            rw [this]
            simp only [List.map_cons, List.nodup_cons]
            refine ⟨?_, href⟩
            intro hm
            obtain ⟨x, hx, hxr⟩ := List.mem_map.1 hm
            have := (List.getElem?_eq_some_iff.1 (hh x hx)).1
            omega
          · refine (i2.map Entry.q).trans ?_
            refine ((hp.cons _).trans ?_)
            exact (List.perm_append_singleton _ _).symm
        · simp only [QueuesSpec.specStep, hg, hok, and_self, if_true]; rfl
    · -- the create fails
      have hmem : ∃ lim', memNew s n l up = some (s.lim, false) ∧ lim' = s.lim := by
        refine ⟨_, ?_, rfl⟩
        have : sendable up l = false := by
          simp only [sendable]
          cases up with
          | false => rfl
          | true => simpa using hok
        simp [memNew, this]
      obtain ⟨_, hmem, _⟩ := hmem
      have hlt : ((es.map Entry.kv).filter (fun kv => KeyOps.lt (vString n) kv.1)).length ≤ 1 := by
        rcases hsafe with h1 | h1
        · exact absurd h1 hok
        · have h2 := (hp.filter (fun q => strLt n q.1)).length_eq
          rw [List.filter_map, List.length_map] at h2
          rw [List.filter_map, List.length_map]
          have e : ((fun kv : Key × Nat => KeyOps.lt (vString n) kv.1) ∘ Entry.kv) = ((fun q : GoString × Int => strLt n q.1) ∘ Entry.q) := by
            funext e; simp only [Function.comp, Entry.kv, Entry.q, lt_vString]
          rw [e, h2]; exact h1
      obtain ⟨b', c1, c2⟩ := tree_create_fail_last ht (vString n) (insertEntry_name hf) hlt
      refine ⟨{ s with tree := b' }, .internal, by simp only [createQueue, hmem, newRef, c1], ?_, ?_, rfl⟩
      · simp only [QueuesSpec.specStep, hg, hok, if_false]
        exact ⟨h.lim, h.enf, h.names, es, c2, hh, href, hp⟩
      · simp only [QueuesSpec.specStep, hg, hok, if_false]; rfl
  · -- a name that exists
    have hlook : lookupL (vString n) (es.map Entry.kv) = some e.kv := by rw [lookupL_entries, hf]; rfl
    have hc : ∀ v : Option Nat, ∃ kv, s.tree.create (vString n) v = some (s.tree, .found kv) := by
      intro v
      cases v with
      | none => exact tree_create_fail_found ht _ hlook
      | some v =>
        obtain ⟨b', o, c1, c2⟩ := tree_create_spec ht (vString n) v
        cases o with
        | found kv => exact ⟨kv, by rw [c1, c2.2]⟩
        | created => rw [hlook] at c2; exact absurd c2.1 (by simp)
    obtain ⟨kv, hkv⟩ := hc (newRef s (memNew s n l up))
    refine ⟨s, .conflict, by simp only [createQueue, hkv], ?_, ?_, rfl⟩
    · simp only [QueuesSpec.specStep, hg]; exact h
    · simp only [QueuesSpec.specStep, hg]; rfl

theorem step_get {s : Queues.St} {m : Map} {B : Int} (h : QInv s m B) (n : GoString) :
    ∃ s' o, getQueue s n = some (s', o) ∧ QInv s' (QueuesSpec.specStep m (.get n)).1 B ∧ QueuesSpec.Same o (QueuesSpec.specStep m (.get n)).2 ∧ s'.rule = s.rule := by
  obtain ⟨es, ht, hh, href, hp⟩ := h.tree
  rcases find_entry h.names hp n with ⟨hf, hg⟩ | ⟨e, he, hf, hen, hg⟩
  · refine ⟨s, .notFound, by simp [getQueue, findRef_spec ht, hf], ?_, ?_, rfl⟩
    · simp only [QueuesSpec.specStep, hg]; exact h
    · simp only [QueuesSpec.specStep, hg]; rfl
  · refine ⟨s, .one (n, e.limit), by simp [getQueue, findRef_spec ht, hf, hh e he], ?_, ?_, rfl⟩
    · simp only [QueuesSpec.specStep, hg]; exact h
    · simp only [QueuesSpec.specStep, hg]; rfl

theorem mapM_some {A B : Type} {f : A → Option B} {g : A → B} : ∀ {l : List A}, (∀ x ∈ l, f x = some (g x)) → l.mapM f = some (l.map g)
  | [], _ => rfl
  | x :: l, h => by
    rw [List.mapM_cons, h x (by simp), mapM_some (fun y hy => h y (List.mem_cons_of_mem _ hy))]
    rfl

theorem visitAll_collect {A : Type} : ∀ (l acc : List (Key × A)), (visitAll (fun (l : List (Key × A)) k r => (l ++ [(k, r)], true)) l acc).1 = acc ++ l
  | [], acc => by simp [visitAll]
  | kv :: l, acc => by
    rw [visitAll]
    simp only
    rw [visitAll_collect l]; simp

theorem step_list {s : Queues.St} {m : Map} {B : Int} (h : QInv s m B) :
    ∃ s' o, listQueues s = some (s', o) ∧ QInv s' m B ∧ QueuesSpec.Same o (.all m) ∧ s'.rule = s.rule := by
  obtain ⟨es, ht, hh, href, hp⟩ := h.tree
  obtain ⟨ord, o1, o2⟩ := find_iterate_spec ht (key := (KeyOps.any : Key)) rfl ⟨DataType.min, DataType.max⟩
  have hfil : (es.map Entry.kv).filter (fun kv => decide (DataType.min ≤ typ kv.1) && decide (typ kv.1 ≤ DataType.max)) = es.map Entry.kv := by
    rw [List.filter_eq_self]
    intro kv hkv
    obtain ⟨e, he, rfl⟩ := List.mem_map.1 hkv
    rfl
  simp only [hfil] at o1
  let val : Key × Nat → GoString × Int := fun kr => ((nameOf kr.1).getD [], ((s.heap[kr.2]?).map (·.limit)).getD 0)
  have hl : ∀ x ∈ ord, listed s.heap x = some (val x) := by
    intro x hx
    obtain ⟨e, he, rfl⟩ := List.mem_map.1 (o1.mem_iff.1 hx)
    simp only [listed, val, Entry.kv, nameOf, vString, hh e he, Option.map_some, Option.getD_some]
  refine ⟨s, .all (ord.map val), ?_, h, ?_, rfl⟩
  · unfold listQueues
    rw [o2, visitAll_collect]
    simp only [List.nil_append, mapM_some hl, Option.map_some]
  · refine ((o1.map val).trans ?_).trans hp
    rw [List.map_map]
    apply List.Perm.of_eq
    apply List.map_congr_left
    intro e he
    simp only [Function.comp, val, Entry.kv, nameOf, vString, hh e he, Option.map_some, Option.getD_some, Entry.q]

theorem step_update {s : Queues.St} {m : Map} {B : Int} (h : QInv s m B) {n : GoString} {l : Int} {upQ up : Bool} (hl : LimSpec.Int64 l)
    (hsafe : Safe m (.update n l upQ up)) :
    ∃ s' o, updateQueue s n l upQ up = some (s', o) ∧ QInv s' (QueuesSpec.specStep m (.update n l upQ up)).1 B ∧ QueuesSpec.Same o (QueuesSpec.specStep m (.update n l upQ up)).2 ∧ s'.rule = s.rule := by
  obtain ⟨es, ht, hh, href, hp⟩ := h.tree
  rcases find_entry h.names hp n with ⟨hf, hg⟩ | ⟨e, he, hf, hen, hg⟩
  · refine ⟨s, .notFound, by simp [updateQueue, findRef_spec ht, hf], ?_, ?_, rfl⟩
    · simp only [QueuesSpec.specStep, hg]; exact h
    · simp only [QueuesSpec.specStep, hg]; rfl
  · rcases hsafe with hs | ⟨rfl, rfl, hl1⟩
    · rw [hg] at hs; cases hs
    have hnm := (get?_some h.names).1 hg
    let s1 : Queues.St := { s with heap := s.heap.set e.ref ⟨l, e.name⟩ }
    obtain ⟨id, lim', u1, u2, u3, u4⟩ := spec_update (s := s1) h.lim h.enf (l := l) ⟨hl1, hl.2⟩ hnm
    refine ⟨{ s1 with lim := lim' }, .ok, ?_, ?_, ?_, rfl⟩
    · simp only [updateQueue, findRef_spec ht, hf, Option.map_some, memUpdate, hh e he, hen, sendable, Bool.true_and, decide_eq_true hl1, if_true]
      have : s1 = { s with heap := s.heap.set e.ref ⟨l, n⟩ } := by simp only [s1, hen]
      rw [← this]
      simp only [u1, show updateOverride s.lim s.rule id l = some (lim', .ok) from u2]
      simp only [s1, hen]
    · simp only [QueuesSpec.specStep, hg, hl1, and_self, if_true]
      refine ⟨u3, u4, ?_, es.map (fun x => if x.name == n then { x with limit := l } else x), ?_, ?_, ?_, ?_⟩
      · have : (m.set n l).map (·.1) = m.map (·.1) := by
          simp only [Map.set, List.map_map]
          apply List.map_congr_left
          intro q _
          simp only [Function.comp]
          split
          · rename_i hq; simp at hq; exact hq.symm
          · rfl
        rw [this]; exact h.names
      · have : (es.map (fun x => if x.name == n then { x with limit := l } else x)).map Entry.kv = es.map Entry.kv := by
          rw [List.map_map]
          apply List.map_congr_left
          intro x _
          simp only [Function.comp]; split <;> rfl
        rw [this]; exact ht
      · intro y hy
        obtain ⟨x, hx, rfl⟩ := List.mem_map.1 hy
        simp only [s1]
        by_cases hxn : x.name = n
        · have : x = e := by
            have hxe : x.q = e.q := by
              have a := hp.mem_iff.1 (List.mem_map.2 ⟨x, hx, rfl⟩)
              have b := (get?_some h.names).2 (show (n, x.limit) ∈ m by rw [← hxn]; exact a)
              rw [hg] at b
              simp only [Entry.q, hxn, hen]; congr 1; exact (Option.some.inj b).symm
            have hnd : (es.map Entry.q).Nodup := by
              have h1 := h.names
              have h2 : ((es.map Entry.q).map (·.1)).Nodup := (hp.map (·.1)).nodup_iff.2 h1
              exact List.Pairwise.imp (fun h e => h (by rw [e])) (List.pairwise_map.1 h2)
            exact map_inj hnd hx he hxe
          subst this
          have hlt := (List.getElem?_eq_some_iff.1 (hh x hx)).1
          simp [hxn, hlt]
        · have hne : e.ref ≠ x.ref := by
            intro er
            exact hxn (by rw [map_inj href hx he er.symm, hen])
          simp only [beq_eq_false_iff_ne.2 hxn, Bool.false_eq_true, if_false, List.getElem?_set_ne hne, hh x hx]
      · have : (es.map (fun x => if x.name == n then { x with limit := l } else x)).map (·.ref) = es.map (·.ref) := by
          rw [List.map_map]
          apply List.map_congr_left
          intro x _
          simp only [Function.comp]; split <;> rfl
        rw [this]; exact href
      · have h1 := hp.map (fun q => if q.1 == n then (n, l) else q)
        refine List.Perm.trans (List.Perm.of_eq ?_) h1
        rw [List.map_map, List.map_map]
        apply List.map_congr_left
        intro x _
        simp only [Function.comp, Entry.q]
        by_cases hx : x.name = n <;> simp [hx]
    · simp only [QueuesSpec.specStep, hg, hl1, and_self, if_true]; rfl

theorem step_delete {s : Queues.St} {m : Map} {B : Int} (h : QInv s m B) {n : GoString} {upQ up : Bool} (hsafe : Safe m (.delete n upQ up)) :
    ∃ s' o, deleteQueue s n upQ up = some (s', o) ∧ QInv s' (QueuesSpec.specStep m (.delete n upQ up)).1 B ∧ QueuesSpec.Same o (QueuesSpec.specStep m (.delete n upQ up)).2 ∧ s'.rule = s.rule := by
  obtain ⟨es, ht, hh, href, hp⟩ := h.tree
  obtain ⟨b', d1, d2, _⟩ := tree_delete_spec ht (vString n) (fun kv => destroyed (memDestroy s kv.2 upQ up))
  rcases find_entry h.names hp n with ⟨hf, hg⟩ | ⟨e, he, hf, hen, hg⟩
  · have hlook := insertEntry_name hf
    simp only [afterDelete, hlook] at d1 d2
    refine ⟨{ s with tree := b' }, .ok, by simp only [deleteQueue, d1], ?_, ?_, rfl⟩
    · simp only [QueuesSpec.specStep, hg]; exact ⟨h.lim, h.enf, h.names, es, d2, hh, href, hp⟩
    · simp only [QueuesSpec.specStep, hg]; rfl
  · have hlook : lookupL (vString n) (es.map Entry.kv) = some e.kv := by rw [lookupL_entries, hf]; rfl
    rcases hsafe with hs | rfl
    · rw [hg] at hs; cases hs
    obtain ⟨id, lim', u1, u2, u3, u4⟩ := spec_delete h.lim h.enf ((get?_some h.names).1 hg)
    simp only [afterDelete, hlook] at d1 d2
    cases up with
    | true =>
      have hd : memDestroy s e.kv.2 true true = some (lim', true) := by
        simp only [memDestroy, Entry.kv, hh e he, hen, u1, u2, if_true]
      refine ⟨{ s with tree := b', lim := lim' }, .ok, by simp only [deleteQueue, d1, hd], ?_, ?_, rfl⟩
      · simp only [QueuesSpec.specStep, hg, if_true]
        simp only [hd, destroyed, if_true, eraseL_entries] at d2
        refine ⟨u3, u4, ?_, es.filter (fun e => e.name != n), d2, ?_, ?_, ?_⟩
        · exact h.names.sublist (List.filter_sublist.map _)
        · intro x hx; exact hh x (List.mem_filter.1 hx).1
        · exact href.sublist (List.filter_sublist.map _)
        · have := hp.filter (fun q => q.1 != n)
          refine List.Perm.trans (List.Perm.of_eq ?_) this
          rw [List.filter_map]; rfl
      · simp only [QueuesSpec.specStep, hg, if_true]; rfl
    | false =>
      have hd : memDestroy s e.kv.2 true false = some (s.lim, false) := by
        simp only [memDestroy, Entry.kv, hh e he, hen, u1, Bool.false_eq_true, if_false]
      refine ⟨{ s with tree := b' }, .internal, by simp only [deleteQueue, d1, hd], ?_, ?_, rfl⟩
      · simp only [QueuesSpec.specStep, hg, Bool.false_eq_true, if_false]
        simp only [hd, destroyed, Bool.false_eq_true, if_false] at d2
        exact ⟨h.lim, h.enf, h.names, es, d2, hh, href, hp⟩
      · simp only [QueuesSpec.specStep, hg, Bool.false_eq_true, if_false]; rfl

theorem step_other {s : Queues.St} {m : Map} {B : Int} (h : QInv s m B) {op : Limiter.Op Key} (hv : LimSpec.ValidOp op) (ho : OffRule s.rule op)
    (hB : B + amount op < 2 ^ 63) :
    ∃ s' o, Queues.step s (.other op) = some (s', o) ∧ QInv s' m (B + amount op) ∧ QueuesSpec.Same o .ok ∧ s'.rule = s.rule := by
  obtain ⟨st', out, e1, e2, e3, e4⟩ := sim_step h.lim hv hB
  refine ⟨{ s with lim := st' }, .ok, by simp only [Queues.step, e1, Option.map_some], ?_, rfl, rfl⟩
  obtain ⟨r, hr, hid, hk, hz, he⟩ := h.enf
  obtain ⟨r', h1, h2, h3, hz', h4⟩ := offRule_keeps ho hr hid
  exact ⟨e2, ⟨r', by show r' ∈ (Limiter.abs st').rules; rw [e3]; exact h1, h2, by rw [h3, hk], by rw [hz', hz], by rw [h4]; exact he⟩, h.names, h.tree⟩

theorem step_spec {s : Queues.St} {m : Map} {B : Int} (h : QInv s m B) {r : Req} (hv : ValidReq s.rule r) (hs : Safe m r) (hB : B + reqAmount r < 2 ^ 63) :
    ∃ s' o, Queues.step s r = some (s', o) ∧ QInv s' (QueuesSpec.specStep m r).1 (B + reqAmount r) ∧ QueuesSpec.Same o (QueuesSpec.specStep m r).2 ∧ s'.rule = s.rule := by
  cases r with
  | create n l up => rw [show B + reqAmount (.create n l up) = B from Int.add_zero B]; exact step_create h hv hs
  | get n => rw [show B + reqAmount (.get n) = B from Int.add_zero B]; exact step_get h n
  | list => rw [show B + reqAmount .list = B from Int.add_zero B]; exact step_list h
  | update n l upQ up => rw [show B + reqAmount (.update n l upQ up) = B from Int.add_zero B]; exact step_update h hv hs
  | delete n upQ up => rw [show B + reqAmount (.delete n upQ up) = B from Int.add_zero B]; exact step_delete h hs
  | other op => exact step_other h hv.1 hv.2 hB

theorem reqAmount_nonneg (r : Req) : 0 ≤ reqAmount r := by
  cases r <;> first | exact Int.le_refl 0 | exact amount_nonneg _

theorem reqsAmount_nonneg : ∀ rs, 0 ≤ reqsAmount rs
  | [] => Int.le_refl 0
  | r :: rs => by
    have := reqAmount_nonneg r
    have := reqsAmount_nonneg rs
    simp only [reqsAmount, List.map_cons, List.sum_cons] at *
    omega

theorem run_spec : ∀ {rs : List Req} {s : Queues.St} {m : Map} {B : Int}, QInv s m B → (∀ r ∈ rs, ValidReq s.rule r) → SafeRun m rs → B + reqsAmount rs < 2 ^ 63 →
    ∃ s' os, Queues.run s rs = some (s', os) ∧ QInv s' (QueuesSpec.specRun m rs).1 (B + reqsAmount rs) ∧
      List.Forall₂ QueuesSpec.Same os (QueuesSpec.specRun m rs).2 ∧ s'.rule = s.rule
  | [], s, m, B, h, _, _, _ => ⟨s, [], rfl, by simpa [reqsAmount, QueuesSpec.specRun] using h, .nil, rfl⟩
  | r :: rs, s, m, B, h, hv, hs, hB => by
    have e : reqsAmount (r :: rs) = reqAmount r + reqsAmount rs := by simp [reqsAmount]
    have := reqsAmount_nonneg rs
    obtain ⟨s1, o, a1, a2, a3, a4⟩ := step_spec h (hv r (by simp)) hs.1 (by omega)
    obtain ⟨s2, os, b1, b2, b3, b4⟩ := run_spec a2 (fun x hx => by rw [a4]; exact hv x (List.mem_cons_of_mem _ hx)) hs.2 (by omega)
    refine ⟨s2, o :: os, by simp only [Queues.run, a1, b1], ?_, .cons a3 b3, by rw [b4, a4]⟩
    rw [e, ← Int.add_assoc]; exact b2

/-- willow starts unless its rule exists. -/
theorem start_spec {lim : State Key} {B : Int} (h : LInv lim B) :
    (∃ r ∈ (Limiter.abs lim).rules, sameKVs ruleKVs r.kvs = true) ∧ start lim = none ∨
    (∀ r ∈ (Limiter.abs lim).rules, sameKVs ruleKVs r.kvs = false) ∧ ∃ s, start lim = some s ∧ QInv s [] B := by
  obtain ⟨st', out, e1, e2, e3, e4⟩ := sim_createRule h (kvs := ruleKVs) ⟨by simp [ruleKVs], by decide⟩ (l := 0) ⟨by decide, by decide⟩
  have e1' : Limiter.createRule lim ruleKVs 0 = some (st', out) := e1
  have hnew : BTree.newTree Key Nat 2 = some ⟨2, none⟩ := rfl
  by_cases hc : (Limiter.abs lim).rules.any (fun r => sameKVs ruleKVs r.kvs) = true
  · left
    refine ⟨by simpa [List.any_eq_true] using hc, ?_⟩
    simp only [LimSpec.specStep, hc, if_true] at e4
    have : out = .conflict := by cases out <;> first | exact e4 | cases e4
    subst this
    simp only [start, hnew, e1']
  · right
    have hc : (Limiter.abs lim).rules.any (fun r => sameKVs ruleKVs r.kvs) = false := by simpa using hc
    refine ⟨fun r hr => by have := List.any_eq_false.1 hc r hr; simpa using this, ?_⟩
    simp only [LimSpec.specStep, hc, Bool.false_eq_true, if_false] at e3 e4
    have : out = .created (Limiter.abs lim).nextId := by cases out <;> first | exact e4 | cases e4
    subst this
    refine ⟨⟨⟨2, none⟩, [], st', (Limiter.abs lim).nextId⟩, by simp only [start, hnew, e1'], ?_⟩
    refine ⟨by simpa [amount] using e2, ?_, by simp, [], ⟨Nat.le_refl 2, by simp [Sorted], rfl⟩, by simp, by simp, by simp⟩
    refine ⟨_, by show _ ∈ (Limiter.abs st').rules; rw [e3]; exact List.mem_append.2 (.inr (List.mem_singleton.2 rfl)), rfl, rfl, rfl, ?_⟩
    intro kvs l; simp

end Willow.Queues
