import Verif.Spec.Queue
import Verif.Proofs.LimiterTotals
import Verif.Proofs.DataTypes
/- The key-values of the counters of channels. -/
namespace Willow.Queue
open Willow Willow.Assoc Willow.Spec Willow.Limiter Willow.LimSpec Willow.QueueSpec

theorem same_vString {a b : GoString} (h : same (vString a) (vString b) = true) : a = b := by
  have e : ∀ x y : GoString, KeyOps.lt (vString x) (vString y) = strLt x y := by
    intro x y
    have h13 : DataType.lessMatchType 13 13 = false := by decide
    simp only [KeyOps.lt, vString, EncapsulatedValue.lessMatchType, DataType.string, h13, Bool.false_eq_true, if_false]
    have : ∀ o : Bool, (some o == some true) = o := by decide
    simp [EncapsulatedValue.lessValueMatchType, DataType.uint, DataType.uint8, DataType.uint16, DataType.uint32, DataType.uint64, DataType.int,
      DataType.int8, DataType.int16, DataType.int32, DataType.int64, DataType.float32, DataType.float64, DataType.string, this]
  unfold same at h
  rw [e, e] at h
  simp only [Bool.and_eq_true, Bool.not_eq_true'] at h
  exact strLt_total h.1 h.2

theorem valueOf_cons (k : GoString) (v : Key) (l : KVs Key) (x : GoString) : valueOf ((k, v) :: l) x = if k = x then some v else valueOf l x := by
  unfold valueOf
  rw [List.find?_cons]
  by_cases h : k = x
  · simp [h]
  · have : (k == x) = false := by simpa using h
    simp [h, this]

theorem valueOf_none {l : KVs Key} {x : GoString} : valueOf l x = none ↔ x ∉ l.map (·.1) := by
  unfold valueOf
  simp only [Option.map_eq_none_iff, List.find?_eq_none]
  constructor
  · intro h hm
    obtain ⟨kv, h1, h2⟩ := List.mem_map.1 hm
    exact h kv h1 (by simp [h2])
  · intro h kv hm e
    exact h (List.mem_map.2 ⟨kv, hm, by simpa using e⟩)

theorem valueOf_append (a b : KVs Key) (x : GoString) : valueOf (a ++ b) x = (valueOf a x).or (valueOf b x) := by
  induction a with
  | nil => simp [valueOf]
  | cons kv a ih =>
    obtain ⟨k, v⟩ := kv
    rw [List.cons_append, valueOf_cons, valueOf_cons, ih]
    split <;> simp

theorem overwrite_disjoint {m new : KVs Key} (h : ∀ k ∈ m.map (·.1), k ∉ new.map (·.1)) : overwrite m new = m ++ new := by
  unfold overwrite
  congr 1
  rw [List.filter_eq_self]
  intro kv hm
  simp only [Bool.not_eq_true', List.any_eq_false]
  intro n hn e
  exact h kv.1 (List.mem_map.2 ⟨kv, hm, rfl⟩) (List.mem_map.2 ⟨n, hn, by simpa using e⟩)

theorem overwrite_keys (m new : KVs Key) (x : GoString) : x ∈ (overwrite m new).map (·.1) ↔ x ∈ m.map (·.1) ∨ x ∈ new.map (·.1) := by
  unfold overwrite
  simp only [List.map_append, List.mem_append]
  constructor
  · rintro (h | h)
    · obtain ⟨kv, h1, h2⟩ := List.mem_map.1 h
      exact .inl (List.mem_map.2 ⟨kv, (List.mem_filter.1 h1).1, h2⟩)
    · exact .inr h
  · rintro (h | h)
    · by_cases hn : x ∈ new.map (·.1)
      · exact .inr hn
      · obtain ⟨kv, h1, rfl⟩ := List.mem_map.1 h
        refine .inl (List.mem_map.2 ⟨kv, List.mem_filter.2 ⟨h1, ?_⟩, rfl⟩)
        simp only [Bool.not_eq_true', List.any_eq_false]
        intro n hm e
        exact hn (List.mem_map.2 ⟨n, hm, by simpa using e⟩)
    · exact .inr h

theorem overwrite_valid {m new : KVs Key} (hm : (m.map (·.1)).Nodup) (hn : ValidKVs new) : ValidKVs (overwrite m new) := by
  refine ⟨fun e => hn.1 (List.append_eq_nil_iff.1 e).2, ?_⟩
  unfold overwrite
  rw [List.map_append, List.nodup_append]
  refine ⟨hm.sublist (List.filter_sublist.map _), hn.2, ?_⟩
  intro a ha b hb e
  subst e
  obtain ⟨kv, h1, h2⟩ := List.mem_map.1 ha
  have := (List.mem_filter.1 h1).2
  simp only [Bool.not_eq_true', List.any_eq_false] at this
  obtain ⟨n, h3, h4⟩ := List.mem_map.1 hb
  exact this n h3 (by simp [h2, h4])

theorem overwrite_typed {m new : KVs Key} (hm : Typed m) (hn : Typed new) : Typed (overwrite m new) := by
  intro kv h
  rcases List.mem_append.1 h with h | h
  · exact hm kv (List.mem_filter.1 h).1
  · exact hn kv h

/-- Two maps made of a common set of keys and of other keys. -/
theorem sameKVs_split {m1 m2 n1 n2 : KVs Key} (hk : m1.map (·.1) = m2.map (·.1)) (h1 : ValidKVs (m1 ++ n1)) (h2 : ValidKVs (m2 ++ n2))
    (h : sameKVs (m1 ++ n1) (m2 ++ n2) = true) :
    sameKVs n1 n2 = true ∧ ∀ x v, (x, v) ∈ m1 → ∃ w, (x, w) ∈ m2 ∧ same v w = true := by
  have hlen : m1.length = m2.length := by simpa using congrArg List.length hk
  have d1 := h1.2
  have d2 := h2.2
  rw [List.map_append, List.nodup_append] at d1 d2
  unfold sameKVs at h ⊢
  simp only [Bool.and_eq_true, beq_iff_eq, List.length_append, List.all_eq_true, List.any_eq_true] at h ⊢
  refine ⟨⟨by omega, ?_⟩, ?_⟩
  · intro x hx
    obtain ⟨y, hy, e⟩ := h.2 x (by simp [hx])
    rcases List.mem_append.1 hy with hy | hy
    · exfalso
      have : y.1 ∈ m1.map (·.1) := by rw [hk]; exact List.mem_map.2 ⟨y, hy, rfl⟩
      exact d1.2.2 _ this _ (List.mem_map.2 ⟨x, hx, rfl⟩) e.1.symm
    · exact ⟨y, hy, e⟩
  · intro x v hx
    obtain ⟨y, hy, e⟩ := h.2 (x, v) (by simp [hx])
    rcases List.mem_append.1 hy with hy | hy
    · obtain ⟨y1, y2⟩ := y
      simp only at e
      obtain ⟨e1, e2⟩ := e
      subst e1
      exact ⟨y2, hy, e2⟩
    · exfalso
      have : x ∈ m2.map (·.1) := by rw [← hk]; exact List.mem_map.2 ⟨(x, v), hx, rfl⟩
      exact d2.2.2 _ this _ (List.mem_map.2 ⟨y, hy, rfl⟩) e.1

/-- The key-values of a channel with the prefix. -/
def prefixed (kvs : KVs Key) : KVs Key := kvs.map (fun kv => (pre ++ kv.1, kv.2))

theorem prefixed_keys (kvs : KVs Key) (x : GoString) : pre ++ x ∈ (prefixed kvs).map (·.1) ↔ x ∈ kvs.map (·.1) := by
  unfold prefixed
  simp only [List.map_map, List.mem_map, Function.comp]
  constructor
  · rintro ⟨kv, h, e⟩; exact ⟨kv, h, List.append_cancel_left e⟩
  · rintro ⟨kv, h, rfl⟩; exact ⟨kv, h, rfl⟩

theorem prefixed_valid {kvs : KVs Key} (h : ValidKVs kvs) : ValidKVs (prefixed kvs) := by
  refine ⟨fun e => h.1 (List.map_eq_nil_iff.1 e), ?_⟩
  have e : (prefixed kvs).map (·.1) = (kvs.map (·.1)).map (pre ++ ·) := by simp [prefixed, Function.comp_def]
  rw [e]
  have := h.2
  rw [List.Nodup, List.pairwise_map]
  exact this.imp (fun hne e => hne (List.append_cancel_left e))

theorem prefixed_typed {kvs : KVs Key} (h : Typed kvs) : Typed (prefixed kvs) := by
  intro kv hm
  obtain ⟨x, h1, rfl⟩ := List.mem_map.1 hm
  exact h x h1

theorem sameKVs_prefixed (a b : KVs Key) : sameKVs (prefixed a) (prefixed b) = sameKVs a b := by
  unfold sameKVs prefixed
  simp only [List.length_map, List.all_map, List.any_map, Function.comp_def]
  rfl

theorem vString_typed (s : GoString) : wild (vString s) = false := by
  simp [wild, KeyOps.typ, vString, DataType.string, DataType.any]

theorem base_nodup (s t : GoString) (k : GoString) (h : sQueueName ≠ k) :
    (([(pre ++ sQueueName, vString s), (pre ++ k, vString t)] : KVs Key).map (·.1)).Nodup := by
  simp only [List.map_cons, List.map_nil, List.nodup_cons, List.mem_cons, List.not_mem_nil, or_false, not_false_iff, List.nodup_nil, and_true]
  exact fun e => h (List.append_cancel_left e)

theorem qn_ne_enq : sQueueName ≠ sEnqueued := by decide
theorem qn_ne_run : sQueueName ≠ sRunning := by decide

theorem kvsOf_valid {kvs : KVs Key} (h : ValidKVs kvs) (q : GoString) (κ : Kind) : ValidKVs (kvsOf q kvs κ) := by
  cases κ with
  | enq => exact overwrite_valid (base_nodup _ _ _ qn_ne_enq) (prefixed_valid h)
  | run => exact overwrite_valid (base_nodup _ _ _ qn_ne_run) h

theorem kvsOf_typed {kvs : KVs Key} (h : Typed kvs) (q : GoString) (κ : Kind) : Typed (kvsOf q kvs κ) := by
  have hb : ∀ a b c d, Typed [(a, vString b), (c, vString d)] := by
    intro a b c d kv hm
    simp only [List.mem_cons, List.not_mem_nil, or_false] at hm
    rcases hm with rfl | rfl <;> exact vString_typed _
  cases κ with
  | enq => exact overwrite_typed (hb _ _ _ _) (prefixed_typed h)
  | run => exact overwrite_typed (hb _ _ _ _) h

/-- The counter of stored items always has the key `_willow_enqueued`. -/
theorem enq_has (q : GoString) (kvs : KVs Key) : pre ++ sEnqueued ∈ (enqKVs q kvs).map (·.1) := by
  unfold enqKVs; rw [overwrite_keys]; exact .inl (by simp)

/-- The counter of items being processed always has the key `_willow_running`. -/
theorem run_has (q : GoString) (kvs : KVs Key) : pre ++ sRunning ∈ (runKVs q kvs).map (·.1) := by
  unfold runKVs; rw [overwrite_keys]; exact .inl (by simp)

theorem run_not {q : GoString} {kvs : KVs Key} (h : pre ++ sEnqueued ∉ kvs.map (·.1)) : pre ++ sEnqueued ∉ (runKVs q kvs).map (·.1) := by
  unfold runKVs
  rw [overwrite_keys]
  rintro (h1 | h1)
  · simp only [List.map_cons, List.map_nil, List.mem_cons, List.not_mem_nil, or_false] at h1
    revert h1; decide
  · exact h h1

/-- Maps of which one has a key that the other has not. -/
theorem sameKVs_key {a b : KVs Key} (ha : ValidKVs a) (hb : ValidKVs b) {k : GoString} (h1 : k ∉ a.map (·.1)) (h2 : k ∈ b.map (·.1)) : sameKVs a b = false := by
  cases h : sameKVs a b with
  | false => rfl
  | true =>
    rcases sameKVs_valueOf ha hb h k with ⟨_, e⟩ | ⟨v, w, e, _, _⟩
    · exact absurd h2 (valueOf_none.1 e)
    · exact absurd (List.mem_map.2 ⟨_, valueOf_mem e, rfl⟩) h1

theorem sameKVs_key' {a b : KVs Key} (ha : ValidKVs a) (hb : ValidKVs b) {k : GoString} (h1 : k ∈ a.map (·.1)) (h2 : k ∉ b.map (·.1)) : sameKVs a b = false := by
  cases h : sameKVs a b with
  | false => rfl
  | true => have := sameKVs_key hb ha h2 h1; rw [sameKVs_symm ha hb h] at this; cases this

/-! ### Good channels -/

theorem good_not {bad : List GoString} {kvs : KVs Key} (h : GoodKeys bad kvs) {k : GoString} (hk : k ∈ bad) : k ∉ kvs.map (·.1) := by
  intro hm
  obtain ⟨kv, h1, rfl⟩ := List.mem_map.1 hm
  exact h.2.2 kv h1 hk

theorem enqKVs_eq {q : GoString} {kvs : KVs Key} (h : GoodKeys badEnq kvs) : enqKVs q kvs = overrideKVs q ++ prefixed kvs := by
  unfold enqKVs
  refine overwrite_disjoint (m := overrideKVs q) ?_
  intro k hk hm
  simp only [overrideKVs, List.map_cons, List.map_nil, List.mem_cons, List.not_mem_nil, or_false] at hk
  rcases hk with rfl | rfl
  · exact good_not h (k := sQueueName) (by simp [badEnq]) ((prefixed_keys _ _).1 hm)
  · exact good_not h (k := sEnqueued) (by simp [badEnq]) ((prefixed_keys _ _).1 hm)

theorem runKVs_eq {q : GoString} {kvs : KVs Key} (h : GoodKeys badRun kvs) :
    runKVs q kvs = [(pre ++ sQueueName, vString q), (pre ++ sRunning, vString sTrue)] ++ kvs := by
  unfold runKVs
  refine overwrite_disjoint ?_
  intro k hk hm
  simp only [List.map_cons, List.map_nil, List.mem_cons, List.not_mem_nil, or_false] at hk
  rcases hk with rfl | rfl
  · exact good_not h (by simp [badRun]) hm
  · exact good_not h (by simp [badRun]) hm

/-- What the proofs need to know about a kind of counters. -/
structure Setting (κ : Kind) (bad : List GoString) (key : GoString) : Prop where
  sep : ∀ {a b : KVs Key} {q q' : GoString}, GoodKeys bad a → GoodKeys bad b → sameKVs (kvsOf q a κ) (kvsOf q' b κ) = true → q = q' ∧ sameKVs a b = true
  cross : ∀ {a b : KVs Key} {q q' : GoString} {κ' : Kind}, GoodKeys bad a → GoodKeys bad b → κ' ≠ κ → sameKVs (kvsOf q a κ') (kvsOf q' b κ) = false
  has : ∀ (q : GoString) (a : KVs Key), key ∈ (kvsOf q a κ).map (·.1)

theorem setting_enq : Setting .enq badEnq (pre ++ sEnqueued) where
  sep := by
    intro a b q q' ha hb h
    have va := kvsOf_valid ha.1 q .enq
    have vb := kvsOf_valid hb.1 q' .enq
    simp only [kvsOf] at h va vb
    rw [enqKVs_eq ha] at h va
    rw [enqKVs_eq hb] at h vb
    obtain ⟨h1, h2⟩ := sameKVs_split (by simp [overrideKVs]) va vb h
    rw [sameKVs_prefixed] at h1
    obtain ⟨w, hw, e⟩ := h2 (pre ++ sQueueName) (vString q) (by simp [overrideKVs])
    refine ⟨?_, h1⟩
    simp only [overrideKVs, List.mem_cons, List.not_mem_nil, or_false, Prod.mk.injEq] at hw
    rcases hw with ⟨_, rfl⟩ | ⟨e', _⟩
    · exact same_vString e
    · exact absurd (List.append_cancel_left e') qn_ne_enq
  cross := by
    intro a b q q' κ' ha hb hne
    cases κ' with
    | enq => exact absurd rfl hne
    | run => exact sameKVs_key (kvsOf_valid ha.1 _ _) (kvsOf_valid hb.1 _ _) (run_not (good_not ha (by simp [badEnq]))) (enq_has _ _)
  has := enq_has

theorem setting_run : Setting .run badRun (pre ++ sRunning) where
  sep := by
    intro a b q q' ha hb h
    have va := kvsOf_valid ha.1 q .run
    have vb := kvsOf_valid hb.1 q' .run
    simp only [kvsOf] at h va vb
    rw [runKVs_eq ha] at h va
    rw [runKVs_eq hb] at h vb
    obtain ⟨h1, h2⟩ := sameKVs_split (by simp) va vb h
    obtain ⟨w, hw, e⟩ := h2 (pre ++ sQueueName) (vString q) (by simp)
    refine ⟨?_, h1⟩
    simp only [List.mem_cons, List.not_mem_nil, or_false, Prod.mk.injEq] at hw
    rcases hw with ⟨_, rfl⟩ | ⟨e', _⟩
    · exact same_vString e
    · exact absurd (List.append_cancel_left e') qn_ne_run
  cross := by
    intro a b q q' κ' ha hb hne
    cases κ' with
    | run => exact absurd rfl hne
    | enq => exact sameKVs_key' (kvsOf_valid ha.1 _ _) (kvsOf_valid hb.1 _ _) (enq_has _ _) (run_not (good_not hb (by simp [badRun])))
  has := run_has

end Willow.Queue
