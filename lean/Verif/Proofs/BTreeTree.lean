import Verif.Proofs.BTreeDelete
import Verif.Proofs.DataTypes
import Verif.Spec.BTree
set_option linter.unusedSectionVars false
set_option linter.unusedSimpArgs false
set_option linter.unusedVariables false
/-! The whole tree refines the abstract map. -/
namespace Willow.BTree
open KeyOps LawfulKey Spec

theorem wf_iff_balanced {K V : Type} {n h : Nat} {t : Node K V} : WF n h t ↔ Balanced n h t := by
  induction h generalizing t with
  | zero => exact Iff.rfl
  | succ h ih =>
    simp only [WF, Balanced]
    constructor
    · rintro ⟨a, b, c⟩; exact ⟨a, b, fun d hd => ⟨ih.1 (c d hd).1, (c d hd).2⟩⟩
    · rintro ⟨a, b, c⟩; exact ⟨a, b, fun d hd => ⟨ih.2 (c d hd).1, (c d hd).2⟩⟩

/-- Contents of a well-formed node are its in-order items. -/
theorem contents_perm {K V : Type} {n : Nat} : ∀ {h : Nat} {t : Node K V}, WF n h t → (nodeContents t).Perm (flat h t)
  | 0, .mk kvs cs, w => by
    have : cs = [] := w.1
    subst this
    simp [nodeContents, listContents, flat]
  | h + 1, .mk kvs cs, w => by
    simp only [nodeContents, flat, Node.kvs_mk, Node.children_mk]
    refine List.Perm.trans ?_ (interleave_perm _ _).symm
    refine List.Perm.append_left kvs ?_
    have hw : ∀ c ∈ cs, WF n h c := fun c hc => (w.2.2 c hc).1
    clear w
    induction cs with
    | nil => simp [listContents]
    | cons c cs ih =>
      simp only [listContents, List.map_cons, List.flatten_cons]
      exact (contents_perm (hw c (by simp))).append (ih (fun d hd => hw d (by simp [hd])))

/-- Keys are lawful. -/
instance : LawfulKey Key where
  irrefl a := by
    have := lessMatchType_eq a.2.1 a.2.1 a.2.2 a.2.2
    simp [lt, this, rankLt_irrefl]
  trans {a b c} h1 h2 := by
    simp only [lt, beq_iff_eq] at *
    rw [lessMatchType_eq a.2.1 b.2.1 a.2.2 b.2.2] at h1
    rw [lessMatchType_eq b.2.1 c.2.1 b.2.2 c.2.2] at h2
    rw [lessMatchType_eq a.2.1 c.2.1 a.2.2 c.2.2]
    simp at *
    exact rankLt_trans h1 h2
  weak {a b} c h := by
    simp only [lt, beq_iff_eq] at *
    rw [lessMatchType_eq a.2.1 b.2.1 a.2.2 b.2.2] at h
    rw [lessMatchType_eq a.2.1 c.2.1 a.2.2 c.2.2, lessMatchType_eq c.2.1 b.2.1 c.2.2 b.2.2]
    simp at *
    exact rankLt_weak h
  typ_lt {a b} h := by
    simp only [lt, beq_iff_eq]
    simp only [typ] at h
    simp [EncapsulatedValue.lessMatchType, DataType.lessMatchType, h]
  lt_typ {a b} h := by
    simp only [lt, beq_iff_eq, typ] at *
    simp only [EncapsulatedValue.lessMatchType, DataType.lessMatchType] at h
    by_cases h1 : a.1.type < b.1.type
    · omega
    · by_cases h2 : b.1.type < a.1.type
      · simp [h1, h2] at h
      · omega
  typ_any := rfl
  typ_le a := by
    have := a.2.1
    simp only [typ]
    obtain ⟨⟨t, d⟩, h, _⟩ := a
    simp only [WellFormed] at h
    have : t ≤ 1024 := by cases d <;> simp [codeOf] at h <;> omega
    simpa [DataType.any, any] using this
  any_top {a b} h := by
    simp only [lt, beq_iff_eq, typ] at *
    intro ht
    have hb : b.1.type ≤ DataType.any := by
      obtain ⟨⟨t, d⟩, h', _⟩ := b
      simp only [WellFormed] at h'
      have : t ≤ 1024 := by cases d <;> simp [codeOf] at h' <;> omega
      simpa [DataType.any] using this
    simp only [EncapsulatedValue.lessMatchType, DataType.lessMatchType] at h
    by_cases h1 : a.1.type < b.1.type
    · omega
    · by_cases h2 : b.1.type < a.1.type
      · simp [h1, h2] at h
      · have hbe : b.1.type = DataType.any := by omega
        simp [h1, h2, hbe, EncapsulatedValue.lessValueMatchType, ht, DataType.any, DataType.uint8, DataType.uint16, DataType.uint32, DataType.uint64,
          DataType.uint, DataType.int8, DataType.int16, DataType.int32, DataType.int64, DataType.int, DataType.float32,
          DataType.float64, DataType.string] at h
  less_eq {a b} ha hb := by
    simp only [lt, less, typ] at *
    simp [EncapsulatedValue.less, EncapsulatedValue.lessMatchType, DataType.less, DataType.lessMatchType,
      EncapsulatedValue.lessValue, ha, hb]
  less_any {a b} h := by
    simp only [less, typ] at *
    rcases h with h | h <;>
      simp [EncapsulatedValue.less, DataType.less, EncapsulatedValue.lessValue, h]
  typ_valid a := by
    obtain ⟨⟨t, d⟩, h, _⟩ := a
    simp only [WellFormed] at h
    simp only [typ]
    cases d <;> simp [codeOf] at h <;> subst h <;> simp [DataType.isGeneral, DataType.any, DataType.uint8, DataType.uint16, DataType.uint32, DataType.uint64,
          DataType.uint, DataType.int8, DataType.int16, DataType.int32, DataType.int64, DataType.int, DataType.float32,
          DataType.float64, DataType.string]
  any_unique {a} ht := by
    obtain ⟨⟨t, d⟩, h, _⟩ := a
    simp only [WellFormed] at h
    simp only [typ] at ht
    subst ht
    cases d <;> simp [codeOf, DataType.any] at h
    rfl

variable {K V : Type} [LawfulKey K]

theorem keq_eq_same (a b : K) : keq a b = same a b := rfl

/-- The invariant of a tree together with its in-order items. -/
def Rep (b : Tree K V) (l : List (K × V)) : Prop :=
  2 ≤ b.nodeSize ∧ Sorted l ∧
  match b.root with
  | none => l = []
  | some r => ∃ h, WF b.nodeSize h r ∧ flat h r = l ∧ 1 ≤ r.count

/-- The same without the demand that the root holds a value (an empty root leaf appears after a failed create). -/
def RepW (b : Tree K V) (l : List (K × V)) : Prop :=
  2 ≤ b.nodeSize ∧ Sorted l ∧
  match b.root with
  | none => l = []
  | some r => ∃ h, WF b.nodeSize h r ∧ flat h r = l ∧ (h ≠ 0 → 1 ≤ r.count)

theorem Rep.weak {b : Tree K V} {l} (h : Rep b l) : RepW b l := by
  obtain ⟨h1, h2, h3⟩ := h
  refine ⟨h1, h2, ?_⟩
  cases hr : b.root with
  | none => simp only [hr] at h3 ⊢; exact h3
  | some r =>
    simp only [hr] at h3 ⊢
    obtain ⟨h, a, b, c⟩ := h3
    exact ⟨h, a, b, fun _ => c⟩

theorem RepW.contents_perm {b : Tree K V} {l} (h : RepW b l) : (contents b).Perm l := by
  obtain ⟨h1, h2, h3⟩ := h
  cases hr : b.root with
  | none => simp only [hr] at h3; simp [contents, hr, h3]
  | some r =>
    simp only [hr] at h3
    obtain ⟨h, a, b, c⟩ := h3
    simp only [contents, hr]
    rw [← b]
    exact BTree.contents_perm a

theorem rep_new {n : Nat} {b : Tree K V} (h : newTree K V n = some b) : Rep b [] := by
  simp only [newTree] at h
  split at h
  · cases h
  · injection h with h; subst h
    exact ⟨by simp; omega, List.Pairwise.nil, rfl⟩

theorem flat_ne_nil {h : Nat} {t : Node K V} (hc : 1 ≤ t.count) : flat h t ≠ [] := by
  obtain ⟨x, hx⟩ := List.exists_mem_of_length_pos (show 0 < t.kvs.length from hc)
  exact List.ne_nil_of_mem (first_mem_flat (h := h) hx)

theorem tree_create_spec {b : Tree K V} {l} (hr : RepW b l) (key : K) (v : V) :
    ∃ b' o, b.create key (some v) = some (b', o) ∧
      match o with
      | .found kv => lookupL key l = some kv ∧ b' = b
      | .created => lookupL key l = none ∧ Rep b' (insertL key v l) := by
  obtain ⟨hn, hs, h3⟩ := hr
  simp only [Tree.create]
  have base : ∀ (r : Node K V) (h : Nat), WF b.nodeSize h r → flat h r = l → (h ≠ 0 → 1 ≤ r.count) →
      (∀ kv, lookupL key l = some kv → b.root = some r) →
      ∃ b' o, (match create b.nodeSize key (some v) (r.depth + 1) r with
        | none => none
        | some (.found kv) => some ({ b with root := some r }, CreateOut.found kv)
        | some (.done t) => some ({ b with root := some t }, CreateOut.created)
        | some (.split kv l rt) => some ({ b with root := some (.mk [kv] [l, rt]) }, CreateOut.created)) = some (b', o) ∧
      match o with
      | .found kv => lookupL key l = some kv ∧ b' = b
      | .created => lookupL key l = none ∧ Rep b' (insertL key v l) := by
    intro r h hw hf hc hroot
    obtain ⟨res, c1, c2⟩ := create_spec hn key v h (r.depth + 1) r hw (by rw [hf]; exact hs) (by rw [depth_of_WF hw]; omega)
    rw [c1]
    cases res with
    | found kv =>
      simp only [CreateSpec, hf] at c2
      refine ⟨_, _, rfl, c2, ?_⟩
      rw [← hroot kv c2]
    | done t =>
      obtain ⟨d1, d2, d3, d4⟩ := c2
      rw [hf] at d1 d3
      refine ⟨_, _, rfl, d1, hn, sorted_insertL hs d1, h, d2, d3, ?_⟩
      have hne : flat h t ≠ [] := by
        rw [d3]; exact List.ne_nil_of_mem (mem_insertL.2 (.inl rfl))
      cases h with
      | zero =>
        simp only [flat] at hne
        exact List.length_pos_iff.2 hne
      | succ h =>
        have := hc (by omega)
        omega
    | split kv lt rt =>
      obtain ⟨d1, d2, d3, d4, d5, d6⟩ := c2
      rw [hf] at d1 d6
      refine ⟨_, _, rfl, d1, hn, sorted_insertL hs d1, h + 1, ?_, ?_, by simp⟩
      · rw [wf_mk_succ]
        refine ⟨by simp, by simp; omega, ?_⟩
        intro c hc
        simp at hc
        rcases hc with rfl | rfl
        · exact ⟨d2, d4⟩
        · exact ⟨d3, d5⟩
      · simp only [flat_mk_succ, List.map_cons, List.map_nil, interleave, d6]
        simpa using d6
  cases hroot : b.root with
  | none =>
    simp only [hroot] at h3
    subst h3
    exact base (.mk [] []) 0 ⟨rfl, by simp⟩ rfl (by simp) (by intro kv h; simp [lookupL] at h)
  | some r =>
    simp only [hroot] at h3
    obtain ⟨h, a, c, d⟩ := h3
    have := base r h a c d (fun _ _ => hroot)
    exact this

theorem findMatchType_spec {n : Nat} (key : K) :
    ∀ (h fuel : Nat) (t : Node K V), WF n h t → Sorted (flat h t) → h < fuel →
      findMatchType key fuel t = some (lookupL key (flat h t)) := by
  intro h
  induction h with
  | zero =>
    intro fuel t w hs hf
    obtain ⟨fuel, rfl⟩ : ∃ f, fuel = f + 1 := ⟨fuel - 1, by omega⟩
    simp only [findMatchType]
    cases hh : hit key t.kvs with
    | some kv => simp only [lookup_hit w hs hh]
    | none =>
      simp only [isLeaf_zero w, if_true]
      have := lookup_leaf_none hs hh
      exact (congrArg some this).symm
  | succ h ih =>
    intro fuel t w hs hf
    obtain ⟨fuel, rfl⟩ : ∃ f, fuel = f + 1 := ⟨fuel - 1, by omega⟩
    simp only [findMatchType]
    cases hh : hit key t.kvs with
    | some kv => simp only [lookup_hit w hs hh]
    | none =>
      have hlook := fun c hc => lookup_descend w hs hh (c := c) hc
      obtain ⟨ks1, ks2, cs1, c, cs2, e1, e2, e3, e4, e5, e6, e7, e8, e9, e10, e11, e12, e13⟩ := descend w hs hh
      simp only [isLeaf_succ w, e5]
      simp only [Bool.false_eq_true, if_false]
      rw [ih fuel c e6 e13 (by omega), hlook c e5]

theorem tree_lookup_spec {b : Tree K V} {l} (hr : RepW b l) (key : K) : b.lookup key = some (lookupL key l) := by
  obtain ⟨hn, hs, h3⟩ := hr
  simp only [Tree.lookup]
  cases hroot : b.root with
  | none => simp only [hroot] at h3; subst h3; rfl
  | some r =>
    simp only [hroot] at h3
    obtain ⟨h, a, c, d⟩ := h3
    simp only []
    rw [findMatchType_spec key h _ r a (by rw [c]; exact hs) (by rw [depth_of_WF a]; omega), c]

theorem tree_createOrFind_spec {b : Tree K V} {l} (hr : RepW b l) (key : K) (v : V) :
    ∃ b' o, b.createOrFind key (some v) = some (b', o) ∧
      match o with
      | .found kv => lookupL key l = some kv ∧ b' = b
      | .created => lookupL key l = none ∧ Rep b' (insertL key v l) := by
  simp only [Tree.createOrFind, tree_lookup_spec hr]
  cases hl : lookupL key l with
  | some kv => exact ⟨_, _, rfl, rfl, rfl⟩
  | none => have := tree_create_spec hr key v; rw [hl] at this; exact this

/-- What is left after a delete. -/
def afterDelete (key : K) (can : K × V → Bool) (l : List (K × V)) : List (K × V) :=
  match lookupL key l with
  | some kv => if can kv then eraseL key l else l
  | none => l

/-- The root replacement done by delete and destroy. -/
def newRoot (b : Tree K V) (res : RemoveRes K V) : Tree K V :=
  if res.under && res.node.count == 0 then { b with root := res.node.children[0]? }
  else { b with root := some res.node }

theorem root_remove_spec {b : Tree K V} {l} (hs : Sorted l) (hn : 2 ≤ b.nodeSize) {r : Node K V} {h : Nat} (hw : WF b.nodeSize h r)
    (hf : flat h r = l) (hc : h ≠ 0 → 1 ≤ r.count) (key : K) (can : K × V → Bool) :
    ∃ res, remove b.nodeSize key can (r.depth + 1) r = some res ∧ res.asked = lookupL key l ∧
      RepW (newRoot b res) (afterDelete key can l) ∧ (1 ≤ r.count → Rep (newRoot b res) (afterDelete key can l)) := by
  obtain ⟨res, r1, r2, r3, r4, r5⟩ := remove_spec hn key can h (r.depth + 1) r hw (by rw [hf]; exact hs) hc (by rw [depth_of_WF hw]; omega)
  rw [hf] at r2 r4
  have r4' : flat h res.node = afterDelete key can l := by rw [r4]; rfl
  have hsd : Sorted (afterDelete key can l) := by
    simp only [afterDelete]; split
    · split
      · exact sorted_eraseL hs
      · exact hs
    · exact hs
  refine ⟨res, r1, r2, ?_⟩
  obtain ⟨u1, u2, u3, u4⟩ := r5
  by_cases hz : res.node.count = 0
  · cases hu : res.under with
    | true =>
      simp only [newRoot, hu, hz, Bool.true_and, beq_self_eq_true, if_true]
      cases h with
      | zero =>
        have : res.node.children = [] := r3.1
        have hk : res.node.kvs = [] := List.length_eq_zero_iff.1 hz
        have hl : afterDelete key can l = [] := by rw [← r4']; exact hk
        rw [this, hl]
        exact ⟨⟨hn, List.Pairwise.nil, rfl⟩, fun _ => ⟨hn, List.Pairwise.nil, rfl⟩⟩
      | succ h =>
        have hk : res.node.kvs = [] := List.length_eq_zero_iff.1 hz
        have hl : res.node.children.length = 1 := by rw [r3.1, hk]; rfl
        obtain ⟨c, hcc⟩ := List.length_eq_one_iff.1 hl
        have hwc := r3.2.2 c (by rw [hcc]; simp)
        have hfc : flat h c = afterDelete key can l := by
          rw [← r4']
          simp only [flat, hcc, hk, List.map_cons, List.map_nil, interleave]
          simp
        have hn2 : 1 ≤ c.count := by have := hwc.2; omega
        rw [hcc]
        refine ⟨⟨hn, hsd, h, hwc.1, hfc, fun _ => hn2⟩, fun _ => ⟨hn, hsd, h, hwc.1, hfc, hn2⟩⟩
    | false =>
      have hr0 : r.count = 0 := by
        rcases u4 hu with h' | h' <;> omega
      simp only [newRoot, hu, Bool.false_and]
      refine ⟨⟨hn, hsd, h, r3, r4', ?_⟩, fun h' => by omega⟩
      intro h'; have := hc h'; omega
  · have : (res.under && res.node.count == 0) = false := by simp [hz]
    simp only [newRoot, this]
    refine ⟨⟨hn, hsd, h, r3, r4', fun _ => by omega⟩, fun _ => ⟨hn, hsd, h, r3, r4', by omega⟩⟩

theorem tree_delete_spec {b : Tree K V} {l} (hr : RepW b l) (key : K) (can : K × V → Bool) :
    ∃ b', b.delete key can = some (b', lookupL key l) ∧ RepW b' (afterDelete key can l) ∧ (Rep b l → Rep b' (afterDelete key can l)) := by
  obtain ⟨hn, hs, h3⟩ := hr
  simp only [Tree.delete]
  cases hroot : b.root with
  | none =>
    simp only [hroot] at h3; subst h3
    exact ⟨b, rfl, ⟨hn, hs, by simp [hroot, afterDelete, lookupL]⟩, fun h => h⟩
  | some r =>
    simp only [hroot] at h3
    obtain ⟨h, a, c, d⟩ := h3
    obtain ⟨res, q1, q2, q3, q4⟩ := root_remove_spec hs hn a c d key can
    simp only [q1]
    refine ⟨newRoot b res, ?_, q3, ?_⟩
    · simp only [newRoot]; split <;> simp [q2]
    · rintro ⟨_, _, h3⟩
      simp only [hroot] at h3
      obtain ⟨h', a', c', d'⟩ := h3
      exact q4 d'

/-! ### Histories -/

/-- The abstract map of a sorted item list. -/
def mapOf (l : List (K × V)) : Spec.Map K V := fun k => lookupL k l

theorem mapOf_insertL {key : K} {v : V} {l : List (K × V)} (hn : lookupL key l = none) :
    mapOf (insertL key v l) = (mapOf l).put key v := by
  funext k
  simp only [mapOf, Spec.Map.put, lookupL_insertL hn]
  rfl

theorem mapOf_eraseL {key : K} {l : List (K × V)} : mapOf (eraseL key l) = (mapOf l).del key := by
  funext k
  simp only [mapOf, Spec.Map.del, lookupL_eraseL]
  rfl

end Willow.BTree
