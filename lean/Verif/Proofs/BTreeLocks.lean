import Verif.Proofs.BTreeFind
import Verif.Proofs.BTreeTop
import Verif.Model.BTreeLocks
set_option linter.unusedSectionVars false
set_option linter.unusedSimpArgs false
set_option linter.unusedVariables false
/-! The find operations release the locks they take, with exact exceptions. -/
namespace Willow.BTree
open KeyOps LawfulKey Spec

variable {K V S : Type}

theorem runlock_rlock (x : LockId) (L : Locks) : runlock x (rlock x L) = some L := by
  have : rlock x L x ≠ 0 := by simp [rlock]
  simp only [runlock, this, if_false]
  congr 1; funext y
  simp only [rlock]; split <;> simp

theorem rlock_comm (x y : LockId) (L : Locks) : rlock x (rlock y L) = rlock y (rlock x L) := by
  funext z; simp only [rlock]; split <;> split <;> rfl

theorem runlock_rlock2 (x y : LockId) (L : Locks) : runlock x (rlock y (rlock x L)) = some (rlock y L) := by
  rw [rlock_comm, runlock_rlock]

/-- Lock all the children at the given indices. -/
def rlockAll (path : List Nat) : List Nat → Locks → Locks
  | [], L => L
  | i :: is, L => rlock (some (path ++ [i])) (rlockAll path is L)

theorem rlockAll_append (path : List Nat) (a b : List Nat) (L : Locks) : rlockAll path (a ++ b) L = rlockAll path a (rlockAll path b L) := by
  induction a with
  | nil => rfl
  | cons x a ih => simp [rlockAll, ih]

theorem rlockAll_rlock (path : List Nat) (a : List Nat) (x : LockId) (L : Locks) : rlockAll path a (rlock x L) = rlock x (rlockAll path a L) := by
  induction a with
  | nil => rfl
  | cons y a ih => simp only [rlockAll, ih]; exact rlock_comm _ _ _

theorem runlockAll_rlockAll (path : List Nat) (a : List Nat) (L : Locks) : runlockAll path a (rlockAll path a L) = some L := by
  induction a with
  | nil => rfl
  | cons x a ih => simp only [runlockAll, rlockAll, runlock_rlock, ih]

theorem scanLoopL_node (turn : K → Turn) (cb : Callback K V S) (path : List Nat) (L : Locks) (ks : List (K × V)) (i : Nat) (acc : List Nat) (s : S) :
    scanLoopL turn cb false path ks i acc s (rlockAll path acc (rlock (some path) L)) =
      match scanLoop turn cb ks i acc s with
      | .inl (s', acc', j) => some (.inl (s', acc', j, rlockAll path acc' (rlock (some path) L)))
      | .inr s' => some (.inr (s', L)) := by
  have abort : ∀ (acc : List Nat), runlockAll path acc (rlockAll path acc (rlock (some path) L)) = some (rlock (some path) L) :=
    fun acc => runlockAll_rlockAll _ _ _
  have ext : ∀ (i : Nat) (acc : List Nat), rlock (some (path ++ [i])) (rlockAll path acc (rlock (some path) L)) = rlockAll path (acc ++ [i]) (rlock (some path) L) := by
    intro i acc; rw [rlockAll_append]; simp only [rlockAll, rlockAll_rlock]
  induction ks generalizing i acc s with
  | nil => simp [scanLoopL, scanLoop]
  | cons kv ks ih =>
    simp only [scanLoopL, scanLoop]
    cases turn kv.1 with
    | skip => exact ih (i+1) acc s
    | stop => rfl
    | visitWithChild =>
      simp only [Bool.false_eq_true, if_false]
      rcases cb s kv.1 kv.2 with ⟨s', _ | _⟩
      · simp only [ext, abort, runlock_rlock]
      · simp only [ext]; exact ih _ _ _
    | visit =>
      simp only []
      rcases cb s kv.1 kv.2 with ⟨s', _ | _⟩
      · simp only [abort, runlock_rlock]
      · exact ih _ _ _
    | visitAndStop =>
      simp only []
      rcases cb s kv.1 kv.2 with ⟨s', _ | _⟩
      · simp only [abort, runlock_rlock]
      · rfl

theorem scanLoopL_leaf (turn : K → Turn) (cb : Callback K V S) (path : List Nat) (L : Locks) (ks : List (K × V)) (i : Nat) (acc : List Nat) (s : S) :
    match scanLoop turn cb ks i acc s with
    | .inl (s', acc', j) => ∃ j, scanLoopL turn cb true path ks i [] s (rlock (some path) L) = some (.inl (s', [], j, rlock (some path) L))
    | .inr s' => scanLoopL turn cb true path ks i [] s (rlock (some path) L) = some (.inr (s', L)) := by
  induction ks generalizing i acc s with
  | nil => simp [scanLoopL, scanLoop]
  | cons kv ks ih =>
    simp only [scanLoopL, scanLoop]
    cases turn kv.1 with
    | skip => exact ih (i+1) acc s
    | stop => exact ⟨_, rfl⟩
    | visitWithChild =>
      simp only [if_true]
      rcases cb s kv.1 kv.2 with ⟨s', _ | _⟩
      · simp only [runlockAll, runlock_rlock]
      · exact ih _ _ _
    | visit =>
      simp only []
      rcases cb s kv.1 kv.2 with ⟨s', _ | _⟩
      · simp only [runlockAll, runlock_rlock]
      · exact ih _ _ _
    | visitAndStop =>
      simp only []
      rcases cb s kv.1 kv.2 with ⟨s', _ | _⟩
      · simp only [runlockAll, runlock_rlock]
      · exact ⟨_, rfl⟩

theorem visitChildrenL_spec (rest : Nat → List Nat) (path : List Nat)
    (fL : List Nat → Node K V → S → Locks → Option (S × Bool × Locks)) (f : Node K V → S → Option (S × Bool)) (cs : List (Node K V))
    (all : List Nat) (hf : ∀ i ∈ all, ∀ c, cs[i]? = some c → ∀ s L, ∃ s' b, f c s = some (s', b) ∧ fL (path ++ [i]) c s (rlock (some (path ++ [i])) L) = some (s', b, L) ∧
      (b = false → ∀ j, rest j = all.drop (j + 1)))
    (j : Nat) (is : List Nat) (hj : all.drop j = is) (s : S) (L : Locks) :
    visitChildrenL rest path fL cs j is s (rlockAll path is L) = (visitChildren f cs is s).map (fun r => (r.1, r.2, L)) := by
  induction is generalizing j s with
  | nil => rfl
  | cons i is ih =>
    simp only [visitChildrenL, visitChildren]
    cases hc : cs[i]? with
    | none => rfl
    | some c =>
      have hmem : i ∈ all := List.mem_of_mem_drop (i := j) (by rw [hj]; simp)
      obtain ⟨s', b, q1, q2, q3⟩ := hf i hmem c hc s (rlockAll path is L)
      simp only [rlockAll, q2, q1]
      have hj' : all.drop (j + 1) = is := (drop_cons_get hj).2
      cases b with
      | false =>
        simp only [q3 rfl j, hj', runlockAll_rlockAll]; rfl
      | true => exact ih (j+1) hj' s'

theorem scanLoop_noskip {turn : K → Turn} (cb : Callback K V S) (ks : List (K × V)) (hk : ∀ kv ∈ ks, turn kv.1 = .stop ∨ turn kv.1 = .visitWithChild)
    (i : Nat) (acc : List Nat) (s : S) {s' acc' j} (h : scanLoop turn cb ks i acc s = .inl (s', acc', j)) :
    i ≤ j ∧ acc' = acc ++ List.range' i (j - i) := by
  induction ks generalizing i acc s with
  | nil =>
    simp [scanLoop] at h
    obtain ⟨h1, h2, h3⟩ := h; subst h2 h3
    simp
  | cons kv ks ih =>
    rcases hk kv (by simp) with ht | ht
    · simp [scanLoop, ht] at h
      obtain ⟨h1, h2, h3⟩ := h; subst h2 h3
      simp
    · simp only [scanLoop, ht] at h
      rcases hcb : cb s kv.1 kv.2 with ⟨s1, _ | _⟩
      · simp [hcb] at h
      · simp only [hcb] at h
        obtain ⟨q1, q2⟩ := ih (fun kv hkv => hk kv (by simp [hkv])) (i+1) (acc ++ [i]) s1 h
        refine ⟨by omega, ?_⟩
        rw [q2, show j - i = (j - (i+1)) + 1 by omega, List.range'_succ]
        simp

/-- The unlock loop of a traversal is right for the node and callback. -/
def RestOK (restOf : List Nat → Nat → List Nat) (turn : K → Turn) (cb : Callback K V S) (l : List (K × V)) : Prop :=
  restOf = restRemembered ∨
  (restOf = restIterate ∧ ((∀ kv ∈ l, turn kv.1 = .stop ∨ turn kv.1 = .visitWithChild) ∨ ∀ s k v, (cb s k v).2 = true))

theorem visitAll_true {cb : Callback K V S} (h : ∀ s k v, (cb s k v).2 = true) (l : List (K × V)) (s : S) : (visitAll cb l s).2 = true := by
  induction l generalizing s with
  | nil => rfl
  | cons a l ih =>
    simp only [visitAll]
    have := h s a.1 a.2
    rcases hc : cb s a.1 a.2 with ⟨s', b⟩
    rw [hc] at this
    simp at this; subst this
    exact ih s'

variable [LawfulKey K]

theorem rangeFindL_spec {n : Nat} (restOf : List Nat → Nat → List Nat) (turn : K → Turn) (cb : Callback K V S) :
    ∀ (h fuel : Nat) (path : List Nat) (t : Node K V), WF n h t → h < fuel → RestOK restOf turn cb (flat h t) → ∀ s L,
      rangeFindL restOf turn cb fuel path t s (rlock (some path) L) =
        (rangeFind turn cb fuel t s).map (fun r => (r.1, r.2, L)) := by
  intro h
  induction h with
  | zero =>
    intro fuel path t w hf hr s L
    obtain ⟨fuel, rfl⟩ : ∃ f, fuel = f + 1 := ⟨fuel - 1, by omega⟩
    simp only [rangeFindL, rangeFind, isLeaf_zero w]
    have := scanLoopL_leaf turn cb path L t.kvs 0 [] s
    rcases hsl : scanLoop turn cb t.kvs 0 [] s with ⟨s', acc, j⟩ | s'
    · rw [hsl] at this
      obtain ⟨j', q⟩ := this
      rw [q]; simp [runlock_rlock]
    · rw [hsl] at this
      simp only at this
      rw [this]; simp
  | succ h ih =>
    intro fuel path t w hf hr s L
    obtain ⟨fuel, rfl⟩ : ∃ f, fuel = f + 1 := ⟨fuel - 1, by omega⟩
    simp only [rangeFindL, rangeFind, isLeaf_succ w]
    have := scanLoopL_node turn cb path L t.kvs 0 [] s
    simp only [rlockAll] at this
    rw [this]
    rcases hsl : scanLoop turn cb t.kvs 0 [] s with ⟨s', acc, j⟩ | s'
    · simp only [Bool.false_eq_true, if_false]
      have e : rlock (some (path ++ [j])) (rlockAll path acc (rlock (some path) L)) = rlock (some path) (rlockAll path (acc ++ [j]) L) := by
        rw [rlockAll_append]; simp only [rlockAll, rlockAll_rlock]; exact rlock_comm _ _ _
      rw [e, runlock_rlock]
      simp only []
      refine visitChildrenL_spec _ path _ _ t.children (acc ++ [j]) ?_ 0 _ (by simp) s' L
      intro i hi c hc s1 L
      have hcm : c ∈ t.children := List.mem_of_getElem? hc
      have hwc := (w.2.2 c hcm).1
      have hrc : RestOK restOf turn cb (flat h c) := by
        rcases hr with hr | ⟨hr, hr' | hr'⟩
        · exact .inl hr
        · exact .inr ⟨hr, .inl (fun kv hkv => hr' kv (child_mem_flat hcm hkv))⟩
        · exact .inr ⟨hr, .inr hr'⟩
      have hrf := rangeFind_spec turn cb h fuel c hwc (by omega) s1
      refine ⟨_, _, hrf, ?_, ?_⟩
      · rw [ih fuel (path ++ [i]) c hwc (by omega) hrc s1 L, hrf]; rfl
      · intro hb k
        rcases hr with hr | ⟨hr, hr' | hr'⟩
        · rw [hr]; rfl
        · rw [hr]
          obtain ⟨_, q2⟩ := scanLoop_noskip cb t.kvs (fun kv hkv => hr' kv (first_mem_flat hkv)) 0 [] s hsl
          simp only [List.nil_append, Nat.sub_zero] at q2
          rw [q2]
          have : List.range' 0 j ++ [j] = List.range' 0 (j + 1) := by
            rw [List.range'_concat]; simp
          rw [this]
          simp [restIterate, List.drop_range', Nat.add_comm]
        · rw [visitAll_true hr'] at hb; cases hb
    · simp

theorem findMatchTypeL_spec {n : Nat} (key : K) (cb : V → S → S × Bool) :
    ∀ (h fuel : Nat) (path : List Nat) (t : Node K V), WF n h t → Sorted (flat h t) → h < fuel → ∀ s L,
      findMatchTypeL key cb fuel path t s (rlock (some path) L) =
        some (match lookupL key (flat h t) with
          | some kv => ((cb kv.2 s).1, (cb kv.2 s).2, L)
          | none => (s, true, L)) := by
  intro h
  induction h with
  | zero =>
    intro fuel path t w hs hf s L
    obtain ⟨fuel, rfl⟩ : ∃ f, fuel = f + 1 := ⟨fuel - 1, by omega⟩
    simp only [findMatchTypeL]
    cases hh : hit key t.kvs with
    | some kv => simp only [lookup_hit w hs hh, runlock_rlock]
    | none =>
      simp only [isLeaf_zero w, if_true, runlock_rlock]
      have : lookupL key (flat 0 t) = none := lookup_leaf_none hs hh
      rw [this]
  | succ h ih =>
    intro fuel path t w hs hf s L
    obtain ⟨fuel, rfl⟩ : ∃ f, fuel = f + 1 := ⟨fuel - 1, by omega⟩
    simp only [findMatchTypeL]
    cases hh : hit key t.kvs with
    | some kv => simp only [lookup_hit w hs hh, runlock_rlock]
    | none =>
      have hlook := fun c hc => lookup_descend w hs hh (c := c) hc
      obtain ⟨ks1, ks2, cs1, c, cs2, e1, e2, e3, e4, e5, e6, e7, e8, e9, e10, e11, e12, e13⟩ := descend w hs hh
      simp only [isLeaf_succ w, e5, Bool.false_eq_true, if_false]
      rw [runlock_rlock2]
      simp only []
      rw [ih fuel _ c e6 e13 (by omega), hlook c e5]

/-- Root facts of a represented tree. -/
theorem RepW.root {b : Tree K V} {l} (hr : RepW b l) {r} (h : b.root = some r) :
    ∃ h, WF b.nodeSize h r ∧ flat h r = l ∧ h < r.depth + 1 := by
  have := hr.2.2
  simp only [h] at this
  obtain ⟨h, a, c, d⟩ := this
  exact ⟨h, a, c, by rw [depth_of_WF a]; omega⟩

theorem anyPartL_spec {b : Tree K V} {l} (hr : RepW b l) {r} (hroot : b.root = some r) (tr : TypeRestrictions) (cb : Callback K V S) (s : S) (cont : Bool) (L : Locks) :
    (tr.hi = DataType.any → anyPartL r tr cb s cont (rlock none L) = (if cont then findAny cb r s else some s).map (fun x => (x, L))) ∧
    (tr.hi ≠ DataType.any → anyPartL r tr cb s cont L = some (s, L)) := by
  constructor
  · intro hh
    simp only [anyPartL, hh, and_true, if_true]
    cases cont with
    | false => simp [runlock_rlock]
    | true =>
      simp only [if_true, runlock_rlock2]
      obtain ⟨h, a, c, d⟩ := hr.root hroot
      have hs := hr.2.1
      rw [findMatchTypeL_spec _ _ h _ [] r a (by rw [c]; exact hs) d]
      simp only [findAny]
      rw [findMatchType_spec _ h _ r a (by rw [c]; exact hs) d, c]
      cases lookupL any l <;> simp
  · intro hh
    simp [anyPartL, hh]

/-- Which call leaves the tree read-locked. -/
def leakFind (b : Tree K V) (key : K) (tr : TypeRestrictions) : Bool :=
  b.root.isSome && decide (typ key ≠ DataType.any) && decide (tr.hi ≠ DataType.any) && !(decide (tr.lo ≤ typ key) && decide (typ key ≤ tr.hi))

theorem findL_spec {b : Tree K V} {l} (hr : RepW b l) (key : K) (tr : TypeRestrictions) (hhi : tr.hi ≤ DataType.any) (cb : Callback K V S)
    (hcb : typ key = DataType.any → (∀ kv ∈ l, tr.lo ≤ typ kv.1) ∨ ∀ s k v, (cb s k v).2 = true) (s : S) (L : Locks) :
    b.findL key tr cb s L = (b.find key tr cb s).map (fun s' => (s', if leakFind b key tr then rlock none L else L)) := by
  simp only [Tree.findL, Tree.find, leakFind]
  rcases Option.eq_none_or_eq_some b.root with hroot | ⟨r, hroot⟩
  · simp [hroot, runlock_rlock]
  · simp only [hroot]
    obtain ⟨h, a, c, d⟩ := hr.root hroot
    have hs := hr.2.1
    simp only [Option.isSome_some, Bool.true_and]
    by_cases hk : typ key = DataType.any
    · have hg : DataType.isGeneral (typ key) = false := by rw [hk]; decide
      have ha : DataType.isAny (typ key) = true := by rw [hk]; decide
      rw [hk] at hg ha
      simp only [hk, hg, ha, Bool.false_eq_true, if_false, if_true, runlock_rlock2, ne_eq, not_true_eq_false, decide_false, Bool.false_and]
      rw [rangeFindL_spec restIterate _ cb h _ [] r a d]
      · rcases rangeFind (turnIterate tr.lo tr.hi) cb (r.depth + 1) r s with _ | ⟨s', b⟩ <;> simp
      · right
        refine ⟨rfl, ?_⟩
        rcases hcb hk with h' | h'
        · left
          intro kv hkv
          rw [c] at hkv
          have := h' kv hkv
          simp only [turnIterate]
          rw [if_neg (by omega)]
          split <;> simp
        · right; exact h'
    · have hg : DataType.isGeneral (typ key) = true := (typ_valid key).resolve_right hk
      simp only [hg, if_true, hk, ne_eq, not_false_eq_true, decide_true, Bool.true_and]
      by_cases hin : ¬ typ key < tr.lo ∧ ¬ tr.hi < typ key
      · have hin' : tr.lo ≤ typ key ∧ typ key ≤ tr.hi := by omega
        simp only [hin, and_self, if_true, hin', decide_true, Bool.and_self, Bool.not_true, Bool.and_false, Bool.false_eq_true, if_false, not_false_eq_true]
        rw [findMatchType_spec key h _ r a (by rw [c]; exact hs) d, c]
        by_cases hh : tr.hi = DataType.any
        · have : ¬ tr.hi < DataType.any := by omega
          simp only [this, if_false]
          rw [findMatchTypeL_spec key _ h _ [] r a (by rw [c]; exact hs) d, c]
          cases hl : lookupL key l with
          | none =>
            simp only []
            rw [(anyPartL_spec hr hroot tr cb s true L).1 hh]
            simp [hh]
          | some kv =>
            simp only []
            rw [(anyPartL_spec hr hroot tr cb _ _ L).1 hh]
            rcases cb s key kv.2 with ⟨s', _ | _⟩ <;> simp [hh]
        · have : tr.hi < DataType.any := by omega
          simp only [this, if_true, runlock_rlock2]
          rw [findMatchTypeL_spec key _ h _ [] r a (by rw [c]; exact hs) d, c]
          cases hl : lookupL key l with
          | none =>
            simp only []
            rw [(anyPartL_spec hr hroot tr cb s true L).2 hh]
            simp [hh]
          | some kv =>
            simp only []
            rw [(anyPartL_spec hr hroot tr cb _ _ L).2 hh]
            rcases cb s key kv.2 with ⟨s', _ | _⟩ <;> simp [hh]
      · have hin' : ¬ (tr.lo ≤ typ key ∧ typ key ≤ tr.hi) := by omega
        have hin'' : (decide (tr.lo ≤ typ key) && decide (typ key ≤ tr.hi)) = false := by
          rw [← Bool.decide_and]; simp only [hin', decide_false]
        simp only [hin, if_false, hin'', Bool.not_false, Bool.and_true]
        by_cases hh : tr.hi = DataType.any
        · rw [(anyPartL_spec hr hroot tr cb s true L).1 hh]
          simp [hh]
        · rw [(anyPartL_spec hr hroot tr cb s true (rlock none L)).2 hh]
          simp [hh]

theorem findNotEqualL_spec {b : Tree K V} {l} (hr : RepW b l) (key : K) (tr : TypeRestrictions) (cb : Callback K V S)
    (hcb : (∀ kv ∈ l, tr.lo ≤ typ kv.1) ∨ ∀ s k v, (cb s k v).2 = true) (s : S) (L : Locks) :
    b.findNotEqualL key tr cb s L = (b.findNotEqual key tr cb s).map (fun s' => (s', L)) := by
  simp only [Tree.findNotEqualL, Tree.findNotEqual]
  rcases Option.eq_none_or_eq_some b.root with hroot | ⟨r, hroot⟩
  · simp [hroot, runlock_rlock]
  · simp only [hroot]
    obtain ⟨h, a, c, d⟩ := hr.root hroot
    simp only [runlock_rlock2]
    rw [rangeFindL_spec restIterate _ _ h _ [] r a d]
    · rcases rangeFind (turnIterate tr.lo tr.hi) _ (r.depth + 1) r s with _ | ⟨s', b⟩ <;> simp
    · right
      refine ⟨rfl, ?_⟩
      rcases hcb with h' | h'
      · left
        intro kv hkv
        rw [c] at hkv
        have := h' kv hkv
        simp only [turnIterate]
        rw [if_neg (by omega)]
        split <;> simp
      · right
        intro s k v
        by_cases hx : (!lt key k && !lt k key) = true
        · simp only [hx, if_true]
        · simp only [hx, if_false]; exact h' s k v

theorem findBelowL_spec {b : Tree K V} {l} (hr : RepW b l) (turn : K → Turn) (key : K) (tr : TypeRestrictions) (hhi : tr.hi ≤ DataType.any)
    (cb : Callback K V S) (s : S) (L : Locks) :
    b.findBelowL turn key tr cb s L = (b.findBelow turn key tr cb s).map (fun s' => (s',
      if b.root.isSome && decide (tr.hi ≠ DataType.any) && decide (typ key < tr.lo) then rlock none L else L)) := by
  simp only [Tree.findBelowL, Tree.findBelow]
  rcases Option.eq_none_or_eq_some b.root with hroot | ⟨r, hroot⟩
  · simp [hroot, runlock_rlock]
  · simp only [hroot]
    obtain ⟨h, a, c, d⟩ := hr.root hroot
    simp only [Option.isSome_some, Bool.true_and]
    by_cases hl : typ key < tr.lo
    · simp only [hl, not_true_eq_false, if_false, decide_true, Bool.and_true]
      by_cases hh : tr.hi = DataType.any
      · rw [(anyPartL_spec hr hroot tr cb s true L).1 hh]
        simp [hh]
      · rw [(anyPartL_spec hr hroot tr cb s true (rlock none L)).2 hh]
        simp [hh]
    · simp only [hl, not_false_eq_true, if_true, decide_false, Bool.and_false, Bool.false_eq_true, if_false]
      have hrf := rangeFind_spec turn cb h _ r a d s
      by_cases hh : tr.hi = DataType.any
      · have : ¬ tr.hi < DataType.any := by omega
        simp only [this, if_false]
        rw [rangeFindL_spec restRemembered turn cb h _ [] r a d (.inl rfl), hrf]
        simp only [Option.map_some]
        rw [(anyPartL_spec hr hroot tr cb _ _ L).1 hh]
        rcases visitAll cb (order turn h r) s with ⟨s', _ | _⟩ <;> simp [hh]
      · have : tr.hi < DataType.any := by omega
        simp only [this, if_true, runlock_rlock2]
        rw [rangeFindL_spec restRemembered turn cb h _ [] r a d (.inl rfl), hrf]
        simp only [Option.map_some]
        rw [(anyPartL_spec hr hroot tr cb _ _ L).2 hh]
        rcases visitAll cb (order turn h r) s with ⟨s', _ | _⟩ <;> simp [hh]

theorem findAboveL_spec {b : Tree K V} {l} (hr : RepW b l) (turn : K → Turn) (key : K) (tr : TypeRestrictions)
    (cb : Callback K V S) (s : S) (L : Locks) :
    b.findAboveL turn key tr cb s L = (b.findAbove turn key tr cb s).map (fun s' => (s',
      if b.root.isSome && decide (tr.hi < typ key) then rlock none L else L)) := by
  simp only [Tree.findAboveL, Tree.findAbove]
  rcases Option.eq_none_or_eq_some b.root with hroot | ⟨r, hroot⟩
  · simp [hroot, runlock_rlock]
  · simp only [hroot]
    obtain ⟨h, a, c, d⟩ := hr.root hroot
    simp only [Option.isSome_some, Bool.true_and]
    by_cases hl : tr.hi < typ key
    · simp [hl]
    · simp only [hl, not_false_eq_true, if_true, runlock_rlock2, decide_false, Bool.false_eq_true, if_false]
      rw [rangeFindL_spec restRemembered turn cb h _ [] r a d (.inl rfl)]
      rcases rangeFind turn cb (r.depth + 1) r s with _ | ⟨s', b⟩ <;> simp

end Willow.BTree
