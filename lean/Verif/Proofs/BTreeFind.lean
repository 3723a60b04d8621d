import Verif.Proofs.BTreeTree
set_option linter.unusedSectionVars false
set_option linter.unusedSimpArgs false
set_option linter.unusedVariables false
/-! Range finds visit exactly the items they should. -/
namespace Willow.BTree
open KeyOps LawfulKey Spec

variable {K V : Type}

/-- Items visited in one node. -/
def planV (turn : K → Turn) : List (K × V) → List (K × V)
  | [] => []
  | kv :: ks => match turn kv.1 with
    | .skip => planV turn ks
    | .stop => []
    | .visitWithChild => kv :: planV turn ks
    | .visit => kv :: planV turn ks
    | .visitAndStop => [kv]

/-- Children visited after the items of one node. -/
def planC (turn : K → Turn) : List (K × V) → List (Node K V) → List (Node K V)
  | _, [] => []
  | [], c :: _ => [c]
  | kv :: ks, c :: cs => match turn kv.1 with
    | .skip => planC turn ks cs
    | .stop => [c]
    | .visitWithChild => c :: planC turn ks cs
    | .visit => planC turn ks cs
    | .visitAndStop => [c]

/-- The order in which a range find visits the items of a node of height `h`. -/
def order (turn : K → Turn) : Nat → Node K V → List (K × V)
  | 0, t => planV turn t.kvs
  | h + 1, t => planV turn t.kvs ++ (planC turn t.kvs t.children).flatMap (order turn h)

theorem visitAll_append {S : Type} (cb : Callback K V S) (a b : List (K × V)) (s : S) :
    visitAll cb (a ++ b) s = match visitAll cb a s with
      | (s', true) => visitAll cb b s'
      | (s', false) => (s', false) := by
  induction a generalizing s with
  | nil => simp [visitAll]
  | cons x a ih =>
    simp only [List.cons_append, visitAll]
    split
    · exact ih _
    · rfl

theorem scanLoop_leaf {S : Type} (turn : K → Turn) (cb : Callback K V S) (ks : List (K × V)) (i : Nat) (acc : List Nat) (s : S) :
    match visitAll cb (planV turn ks) s with
    | (s', true) => ∃ a j, scanLoop turn cb ks i acc s = .inl (s', a, j)
    | (s', false) => scanLoop turn cb ks i acc s = .inr s' := by
  induction ks generalizing i acc s with
  | nil => simp [planV, visitAll, scanLoop]
  | cons kv ks ih =>
    simp only [planV, scanLoop]
    cases turn kv.1 with
    | skip => exact ih (i+1) acc s
    | stop => simp [visitAll]
    | visitWithChild =>
      simp only [visitAll]
      rcases cb s kv.1 kv.2 with ⟨s', _ | _⟩
      · simp
      · exact ih (i+1) (acc ++ [i]) s'
    | visit =>
      simp only [visitAll]
      rcases cb s kv.1 kv.2 with ⟨s', _ | _⟩
      · simp
      · exact ih (i+1) acc s'
    | visitAndStop =>
      simp only [visitAll]
      rcases cb s kv.1 kv.2 with ⟨s', _ | _⟩
      · simp
      · simp

theorem drop_cons_get {α : Type} {l : List α} {i : Nat} {c : α} {cs} (h : l.drop i = c :: cs) : l[i]? = some c ∧ l.drop (i+1) = cs := by
  constructor
  · have := congrArg (·[0]?) h
    simpa using this
  · have := congrArg (List.drop 1) h
    simpa [List.drop_drop, Nat.add_comm] using this

theorem scanLoop_node {S : Type} (turn : K → Turn) (cb : Callback K V S) (full : List (Node K V)) (ks : List (K × V)) (cs : List (Node K V)) (i : Nat) (acc : List Nat) (s : S)
    (hl : cs.length = ks.length + 1) (hd : full.drop i = cs) :
    match visitAll cb (planV turn ks) s with
    | (s', true) => ∃ a j, scanLoop turn cb ks i acc s = .inl (s', acc ++ a, j) ∧
        (a ++ [j]).map (fun x => full[x]?) = (planC turn ks cs).map some
    | (s', false) => scanLoop turn cb ks i acc s = .inr s' := by
  induction ks generalizing i acc s cs with
  | nil =>
    obtain ⟨c, rfl⟩ := List.length_eq_one_iff.1 hl
    simp only [planV, visitAll, scanLoop, planC]
    exact ⟨[], i, by simp, by simp [(drop_cons_get hd).1]⟩
  | cons kv ks ih =>
    cases cs with
    | nil => simp at hl
    | cons c cs =>
      simp only [List.length_cons] at hl
      obtain ⟨g1, g2⟩ := drop_cons_get hd
      simp only [planV, scanLoop, planC]
      cases turn kv.1 with
      | skip => exact ih cs (i+1) acc s (by omega) g2
      | stop => exact ⟨[], i, by simp, by simp [g1]⟩
      | visitWithChild =>
        simp only [visitAll]
        rcases cb s kv.1 kv.2 with ⟨s', _ | _⟩
        · simp
        · have := ih cs (i+1) (acc ++ [i]) s' (by omega) g2
          simp only at this ⊢
          split
          · next s'' heq =>
            rw [heq] at this
            obtain ⟨a, j, q1, q2⟩ := this
            refine ⟨i :: a, j, by rw [q1]; simp, ?_⟩
            simp at q2 ⊢
            exact ⟨g1, q2⟩
          · next s'' heq =>
            rw [heq] at this
            exact this
      | visit =>
        simp only [visitAll]
        rcases cb s kv.1 kv.2 with ⟨s', _ | _⟩
        · simp
        · exact ih cs (i+1) acc s' (by omega) g2
      | visitAndStop =>
        simp only [visitAll]
        rcases cb s kv.1 kv.2 with ⟨s', _ | _⟩
        · simp
        · exact ⟨[], i, by simp, by simp [g1]⟩

theorem visitChildren_spec {S : Type} (f : Node K V → S → Option (S × Bool)) (g : Node K V → List (K × V)) (cb : Callback K V S)
    (full : List (Node K V)) (is : List Nat) (chs : List (Node K V)) (hm : is.map (fun x => full[x]?) = chs.map some)
    (hf : ∀ c ∈ chs, ∀ s, f c s = some (visitAll cb (g c) s)) (s : S) :
    visitChildren f full is s = some (visitAll cb (chs.flatMap g) s) := by
  induction is generalizing chs s with
  | nil =>
    cases chs with
    | nil => rfl
    | cons c chs => simp at hm
  | cons i is ih =>
    cases chs with
    | nil => simp at hm
    | cons c chs =>
      simp only [List.map_cons, List.cons.injEq] at hm
      simp only [visitChildren, hm.1, hf c (by simp), List.flatMap_cons, visitAll_append]
      rcases visitAll cb (g c) s with ⟨s', _ | _⟩
      · rfl
      · exact ih chs hm.2 (fun d hd => hf d (by simp [hd])) s'

theorem planC_sub (turn : K → Turn) : ∀ (ks : List (K × V)) (cs : List (Node K V)), ∀ c ∈ planC turn ks cs, c ∈ cs
  | [], [], c, h => by simp [planC] at h
  | _ :: _, [], c, h => by simp [planC] at h
  | [], d :: _, c, h => by simp [planC] at h; simp [h]
  | kv :: ks, d :: cs, c, h => by
    simp only [planC] at h
    split at h
    · exact List.mem_cons_of_mem _ (planC_sub turn ks cs c h)
    · simp at h; simp [h]
    · rcases List.mem_cons.1 h with rfl | h
      · simp
      · exact List.mem_cons_of_mem _ (planC_sub turn ks cs c h)
    · exact List.mem_cons_of_mem _ (planC_sub turn ks cs c h)
    · simp at h; simp [h]

theorem rangeFind_spec {S : Type} {n : Nat} (turn : K → Turn) (cb : Callback K V S) :
    ∀ (h fuel : Nat) (t : Node K V), WF n h t → h < fuel → ∀ s, rangeFind turn cb fuel t s = some (visitAll cb (order turn h t) s) := by
  intro h
  induction h with
  | zero =>
    intro fuel t w hf s
    obtain ⟨fuel, rfl⟩ : ∃ f, fuel = f + 1 := ⟨fuel - 1, by omega⟩
    have := scanLoop_leaf turn cb t.kvs 0 [] s
    simp only [rangeFind, order]
    rcases hv : visitAll cb (planV turn t.kvs) s with ⟨s', _ | _⟩
    · rw [hv] at this
      simp only at this
      rw [this]
    · rw [hv] at this
      obtain ⟨a, j, q⟩ := this
      rw [q]; simp [isLeaf_zero w]
  | succ h ih =>
    intro fuel t w hf s
    obtain ⟨fuel, rfl⟩ : ∃ f, fuel = f + 1 := ⟨fuel - 1, by omega⟩
    have := scanLoop_node turn cb t.children t.kvs t.children 0 [] s w.1 (by simp)
    simp only [rangeFind, order, visitAll_append]
    rcases hv : visitAll cb (planV turn t.kvs) s with ⟨s', _ | _⟩
    · rw [hv] at this
      simp only at this
      rw [this]
    · rw [hv] at this
      obtain ⟨a, j, q1, q2⟩ := this
      rw [q1]
      simp only [isLeaf_succ w, List.nil_append, Bool.false_eq_true, if_false]
      refine visitChildren_spec _ (order turn h) cb _ _ _ q2 ?_ s'
      intro c hc s
      exact ih fuel c (w.2.2 c (planC_sub _ _ _ c hc)).1 (by omega) s

/-- The turn decisions are right for the predicate `P` on keys. -/
def TurnOK [KeyOps K] (turn : K → Turn) (P : K → Bool) : Prop :=
  ∀ k, match turn k with
  | .skip => ∀ k', lt k k' = false → P k' = false
  | .stop => ∀ k', lt k' k = false → P k' = false
  | .visitWithChild => P k = true
  | .visit => P k = true ∧ ∀ k', lt k' k = true → P k' = false
  | .visitAndStop => P k = true ∧ ∀ k', lt k k' = true → P k' = false

variable [LawfulKey K]

theorem filter_none {P : K → Bool} {l : List (K × V)} (h : ∀ x ∈ l, P x.1 = false) : l.filter (fun kv => P kv.1) = [] := by
  rw [List.filter_eq_nil_iff]
  intro a ha; simp [h a ha]

theorem planV_perm {turn : K → Turn} {P : K → Bool} (ok : TurnOK turn P) {ks : List (K × V)} (hs : Sorted ks) :
    planV turn ks = ks.filter (fun kv => P kv.1) := by
  induction ks with
  | nil => rfl
  | cons kv ks ih =>
    rw [sorted_cons] at hs
    have hk := ok kv.1
    simp only [planV]
    cases ht : turn kv.1 with
    | skip =>
      simp only [ht] at hk
      simp [List.filter_cons, hk kv.1 (irrefl _), ih hs.2]
    | stop =>
      simp only [ht] at hk
      rw [eq_comm]
      apply filter_none
      intro x hx
      rcases List.mem_cons.1 hx with rfl | hx
      · exact hk _ (irrefl _)
      · exact hk _ (asymm (hs.1 x hx))
    | visitWithChild =>
      simp only [ht] at hk
      simp [List.filter_cons, hk, ih hs.2]
    | visit =>
      simp only [ht] at hk
      simp [List.filter_cons, hk, ih hs.2]
    | visitAndStop =>
      simp only [ht] at hk
      simp only [List.filter_cons, hk.1, if_true, List.cons.injEq, true_and]
      rw [eq_comm]
      apply filter_none
      intro x hx
      exact hk.2 _ (hs.1 x hx)

theorem order_perm {n : Nat} {turn : K → Turn} {P : K → Bool} (ok : TurnOK turn P) :
    ∀ (h : Nat) (t : Node K V), WF n h t → Sorted (flat h t) → (order turn h t).Perm ((flat h t).filter (fun kv => P kv.1)) := by
  intro h
  induction h with
  | zero =>
    intro t w hs
    simp only [order, flat]
    exact (planV_perm ok hs).symm ▸ List.Perm.refl _
  | succ h ih =>
    intro t w hs
    simp only [order, flat] at hs ⊢
    have hwc : ∀ c ∈ t.children, WF n h c := fun c hc => (w.2.2 c hc).1
    have hl := w.1
    clear w
    generalize t.children = cs at *
    generalize t.kvs = ks at *
    induction ks generalizing cs with
    | nil =>
      obtain ⟨c, rfl⟩ := List.length_eq_one_iff.1 hl
      simp only [List.map_cons, List.map_nil, interleave_single] at hs
      simpa [planV, planC, interleave] using ih c (hwc c (by simp)) hs
    | cons kv ks ihk =>
      cases cs with
      | nil => simp at hl
      | cons c cs =>
        simp only [List.length_cons] at hl
        simp only [List.map_cons, interleave_cons] at hs ⊢
        rw [sorted_append, sorted_cons] at hs
        obtain ⟨hs1, ⟨hs2, hs3⟩, hs4⟩ := hs
        have ihr := ihk cs (fun d hd => hwc d (List.mem_cons_of_mem _ hd)) hs3 (by omega)
        have ihc := ih c (hwc c (by simp)) hs1
        have hc_lt : ∀ x ∈ flat h c, lt x.1 kv.1 = true := fun x hx => hs4 x hx kv (by simp)
        have hk := ok kv.1
        simp only [planV, planC]
        rw [List.filter_append, List.filter_cons]
        cases ht : turn kv.1 with
        | skip =>
          simp only [ht] at hk
          rw [filter_none (l := flat h c) (fun x hx => hk _ (asymm (hc_lt x hx)))]
          simpa [hk kv.1 (irrefl _)] using ihr
        | stop =>
          simp only [ht] at hk
          rw [filter_none (l := interleave _ _) (fun x hx => hk _ (asymm (hs2 x hx)))]
          simpa [hk kv.1 (irrefl _)] using ihc
        | visitWithChild =>
          simp only [ht] at hk
          simp only [hk, if_true, List.flatMap_cons]
          refine List.Perm.trans ?_ (List.perm_middle.symm)
          simp only [List.cons_append]
          refine List.Perm.cons _ ?_
          refine List.Perm.trans ?_ (ihc.append ihr)
          rw [← List.append_assoc, ← List.append_assoc]
          exact (List.perm_append_comm).append_right _
        | visit =>
          simp only [ht] at hk
          rw [filter_none (l := flat h c) (fun x hx => hk.2 _ (hc_lt x hx))]
          simp only [hk.1, if_true, List.cons_append, List.nil_append]
          exact List.Perm.cons _ ihr
        | visitAndStop =>
          simp only [ht] at hk
          rw [filter_none (l := interleave _ _) (fun x hx => hk.2 _ (hs2 x hx))]
          simp only [hk.1, if_true, List.flatMap_cons, List.flatMap_nil, List.append_nil]
          refine List.Perm.trans ?_ (List.perm_append_comm)
          simpa using List.Perm.cons kv ihc

/-! ### The turns -/

theorem not_lt_typ {a b : K} (h : lt a b = false) : typ b ≤ typ a := by
  rcases Int.lt_or_le (typ a) (typ b) with h' | h'
  · have := typ_lt h'
    rw [h] at this; cases this
  · exact h'

theorem turnIterate_ok (lo hi : Int) : TurnOK (turnIterate (K := K) lo hi) (fun k => decide (lo ≤ typ k) && decide (typ k ≤ hi)) := by
  intro k
  simp only [turnIterate]
  by_cases h1 : typ k < lo
  · simp only [h1, if_true]
    intro k' h'
    have := not_lt_typ h'
    simp; omega
  · by_cases h2 : hi < typ k
    · simp only [h1, h2, if_true, if_false]
      intro k' h'
      have := not_lt_typ h'
      simp; omega
    · simp only [h1, h2, if_false]
      simp; omega

theorem turnLessThan_ok (key : K) (lo : Int) : TurnOK (turnLessThan key lo) (fun k => lt k key && decide (lo ≤ typ k)) := by
  intro k
  simp only [turnLessThan]
  by_cases h1 : typ k < lo
  · simp only [h1, if_true]
    intro k' h'
    have := not_lt_typ h'
    have : ¬ lo ≤ typ k' := by omega
    simp [this]
  · by_cases h2 : typ key < typ k
    · simp only [h1, h2, if_true, if_false]
      intro k' h'
      have := not_lt_typ h'
      have : lt k' key = false := asymm (typ_lt (by omega))
      simp [this]
    · by_cases h3 : lt k key = true
      · simp only [h1, h2, h3, if_true, if_false]
        simp; omega
      · simp only [h1, h2, h3, if_false]
        intro k' h'
        have : lt k' key = false := by
          cases h : lt k' key with
          | false => rfl
          | true => exact absurd (lt_of_not_lt_of_lt h' h) h3
        simp [this]

theorem turnLessThanOrEqual_ok (key : K) (lo : Int) : TurnOK (turnLessThanOrEqual key lo) (fun k => !lt key k && decide (lo ≤ typ k)) := by
  intro k
  simp only [turnLessThanOrEqual]
  by_cases h1 : typ k < lo
  · simp only [h1, if_true]
    intro k' h'
    have := not_lt_typ h'
    have : ¬ lo ≤ typ k' := by omega
    simp [this]
  · by_cases h2 : typ key < typ k
    · simp only [h1, h2, if_true, if_false]
      intro k' h'
      have := not_lt_typ h'
      have : lt key k' = true := typ_lt (by omega)
      simp [this]
    · by_cases h3 : lt k key = true
      · simp only [h1, h2, h3, if_true, if_false]
        simp [asymm h3]; omega
      · by_cases h4 : lt key k = true
        · simp only [h1, h2, h3, h4, if_false, Bool.not_true, Bool.false_eq_true]
          intro k' h'
          have : lt key k' = true := lt_of_lt_of_not_lt h4 h'
          simp [this]
        · simp only [Bool.not_eq_true] at h4
          simp only [h1, h2, h3, h4, if_false, Bool.not_false, if_true]
          refine ⟨by simp; omega, ?_⟩
          intro k' h'
          have : lt key k' = true := by
            rcases weak key h' with h | h
            · exact absurd h h3
            · exact h
          simp [this]

theorem turnGreaterThan_ok (key : K) (hi : Int) : TurnOK (turnGreaterThan key hi) (fun k => lt key k && decide (typ k ≤ hi)) := by
  intro k
  simp only [turnGreaterThan]
  by_cases h1 : hi < typ k
  · simp only [h1, if_true]
    intro k' h'
    have := not_lt_typ h'
    have : ¬ typ k' ≤ hi := by omega
    simp [this]
  · by_cases h2 : lt k key = true
    · simp only [h1, h2, if_true, if_false]
      intro k' h'
      have : lt key k' = false := by
        cases h : lt key k' with
        | false => rfl
        | true => rw [trans h2 h] at h'; cases h'
      simp [this]
    · by_cases h3 : lt key k = true
      · simp only [h1, h2, h3, if_true, if_false]
        simp; omega
      · simp only [h1, h2, h3, if_false]
        intro k' h'
        have : lt key k' = false := by
          cases h : lt key k' with
          | false => rfl
          | true =>
            rcases weak k h with h'' | h''
            · exact absurd h'' h3
            · rw [h'] at h''; cases h''
        simp [this]

theorem turnGreaterThanOrEqual_ok (key : K) (hi : Int) :
    TurnOK (turnGreaterThanOrEqual key hi) (fun k => !lt k key && decide (typ k ≤ hi)) := by
  intro k
  simp only [turnGreaterThanOrEqual]
  by_cases h1 : hi < typ k
  · simp only [h1, if_true]
    intro k' h'
    have := not_lt_typ h'
    have : ¬ typ k' ≤ hi := by omega
    simp [this]
  · by_cases h2 : lt k key = true
    · simp only [h1, h2, if_true, if_false]
      intro k' h'
      have : lt k' key = true := lt_of_not_lt_of_lt h' h2
      simp [this]
    · by_cases h3 : lt key k = true
      · simp only [h1, h2, h3, if_true, if_false]
        simp [asymm h3]; omega
      · simp only [h1, h2, h3, if_false]
        simp only [Bool.false_eq_true, if_false]
        refine ⟨by simp [h2]; omega, ?_⟩
        intro k' h'
        have : lt k' key = true := by
          rcases weak key h' with h | h
          · exact h
          · exact absurd h h3
        simp [this]

end Willow.BTree
