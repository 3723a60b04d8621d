import Verif.Proofs.BTreeCreate
set_option linter.unusedSectionVars false
set_option linter.unusedSimpArgs false
set_option linter.unusedVariables false
set_option linter.unnecessarySimpa false
/-! Delete on the B-tree refines removal from the sorted item list. -/
namespace Willow.BTree
open KeyOps LawfulKey

variable {K V : Type} [LawfulKey K]

theorem interleave_join {α : Type} {ca cb : List (List α)} {ka kb : List α} {k : α} (h : ca.length = ka.length + 1) :
    interleave (ca ++ cb) (ka ++ k :: kb) = interleave ca ka ++ k :: interleave cb kb := by
  induction ca generalizing ka with
  | nil => simp at h
  | cons c ca ih =>
    cases ka with
    | nil =>
      have : ca = [] := List.length_eq_zero_iff.1 (by simpa using h)
      subst this
      simp [interleave]
    | cons a ka => simp [interleave, ih (by simpa using h)]

/-- Two siblings and the value between them in one node. -/
def join (a : Node K V) (kv : K × V) (b : Node K V) : Node K V :=
  .mk (a.kvs ++ kv :: b.kvs) (a.children ++ b.children)

/-- As `WF` but without the bounds on the number of values of the top node. -/
def Shape (n : Nat) : Nat → Node K V → Prop
  | 0, t => t.children = []
  | h + 1, t => t.children.length = t.kvs.length + 1 ∧ ∀ c ∈ t.children, WF n h c ∧ n / 2 ≤ c.count

theorem wf_iff_shape {n h : Nat} {t : Node K V} : WF n h t ↔ Shape n h t ∧ t.count ≤ n := by
  cases h with
  | zero => exact Iff.rfl
  | succ h =>
    simp only [WF, Shape, Node.count]
    constructor
    · rintro ⟨a, b, c⟩; exact ⟨⟨a, c⟩, b⟩
    · rintro ⟨⟨a, c⟩, b⟩; exact ⟨a, b, c⟩

theorem join_flat {n h : Nat} {a b : Node K V} (kv) (wa : Shape n h a) (wb : Shape n h b) :
    flat h (join a kv b) = flat h a ++ kv :: flat h b := by
  cases h with
  | zero => simp [flat, join]
  | succ h =>
    simp only [flat, join, Node.kvs_mk, Node.children_mk, List.map_append]
    exact interleave_join (by simp [wa.1])

theorem join_shape {n h : Nat} {a b : Node K V} (kv) (wa : Shape n h a) (wb : Shape n h b) :
    Shape n h (join a kv b) := by
  cases h with
  | zero => simp only [Shape, join, Node.children_mk] at *; simp [wa, wb]
  | succ h =>
    obtain ⟨a1, a2⟩ := wa
    obtain ⟨b1, b2⟩ := wb
    refine ⟨by simp [join, a1, b1]; omega, ?_⟩
    intro c hc
    simp only [join, Node.children_mk, List.mem_append] at hc
    exact hc.elim (a2 c) (b2 c)

/-- Reference behaviour of an underflow flag: the count went down by at most one; the flag is true only if the new
count is below the minimum, and if it is false the count did not change or is still at least the minimum. -/
def Under (n old new : Nat) (u : Bool) : Prop :=
  new ≤ old ∧ old ≤ new + 1 ∧ (u = true → new < n / 2) ∧ (u = false → new = old ∨ n / 2 ≤ new)

theorem flat_pair {h : Nat} {ks1 ks2 : List (K × V)} {cs1 cs2 : List (Node K V)} {a b : Node K V} {kv}
    (hl : cs1.length = ks1.length) :
    flat (h+1) (.mk (ks1 ++ kv :: ks2) (cs1 ++ a :: b :: cs2)) =
      pre (cs1.map (flat h)) ks1 ++ (flat h a ++ kv :: flat h b) ++ post (cs2.map (flat h)) ks2 := by
  rw [flat_mid hl, List.map_cons, post, interleave_post]
  simp

/-- The situation before rebalancing: two neighbouring children `a`, `b` around the value `kv`, and everything
else well formed. -/
structure Pair (n h : Nat) (ks1 ks2 : List (K × V)) (cs1 cs2 : List (Node K V)) (a b : Node K V) : Prop where
  l1 : cs1.length = ks1.length
  l2 : cs2.length = ks2.length
  le : ks1.length + ks2.length + 1 ≤ n
  sa : Shape n h a
  sb : Shape n h b
  others : ∀ c, c ∈ cs1 ∨ c ∈ cs2 → WF n h c ∧ n / 2 ≤ c.count

theorem pair_rebuild {n h : Nat} {ks1 ks2 : List (K × V)} {cs1 cs2 : List (Node K V)} {a b a' b' : Node K V} {kv kv'}
    (p : Pair n h ks1 ks2 cs1 cs2 a b) (wa : WF n h a') (wb : WF n h b') (ma : n / 2 ≤ a'.count) (mb : n / 2 ≤ b'.count)
    (hj : join a' kv' b' = join a kv b) :
    WF n (h+1) (.mk (ks1 ++ kv' :: ks2) (cs1 ++ a' :: b' :: cs2)) ∧
    flat (h+1) (.mk (ks1 ++ kv' :: ks2) (cs1 ++ a' :: b' :: cs2)) = flat (h+1) (.mk (ks1 ++ kv :: ks2) (cs1 ++ a :: b :: cs2)) := by
  obtain ⟨l1, l2, le, sa, sb, ot⟩ := p
  constructor
  · rw [wf_mk_succ]
    refine ⟨by simp; omega, by simp; omega, ?_⟩
    intro c hc
    simp only [List.mem_append, List.mem_cons] at hc
    rcases hc with hc | rfl | rfl | hc
    · exact ot c (.inl hc)
    · exact ⟨wa, ma⟩
    · exact ⟨wb, mb⟩
    · exact ot c (.inr hc)
  · rw [flat_pair l1, flat_pair l1, ← join_flat kv sa sb, ← join_flat kv' (wf_iff_shape.1 wa).1 (wf_iff_shape.1 wb).1, hj]

theorem pair_get {α : Type} (l1 l2 : List α) (a b : α) (i : Nat) (hi : i = l1.length) :
    (l1 ++ a :: b :: l2)[i]? = some a ∧ (l1 ++ a :: b :: l2)[i+1]? = some b := by
  subst hi
  constructor
  · simp
  · rw [List.getElem?_append_right (by omega)]
    simp

theorem pair_set {α : Type} (l1 l2 : List α) (a b a' b' : α) (i : Nat) (hi : i = l1.length) :
    ((l1 ++ a :: b :: l2).set i a').set (i+1) b' = l1 ++ a' :: b' :: l2 := by
  subst hi
  simp

theorem shape_take_drop {n h : Nat} {b : Node K V} (sb : Shape n h b) {rkv : K × V} {rkvs} (e : b.kvs = rkv :: rkvs) :
    Shape n h (.mk rkvs (b.children.drop 1)) := by
  cases h with
  | zero => simp only [Shape, Node.children_mk] at *; simp [sb]
  | succ h =>
    refine ⟨by simp [sb.1, e], ?_⟩
    intro c hc
    exact sb.2 c (List.mem_of_mem_drop hc)

theorem rotateLeft_spec {n h : Nat} (hn : 2 ≤ n) {ks1 ks2 : List (K × V)} {cs1 cs2 : List (Node K V)} {a b : Node K V} {kv}
    (p : Pair n h ks1 ks2 cs1 cs2 a b) (ca : a.count + 1 = n / 2) (cb : b.count > n / 2) (cbn : b.count ≤ n) :
    ∃ t', rotateLeft (.mk (ks1 ++ kv :: ks2) (cs1 ++ a :: b :: cs2)) ks1.length = some t' ∧ WF n (h+1) t' ∧
      flat (h+1) t' = flat (h+1) (.mk (ks1 ++ kv :: ks2) (cs1 ++ a :: b :: cs2)) ∧ t'.count = ks1.length + ks2.length + 1 := by
  have hb : b.count = b.kvs.length := rfl
  have ha : a.count = a.kvs.length := rfl
  cases e : b.kvs with
  | nil => simp [hb, e] at cb
  | cons rkv rkvs =>
    simp only [rotateLeft, Node.kvs_mk, Node.children_mk, (pair_get cs1 cs2 a b _ p.l1.symm).1,
      (pair_get cs1 cs2 a b _ p.l1.symm).2, e]
    have : (ks1 ++ kv :: ks2)[ks1.length]? = some kv := by simp
    rw [this]
    simp only [e]
    refine ⟨_, rfl, ?_⟩
    rw [pair_set _ _ _ _ _ _ _ p.l1.symm, set_mid _ _ _ _ _ rfl]
    have wa' : WF n h (Node.mk (a.kvs ++ [kv]) (a.children ++ b.children.take 1)) := by
      rw [wf_iff_shape]
      refine ⟨?_, by simp; omega⟩
      cases h with
      | zero =>
        have h1 : a.children = [] := p.sa
        have h2 : b.children = [] := p.sb
        simp [Shape, h1, h2]
      | succ h =>
        have h1 := p.sa.1
        have h2 := p.sb.1
        refine ⟨by simp; omega, ?_⟩
        intro c hc
        rcases List.mem_append.1 hc with hc | hc
        · exact p.sa.2 c hc
        · exact p.sb.2 c (List.mem_of_mem_take hc)
    have wb' : WF n h (Node.mk rkvs (b.children.drop 1)) := by
      rw [wf_iff_shape]
      refine ⟨shape_take_drop p.sb e, ?_⟩
      simp [hb, e] at cbn ⊢; omega
    obtain ⟨q1, q2⟩ := pair_rebuild (kv := kv) (kv' := rkv) p wa' wb' (by simp; omega) (by simp [hb, e] at cb ⊢; omega)
      (by simp only [join, e, Node.kvs_mk, Node.children_mk, List.append_assoc, List.take_append_drop]; simp)
    exact ⟨q1, q2, by simp; omega⟩

theorem rotateRight_spec {n h : Nat} (hn : 2 ≤ n) {ks1 ks2 : List (K × V)} {cs1 cs2 : List (Node K V)} {a b : Node K V} {kv}
    (p : Pair n h ks1 ks2 cs1 cs2 a b) (cb : b.count + 1 = n / 2) (ca : a.count > n / 2) (can : a.count ≤ n) :
    ∃ t', rotateRight (.mk (ks1 ++ kv :: ks2) (cs1 ++ a :: b :: cs2)) (ks1.length + 1) = some t' ∧ WF n (h+1) t' ∧
      flat (h+1) t' = flat (h+1) (.mk (ks1 ++ kv :: ks2) (cs1 ++ a :: b :: cs2)) ∧ t'.count = ks1.length + ks2.length + 1 := by
  have hb : b.count = b.kvs.length := rfl
  have ha : a.count = a.kvs.length := rfl
  have hne : a.kvs ≠ [] := by intro e; simp [ha, e] at ca
  obtain ⟨init, lkv, e⟩ : ∃ init lkv, a.kvs = init ++ [lkv] := ⟨_, _, (List.dropLast_concat_getLast hne).symm⟩
  simp only [rotateRight, Node.kvs_mk, Node.children_mk, (pair_get cs1 cs2 a b _ p.l1.symm).1, Nat.add_sub_cancel,
      (pair_get cs1 cs2 a b _ p.l1.symm).2, e]
  have : (ks1 ++ kv :: ks2)[ks1.length]? = some kv := by simp
  rw [this]
  simp only [e, List.getLast?_concat, List.dropLast_concat]
  refine ⟨_, rfl, ?_⟩
  rw [List.set_comm _ _ (by omega), pair_set _ _ _ _ _ _ _ p.l1.symm, set_mid _ _ _ _ _ rfl]
  have hlen : init.length + 1 = a.count := by simp [ha, e]
  have wa' : WF n h (Node.mk init a.children.dropLast) := by
    rw [wf_iff_shape]
    refine ⟨?_, by simp; omega⟩
    cases h with
    | zero =>
      have h1 : a.children = [] := p.sa
      simp [Shape, h1]
    | succ h =>
      have h1 := p.sa.1
      refine ⟨by simp [h1, e], ?_⟩
      intro c hc
      exact p.sa.2 c (List.dropLast_subset _ hc)
  have hch : (consNode kv a.children.getLast? b).kvs = kv :: b.kvs ∧
      a.children.dropLast ++ (consNode kv a.children.getLast? b).children = a.children ++ b.children := by
    refine ⟨rfl, ?_⟩
    cases hl : a.children.getLast? with
    | none =>
      have : a.children = [] := by simpa using hl
      simp [consNode, this]
    | some c =>
      simp only [consNode, Node.children_mk]
      obtain ⟨hne', hl'⟩ := List.getLast?_eq_some_iff.1 hl
      simp [hl']
  have hbc : ∀ c ∈ (consNode kv a.children.getLast? b).children, c ∈ a.children ∨ c ∈ b.children := by
    intro c hc
    have : c ∈ a.children.dropLast ++ (consNode kv a.children.getLast? b).children := by simp [hc]
    rw [hch.2] at this
    simpa using this
  have wb' : WF n h (consNode kv a.children.getLast? b) := by
    rw [wf_iff_shape]
    refine ⟨?_, by simp [Node.count, hch.1]; omega⟩
    cases h with
    | zero =>
      have h1 : a.children = [] := p.sa
      have h2 : b.children = [] := p.sb
      simp [Shape, consNode, h1, h2]
    | succ h =>
      have h1 := p.sa.1
      have h2 := p.sb.1
      have h3 := congrArg List.length hch.2
      simp at h3
      refine ⟨by rw [hch.1]; simp; omega, ?_⟩
      intro c hc
      rcases hbc c hc with hc | hc
      · exact p.sa.2 c hc
      · exact p.sb.2 c hc
  obtain ⟨q1, q2⟩ := pair_rebuild (kv := kv) (kv' := lkv) p wa' wb' (by simp; omega) (by simp [Node.count, hch.1]; omega)
      (by simp [join, e, hch.1, hch.2])
  exact ⟨q1, q2, by simp; omega⟩

theorem mergeDown_spec {n h : Nat} {ks1 ks2 : List (K × V)} {cs1 cs2 : List (Node K V)} {a b : Node K V} {kv}
    (p : Pair n h ks1 ks2 cs1 cs2 a b) (hc1 : n / 2 ≤ a.count + b.count + 1) (hc2 : a.count + b.count + 1 ≤ n) (i : Nat)
    (hi : (i = 0 ∧ ks1 = []) ∨ i = ks1.length + 1) :
    ∃ t', mergeDown (.mk (ks1 ++ kv :: ks2) (cs1 ++ a :: b :: cs2)) i = some t' ∧ WF n (h+1) t' ∧
      flat (h+1) t' = flat (h+1) (.mk (ks1 ++ kv :: ks2) (cs1 ++ a :: b :: cs2)) ∧ t'.count = ks1.length + ks2.length := by
  have hj : (if i ≠ 0 then i - 1 else i) = ks1.length := by
    rcases hi with ⟨rfl, rfl⟩ | rfl <;> simp
  simp only [mergeDown]
  rw [hj]
  simp only [Node.kvs_mk, Node.children_mk, (pair_get cs1 cs2 a b _ p.l1.symm).1,
      (pair_get cs1 cs2 a b _ p.l1.symm).2]
  have : (ks1 ++ kv :: ks2)[ks1.length]? = some kv := by simp
  rw [this]
  refine ⟨_, rfl, ?_⟩
  have e1 : (ks1 ++ kv :: ks2).eraseIdx ks1.length = ks1 ++ ks2 := by
    rw [List.eraseIdx_append_of_length_le (by omega)]; simp
  have e2 : (((cs1 ++ a :: b :: cs2).set ks1.length (Node.mk (a.kvs ++ kv :: b.kvs) (a.children ++ b.children))).eraseIdx (ks1.length + 1))
      = cs1 ++ join a kv b :: cs2 := by
    rw [set_mid _ _ _ _ _ p.l1.symm, ← p.l1, List.eraseIdx_append_of_length_le (by omega)]
    simp [join]
  rw [e1, e2]
  have wj : WF n h (join a kv b) := by
    rw [wf_iff_shape]
    refine ⟨join_shape kv p.sa p.sb, ?_⟩
    simp [join, Node.count] at *; omega
  refine ⟨?_, ?_, by simp⟩
  · have := p.le
    have l1 := p.l1
    have l2 := p.l2
    rw [wf_mk_succ]
    refine ⟨by simp; omega, by simp; omega, ?_⟩
    intro c hc
    simp only [List.mem_append, List.mem_cons] at hc
    rcases hc with hc | rfl | hc
    · exact p.others c (.inl hc)
    · exact ⟨wj, by simp [join, Node.count] at *; omega⟩
    · exact p.others c (.inr hc)
  · rw [flat_mid p.l1, flat_pair p.l1, join_flat kv p.sa p.sb]

theorem rebalance_spec {n h : Nat} (hn : 2 ≤ n) {ks1 ks2 : List (K × V)} {cs1 cs2 : List (Node K V)} {c : Node K V}
    (l1 : cs1.length = ks1.length) (l2 : cs2.length = ks2.length) (le : ks1.length + ks2.length ≤ n)
    (ge : 1 ≤ ks1.length + ks2.length) (wc : WF n h c) (cc : c.count + 1 = n / 2)
    (ot : ∀ d, d ∈ cs1 ∨ d ∈ cs2 → WF n h d ∧ n / 2 ≤ d.count) :
    ∃ t' u, rebalance n (.mk (ks1 ++ ks2) (cs1 ++ c :: cs2)) ks1.length = some (t', u) ∧ WF n (h+1) t' ∧
      flat (h+1) t' = flat (h+1) (.mk (ks1 ++ ks2) (cs1 ++ c :: cs2)) ∧ Under n (ks1.length + ks2.length) t'.count u := by
  have sc := (wf_iff_shape.1 wc)
  -- right neighbour
  have right : ∀ b cs2' kv ks2', cs2 = b :: cs2' → ks2 = kv :: ks2' → Pair n h ks1 ks2' cs1 cs2' c b := by
    rintro b cs2' kv ks2' rfl rfl
    simp at l2 le
    exact ⟨l1, by omega, by omega, sc.1, (wf_iff_shape.1 (ot b (by simp)).1).1,
      fun d hd => ot d (hd.imp id (by intro h; simp [h]))⟩
  have left : ∀ a cs1' kv ks1', cs1 = cs1' ++ [a] → ks1 = ks1' ++ [kv] → Pair n h ks1' ks2 cs1' cs2 a c := by
    rintro a cs1' kv ks1' rfl rfl
    simp at l1 le
    exact ⟨by omega, l2, by omega, (wf_iff_shape.1 (ot a (by simp)).1).1, sc.1,
      fun d hd => ot d (hd.imp (by intro h; simp [h]) id)⟩
  simp only [rebalance, Node.children_mk, minValues_eq]
  by_cases h0 : ks1.length = 0
  · -- first child
    have e1 : ks1 = [] := List.length_eq_zero_iff.1 h0
    subst e1
    have e2 : cs1 = [] := List.length_eq_zero_iff.1 (by simpa using l1)
    subst e2
    cases ks2 with
    | nil => simp at ge
    | cons kv ks2 =>
      cases cs2 with
      | nil => simp at l2
      | cons b cs2 =>
        have p := right b cs2 kv ks2 rfl rfl
        have hb := ot b (by simp)
        simp only [List.length_nil, if_true, List.nil_append, List.getElem?_cons_zero, List.getElem?_cons_succ]
        by_cases hgt : b.count > n / 2
        · obtain ⟨t', q1, q2, q3, q4⟩ := rotateLeft_spec (kv := kv) hn p cc hgt (wf_iff_shape.1 hb.1).2
          simp only [List.nil_append, List.length_nil] at q1
          simp only [hgt, if_true, q1]
          exact ⟨t', false, rfl, q2, q3, by simp at q4 ⊢; simp [Under, q4]⟩
        · obtain ⟨t', q1, q2, q3, q4⟩ := mergeDown_spec (kv := kv) p (by omega) (by omega) 0 (by simp)
          simp only [List.nil_append] at q1
          simp only [hgt, q1]
          refine ⟨t', _, rfl, q2, q3, ?_⟩
          simp at q4 ⊢
          simp [Under, q4]
  · obtain ⟨ks1', kv1, rfl⟩ : ∃ ks kv, ks1 = ks ++ [kv] :=
      ⟨_, _, (List.dropLast_concat_getLast (by intro e; simp [e] at h0)).symm⟩
    obtain ⟨cs1', a, rfl⟩ : ∃ cs a, cs1 = cs ++ [a] :=
      ⟨_, _, (List.dropLast_concat_getLast (by intro e; simp [e] at l1)).symm⟩
    have pl := left a cs1' kv1 ks1' rfl rfl
    have hla := ot a (by simp)
    have l1' : cs1'.length = ks1'.length := by simpa using l1
    have ga : (cs1' ++ [a] ++ c :: cs2)[(ks1' ++ [kv1]).length - 1]? = some a := by
      simp [← l1']
    have gc : (cs1' ++ [a] ++ c :: cs2)[(ks1' ++ [kv1]).length]? = some c := by
      rw [← l1]; simp
    have reshape : (Node.mk (ks1' ++ [kv1] ++ ks2) (cs1' ++ [a] ++ c :: cs2)) = Node.mk (ks1' ++ kv1 :: ks2) (cs1' ++ a :: c :: cs2) := by
      simp
    have hlen : (ks1' ++ [kv1]).length = ks1'.length + 1 := by simp
    by_cases hlast : (ks1' ++ [kv1]).length = (cs1' ++ [a] ++ c :: cs2).length - 1
    · have e3 : ks2 = [] := by
        simp at hlast; exact List.length_eq_zero_iff.1 (by omega)
      subst e3
      rw [if_neg h0, if_pos hlast, ga, gc]
      simp only []
      by_cases hgt : a.count > n / 2
      · obtain ⟨t', q1, q2, q3, q4⟩ := rotateRight_spec (kv := kv1) hn pl cc hgt (wf_iff_shape.1 hla.1).2
        rw [← reshape, ← hlen] at q1
        rw [if_pos hgt, q1, reshape]
        refine ⟨t', false, rfl, q2, q3, ?_⟩
        simp at q4 ⊢; simp [Under, q4]
      · obtain ⟨t', q1, q2, q3, q4⟩ := mergeDown_spec (kv := kv1) pl (by omega) (by omega) (ks1'.length + 1) (by simp)
        rw [← reshape, ← hlen] at q1
        rw [if_neg hgt, q1, reshape]
        refine ⟨t', _, rfl, q2, q3, ?_⟩
        simp at q4 ⊢; simp [Under, q4]
    · cases ks2 with
      | nil => simp at l2; simp [l2, l1'] at hlast
      | cons kv2 ks2 =>
        cases cs2 with
        | nil => simp at l2
        | cons b cs2 =>
          have pr := right b cs2 kv2 ks2 rfl rfl
          have hb := ot b (by simp)
          have gb : (cs1' ++ [a] ++ c :: b :: cs2)[(ks1' ++ [kv1]).length + 1]? = some b :=
            (pair_get (cs1' ++ [a]) cs2 c b _ l1.symm).2
          rw [if_neg h0, if_neg hlast, ga, gc, gb]
          simp only []
          by_cases hgt : b.count > n / 2
          · obtain ⟨t', q1, q2, q3, q4⟩ := rotateLeft_spec (kv := kv2) hn pr cc hgt (wf_iff_shape.1 hb.1).2
            rw [if_pos hgt, q1]
            refine ⟨t', false, rfl, q2, q3, ?_⟩
            simp at q4 ⊢; simp [Under, q4]; omega
          · rw [if_neg hgt]
            by_cases hgt' : a.count > n / 2
            · obtain ⟨t', q1, q2, q3, q4⟩ := rotateRight_spec (kv := kv1) hn pl cc hgt' (wf_iff_shape.1 hla.1).2
              rw [← reshape, ← hlen] at q1
              rw [if_pos hgt', q1, reshape]
              refine ⟨t', false, rfl, q2, q3, ?_⟩
              simp at q4 ⊢; simp [Under, q4]; omega
            · obtain ⟨t', q1, q2, q3, q4⟩ := mergeDown_spec (kv := kv1) pl (by omega) (by omega) (ks1'.length + 1) (by simp)
              rw [← reshape, ← hlen] at q1
              rw [if_neg hgt', q1, reshape]
              refine ⟨t', _, rfl, q2, q3, ?_⟩
              simp at q4 ⊢; simp [Under, q4]; omega

/-- Replacing a child and rebalancing when it underflowed. -/
theorem fixup_spec {n h : Nat} (hn : 2 ≤ n) {ks1 ks2 : List (K × V)} {cs1 cs2 : List (Node K V)} {c' : Node K V} {old : Nat} {u : Bool}
    (l1 : cs1.length = ks1.length) (l2 : cs2.length = ks2.length) (le : ks1.length + ks2.length ≤ n)
    (ge : 1 ≤ ks1.length + ks2.length) (wc : WF n h c') (ho : n / 2 ≤ old) (hu : Under n old c'.count u)
    (ot : ∀ d, d ∈ cs1 ∨ d ∈ cs2 → WF n h d ∧ n / 2 ≤ d.count) :
    (u = true → ∃ t' u', rebalance n (.mk (ks1 ++ ks2) (cs1 ++ c' :: cs2)) ks1.length = some (t', u') ∧ WF n (h+1) t' ∧
      flat (h+1) t' = flat (h+1) (.mk (ks1 ++ ks2) (cs1 ++ c' :: cs2)) ∧ Under n (ks1.length + ks2.length) t'.count u') ∧
    (u = false → WF n (h+1) (.mk (ks1 ++ ks2) (cs1 ++ c' :: cs2)) ∧ Under n (ks1.length + ks2.length) (ks1 ++ ks2).length false) := by
  obtain ⟨u1, u2, u3, u4⟩ := hu
  constructor
  · intro h'
    have := u3 h'
    exact rebalance_spec hn l1 l2 le ge wc (by omega) ot
  · intro h'
    have := u4 h'
    refine ⟨?_, by simp [Under]⟩
    rw [wf_mk_succ]
    refine ⟨by simp; omega, by simp; omega, ?_⟩
    intro d hd
    simp only [List.mem_append, List.mem_cons] at hd
    rcases hd with hd | rfl | hd
    · exact ot d (.inl hd)
    · exact ⟨wc, by omega⟩
    · exact ot d (.inr hd)

theorem first_mem_flat {h : Nat} {t : Node K V} {kv} (hk : kv ∈ t.kvs) : kv ∈ flat h t := by
  cases h with
  | zero => exact hk
  | succ h => exact (interleave_perm _ _).mem_iff.2 (by simp [hk])

theorem child_mem_flat {h : Nat} {t c : Node K V} (hc : c ∈ t.children) {kv} (hk : kv ∈ flat h c) : kv ∈ flat (h+1) t := by
  refine (interleave_perm _ _).mem_iff.2 ?_
  simp only [List.mem_append, List.mem_flatten, List.mem_map]
  exact .inr ⟨_, ⟨c, hc, rfl⟩, hk⟩

/-- `swap` takes out the greatest (`dir = true`) or smallest item. -/
theorem swap_spec {n : Nat} (hn : 2 ≤ n) (sk : K) (dir : Bool) :
    ∀ (h fuel : Nat) (t : Node K V), WF n h t → 1 ≤ t.count → (∀ kv ∈ flat h t, less kv.1 sk = dir) → h < fuel →
      ∃ t' kv u, swap n sk fuel t = some (t', kv, u) ∧ WF n h t' ∧
        flat h t = (if dir then flat h t' ++ [kv] else kv :: flat h t') ∧ Under n t.count t'.count u := by
  intro h
  induction h with
  | zero =>
    intro fuel t w hc hd hf
    obtain ⟨fuel, rfl⟩ : ∃ f, fuel = f + 1 := ⟨fuel - 1, by omega⟩
    simp only [swap]
    cases e : t.kvs with
    | nil => simp [Node.count, e] at hc
    | cons first rest =>
      have hfi := hd first (by simp [flat, e])
      have hcount : t.count = rest.length + 1 := by simp [Node.count, e]
      have hwl : t.kvs.length ≤ n := w.2
      simp only [isLeaf_zero w, if_true, hfi, minValues_eq]
      cases dir with
      | false =>
        simp only [Bool.not_false, if_true]
        refine ⟨_, _, _, rfl, ?_, by simp [flat, e], ?_⟩
        · exact ⟨rfl, by simp [e] at hwl ⊢; omega⟩
        · simp only [Under, hcount, Node.count_mk, decide_eq_true_eq, decide_eq_false_iff_not]; omega
      | true =>
        simp only [Bool.not_true, Bool.false_eq_true, if_false, if_true]
        refine ⟨_, _, _, rfl, ?_, ?_, ?_⟩
        · exact ⟨rfl, by simp [e] at hwl ⊢; omega⟩
        · simp only [flat, Node.kvs_mk, e]
          exact (List.dropLast_concat_getLast _).symm
        · simp only [Under, hcount, Node.count_mk, decide_eq_true_eq, decide_eq_false_iff_not, List.length_dropLast, List.length_cons]; omega
  | succ h ih =>
    intro fuel t w hc hd hf
    obtain ⟨fuel, rfl⟩ : ∃ f, fuel = f + 1 := ⟨fuel - 1, by omega⟩
    simp only [swap]
    cases e : t.kvs with
    | nil => simp [Node.count, e] at hc
    | cons first rest =>
      have hfi := hd first (first_mem_flat (by simp [e]))
      simp only [isLeaf_succ w, hfi]
      have w1 := w.1
      have w2 := w.2.1
      have w3 := w.2.2
      cases dir with
      | false =>
        have e' : t.kvs = [] ++ t.kvs := rfl
        obtain ⟨cs1, c, cs2, e1, e2, e3, e4, e5⟩ := node_split w e'
        have : cs1 = [] := List.length_eq_zero_iff.1 (by simpa using e2)
        subst this
        simp only [List.nil_append, List.length_nil, List.map_nil, pre] at *
        have hcm : c ∈ t.children := List.mem_of_getElem? e4
        obtain ⟨c', kv, u, s1, s2, s3, s4⟩ := ih fuel c (w3 c hcm).1 (by have := (w3 c hcm).2; omega)
          (fun kv hk => hd kv (child_mem_flat hcm hk)) (by omega)
        have fx := fixup_spec (n := n) (h := h) hn (ks1 := []) (ks2 := t.kvs) (cs1 := []) (cs2 := cs2) (c' := c') (old := c.count) (u := u)
          rfl e3 (by simpa using w2) (by simpa [e] using hc) s2 (w3 c hcm).2 s4
          (fun d hd' => w3 d (by rw [e1]; simp at hd'; simp [hd']))
        have hch : t.children = c :: cs2 := by rw [e1]; rfl
        simp only [Bool.not_false, if_true, Bool.false_eq_true, if_false, e4, s1]
        rw [hch]
        simp only [List.set_cons_zero]
        rw [← e]
        simp only [List.nil_append, List.length_nil, Nat.zero_add] at fx
        have hfl : flat (h+1) (Node.mk t.kvs (c' :: cs2)) = flat h c' ++ post (cs2.map (flat h)) t.kvs :=
          flat_mid (cs1 := []) (ks1 := []) rfl
        cases u with
        | true =>
          obtain ⟨t', u', r1, r2, r3, r4⟩ := fx.1 rfl
          simp only [if_true, r1]
          refine ⟨_, _, _, rfl, r2, ?_, r4⟩
          rw [r3, hfl, e5, s3]; simp
        | false =>
          obtain ⟨r1, r2⟩ := fx.2 rfl
          simp only [Bool.false_eq_true, if_false]
          refine ⟨_, _, _, rfl, r1, ?_, r2⟩
          rw [hfl, e5, s3]; simp
      | true =>
        have e' : t.kvs = t.kvs ++ [] := by simp
        obtain ⟨cs1, c, cs2, e1, e2, e3, e4, e5⟩ := node_split w e'
        have : cs2 = [] := List.length_eq_zero_iff.1 (by simpa using e3)
        subst this
        have hcm : c ∈ t.children := List.mem_of_getElem? e4
        obtain ⟨c', kv, u, s1, s2, s3, s4⟩ := ih fuel c (w3 c hcm).1 (by have := (w3 c hcm).2; omega)
          (fun kv hk => hd kv (child_mem_flat hcm hk)) (by omega)
        have fx := fixup_spec (n := n) (h := h) hn (ks1 := t.kvs) (ks2 := []) (cs1 := cs1) (cs2 := []) (c' := c') (old := c.count) (u := u)
          e2 rfl (by simpa using w2) (by simpa [e] using hc) s2 (w3 c hcm).2 s4
          (fun d hd' => w3 d (by rw [e1]; simp at hd'; simp [hd']))
        have hch : t.children = cs1 ++ [c] := by rw [e1]; rfl
        have hidx : t.children.length - 1 = t.kvs.length := by omega
        simp only [Bool.not_true, Bool.false_eq_true, if_false, hidx, e4, s1]
        rw [← e, hch, set_mid _ _ _ _ _ e2.symm]
        simp only [List.append_nil, List.length_nil, Nat.add_zero] at fx
        have hfl : flat (h+1) (Node.mk t.kvs (cs1 ++ [c'])) = pre (cs1.map (flat h)) t.kvs ++ flat h c' := by
          have := flat_mid (h := h) (cs1 := cs1) (ks1 := t.kvs) (ks2 := []) (cs2 := []) (c := c') e2
          simpa [post] using this
        simp only [List.map_nil, post, List.flatten_nil, List.append_nil] at e5
        cases u with
        | true =>
          obtain ⟨t', u', r1, r2, r3, r4⟩ := fx.1 rfl
          simp only [if_true, r1]
          refine ⟨_, _, _, rfl, r2, ?_, r4⟩
          rw [r3, hfl, e5, s3]; simp
        | false =>
          obtain ⟨r1, r2⟩ := fx.2 rfl
          simp only [Bool.false_eq_true, if_false]
          refine ⟨_, _, _, rfl, r1, ?_, r2⟩
          rw [hfl, e5, s3]; simp

/-- What `remove` guarantees on a node of height `h`. -/
def RemoveSpec (n h : Nat) (key : K) (can : K × V → Bool) (t : Node K V) (r : RemoveRes K V) : Prop :=
  r.asked = lookupL key (flat h t) ∧ WF n h r.node ∧
  flat h r.node = (match lookupL key (flat h t) with
    | some kv => if can kv then eraseL key (flat h t) else flat h t
    | none => flat h t) ∧
  Under n t.count r.node.count r.under

theorem remove_spec {n : Nat} (hn : 2 ≤ n) (key : K) (can : K × V → Bool) :
    ∀ (h fuel : Nat) (t : Node K V), WF n h t → Sorted (flat h t) → (h ≠ 0 → 1 ≤ t.count) → h < fuel →
      ∃ r, remove n key can fuel t = some r ∧ RemoveSpec n h key can t r := by
  intro h
  induction h with
  | zero =>
    intro fuel t w hs _ hf
    obtain ⟨fuel, rfl⟩ : ∃ f, fuel = f + 1 := ⟨fuel - 1, by omega⟩
    simp only [remove]
    cases hh : hit key t.kvs with
    | some kv =>
      have hl := lookup_hit w hs hh
      simp only [isLeaf_zero w, if_true]
      by_cases hc : can kv = true
      · simp only [hc, if_true]
        refine ⟨_, rfl, ?_⟩
        simp only [RemoveSpec, hl, hc, if_true, true_and]
        obtain ⟨ks1, ks2, e1, e2, e3, e4⟩ := hit_some hh
        have he : t.kvs.eraseIdx (scan key t.kvs) = ks1 ++ ks2 := by
          rw [← e2, e1, List.eraseIdx_append_of_length_le (by omega)]; simp
        have hw := w.2
        rw [he]
        refine ⟨⟨rfl, by rw [e1] at hw; simp at hw ⊢; omega⟩, ?_, ?_⟩
        · simp only [flat, Node.kvs_mk, e1] at hs ⊢
          rw [sorted_append, sorted_cons] at hs
          have hg : AllGt ks2 key := fun x hx => lt_of_keq_lt (keq_symm e4) (hs.2.1.1 x hx)
          simp [eraseL, e4] 
          rw [show List.filter (fun kv => !keq kv.1 key) ks1 = ks1 from eraseL_lt e3,
              show List.filter (fun kv => !keq kv.1 key) ks2 = ks2 from eraseL_gt hg]
        · have hcnt : t.count = ks1.length + ks2.length + 1 := by simp [Node.count, e1]; omega
          simp only [Under, hcnt, Node.count_mk, List.length_append, minValues_eq, decide_eq_true_eq, decide_eq_false_iff_not]
          omega
      · simp only [hc]
        exact ⟨_, rfl, hl.symm, w, by simp [hl, hc], by simp [Under]⟩
    | none =>
      have hl := lookup_leaf_none hs hh
      simp only [isLeaf_zero w, if_true]
      refine ⟨_, rfl, ?_, w, ?_, by simp [Under]⟩
      · simp only [flat]; exact hl.symm
      · rw [show lookupL key (flat 0 t) = none from hl]
  | succ h ih =>
    intro fuel t w hs hne hf
    obtain ⟨fuel, rfl⟩ : ∃ f, fuel = f + 1 := ⟨fuel - 1, by omega⟩
    have hne := hne (by omega)
    have w1 := w.1
    have w2 := w.2.1
    have w3 := w.2.2
    simp only [remove]
    cases hh : hit key t.kvs with
    | some kv =>
      have hl := lookup_hit w hs hh
      simp only [isLeaf_succ w]
      by_cases hc : can kv = true
      · simp only [hc, if_true, Bool.false_eq_true, if_false]
        obtain ⟨ks1, ks2, e1, e2, e3, e4⟩ := hit_some hh
        obtain ⟨cs1, a, cs2', f1, f2, f3, f4, f5⟩ := node_split w e1
        cases cs2' with
        | nil => simp at f3
        | cons b cs2 =>
          have l2 : cs2.length = ks2.length := by simpa using f3
          have hkvna := internal_not_any hn w hs (kv := kv) (by rw [e1]; simp)
          have ham : a ∈ t.children := by rw [f1]; simp
          have hbm : b ∈ t.children := by rw [f1]; simp
          have hwa := w3 a ham
          have hwb := w3 b hbm
          have hot : ∀ d, d ∈ cs1 ∨ d ∈ cs2 → WF n h d ∧ n / 2 ≤ d.count := by
            intro d hd; exact w3 d (by rw [f1]; rcases hd with hd | hd <;> simp [hd])
          have hle : ks1.length + ks2.length + 1 ≤ n := by rw [e1] at w2; simp at w2; omega
          rw [f1, flat_pair f2] at hs
          have hs' := hs
          rw [sorted_append, sorted_append, sorted_append, sorted_cons] at hs'
          obtain ⟨⟨hp1, ⟨hp2, ⟨hp6, hp7⟩, hp8⟩, hp3⟩, hp4, hp5⟩ := hs'
          have hflat : flat (h+1) t = pre (cs1.map (flat h)) ks1 ++ (flat h a ++ kv :: flat h b) ++ post (cs2.map (flat h)) ks2 := by
            rw [f1, flat_pair f2]
          -- erasing the key
          have herase : eraseL key (flat (h+1) t) = pre (cs1.map (flat h)) ks1 ++ (flat h a ++ flat h b) ++ post (cs2.map (flat h)) ks2 := by
            rw [hflat]
            have k1 : AllLt (pre (cs1.map (flat h)) ks1) key := fun x hx =>
              lt_of_lt_keq (hp3 x hx kv (by simp)) e4
            have k2 : AllLt (flat h a) key := fun x hx => lt_of_lt_keq (hp8 x hx kv (by simp)) e4
            have k3 : AllGt (flat h b) key := fun x hx => lt_of_keq_lt (keq_symm e4) (hp6 x hx)
            have k4 : AllGt (post (cs2.map (flat h)) ks2) key := fun x hx => lt_of_keq_lt (keq_symm e4) (hp5 kv (by simp) x hx)
            rw [eraseL_mid k1 k4, eraseL_append, eraseL_lt k2]
            have : eraseL key (kv :: flat h b) = flat h b := by
              simp only [eraseL, List.filter_cons, e4]
              exact eraseL_gt k3
            rw [this]
          have hi : scan key t.kvs = ks1.length := e2.symm
          have hgetkv : t.kvs[ks1.length]? = some kv := by rw [e1]; simp
          have hch : t.children = cs1 ++ a :: b :: cs2 := by rw [f1]; rfl
          have hga : t.children[ks1.length]? = some a := f4
          have hgb : t.children[ks1.length + 1]? = some b := by
            rw [hch]; exact (pair_get cs1 cs2 a b _ f2.symm).2
          have hcnt : t.count = ks1.length + ks2.length + 1 := by simp [Node.count, e1]; omega
          simp only [hi, removeNodeItem, hga, hgb, hgetkv]
          by_cases hgt : b.count > a.count
          · -- take the smallest item of the right subtree
            obtain ⟨b', skv, u, s1, s2, s3, s4⟩ := swap_spec hn kv.1 false h fuel b hwb.1 (by omega)
              (by
                intro x hx
                have hlt := hp6 x hx
                by_cases hx' : typ x.1 = DataType.any
                · exact less_any (.inl hx')
                · rw [less_eq hx' hkvna]; exact asymm hlt) (by omega)
            simp only [hgt, if_true, s1]
            have hu : u = false := by
              cases u with
              | false => rfl
              | true => have := s4.2.2.1 rfl; have := s4.2.1; omega
            subst hu
            simp only []
            refine ⟨_, rfl, ?_⟩
            simp only [RemoveSpec, hl, hc, if_true, true_and]
            have hb' : n / 2 ≤ b'.count := by rcases s4.2.2.2 rfl with h' | h' <;> omega
            rw [e1, hch, set_mid _ _ _ _ _ rfl, show cs1 ++ a :: b :: cs2 = (cs1 ++ [a]) ++ b :: cs2 by simp,
              set_mid _ _ _ _ _ (by simp [f2])]
            rw [show (cs1 ++ [a]) ++ b' :: cs2 = cs1 ++ a :: b' :: cs2 by simp]
            refine ⟨?_, ?_, ?_⟩
            · rw [wf_mk_succ]
              refine ⟨by simp; omega, by simp; omega, ?_⟩
              intro c hc'
              simp only [List.mem_append, List.mem_cons] at hc'
              rcases hc' with hc' | rfl | rfl | hc'
              · exact hot c (.inl hc')
              · exact hwa
              · exact ⟨s2, hb'⟩
              · exact hot c (.inr hc')
            · rw [herase, flat_pair f2, s3]; simp
            · simp [Under, hcnt]; omega
          · -- take the greatest item of the left subtree
            obtain ⟨a', skv, u, s1, s2, s3, s4⟩ := swap_spec hn kv.1 true h fuel a hwa.1 (by omega)
              (by
                intro x hx
                have hlt := hp8 x hx kv (by simp)
                rw [less_eq (any_top hlt) hkvna]; exact hlt) (by omega)
            simp only [hgt, if_false, s1]
            rw [e1, hch, set_mid _ _ _ _ _ rfl, set_mid _ _ _ _ _ f2.symm]
            have fx := fixup_spec (n := n) (h := h) hn (ks1 := ks1) (ks2 := skv :: ks2) (cs1 := cs1) (cs2 := b :: cs2) (c' := a')
              (old := a.count) (u := u) f2 (by simp [l2]) (by simp; omega) (by simp; omega) s2 hwa.2 s4
              (by
                intro d hd
                rcases hd with hd | hd
                · exact hot d (.inl hd)
                · rcases List.mem_cons.1 hd with rfl | hd
                  · exact hwb
                  · exact hot d (.inr hd))
            have hfin : flat (h+1) (Node.mk (ks1 ++ skv :: ks2) (cs1 ++ a' :: b :: cs2)) = eraseL key (flat (h+1) t) := by
              rw [herase, flat_pair f2, s3]; simp
            cases u with
            | true =>
              obtain ⟨t', u', r1, r2, r3, r4⟩ := fx.1 rfl
              simp only [r1]
              refine ⟨_, rfl, ?_⟩
              simp only [RemoveSpec, hl, hc, if_true, true_and]
              refine ⟨r2, by rw [r3, hfin], ?_⟩
              simp only [List.length_cons] at r4
              rw [hcnt]; exact r4
            | false =>
              obtain ⟨r1, r2⟩ := fx.2 rfl
              simp only []
              refine ⟨_, rfl, ?_⟩
              simp only [RemoveSpec, hl, hc, if_true, true_and]
              refine ⟨r1, hfin, ?_⟩
              simp [Under, hcnt]; omega
      · simp only [hc]
        exact ⟨_, rfl, hl.symm, w, by simp [hl, hc], by simp [Under]⟩
    | none =>
      have hlook := fun c hc => lookup_descend w hs hh (c := c) hc
      obtain ⟨ks1, ks2, cs1, c, cs2, e1, e2, e3, e4, e5, e6, e7, e8, e9, e10, e11, e12, e13⟩ := descend w hs hh
      have hlc := hlook c e5
      simp only [isLeaf_succ w, e5]
      obtain ⟨r, hr, q1, q2, q3, q4⟩ := ih fuel c e6 e13 (fun _ => by omega) (by omega)
      simp only [hr]
      have hcnt : t.count = ks1.length + ks2.length := by rw [e1]; simp
      have hle : ks1.length + ks2.length ≤ n := by rw [← hcnt]; exact w2
      have fx := fixup_spec (n := n) (h := h) hn (ks1 := ks1) (ks2 := ks2) (cs1 := cs1) (cs2 := cs2) (c' := r.node)
          (old := c.count) (u := r.under) e2 e3 hle (by omega) q2 e7 q4
          (by intro d hd; exact w3 d (by rw [e1]; rcases hd with hd | hd <;> simp [hd]))
      have hset : Node.mk t.kvs (t.children.set (scan key t.kvs) r.node) = Node.mk (ks1 ++ ks2) (cs1 ++ r.node :: cs2) := by
        rw [← e4, e1]
        simp only [Node.kvs_mk, Node.children_mk]
        rw [set_mid _ _ _ _ _ e2.symm]
      have hfin : flat (h+1) (Node.mk (ks1 ++ ks2) (cs1 ++ r.node :: cs2)) = (match lookupL key (flat (h+1) t) with
          | some kv => if can kv then eraseL key (flat (h+1) t) else flat (h+1) t
          | none => flat (h+1) t) := by
        rw [flat_mid e2, q3, hlc, e8]
        cases lookupL key (flat h c) with
        | none => rfl
        | some kv =>
          simp only []
          by_cases hck : can kv = true
          · simp only [hck, if_true]; rw [eraseL_mid e11 e12]
          · simp [hck]
      rw [hset, ← e4]
      cases hu : r.under with
      | true =>
        obtain ⟨t', u', r1, r2, r3, r4⟩ := fx.1 hu
        simp only [if_true, r1, Bool.false_eq_true, if_false]
        exact ⟨_, rfl, by rw [hlc]; exact q1, r2, by rw [r3, hfin], by rw [hcnt]; exact r4⟩
      | false =>
        obtain ⟨r1, r2⟩ := fx.2 hu
        simp only [Bool.false_eq_true, if_false]
        exact ⟨_, rfl, by rw [hlc]; exact q1, r1, hfin, by simp [Under, hcnt]⟩

end Willow.BTree
