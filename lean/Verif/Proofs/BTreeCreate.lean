import Verif.Proofs.BTreeBase
set_option linter.unusedSectionVars false
set_option linter.unusedSimpArgs false
/-! Create on the B-tree refines insertion into the sorted item list. -/
namespace Willow.BTree
open KeyOps LawfulKey

variable {K V : Type} [LawfulKey K]

/-- Lookup in a node through its scan index. -/
theorem lookup_hit {key : K} {n h : Nat} {t : Node K V} (w : WF n h t) (hs : Sorted (flat h t)) {kv}
    (hh : hit key t.kvs = some kv) : lookupL key (flat h t) = some kv := by
  obtain ⟨ks1, ks2, h1, _, _, h4⟩ := hit_some hh
  refine lookupL_of_mem hs ?_ h4
  cases h with
  | zero => simp only [flat, h1]; simp
  | succ h =>
    simp only [flat]
    exact (interleave_perm _ _).mem_iff.2 (by simp [h1])

/-- When the scan does not hit, the node splits around the child to descend into. -/
theorem descend {key : K} {n h : Nat} {t : Node K V} (w : WF n (h+1) t) (hs : Sorted (flat (h+1) t))
    (hh : hit key t.kvs = none) :
    ∃ ks1 ks2 cs1 c cs2, t = .mk (ks1 ++ ks2) (cs1 ++ c :: cs2) ∧ cs1.length = ks1.length ∧ cs2.length = ks2.length ∧
      ks1.length = scan key t.kvs ∧ t.children[scan key t.kvs]? = some c ∧ WF n h c ∧ n / 2 ≤ c.count ∧
      flat (h+1) t = pre (cs1.map (flat h)) ks1 ++ flat h c ++ post (cs2.map (flat h)) ks2 ∧
      AllLt ks1 key ∧ (∀ kv ks, ks2 = kv :: ks → lt key kv.1 = true) ∧
      AllLt (pre (cs1.map (flat h)) ks1) key ∧ AllGt (post (cs2.map (flat h)) ks2) key ∧ Sorted (flat h c) := by
  obtain ⟨ks1, ks2, h1, h2, h3, h4⟩ := hit_none hh
  obtain ⟨cs1, c, cs2, e1, e2, e3, e4, e5⟩ := node_split w h1
  have hc : c ∈ t.children := List.mem_of_getElem? e4
  have wc := w.2.2 c hc
  rw [e5] at hs
  have hb := scan_bounds (by simp [e2]) hs h3 h4 (by
    rintro rfl
    have : cs2 = [] := List.length_eq_zero_iff.1 (by simpa using e3)
    simp [this])
  rw [sorted_append, sorted_append] at hs
  exact ⟨ks1, ks2, cs1, c, cs2, e1, e2, e3, h2, by rw [← h2]; exact e4, wc.1, wc.2, e5, h3, h4, hb.1, hb.2, hs.1.2.1⟩

theorem lookup_descend {key : K} {n h : Nat} {t : Node K V} (w : WF n (h+1) t) (hs : Sorted (flat (h+1) t))
    (hh : hit key t.kvs = none) {c} (hc : t.children[scan key t.kvs]? = some c) :
    lookupL key (flat (h+1) t) = lookupL key (flat h c) := by
  obtain ⟨ks1, ks2, cs1, c', cs2, e1, e2, e3, e4, e5, e6, e7, e8, e9, e10, e11, e12, e13⟩ := descend w hs hh
  rw [e5] at hc; injection hc with hc; subst hc
  rw [e8, lookupL_mid e11 e12]

theorem lookup_leaf_none {key : K} {kvs : List (K × V)} (hs : Sorted kvs) (hh : hit key kvs = none) :
    lookupL key kvs = none := by
  obtain ⟨ks1, ks2, h1, h2, h3, h4⟩ := hit_none hh
  subst h1
  rw [sorted_append] at hs
  rw [lookupL_append, lookupL_lt h3]
  cases ks2 with
  | nil => simp [lookupL]
  | cons a ks =>
    have ha := h4 a ks rfl
    have : AllGt (a :: ks) key := by
      intro x hx
      rcases List.mem_cons.1 hx with rfl | hx
      · exact ha
      · exact trans ha ((sorted_cons.1 hs.2.1).1 x hx)
    simp [lookupL_gt this]

theorem leafInsert_some {key : K} {v : V} {kvs : List (K × V)} (hs : Sorted kvs) (hh : hit key kvs = none) :
    leafInsert key (some v) kvs = insertL key v kvs := by
  obtain ⟨ks1, ks2, h1, h2, h3, h4⟩ := hit_none hh
  simp only [leafInsert]
  rw [← h2]
  subst h1
  rw [insertL_append h3]
  simp
  cases ks2 with
  | nil => rfl
  | cons a ks => simp [insertL, asymm (h4 a ks rfl)]

/-- What `create` guarantees on a node of height `h`. -/
def CreateSpec (n h : Nat) (key : K) (v : V) (t : Node K V) : CreateRes K V → Prop
  | .found kv => lookupL key (flat h t) = some kv
  | .done t' => lookupL key (flat h t) = none ∧ WF n h t' ∧ flat h t' = insertL key v (flat h t) ∧ t.count ≤ t'.count
  | .split kv l r => lookupL key (flat h t) = none ∧ WF n h l ∧ WF n h r ∧ n / 2 ≤ l.count ∧ n / 2 ≤ r.count ∧
      flat h l ++ kv :: flat h r = insertL key v (flat h t)

/-- findIdx on a list split at the index. -/
theorem findIdx_split {α : Type} {p : α → Bool} {l1 l2 : List α} (h1 : ∀ x ∈ l1, p x = false)
    (h2 : ∀ x l, l2 = x :: l → p x = true) : (l1 ++ l2).findIdx p = l1.length := by
  induction l1 with
  | nil => cases l2 with
    | nil => rfl
    | cons x l => simp [List.findIdx_cons, h2 x l rfl]
  | cons a l ih =>
    simp [List.findIdx_cons, h1 a (by simp), ih (fun x hx => h1 x (by simp [hx]))]

theorem take_drop_mid {α : Type} (l1 l2 : List α) (i : Nat) (h : i = l1.length) :
    (l1 ++ l2).take i = l1 ∧ (l1 ++ l2).drop i = l2 := by subst h; simp

theorem set_mid {α : Type} (l1 l2 : List α) (a b : α) (i : Nat) (h : i = l1.length) :
    (l1 ++ a :: l2).set i b = l1 ++ b :: l2 := by subst h; simp

/-- The values of an internal node are never `any`: something greater lies in the child to the right. -/
theorem internal_not_any {n h : Nat} (hn : 2 ≤ n) {t : Node K V} (w : WF n (h+1) t) (hs : Sorted (flat (h+1) t))
    {kv} (hk : kv ∈ t.kvs) : typ kv.1 ≠ DataType.any := by
  obtain ⟨ks1, ks2, e⟩ := List.append_of_mem hk
  obtain ⟨cs1, c, cs2, e1, e2, e3, e4, e5⟩ := node_split w e
  cases cs2 with
  | nil => simp at e3
  | cons d ds =>
    have hd : d ∈ t.children := by rw [e1]; simp [Node.children_mk]
    obtain ⟨wd, hcd⟩ := w.2.2 d hd
    have hne : ∃ x, x ∈ flat h d := by
      have hpos : 0 < d.kvs.length := by
        have : d.count = d.kvs.length := rfl
        omega
      obtain ⟨x, hx⟩ := List.exists_mem_of_length_pos hpos
      cases h with
      | zero => exact ⟨x, hx⟩
      | succ h => exact ⟨x, (interleave_perm _ _).mem_iff.2 (by simp [hx])⟩
    obtain ⟨x, hx⟩ := hne
    have : lt kv.1 x.1 = true := by
      rw [e5, sorted_append] at hs
      simp only [post, List.map_cons] at hs
      rw [sorted_cons] at hs
      refine hs.2.1.1 x ?_
      exact (interleave_perm _ _).mem_iff.2 (by simp [hx])
    exact any_top this

theorem splitNode_spec {n h : Nat} (hn : 2 ≤ n) {t : Node K V} (hc : t.kvs.length = n + 1)
    (hl : t.children.length = n + 2) (hw : ∀ c ∈ t.children, WF n h c ∧ n / 2 ≤ c.count) :
    ∃ kv l r, splitNode n t = some (.split kv l r) ∧ WF n (h+1) l ∧ WF n (h+1) r ∧ n / 2 ≤ l.count ∧ n / 2 ≤ r.count ∧
      flat (h+1) l ++ kv :: flat (h+1) r = flat (h+1) t := by
  obtain ⟨kvs, cs⟩ := t
  simp only [Node.kvs_mk, Node.children_mk] at *
  have hp : n / 2 < kvs.length := by omega
  have e1 : kvs[n/2]? = some kvs[n/2] := by simp [hp]
  refine ⟨kvs[n/2], .mk (kvs.take (n/2)) (cs.take (n/2+1)), .mk (kvs.drop (n/2+1)) (cs.drop (n/2+1)), ?_, ?_, ?_, ?_, ?_, ?_⟩
  · simp only [splitNode, maxValues_eq, Node.kvs_mk, Node.children_mk, e1]
    rw [List.take_of_length_le (i := n + 1) (by omega), List.take_of_length_le (i := n + 2) (by omega)]
  · refine ⟨by simp [Node.children_mk, Node.kvs_mk]; omega, by simp [Node.kvs_mk]; omega, ?_⟩
    intro c hc'; exact hw c (List.mem_of_mem_take hc')
  · refine ⟨by simp [Node.children_mk, Node.kvs_mk]; omega, by simp [Node.kvs_mk]; omega, ?_⟩
    intro c hc'; exact hw c (List.mem_of_mem_drop hc')
  · simp [Node.count_mk, Node.kvs_mk]; omega
  · simp [Node.count_mk, Node.kvs_mk]; omega
  · have ek : kvs = kvs.take (n/2) ++ kvs[n/2] :: kvs.drop (n/2+1) := by simp
    have ec : cs = cs.take (n/2) ++ cs[n/2] :: cs.drop (n/2+1) := by simp
    have et : cs.take (n/2+1) = cs.take (n/2) ++ [cs[n/2]] := by
      rw [List.take_add_one]; simp [show n/2 < cs.length by omega]
    have rhs : flat (h+1) (Node.mk kvs cs) = pre ((cs.take (n/2)).map (flat h)) (kvs.take (n/2)) ++ flat h cs[n/2] ++
        post ((cs.drop (n/2+1)).map (flat h)) (kvs[n/2] :: kvs.drop (n/2+1)) := by
      rw [← flat_mid (by simp; omega), ← ek, ← ec]
    have lhs : flat (h+1) (Node.mk (kvs.take (n/2)) (cs.take (n/2+1))) =
        pre ((cs.take (n/2)).map (flat h)) (kvs.take (n/2)) ++ flat h cs[n/2] := by
      have : kvs.take (n/2) = kvs.take (n/2) ++ [] := by simp
      rw [et]
      conv => lhs; rw [this]
      rw [flat_mid (by simp; omega)]
      simp [post]
    rw [rhs, lhs]
    simp [post, flat_mk_succ]

/-- `insertNode` puts the promoted value where the split child was. -/
theorem insertNode_spec {h : Nat} {ks1 ks2 : List (K × V)} {cs1 cs2 : List (Node K V)} {c l r : Node K V} {kv : K × V}
    (hl1 : cs1.length = ks1.length)
    (h1 : ∀ x ∈ ks1, less kv.1 x.1 = false) (h2 : ∀ x ks, ks2 = x :: ks → less kv.1 x.1 = true) :
    insertNode (.mk (ks1 ++ ks2) (cs1 ++ c :: cs2)) kv l r = .mk (ks1 ++ kv :: ks2) (cs1 ++ l :: r :: cs2) ∧
    flat (h+1) (.mk (ks1 ++ kv :: ks2) (cs1 ++ l :: r :: cs2)) =
      pre (cs1.map (flat h)) ks1 ++ (flat h l ++ kv :: flat h r) ++ post (cs2.map (flat h)) ks2 := by
  have hi : (ks1 ++ ks2).findIdx (fun x => less kv.1 x.1) = ks1.length := findIdx_split h1 h2
  constructor
  · simp only [insertNode, Node.kvs_mk, Node.children_mk, hi]
    have : cs1 ++ c :: cs2 = (cs1 ++ [c]) ++ cs2 := by simp
    rw [List.take_left, List.drop_left, ← hl1, List.take_left, this,
      show cs1.length + 1 = (cs1 ++ [c]).length by simp, List.drop_left]
  · rw [flat_mid hl1, List.map_cons, post, interleave_post]
    simp

theorem create_spec {n : Nat} (hn : 2 ≤ n) (key : K) (v : V) :
    ∀ (h fuel : Nat) (t : Node K V), WF n h t → Sorted (flat h t) → h < fuel →
      ∃ res, create n key (some v) fuel t = some res ∧ CreateSpec n h key v t res := by
  intro h
  induction h with
  | zero =>
    intro fuel t w hs hf
    obtain ⟨fuel, rfl⟩ : ∃ f, fuel = f + 1 := ⟨fuel - 1, by omega⟩
    simp only [create]
    cases hh : hit key t.kvs with
    | some kv => exact ⟨_, rfl, lookup_hit w hs hh⟩
    | none =>
      simp only [flat] at hs
      simp only [isLeaf_zero w, if_true, leafInsert_some hs hh, maxValues_eq]
      have hln := lookup_leaf_none hs hh
      have hlen : (insertL key v t.kvs).length = t.kvs.length + 1 := (insertL_perm key v t.kvs).length_eq
      have hwl := w.2
      by_cases hgt : (insertL key v t.kvs).length > n
      · simp only [hgt, if_true, splitLeaf, maxValues_eq]
        have hp : n / 2 < (insertL key v t.kvs).length := by omega
        simp only [List.getElem?_eq_getElem hp]
        refine ⟨_, rfl, ?_⟩
        simp only [CreateSpec, flat, Node.kvs_mk, WF, Node.children_mk, Node.count_mk]
        refine ⟨hln, ⟨trivial, by simp; omega⟩, ⟨trivial, by simp; omega⟩, by simp; omega, by simp; omega, ?_⟩
        rw [List.take_of_length_le (i := n + 1) (by omega)]
        simp
      · simp only [hgt]
        refine ⟨_, rfl, ?_⟩
        simp only [CreateSpec, flat, Node.kvs_mk, WF, Node.children_mk, Node.count_mk, true_and]
        refine ⟨hln, by omega, ?_⟩
        have : t.count = t.kvs.length := rfl
        omega
  | succ h ih =>
    intro fuel t w hs hf
    obtain ⟨fuel, rfl⟩ : ∃ f, fuel = f + 1 := ⟨fuel - 1, by omega⟩
    simp only [create]
    cases hh : hit key t.kvs with
    | some kv => exact ⟨_, rfl, lookup_hit w hs hh⟩
    | none =>
      have hna := fun kv hk => internal_not_any hn w hs (kv := kv) hk
      have hlook := fun c hc => lookup_descend w hs hh (c := c) hc
      obtain ⟨ks1, ks2, cs1, c, cs2, e1, e2, e3, e4, e5, e6, e7, e8, e9, e10, e11, e12, e13⟩ := descend w hs hh
      simp only [isLeaf_succ w, e5]
      obtain ⟨res, hr, hspec⟩ := ih fuel c e6 e13 (by omega)
      have hw3 := w.2.2
      have hw2 := w.2.1
      have hw1 := w.1
      have hlc := hlook c e5
      rw [hr]
      cases res with
      | found kv =>
        refine ⟨_, rfl, ?_⟩
        simp only [CreateSpec] at hspec ⊢
        rw [hlc]; exact hspec
      | done c' =>
        refine ⟨_, rfl, ?_⟩
        obtain ⟨s1, s2, s3, s4⟩ := hspec
        rw [← e4]
        subst e1
        simp only [Node.kvs_mk, Node.children_mk] at *
        rw [set_mid _ _ _ _ _ e2.symm]
        refine ⟨by rw [hlc]; exact s1, ?_, ?_, Nat.le_refl _⟩
        · rw [wf_mk_succ]
          refine ⟨by simp at hw1 ⊢; omega, hw2, ?_⟩
          intro d hd
          rcases List.mem_append.1 hd with hd | hd
          · exact hw3 d (by simp [hd])
          · rcases List.mem_cons.1 hd with rfl | hd
            · exact ⟨s2, by omega⟩
            · exact hw3 d (by simp [hd])
        · rw [flat_mid e2, s3, e8, insertL_mid e11 e12]
      | split kv l r =>
        obtain ⟨s1, s2, s3, s4, s5, s6⟩ := hspec
        -- the promoted value lies strictly between the neighbours
        have hmem : kv ∈ insertL key v (flat h c) := by rw [← s6]; simp
        have hkvlt : ∀ x ∈ flat h c ++ [(key, v)], True := by simp
        have hsx : Sorted (insertL key v (flat (h+1) t)) := sorted_insertL hs (by rw [hlc]; exact s1)
        rw [e8, insertL_mid e11 e12, ← s6] at hsx
        have hsx' := hsx
        rw [sorted_append, sorted_append] at hsx'
        obtain ⟨⟨hp1, hp2, hp3⟩, hp4, hp5⟩ := hsx'
        -- kv is not any: r has elements
        have hkvna : typ kv.1 ≠ DataType.any := by
          have hpos : 0 < r.kvs.length := by
            have : r.count = r.kvs.length := rfl
            omega
          obtain ⟨x, hx⟩ := List.exists_mem_of_length_pos hpos
          have hx' : x ∈ flat h r := by
            cases h with
            | zero => exact hx
            | succ h => exact (interleave_perm _ _).mem_iff.2 (by simp [hx])
          rw [sorted_append, sorted_cons] at hp2
          exact any_top (hp2.2.1.1 x hx')
        have hle1 : ∀ x ∈ ks1, less kv.1 x.1 = false := by
          intro x hx
          have : lt x.1 kv.1 = true := hp3 x (mem_pre_key (by simp [e2]) hx) kv (by simp)
          rw [less_eq hkvna (hna x (by rw [e1]; simp [Node.kvs_mk, hx]))]
          exact asymm this
        have hle2 : ∀ x ks, ks2 = x :: ks → less kv.1 x.1 = true := by
          intro x ks hx
          rw [less_eq hkvna (hna x (by rw [e1]; simp [Node.kvs_mk, hx]))]
          exact hp5 kv (by simp) x (mem_post_key (by simp [hx]))
        obtain ⟨i1, i2⟩ := insertNode_spec (h := h) (c := c) (l := l) (r := r) (cs2 := cs2) e2 hle1 hle2
        simp only []
        have hcw : ∀ d ∈ cs1 ++ l :: r :: cs2, WF n h d ∧ n / 2 ≤ d.count := by
          intro d hd
          rcases List.mem_append.1 hd with hd | hd
          · exact hw3 d (by rw [e1]; simp [Node.children_mk, hd])
          · rcases List.mem_cons.1 hd with rfl | hd
            · exact ⟨s2, s4⟩
            · rcases List.mem_cons.1 hd with rfl | hd
              · exact ⟨s3, s5⟩
              · exact hw3 d (by rw [e1]; simp [Node.children_mk, hd])
        have hfl : flat (h+1) (Node.mk (ks1 ++ kv :: ks2) (cs1 ++ l :: r :: cs2)) = insertL key v (flat (h+1) t) := by
          rw [i2, e8, insertL_mid e11 e12, s6]
        have hln : lookupL key (flat (h+1) t) = none := by rw [hlc]; exact s1
        subst e1
        simp only [Node.kvs_mk, Node.children_mk, List.length_append, List.length_cons] at hw1 hw2
        rw [i1]
        by_cases hgt : (Node.mk (ks1 ++ kv :: ks2) (cs1 ++ l :: r :: cs2)).count > maxValues n
        · rw [if_neg (by simp), if_pos hgt]
          have hgt' : (ks1 ++ kv :: ks2).length > n := hgt
          simp at hgt'
          obtain ⟨kv', l', r', q1, q2, q3, q4, q5, q6⟩ := splitNode_spec (n := n) (h := h) hn
            (t := Node.mk (ks1 ++ kv :: ks2) (cs1 ++ l :: r :: cs2)) (by simp [Node.kvs_mk]; omega) (by simp [Node.children_mk]; omega)
            hcw
          exact ⟨_, q1, hln, q2, q3, q4, q5, by rw [q6, hfl]⟩
        · rw [if_neg (by simp), if_neg hgt]
          have hgt' : ¬ (ks1 ++ kv :: ks2).length > n := hgt
          simp at hgt'
          refine ⟨_, rfl, hln, ?_, hfl, ?_⟩
          · rw [wf_mk_succ]
            exact ⟨by simp; omega, by simp; omega, hcw⟩
          · simp [Node.count_mk, Node.kvs_mk]

end Willow.BTree
