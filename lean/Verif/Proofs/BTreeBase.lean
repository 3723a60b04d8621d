import Verif.Model.BTree
/-! Helper lemmas for the B-tree: key laws, interleaving of children and values, sorted lists. -/
namespace Willow.BTree
open KeyOps

variable {K V : Type}

/-- Laws of the keys: a strict weak order, grouped by type, with `any` (type 1024) on top. -/
class LawfulKey (K : Type) extends KeyOps K where
  irrefl : ∀ a : K, lt a a = false
  trans : ∀ {a b c : K}, lt a b = true → lt b c = true → lt a c = true
  weak : ∀ {a b : K} (c : K), lt a b = true → lt a c = true ∨ lt c b = true
  typ_lt : ∀ {a b : K}, typ a < typ b → lt a b = true
  lt_typ : ∀ {a b : K}, lt a b = true → typ a ≤ typ b
  typ_any : typ any = DataType.any
  typ_le : ∀ a : K, typ a ≤ DataType.any
  any_top : ∀ {a b : K}, lt a b = true → typ a ≠ DataType.any
  less_eq : ∀ {a b : K}, typ a ≠ DataType.any → typ b ≠ DataType.any → less a b = lt a b
  less_any : ∀ {a b : K}, typ a = DataType.any ∨ typ b = DataType.any → less a b = false
  typ_valid : ∀ a : K, DataType.isGeneral (typ a) = true ∨ typ a = DataType.any
  any_unique : ∀ {a : K}, typ a = DataType.any → a = any

section
variable [LawfulKey K]
open LawfulKey

/-- Same key: neither is before the other. -/
def keq (a b : K) : Bool := !lt a b && !lt b a

theorem asymm {a b : K} (h : lt a b = true) : lt b a = false := by
  cases h' : lt b a with
  | false => rfl
  | true => have := trans h h'; rw [irrefl] at this; cases this

theorem keq_refl (a : K) : keq a a = true := by simp [keq, irrefl]
theorem keq_symm {a b : K} (h : keq a b = true) : keq b a = true := by
  simp [keq] at *; exact ⟨h.2, h.1⟩
theorem keq_comm (a b : K) : keq a b = keq b a := by simp [keq, Bool.and_comm]

theorem lt_of_lt_keq {a b c : K} (h : lt a b = true) (e : keq b c = true) : lt a c = true := by
  simp [keq] at e
  rcases weak c h with h' | h'
  · exact h'
  · rw [e.2] at h'; cases h'
theorem lt_of_keq_lt {a b c : K} (e : keq a b = true) (h : lt b c = true) : lt a c = true := by
  simp [keq] at e
  rcases weak a h with h' | h'
  · rw [e.2] at h'; cases h'
  · exact h'
theorem keq_trans {a b c : K} (h1 : keq a b = true) (h2 : keq b c = true) : keq a c = true := by
  have n1 : lt a c = false := by
    cases h : lt a c with
    | false => rfl
    | true =>
      have := lt_of_keq_lt (keq_symm h1) h
      simp [keq] at h2; rw [h2.1] at this; cases this
  have n2 : lt c a = false := by
    cases h : lt c a with
    | false => rfl
    | true =>
      have := lt_of_lt_keq h h1
      simp [keq] at h2; rw [h2.2] at this; cases this
  simp [keq, n1, n2]
theorem lt_of_not_lt_of_lt {a b c : K} (h1 : lt b a = false) (h2 : lt b c = true) : lt a c = true := by
  rcases weak a h2 with h | h
  · rw [h1] at h; cases h
  · exact h
theorem lt_of_lt_of_not_lt {a b c : K} (h1 : lt a b = true) (h2 : lt c b = false) : lt a c = true := by
  rcases weak c h1 with h | h
  · exact h
  · rw [h2] at h; cases h
theorem not_keq_of_lt {a b : K} (h : lt a b = true) : keq a b = false := by simp [keq, h]
theorem not_keq_of_gt {a b : K} (h : lt b a = true) : keq a b = false := by simp [keq, h]

theorem keq_typ {a b : K} (h : keq a b = true) : typ a = typ b := by
  simp [keq] at h
  have h1 : ¬ typ a < typ b := fun h' => by have := typ_lt h'; rw [h.1] at this; cases this
  have h2 : ¬ typ b < typ a := fun h' => by have := typ_lt h'; rw [h.2] at this; cases this
  omega

/-- Strictly increasing item lists. -/
def Sorted (l : List (K × V)) : Prop := l.Pairwise (fun a b => lt a.1 b.1 = true)

/-- The item stored under `key`. -/
def lookupL (key : K) (l : List (K × V)) : Option (K × V) := l.find? (fun kv => keq kv.1 key)
/-- Insert before the first item that is not smaller. -/
def insertL (key : K) (v : V) : List (K × V) → List (K × V)
  | [] => [(key, v)]
  | kv :: l => if lt kv.1 key then kv :: insertL key v l else (key, v) :: kv :: l
/-- Remove the item stored under `key`. -/
def eraseL (key : K) (l : List (K × V)) : List (K × V) := l.filter (fun kv => !keq kv.1 key)

/-- all items before `key`. -/
def AllLt (l : List (K × V)) (key : K) : Prop := ∀ kv ∈ l, lt kv.1 key = true
/-- all items after `key`. -/
def AllGt (l : List (K × V)) (key : K) : Prop := ∀ kv ∈ l, lt key kv.1 = true

theorem insertL_append {key : K} {v : V} {P M : List (K × V)} (hP : AllLt P key) :
    insertL key v (P ++ M) = P ++ insertL key v M := by
  induction P with
  | nil => rfl
  | cons a P ih =>
    have ha := hP a (by simp)
    simp [insertL, ha, ih (fun kv h => hP kv (by simp [h]))]

theorem insertL_gt {key : K} {v : V} {R : List (K × V)} (hR : AllGt R key) : insertL key v R = (key, v) :: R := by
  cases R with
  | nil => rfl
  | cons a R => simp [insertL, asymm (hR a (by simp))]

theorem insertL_mid {key : K} {v : V} {P M R : List (K × V)} (hP : AllLt P key) (hR : AllGt R key) :
    insertL key v (P ++ M ++ R) = P ++ insertL key v M ++ R := by
  rw [List.append_assoc, insertL_append hP, List.append_assoc]
  congr 1
  induction M with
  | nil => simp [insertL_gt hR, insertL]
  | cons a M ih => simp only [List.cons_append, insertL]; split <;> simp [ih]

theorem eraseL_append (key : K) (P M : List (K × V)) : eraseL key (P ++ M) = eraseL key P ++ eraseL key M := by
  simp [eraseL]
theorem eraseL_lt {key : K} {P : List (K × V)} (h : AllLt P key) : eraseL key P = P := by
  simp only [eraseL, List.filter_eq_self]
  intro a ha; simp [not_keq_of_lt (h a ha)]
theorem eraseL_gt {key : K} {P : List (K × V)} (h : AllGt P key) : eraseL key P = P := by
  simp only [eraseL, List.filter_eq_self]
  intro a ha; simp [not_keq_of_gt (h a ha)]
theorem lookupL_append (key : K) (P M : List (K × V)) : lookupL key (P ++ M) = (lookupL key P).or (lookupL key M) := by
  simp [lookupL, List.find?_append]
theorem lookupL_lt {key : K} {P : List (K × V)} (h : AllLt P key) : lookupL key P = none := by
  simp only [lookupL, List.find?_eq_none]
  intro a ha; simp [not_keq_of_lt (h a ha)]
theorem lookupL_gt {key : K} {P : List (K × V)} (h : AllGt P key) : lookupL key P = none := by
  simp only [lookupL, List.find?_eq_none]
  intro a ha; simp [not_keq_of_gt (h a ha)]
theorem lookupL_mid {key : K} {P M R : List (K × V)} (hP : AllLt P key) (hR : AllGt R key) :
    lookupL key (P ++ M ++ R) = lookupL key M := by
  simp [lookupL_append, lookupL_lt hP, lookupL_gt hR]
theorem eraseL_mid {key : K} {P M R : List (K × V)} (hP : AllLt P key) (hR : AllGt R key) :
    eraseL key (P ++ M ++ R) = P ++ eraseL key M ++ R := by
  simp [eraseL_append, eraseL_lt hP, eraseL_gt hR]

theorem eraseL_of_lookup_none {key : K} {l : List (K × V)} (h : lookupL key l = none) : eraseL key l = l := by
  simp only [lookupL, List.find?_eq_none] at h
  simp only [eraseL, List.filter_eq_self]
  intro a ha; simpa using h a ha

theorem mem_insertL {key : K} {v : V} {l : List (K × V)} {x : K × V} :
    x ∈ insertL key v l ↔ x = (key, v) ∨ x ∈ l := by
  induction l with
  | nil => simp [insertL]
  | cons a l ih =>
    simp only [insertL]; split
    · simp only [List.mem_cons, ih]
      constructor
      · rintro (h | h | h) <;> simp [h]
      · rintro (h | h | h) <;> simp [h]
    · simp

theorem sorted_insertL {key : K} {v : V} {l : List (K × V)} (hs : Sorted l) (hn : lookupL key l = none) :
    Sorted (insertL key v l) := by
  induction l with
  | nil => simp [insertL, Sorted]
  | cons a l ih =>
    simp only [Sorted, List.pairwise_cons] at hs
    simp only [lookupL, List.find?_eq_none] at hn
    have hna : ¬ keq a.1 key = true := hn a (by simp)
    simp only [insertL]; split
    · rename_i hlt
      simp only [Sorted, List.pairwise_cons]
      refine ⟨?_, ih hs.2 ?_⟩
      · intro x hx
        rcases mem_insertL.1 hx with rfl | h
        · exact hlt
        · exact hs.1 x h
      · simp only [lookupL, List.find?_eq_none]
        intro x hx; exact hn x (by simp [hx])
    · rename_i hlt
      have hgt : lt key a.1 = true := by simp [keq] at hna; exact hna (by simpa using hlt)
      simp only [Sorted, List.pairwise_cons]
      refine ⟨?_, hs.1, hs.2⟩
      intro x hx
      rcases List.mem_cons.1 hx with rfl | h
      · exact hgt
      · exact trans hgt (hs.1 x h)

theorem sorted_eraseL {key : K} {l : List (K × V)} (hs : Sorted l) : Sorted (eraseL key l) :=
  List.Pairwise.filter _ hs

theorem sorted_append {l1 l2 : List (K × V)} :
    Sorted (l1 ++ l2) ↔ Sorted l1 ∧ Sorted l2 ∧ ∀ a ∈ l1, ∀ b ∈ l2, lt a.1 b.1 = true := by
  simp [Sorted, List.pairwise_append]

theorem sorted_cons {a : K × V} {l : List (K × V)} :
    Sorted (a :: l) ↔ (∀ b ∈ l, lt a.1 b.1 = true) ∧ Sorted l := by
  simp [Sorted, List.pairwise_cons]

theorem insertL_perm (key : K) (v : V) (l : List (K × V)) : (insertL key v l).Perm ((key, v) :: l) := by
  induction l with
  | nil => simp [insertL]
  | cons a l ih =>
    simp only [insertL]; split
    · exact (List.Perm.cons a ih).trans (List.Perm.swap ..)
    · exact List.Perm.refl _

theorem lookupL_insertL {key k : K} {v : V} {l : List (K × V)} (hn : lookupL key l = none) :
    lookupL k (insertL key v l) = if keq key k then some (key, v) else lookupL k l := by
  induction l with
  | nil => by_cases h : keq key k <;> simp [insertL, lookupL, h]
  | cons a l ih =>
    simp only [lookupL, List.find?_eq_none] at hn
    have ih' := ih (by simp only [lookupL, List.find?_eq_none]; intro x hx; exact hn x (by simp [hx]))
    have hna : ¬ keq a.1 key = true := hn a (by simp)
    by_cases hk : keq key k = true
    · have hak : keq a.1 k = false := by
        cases h : keq a.1 k with
        | false => rfl
        | true => exact absurd (keq_trans h (keq_symm hk)) hna
      simp only [hk, if_true] at ih' ⊢
      simp only [insertL]; split
      · simp only [lookupL] at ih' ⊢
        simp [hak, ih']
      · simp [lookupL, hk]
    · simp only [hk] at ih' ⊢
      simp only [insertL]; split
      · simp only [lookupL] at ih' ⊢
        simp [List.find?_cons, ih']
      · simp [lookupL, List.find?_cons, hk]

theorem lookupL_eraseL {key k : K} {l : List (K × V)} :
    lookupL k (eraseL key l) = if keq key k then none else lookupL k l := by
  induction l with
  | nil => simp [eraseL, lookupL]
  | cons a l ih =>
    simp only [eraseL, lookupL] at ih ⊢
    by_cases hak : keq a.1 key = true
    · simp only [List.filter_cons, hak, Bool.not_true, Bool.false_eq_true, if_false, ih]
      by_cases hk : keq key k = true
      · simp [hk]
      · have : keq a.1 k = false := by
          cases h : keq a.1 k with
          | false => rfl
          | true => exact absurd (keq_trans (keq_symm hak) h) hk
        simp [hk, this]
    · simp only [List.filter_cons, hak, Bool.not_false, if_true]
      by_cases hk : keq key k = true
      · have : keq a.1 k = false := by
          cases h : keq a.1 k with
          | false => rfl
          | true => exact absurd (keq_trans h (keq_symm hk)) hak
        simp only [hk, if_true] at ih ⊢
        simp only [List.find?_cons, this, ih]
      · simp only [hk] at ih ⊢
        by_cases hx : keq a.1 k = true
        · simp [hx]
        · simp [hx, ih]

theorem lookupL_keq {key : K} {l : List (K × V)} {kv} (h : lookupL key l = some kv) : kv ∈ l ∧ keq kv.1 key = true := by
  simp only [lookupL] at h
  exact ⟨List.mem_of_find?_eq_some h, by simpa using List.find?_some h⟩

theorem lookupL_of_mem {l : List (K × V)} (hs : Sorted l) {kv} (h : kv ∈ l) {key : K} (he : keq kv.1 key = true) :
    lookupL key l = some kv := by
  induction l with
  | nil => cases h
  | cons a l ih =>
    rw [sorted_cons] at hs
    rcases List.mem_cons.1 h with rfl | h
    · simp [lookupL, he]
    · have : keq a.1 key = false := not_keq_of_lt (lt_of_lt_keq (hs.1 kv h) he)
      have := ih hs.2 h
      simp only [lookupL] at this ⊢
      simp [*]

/-- The scan index splits the values at the key. -/
theorem scan_split (key : K) (kvs : List (K × V)) :
    ∃ ks1 ks2, kvs = ks1 ++ ks2 ∧ ks1.length = scan key kvs ∧ AllLt ks1 key ∧
      (∀ kv ks, ks2 = kv :: ks → lt kv.1 key = false) := by
  induction kvs with
  | nil => exact ⟨[], [], rfl, rfl, by simp [AllLt], by simp⟩
  | cons a l ih =>
    by_cases h : lt a.1 key = true
    · obtain ⟨ks1, ks2, h1, h2, h3, h4⟩ := ih
      refine ⟨a :: ks1, ks2, by simp [h1], ?_, ?_, h4⟩
      · simp [scan, List.findIdx_cons, h] at h2 ⊢; exact h2
      · intro kv hkv
        rcases List.mem_cons.1 hkv with rfl | h'
        · exact h
        · exact h3 kv h'
    · refine ⟨[], a :: l, rfl, ?_, by simp [AllLt], ?_⟩
      · simp [scan, List.findIdx_cons, h]
      · rintro kv ks ⟨rfl, rfl⟩; simpa using h
end

/-! ### Interleaving -/

/-- children and values in order. -/
def interleave {α : Type} : List (List α) → List α → List α
  | [], ks => ks
  | c :: cs, [] => c ++ cs.flatten
  | c :: cs, k :: ks => c ++ k :: interleave cs ks

/-- `c0 k0 c1 k1 ...` for equally many children and values. -/
def pre {α : Type} : List (List α) → List α → List α
  | c :: cs, k :: ks => c ++ k :: pre cs ks
  | _, _ => []

theorem interleave_append {α : Type} {cs1 cs2 : List (List α)} {ks1 ks2 : List α} (h : cs1.length = ks1.length) :
    interleave (cs1 ++ cs2) (ks1 ++ ks2) = pre cs1 ks1 ++ interleave cs2 ks2 := by
  induction cs1 generalizing ks1 with
  | nil => cases ks1 with
    | nil => rfl
    | cons => simp at h
  | cons c cs1 ih => cases ks1 with
    | nil => simp at h
    | cons k ks1 => simp [interleave, pre, ih (by simpa using h)]

theorem pre_append {α : Type} {cs1 cs2 : List (List α)} {ks1 ks2 : List α} (h : cs1.length = ks1.length) :
    pre (cs1 ++ cs2) (ks1 ++ ks2) = pre cs1 ks1 ++ pre cs2 ks2 := by
  induction cs1 generalizing ks1 with
  | nil => cases ks1 with
    | nil => rfl
    | cons => simp at h
  | cons c cs1 ih => cases ks1 with
    | nil => simp at h
    | cons k ks1 => simp [pre, ih (by simpa using h)]

theorem mem_pre_key {α : Type} {cs : List (List α)} {ks : List α} (h : cs.length = ks.length) {k} (hk : k ∈ ks) : k ∈ pre cs ks := by
  induction cs generalizing ks with
  | nil => cases ks with
    | nil => cases hk
    | cons => simp at h
  | cons c cs ih => cases ks with
    | nil => cases hk
    | cons a ks =>
      rcases List.mem_cons.1 hk with rfl | h'
      · simp [pre]
      · simp only [pre, List.mem_append, List.mem_cons]; exact .inr (.inr (ih (by simpa using h) h'))

theorem interleave_single {α : Type} (c : List α) : interleave [c] [] = c := by simp [interleave]
theorem interleave_cons {α : Type} (c : List α) (cs k ks) : interleave (c :: cs) (k :: ks) = c ++ k :: interleave cs ks := rfl

theorem interleave_perm {α : Type} (cs : List (List α)) (ks : List α) : (interleave cs ks).Perm (ks ++ cs.flatten) := by
  induction cs generalizing ks with
  | nil => simp [interleave]
  | cons c cs ih => cases ks with
    | nil => simp [interleave]
    | cons k ks =>
      simp only [interleave, List.flatten_cons, List.cons_append]
      refine List.perm_middle.trans (List.Perm.cons k ?_)
      refine ((ih ks).append_left c).trans ?_
      rw [← List.append_assoc, ← List.append_assoc]
      exact List.Perm.append_right _ List.perm_append_comm

/-! ### Well-formed nodes -/

/-- The node is a balanced B-tree node of height `h`: at most `n` values, all leaves at the same depth, and
every node below it holds at least `n/2` values. -/
def WF (n : Nat) : Nat → Node K V → Prop
  | 0, t => t.children = [] ∧ t.kvs.length ≤ n
  | h + 1, t => t.children.length = t.kvs.length + 1 ∧ t.kvs.length ≤ n ∧
      ∀ c ∈ t.children, WF n h c ∧ n / 2 ≤ c.count

/-- The items below a node of height `h`, in order. -/
def flat : Nat → Node K V → List (K × V)
  | 0, t => t.kvs
  | h + 1, t => interleave (t.children.map (flat h)) t.kvs

@[simp] theorem Node.kvs_mk (a : List (K × V)) (c) : (Node.mk a c).kvs = a := rfl
@[simp] theorem Node.children_mk (a : List (K × V)) (c) : (Node.mk a c).children = c := rfl
@[simp] theorem Node.count_mk (a : List (K × V)) (c) : (Node.mk a c).count = a.length := rfl

theorem minValues_eq (n : Nat) : minValues n = n / 2 := by simp [minValues]; omega
theorem maxValues_eq (n : Nat) : maxValues n = n := rfl

theorem depth_of_WF {n : Nat} : ∀ {h : Nat} {t : Node K V}, WF n h t → t.depth = h
  | 0, .mk kvs cs, w => by
    have : cs = [] := w.1
    subst this; rfl
  | h + 1, .mk kvs cs, w => by
    have hl : cs.length = kvs.length + 1 := w.1
    cases cs with
    | nil => simp at hl
    | cons c cs =>
      have := (w.2.2 c (by simp [Node.children])).1
      simp [Node.depth, depth_of_WF this]

theorem isLeaf_zero {n : Nat} {t : Node K V} (w : WF n 0 t) : t.isLeaf = true := by
  simp [Node.isLeaf, w.1]
theorem isLeaf_succ {n h : Nat} {t : Node K V} (w : WF n (h+1) t) : t.isLeaf = false := by
  have := w.1
  simp [Node.isLeaf, List.isEmpty_eq_false_iff]
  intro e; simp [e] at this

/-- What follows a child in the interleaving. -/
def post {α : Type} : List (List α) → List α → List α
  | cs, [] => cs.flatten
  | cs, k :: ks => k :: interleave cs ks

theorem interleave_post {α : Type} (c : List α) (cs ks) : interleave (c :: cs) ks = c ++ post cs ks := by
  cases ks <;> rfl

theorem post_map_nil {α β : Type} {cs : List β} (f : β → List α) (h : cs.length = 0) : post (cs.map f) [] = [] := by
  have : cs = [] := List.length_eq_zero_iff.1 h
  simp [this, post]

theorem mem_post_key {α : Type} {cs : List (List α)} {ks : List α} {k} (hk : k ∈ ks) : k ∈ post cs ks := by
  cases ks with
  | nil => cases hk
  | cons a ks =>
    rcases List.mem_cons.1 hk with rfl | h
    · simp [post]
    · simp only [post, List.mem_cons]
      exact .inr ((interleave_perm cs ks).mem_iff.2 (by simp [h]))

/-- Splitting an internal node at a value index. -/
theorem node_split {n h : Nat} {t : Node K V} (w : WF n (h+1) t) {ks1 ks2 : List (K × V)} (hk : t.kvs = ks1 ++ ks2) :
    ∃ cs1 c cs2, t = .mk (ks1 ++ ks2) (cs1 ++ c :: cs2) ∧ cs1.length = ks1.length ∧ cs2.length = ks2.length ∧
      t.children[ks1.length]? = some c ∧
      flat (h+1) t = pre (cs1.map (flat h)) ks1 ++ flat h c ++ post (cs2.map (flat h)) ks2 := by
  obtain ⟨kvs, cs⟩ := t
  simp only [Node.kvs] at hk
  subst hk
  have hl : cs.length = (ks1 ++ ks2).length + 1 := w.1
  simp at hl
  have hlt : ks1.length < cs.length := by omega
  have e : cs = cs.take ks1.length ++ cs[ks1.length] :: cs.drop (ks1.length + 1) := by
    simp
  refine ⟨cs.take ks1.length, cs[ks1.length], cs.drop (ks1.length + 1), ?_, ?_, ?_, ?_, ?_⟩
  · exact congrArg _ e
  · simp; omega
  · simp; omega
  · simp [Node.children, hlt]
  · simp only [flat, Node.kvs, Node.children]
    conv => lhs; rw [e]
    rw [List.map_append, interleave_append (by simp; omega), List.map_cons, interleave_post, List.append_assoc]

theorem wf_mk_succ {n h : Nat} {kvs : List (K × V)} {cs : List (Node K V)} :
    WF n (h+1) (.mk kvs cs) ↔ cs.length = kvs.length + 1 ∧ kvs.length ≤ n ∧ ∀ c ∈ cs, WF n h c ∧ n / 2 ≤ c.count := Iff.rfl

theorem flat_mk_succ {h : Nat} {kvs : List (K × V)} {cs : List (Node K V)} :
    flat (h+1) (.mk kvs cs) = interleave (cs.map (flat h)) kvs := rfl

theorem flat_mid {h : Nat} {ks1 ks2 : List (K × V)} {cs1 cs2 : List (Node K V)} {c : Node K V} (hl : cs1.length = ks1.length) :
    flat (h+1) (.mk (ks1 ++ ks2) (cs1 ++ c :: cs2)) =
      pre (cs1.map (flat h)) ks1 ++ flat h c ++ post (cs2.map (flat h)) ks2 := by
  rw [flat_mk_succ, List.map_append, interleave_append (by simp [hl]), List.map_cons, interleave_post, List.append_assoc]

section
variable [LawfulKey K]
open LawfulKey

/-- In a sorted node everything before the child found by the scan is smaller than the key, and if the next value
is not the key, everything after the child is greater. -/
theorem scan_bounds {key : K} {M ks1 ks2 : List (K × V)} {cs2 : List (List (K × V))}
    {cs1 : List (List (K × V))} (hl : cs1.length = ks1.length)
    (hs : Sorted (pre cs1 ks1 ++ M ++ post cs2 ks2)) (h1 : AllLt ks1 key)
    (h2 : ∀ kv ks, ks2 = kv :: ks → lt key kv.1 = true) (h3 : ks2 = [] → cs2.flatten = []) :
    AllLt (pre cs1 ks1) key ∧ AllGt (post cs2 ks2) key := by
  rw [sorted_append, sorted_append] at hs
  have hpre := hs.1.1
  have hpost := hs.2.1
  clear hs
  constructor
  · clear hpost h3 h2
    induction cs1 generalizing ks1 with
    | nil => intro kv hkv; simp [pre] at hkv
    | cons c cs ih =>
      cases ks1 with
      | nil => simp at hl
      | cons k ks =>
        simp only [pre] at hpre ⊢
        rw [sorted_append, sorted_cons] at hpre
        have hk := h1 k (by simp)
        intro kv hkv
        rcases List.mem_append.1 hkv with h | h
        · exact trans (hpre.2.2 kv h k (by simp)) hk
        · rcases List.mem_cons.1 h with rfl | h
          · exact hk
          · exact ih (by simpa using hl) (fun x hx => h1 x (by simp [hx])) hpre.2.1.2 kv h
  · cases ks2 with
    | nil => simp [post, h3 rfl, AllGt]
    | cons k ks =>
      simp only [post] at hpost ⊢
      have hk := h2 k ks rfl
      rw [sorted_cons] at hpost
      intro kv hkv
      rcases List.mem_cons.1 hkv with rfl | h
      · exact hk
      · exact trans hk (hpost.1 kv h)

theorem hit_some {key : K} {kvs : List (K × V)} {kv} (h : hit key kvs = some kv) :
    ∃ ks1 ks2, kvs = ks1 ++ kv :: ks2 ∧ ks1.length = scan key kvs ∧ AllLt ks1 key ∧ keq kv.1 key = true := by
  obtain ⟨ks1, ks2, h1, h2, h3, h4⟩ := scan_split key kvs
  simp only [hit] at h
  rw [← h2] at h
  cases ks2 with
  | nil => simp [h1] at h
  | cons a ks2 =>
    have : kvs[ks1.length]? = some a := by simp [h1]
    rw [this] at h
    simp only at h
    split at h
    · cases h
    · rename_i hlt
      injection h with h; subst h
      exact ⟨ks1, ks2, h1, h2, h3, by simp [keq, h4 a ks2 rfl, hlt]⟩

theorem hit_none {key : K} {kvs : List (K × V)} (h : hit key kvs = none) :
    ∃ ks1 ks2, kvs = ks1 ++ ks2 ∧ ks1.length = scan key kvs ∧ AllLt ks1 key ∧
      (∀ kv ks, ks2 = kv :: ks → lt key kv.1 = true) := by
  obtain ⟨ks1, ks2, h1, h2, h3, h4⟩ := scan_split key kvs
  refine ⟨ks1, ks2, h1, h2, h3, ?_⟩
  rintro kv ks rfl
  simp only [hit] at h
  rw [← h2] at h
  have : kvs[ks1.length]? = some kv := by simp [h1]
  rw [this] at h
  simp only at h
  split at h
  · assumption
  · cases h
end

end Willow.BTree
