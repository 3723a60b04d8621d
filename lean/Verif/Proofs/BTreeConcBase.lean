import Verif.Model.BTreeConc
import Verif.Proofs.BTreeTop
set_option linter.unusedSectionVars false
set_option linter.unusedSimpArgs false
/-! Bounds, ordered item lists and the invariant of a tree with calls under way. -/
namespace Willow.BTreeConc
open KeyOps BTree Spec LawfulKey

variable {K V : Type}

/-! ### Bounds -/
section
variable [LawfulKey K]

/-- The bounds leave room: `none` is no bound. -/
def Gap (lo hi : Option K) : Prop := ∀ a b, lo = some a → hi = some b → lt a b = true

@[simp] theorem gap_none_left (hi : Option K) : Gap none hi := by intro a b h; cases h
@[simp] theorem gap_none_right (lo : Option K) : Gap lo none := by intro a b _ h; cases h
@[simp] theorem gap_some {a b : K} : Gap (some a) (some b) ↔ lt a b = true := by
  constructor
  · intro h; exact h a b rfl rfl
  · intro h x y hx hy; cases hx; cases hy; exact h
theorem gap_trans {lo hi : Option K} {k : K} (h1 : Gap lo (some k)) (h2 : Gap (some k) hi) : Gap lo hi := by
  intro a b ha hb; exact trans (h1 a k ha rfl) (h2 k b rfl hb)
theorem gap_right {lo : Option K} {a b : K} (h : Gap lo (some a)) (hab : lt a b = true) : Gap lo (some b) :=
  gap_trans h (by simpa using hab)
theorem gap_left {hi : Option K} {a b : K} (h : Gap (some a) hi) (hab : lt b a = true) : Gap (some b) hi :=
  gap_trans (by simpa using hab) h
theorem gap_keq_right {lo : Option K} {a b : K} (h : Gap lo (some a)) (e : keq a b = true) : Gap lo (some b) := by
  intro x y hx hy; cases hy; exact lt_of_lt_keq (h x a hx rfl) e
theorem gap_keq_left {hi : Option K} {a b : K} (h : Gap (some a) hi) (e : keq a b = true) : Gap (some b) hi := by
  intro x y hx hy; cases hx; exact lt_of_keq_lt (keq_symm e) (h a y rfl hy)

/-- Strictly increasing items between the bounds. -/
def Chain : Option K → Option K → List (K × V) → Prop
  | lo, hi, [] => Gap lo hi
  | lo, hi, kv :: l => Gap lo (some kv.1) ∧ Chain (some kv.1) hi l

theorem chain_gap {lo hi : Option K} {l : List (K × V)} (h : Chain lo hi l) : Gap lo hi := by
  induction l generalizing lo with
  | nil => exact h
  | cons a l ih => exact gap_trans h.1 (ih h.2)

theorem chain_append {lo hi : Option K} {a b : List (K × V)} {kv : K × V} :
    Chain lo hi (a ++ kv :: b) ↔ Chain lo (some kv.1) a ∧ Chain (some kv.1) hi b := by
  induction a generalizing lo with
  | nil => rfl
  | cons x a ih => simp only [List.cons_append, Chain, ih]; exact and_assoc.symm

theorem chain_mem {lo hi : Option K} {l : List (K × V)} (h : Chain lo hi l) {x} (hx : x ∈ l) :
    Gap lo (some x.1) ∧ Gap (some x.1) hi := by
  obtain ⟨a, b, rfl⟩ := List.append_of_mem hx
  rw [chain_append] at h
  exact ⟨chain_gap h.1, chain_gap h.2⟩

theorem chain_sorted {lo hi : Option K} {l : List (K × V)} (h : Chain lo hi l) : Sorted l := by
  induction l generalizing lo with
  | nil => simp [Sorted]
  | cons a l ih =>
    rw [sorted_cons]
    refine ⟨fun b hb => ?_, ih h.2⟩
    simpa using (chain_mem h.2 hb).1

theorem chain_of_sorted {lo hi : Option K} {l : List (K × V)} (hg : Gap lo hi) (hs : Sorted l)
    (hb : ∀ x ∈ l, Gap lo (some x.1) ∧ Gap (some x.1) hi) : Chain lo hi l := by
  induction l generalizing lo with
  | nil => exact hg
  | cons a l ih =>
    rw [sorted_cons] at hs
    have ha := hb a (by simp)
    refine ⟨ha.1, ih ha.2 hs.2 ?_⟩
    intro x hx
    exact ⟨by simpa using hs.1 x hx, (hb x (by simp [hx])).2⟩

theorem chain_hi {lo : Option K} {hi hi' : Option K} {l : List (K × V)} (h : Chain lo hi l)
    (hw : ∀ k : Option K, Gap k hi → Gap k hi') : Chain lo hi' l := by
  induction l generalizing lo with
  | nil => exact hw _ h
  | cons a l ih => exact ⟨h.1, ih h.2⟩
theorem chain_lo {lo lo' hi : Option K} {l : List (K × V)} (h : Chain lo hi l)
    (hw : ∀ k : Option K, Gap lo k → Gap lo' k) : Chain lo' hi l := by
  cases l with
  | nil => exact hw _ h
  | cons a l => exact ⟨hw _ h.1, h.2⟩

/-! ### Children between values -/

/-- The bound to the right of a gap: the next value, or the bound of the node. -/
def hiBefore (ks : List (K × V)) (hi : Option K) : Option K :=
  match ks with
  | [] => hi
  | kv :: _ => some kv.1
/-- The bound to the left of a gap. -/
def loAfter (lo : Option K) : List (K × V) → Option K
  | [] => lo
  | kv :: ks => loAfter (some kv.1) ks

@[simp] theorem hiBefore_nil (hi : Option K) : hiBefore ([] : List (K × V)) hi = hi := rfl
@[simp] theorem hiBefore_cons (hi : Option K) (kv : K × V) (ks) : hiBefore (kv :: ks) hi = some kv.1 := rfl
@[simp] theorem loAfter_nil (lo : Option K) : loAfter lo ([] : List (K × V)) = lo := rfl
@[simp] theorem loAfter_cons (lo : Option K) (kv : K × V) (ks) : loAfter lo (kv :: ks) = loAfter (some kv.1) ks := rfl
@[simp] theorem loAfter_append (lo : Option K) (a b : List (K × V)) : loAfter lo (a ++ b) = loAfter (loAfter lo a) b := by
  induction a generalizing lo with
  | nil => rfl
  | cons x a ih => exact ih _
theorem loAfter_snoc (lo : Option K) (a : List (K × V)) (x : K × V) : loAfter lo (a ++ [x]) = some x.1 := by simp

variable {C : Type} (P : Option K → Option K → C → Prop)

/-- Children and values alternately, beginning with a child and ending with a value. -/
def Pre : Option K → List (K × V) → List C → Prop
  | _, [], [] => True
  | lo, kv :: ks, c :: cs => P lo (some kv.1) c ∧ Pre (some kv.1) ks cs
  | _, _, _ => False
/-- Values and children alternately, beginning with a value and ending with a child. -/
def Post (hi : Option K) : List (K × V) → List C → Prop
  | [], [] => True
  | kv :: ks, c :: cs => P (some kv.1) (hiBefore ks hi) c ∧ Post hi ks cs
  | _, _ => False
/-- The children of a node. -/
def Forest (lo hi : Option K) (ks : List (K × V)) : List C → Prop
  | [] => False
  | c :: cs => P lo (hiBefore ks hi) c ∧ Post P hi ks cs

variable {P}

theorem pre_length {lo : Option K} {ks : List (K × V)} {cs : List C} (h : Pre P lo ks cs) : cs.length = ks.length := by
  induction ks generalizing lo cs with
  | nil => cases cs with
    | nil => rfl
    | cons => exact h.elim
  | cons a l ih => cases cs with
    | nil => exact h.elim
    | cons c cs => simp [ih h.2]
theorem post_length {hi : Option K} {ks : List (K × V)} {cs : List C} (h : Post P hi ks cs) : cs.length = ks.length := by
  induction ks generalizing cs with
  | nil => cases cs with
    | nil => rfl
    | cons => exact h.elim
  | cons a l ih => cases cs with
    | nil => exact h.elim
    | cons c cs => simp [ih h.2]
theorem forest_length {lo hi : Option K} {ks : List (K × V)} {cs : List C} (h : Forest P lo hi ks cs) :
    cs.length = ks.length + 1 := by
  cases cs with
  | nil => exact h.elim
  | cons c cs => simp [post_length h.2]

theorem pre_append {lo : Option K} {ka kb : List (K × V)} {ca cb : List C} (hl : ca.length = ka.length) :
    Pre P lo (ka ++ kb) (ca ++ cb) ↔ Pre P lo ka ca ∧ Pre P (loAfter lo ka) kb cb := by
  induction ka generalizing lo ca with
  | nil => cases ca with
    | nil => simp [Pre]
    | cons => simp at hl
  | cons a l ih => cases ca with
    | nil => simp at hl
    | cons c cs =>
      simp only [List.cons_append, Pre, loAfter_cons]
      rw [ih (by simpa using hl)]; exact and_assoc.symm

theorem post_append {hi : Option K} {ka kb : List (K × V)} {ca cb : List C} (hl : ca.length = ka.length) :
    Post P hi (ka ++ kb) (ca ++ cb) ↔ Post P (hiBefore kb hi) ka ca ∧ Post P hi kb cb := by
  induction ka generalizing ca with
  | nil => cases ca with
    | nil => simp [Post]
    | cons => simp at hl
  | cons a l ih => cases ca with
    | nil => simp at hl
    | cons c cs =>
      have : hiBefore (l ++ kb) hi = hiBefore l (hiBefore kb hi) := by cases l <;> rfl
      simp only [List.cons_append, Post]
      rw [ih (by simpa using hl), this]; exact and_assoc.symm

theorem post_iff_pre {lo hi : Option K} {kv : K × V} {ka : List (K × V)} {c : C} {ca : List C} (hl : ca.length = ka.length) :
    (P lo (hiBefore (ka ++ [kv]) hi) c ∧ Post P (some kv.1) ka ca) ↔ Pre P lo (ka ++ [kv]) (c :: ca) := by
  induction ka generalizing lo c ca with
  | nil => cases ca with
    | nil => simp [Pre, Post]
    | cons => simp at hl
  | cons a l ih => cases ca with
    | nil => simp at hl
    | cons d ca =>
      simp only [List.cons_append, Pre, Post, hiBefore_cons]
      rw [← ih (by simpa using hl)]
      have : hiBefore (l ++ [kv]) hi = hiBefore l (some kv.1) := by cases l <;> rfl
      rw [this]

/-- The children of a node around one of them. -/
theorem forest_focus {lo hi : Option K} {ka kb : List (K × V)} {ca cb : List C} {c : C} (hl : ca.length = ka.length) :
    Forest P lo hi (ka ++ kb) (ca ++ c :: cb) ↔
      Pre P lo ka ca ∧ P (loAfter lo ka) (hiBefore kb hi) c ∧ Post P hi kb cb := by
  induction ka generalizing lo ca with
  | nil => cases ca with
    | nil => simp [Pre, Forest]
    | cons => simp at hl
  | cons a l ih => cases ca with
    | nil => simp at hl
    | cons d ca =>
      simp only [List.cons_append, Forest, Pre, hiBefore_cons, loAfter_cons]
      have := @ih (some a.1) ca (by simpa using hl)
      rw [and_assoc, ← this]
      cases ca with
      | nil =>
        cases l with
        | nil => simp [Post, Forest]
        | cons => simp at hl
      | cons x ca => simp [Post, Forest]

theorem forest_split {lo hi : Option K} {ks : List (K × V)} {ca cb : List C} {c : C} (h : Forest P lo hi ks (ca ++ c :: cb)) :
    ∃ ka kb, ks = ka ++ kb ∧ ka.length = ca.length ∧ kb.length = cb.length := by
  have hl := forest_length h
  simp at hl
  refine ⟨ks.take ca.length, ks.drop ca.length, by simp, ?_, ?_⟩
  · simp; omega
  · simp; omega

theorem forest_mono {Q : Option K → Option K → C → Prop} {lo hi : Option K} {ks : List (K × V)} {cs : List C}
    (h : Forest P lo hi ks cs) (hq : ∀ lo hi, ∀ c ∈ cs, P lo hi c → Q lo hi c) : Forest Q lo hi ks cs := by
  have post : ∀ (ks : List (K × V)) (cs : List C), Post P hi ks cs → (∀ lo hi, ∀ c ∈ cs, P lo hi c → Q lo hi c) → Post Q hi ks cs := by
    intro ks
    induction ks with
    | nil => intro cs h _; cases cs with
      | nil => trivial
      | cons => exact h.elim
    | cons a l ih => intro cs h hq; cases cs with
      | nil => exact h.elim
      | cons c cs => exact ⟨hq _ _ c (by simp) h.1, ih cs h.2 (fun lo hi c hc => hq lo hi c (by simp [hc]))⟩
  cases cs with
  | nil => exact h.elim
  | cons c cs => exact ⟨hq _ _ c (by simp) h.1, post _ _ h.2 (fun lo hi c hc => hq lo hi c (by simp [hc]))⟩

theorem forest_mem {lo hi : Option K} {ks : List (K × V)} {cs : List C} (h : Forest P lo hi ks cs) {c} (hc : c ∈ cs) :
    ∃ lo' hi', P lo' hi' c := by
  obtain ⟨ca, cb, rfl⟩ := List.append_of_mem hc
  obtain ⟨ka, kb, rfl, h1, h2⟩ := forest_split h
  rw [forest_focus h1.symm] at h
  exact ⟨_, _, h.2.1⟩
end

/-! ### Items in order -/

mutual
/-- The items of a subtree from left to right. -/
def flat : CNode K V → List (K × V)
  | .mk _ _ kvs cs => weave cs kvs
/-- Children and values taken alternately. -/
def weave : List (CNode K V) → List (K × V) → List (K × V)
  | [], kvs => kvs
  | c :: cs, kvs => flat c ++ after cs kvs
/-- Values and children taken alternately. -/
def after : List (CNode K V) → List (K × V) → List (K × V)
  | [], kvs => kvs
  | c :: cs, [] => flat c ++ after cs []
  | c :: cs, kv :: kvs => kv :: (flat c ++ after cs kvs)
end

/-- Children and values alternately, ending with a value. -/
def before : List (CNode K V) → List (K × V) → List (K × V)
  | c :: cs, kv :: kvs => flat c ++ kv :: before cs kvs
  | _, _ => []

theorem weave_focus {ca cb : List (CNode K V)} {c : CNode K V} {ka kb : List (K × V)} (hl : ca.length = ka.length) :
    weave (ca ++ c :: cb) (ka ++ kb) = before ca ka ++ (flat c ++ after cb kb) := by
  induction ka generalizing ca with
  | nil => cases ca with
    | nil => simp [weave, before]
    | cons => simp at hl
  | cons a l ih => cases ca with
    | nil => simp at hl
    | cons d ca =>
      have := @ih ca (by simpa using hl)
      simp only [List.cons_append, weave, before, List.append_assoc]
      rw [← this]
      congr 1
      cases ca with
      | nil => cases l with
        | nil => simp [after, weave]
        | cons => simp at hl
      | cons x ca => simp [after, weave]

theorem after_append {ca cb : List (CNode K V)} {ka kb : List (K × V)} (hl : ca.length = ka.length) :
    after (ca ++ cb) (ka ++ kb) = after ca ka ++ after cb kb := by
  induction ka generalizing ca with
  | nil => cases ca with
    | nil => simp [after]
    | cons => simp at hl
  | cons a l ih => cases ca with
    | nil => simp at hl
    | cons d ca =>
      simp only [List.cons_append, after]
      rw [ih (by simpa using hl)]; simp

theorem before_append {ca cb : List (CNode K V)} {ka kb : List (K × V)} (hl : ca.length = ka.length) :
    before (ca ++ cb) (ka ++ kb) = before ca ka ++ before cb kb := by
  induction ka generalizing ca with
  | nil => cases ca with
    | nil => simp [before]
    | cons => simp at hl
  | cons a l ih => cases ca with
    | nil => simp at hl
    | cons d ca =>
      simp only [List.cons_append, before]
      rw [ih (by simpa using hl)]; simp

section
variable [LawfulKey K]
variable {P : Option K → Option K → CNode K V → Prop}

theorem before_chain (hP : ∀ lo hi c, P lo hi c → Chain lo hi (flat c)) {lo hi : Option K} {ka : List (K × V)} {ca : List (CNode K V)}
    (h : Pre P lo ka ca) {M : List (K × V)} (hM : Chain (loAfter lo ka) hi M) : Chain lo hi (before ca ka ++ M) := by
  induction ka generalizing lo ca with
  | nil => cases ca with
    | nil => simpa [before] using hM
    | cons => exact h.elim
  | cons a l ih => cases ca with
    | nil => exact h.elim
    | cons d ca =>
      simp only [before, List.append_assoc, List.cons_append]
      rw [chain_append]
      exact ⟨hP _ _ _ h.1, ih h.2 hM⟩

theorem after_chain (hP : ∀ lo hi c, P lo hi c → Chain lo hi (flat c)) {lo hi : Option K} {kb : List (K × V)} {cb : List (CNode K V)}
    (h : Post P hi kb cb) {M : List (K × V)} (hM : Chain lo (hiBefore kb hi) M) : Chain lo hi (M ++ after cb kb) := by
  induction kb generalizing lo cb M with
  | nil => cases cb with
    | nil => simpa [after] using hM
    | cons => exact h.elim
  | cons a l ih => cases cb with
    | nil => exact h.elim
    | cons d cb =>
      simp only [after]
      rw [chain_append]
      exact ⟨hM, ih h.2 (hP _ _ _ h.1)⟩

theorem forest_chain (hP : ∀ lo hi c, P lo hi c → Chain lo hi (flat c)) {lo hi : Option K} {ks : List (K × V)} {cs : List (CNode K V)}
    (h : Forest P lo hi ks cs) : Chain lo hi (weave cs ks) := by
  cases cs with
  | nil => exact h.elim
  | cons c cs => exact after_chain hP h.2 (hP _ _ _ h.1)

theorem before_lt (hP : ∀ lo hi c, P lo hi c → Chain lo hi (flat c)) {lo : Option K} {ka : List (K × V)} {ca : List (CNode K V)}
    (h : Pre P lo ka ca) {k : K} (hk : Gap (loAfter lo ka) (some k)) : AllLt (before ca ka) k ∧ Gap lo (some k) := by
  have := before_chain hP (hi := some k) (M := []) h (by exact hk)
  rw [List.append_nil] at this
  exact ⟨fun x hx => by simpa using (chain_mem this hx).2, chain_gap this⟩

theorem after_gt (hP : ∀ lo hi c, P lo hi c → Chain lo hi (flat c)) {hi : Option K} {kb : List (K × V)} {cb : List (CNode K V)}
    (h : Post P hi kb cb) {k : K} (hk : Gap (some k) (hiBefore kb hi)) : AllGt (after cb kb) k ∧ Gap (some k) hi := by
  have := after_chain hP (lo := some k) (M := []) h (by exact hk)
  rw [List.nil_append] at this
  exact ⟨fun x hx => by simpa using (chain_mem this hx).1, chain_gap this⟩

/-- The values of a node are in order, too. -/
theorem pre_ks (hP : ∀ lo hi c, P lo hi c → Gap lo hi) {lo : Option K} {ka : List (K × V)} {ca : List (CNode K V)}
    (h : Pre P lo ka ca) {hi : Option K} (hg : Gap (loAfter lo ka) hi) : Chain lo hi ka := by
  induction ka generalizing lo ca with
  | nil => exact hg
  | cons a l ih => cases ca with
    | nil => exact h.elim
    | cons d ca => exact ⟨hP _ _ _ h.1, ih h.2 hg⟩
theorem post_ks (hP : ∀ lo hi c, P lo hi c → Gap lo hi) {hi : Option K} {kb : List (K × V)} {cb : List (CNode K V)}
    (h : Post P hi kb cb) {lo : Option K} (hg : Gap lo (hiBefore kb hi)) : Chain lo hi kb := by
  induction kb generalizing lo cb with
  | nil => exact hg
  | cons a l ih => cases cb with
    | nil => exact h.elim
    | cons d cb => exact ⟨hg, ih h.2 (hP _ _ _ h.1)⟩
theorem forest_ks (hP : ∀ lo hi c, P lo hi c → Gap lo hi) {lo hi : Option K} {ks : List (K × V)} {cs : List (CNode K V)}
    (h : Forest P lo hi ks cs) : Chain lo hi ks := by
  cases cs with
  | nil => exact h.elim
  | cons c cs => exact post_ks hP h.2 (hP _ _ _ h.1)
end

/-! ### The invariant -/

/-- The item a `swap` frame is about. -/
def swapOf : Mark K V → Option (K × V)
  | .swapDown kv => some kv
  | .inSwap kv => some kv
  | _ => none

/-- The node is held by the call that holds the node above. -/
def CNode.linked (t : CNode K V) : Bool :=
  match t.hold with
  | some h => h.linked
  | none => false

/-- The frame on a child fits the frame above it. -/
def LinkOk (n : Nat) (m : Mark K V) (kvs : List (K × V)) (i : Nat) (cm : Mark K V) (count : Nat) : Prop :=
  match m with
  | .inChild => swapOf cm = none
  | .inSwap kv => swapOf cm = some kv
  | .swapIn j => (∃ kv, kvs[j]? = some kv ∧ swapOf cm = some kv) ∧ (i = j ∨ i = j + 1 ∧ n / 2 + 1 ≤ count)
  | .swapped j => swapOf cm = none ∧ (i = j ∨ i = j + 1 ∧ n / 2 + 1 ≤ count)
  | _ => False

/-- A frame that waits has exactly one child that belongs to the same call; any other node has none. -/
def Links (n : Nat) (w : Option (Hold K V)) (kvs : List (K × V)) (cs : List (CNode K V)) : Prop :=
  match w with
  | none => ∀ c ∈ cs, c.linked = false
  | some hd =>
    if hd.mark.waits = true then
      ∃ ca c cb ch, cs = ca ++ c :: cb ∧ c.hold = some ch ∧ ch.linked = true ∧ ch.id = hd.id ∧ ch.op = hd.op ∧
        LinkOk n hd.mark kvs ca.length ch.mark c.count ∧ (∀ x ∈ ca, x.linked = false) ∧ (∀ x ∈ cb, x.linked = false)
    else ∀ c ∈ cs, c.linked = false

/-- The call deletes. -/
def isDelete : Op K V → Bool
  | .delete _ _ => true
  | _ => false
/-- The call creates. -/
def isCreate : Op K V → Bool
  | .create _ _ => true
  | .createOrFind _ _ => true
  | _ => false
/-- The call searches under shared locks. -/
def isRead : Op K V → Bool
  | .find _ => true
  | .createOrFind _ _ => true
  | _ => false

/-- The number of values of a node: `root` nodes may have few. -/
def SizeOk (n : Nat) (root : Bool) (h : Nat) (count : Nat) : Prop :=
  count ≤ n ∧ (root = false → n / 2 ≤ count) ∧ (root = true → 0 < h → 1 ≤ count)

/-- The number of values under a frame. -/
def MarkSize (n : Nat) (root : Bool) (h : Nat) (count : Nat) : Mark K V → Prop
  | .over _ => count = n + 1
  | .under _ => if root then count < n / 2 else count + 1 = n / 2
  | _ => SizeOk n root h count

/-- What `canDelete` answers for the item (true for calls without it). -/
def canOf : Op K V → K × V → Bool
  | .delete _ can, kv => answer can kv
  | _, _ => true

section
variable [LawfulKey K]

/-- What a frame says about the keys. -/
def MarkOk (lo hi : Option K) (kvs : List (K × V)) (op : Op K V) : Mark K V → Prop
  | .down => Gap lo (some (opKey op)) ∧ Gap (some (opKey op)) hi ∧ (isCreate op = true ∨ isDelete op = true)
  | .swapDown kv => (lo = some kv.1 ∨ hi = some kv.1) ∧ isDelete op = true ∧ typ kv.1 ≠ DataType.any
  | .inSwap kv => (lo = some kv.1 ∨ hi = some kv.1) ∧ isDelete op = true ∧ typ kv.1 ≠ DataType.any
  | .swapIn j => isDelete op = true ∧ ∃ kv, kvs[j]? = some kv ∧ keq kv.1 (opKey op) = true ∧ canOf op kv = true
  | .swapped _ => isDelete op = true
  | .over _ => isCreate op = true
  | .under _ => isDelete op = true
  | .inChild => isCreate op = true ∨ isDelete op = true

/-- Everything about one node but its children. -/
def Lbl (n : Nat) (root : Bool) (h : Nat) (lo hi : Option K) (w : Option (Hold K V)) (rs : List (Nat × Op K V)) (kvs : List (K × V)) : Prop :=
  (∀ r ∈ rs, Gap lo (some (opKey r.2)) ∧ Gap (some (opKey r.2)) hi ∧ isRead r.2 = true) ∧
  match w with
  | none => SizeOk n root h kvs.length
  | some hd => rs = [] ∧ MarkSize n root h kvs.length hd.mark ∧ MarkOk lo hi kvs hd.op hd.mark ∧
      (hd.linked = false → safe n hd.op kvs.length = true ∧ swapOf hd.mark = none)

/-- The invariant of a subtree of height `h` whose keys lie between the bounds. -/
def WF (n : Nat) (root : Bool) : Nat → Option K → Option K → CNode K V → Prop
  | 0, lo, hi, .mk w rs kvs cs => cs = [] ∧ Chain lo hi kvs ∧ Lbl n root 0 lo hi w rs kvs ∧ Links n w kvs cs
  | h + 1, lo, hi, .mk w rs kvs cs => Forest (WF n false h) lo hi kvs cs ∧ (∀ kv ∈ kvs, typ kv.1 ≠ DataType.any) ∧
      Lbl n root (h + 1) lo hi w rs kvs ∧ Links n w kvs cs

theorem wf_lbl {n root h lo hi} {w : Option (Hold K V)} {rs kvs cs} (wf : WF n root h lo hi (.mk w rs kvs cs)) :
    Lbl n root h lo hi w rs kvs := by
  cases h with
  | zero => exact wf.2.2.1
  | succ h => exact wf.2.2.1
theorem wf_links {n root h lo hi} {w : Option (Hold K V)} {rs kvs cs} (wf : WF n root h lo hi (.mk w rs kvs cs)) :
    Links n w kvs cs := by
  cases h with
  | zero => exact wf.2.2.2
  | succ h => exact wf.2.2.2

theorem wf_chain {n : Nat} : ∀ {h root} {lo hi : Option K} {t : CNode K V}, WF n root h lo hi t → Chain lo hi (flat t)
  | 0, root, lo, hi, .mk w rs kvs cs, wf => by
    obtain ⟨rfl, h2, _⟩ := wf
    simpa [flat, weave] using h2
  | h + 1, root, lo, hi, .mk w rs kvs cs, wf => by
    simp only [flat]
    exact forest_chain (P := WF n false h) (fun lo hi c hc => wf_chain hc) wf.1

theorem wf_gap {n h root} {lo hi : Option K} {t : CNode K V} (wf : WF n root h lo hi t) : Gap lo hi := chain_gap (wf_chain wf)

theorem wf_ks {n h root} {lo hi : Option K} {w : Option (Hold K V)} {rs kvs cs} (wf : WF n root h lo hi (.mk w rs kvs cs)) :
    Chain lo hi kvs := by
  cases h with
  | zero => exact wf.2.1
  | succ h => exact forest_ks (P := WF n false h) (fun lo hi c hc => wf_gap hc) wf.1

/-- Changing only the lock of a node. -/
theorem wf_relabel {n h root root'} {lo hi : Option K} {w w' : Option (Hold K V)} {rs rs' kvs cs}
    (wf : WF n root h lo hi (.mk w rs kvs cs)) (hl : Lbl n root' h lo hi w' rs' kvs) (hk : Links n w' kvs cs) :
    WF n root' h lo hi (.mk w' rs' kvs cs) := by
  cases h with
  | zero => exact ⟨wf.1, wf.2.1, hl, hk⟩
  | succ h => exact ⟨wf.1, wf.2.1, hl, hk⟩
end

end Willow.BTreeConc
