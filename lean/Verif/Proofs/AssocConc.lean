import Verif.Spec.AssocConc
import Verif.Proofs.DataTypes
/-! The associated tree under concurrency: invariants. -/
namespace Willow.AssocConc
open Willow

variable {V A : Type}

/-! ### Slices of ids -/

theorem at_extend (n k : Nat) (ids : List (List Nat)) : ((extend n ids)[k]?).getD [] = (ids[k]?).getD [] := by
  unfold extend
  by_cases h : k < ids.length
  · rw [List.getElem?_append_left h]
  · rw [List.getElem?_append_right (by omega), List.getElem?_eq_none (l := ids) (by omega)]
    simp only [List.getElem?_replicate]
    split <;> rfl

theorem at_addId {n id m : Nat} {ids : List (List Nat)} (hn : 1 ≤ n) (hm : 1 ≤ m) (h : n ≤ ids.length) :
    ((addId n id ids)[m - 1]?).getD [] = if m = n then (ids[m - 1]?).getD [] ++ [id] else (ids[m - 1]?).getD [] := by
  unfold addId
  rw [List.getElem?_modify]
  by_cases hc : m = n
  · subst hc
    rw [if_pos rfl, List.getElem?_eq_getElem (show m - 1 < ids.length by omega)]
    simp
  · have h' : ¬ (n - 1 = m - 1) := by omega
    simp only [if_neg hc, if_neg h']
    cases ids[m - 1]? <;> rfl

theorem getD_trunc (ids : List (List Nat)) (k : Nat) : ((trunc ids)[k]?).getD [] = (ids[k]?).getD [] := by
  unfold trunc
  suffices h : ∀ l : List (List Nat), (((l.dropWhile List.isEmpty).reverse)[k]?).getD [] = ((l.reverse)[k]?).getD [] by
    simpa using h ids.reverse
  intro l
  induction l with
  | nil => rfl
  | cons x l ih =>
    rw [List.dropWhile_cons]
    split
    next hx =>
      have hx' : x = [] := by simpa using hx
      subst hx'
      rw [ih, List.reverse_cons]
      by_cases h : k < l.reverse.length
      · rw [List.getElem?_append_left h]
      · rw [List.getElem?_append_right (by omega), List.getElem?_eq_none (l := l.reverse) (by omega)]
        cases hk : k - l.reverse.length with
        | zero => rfl
        | succ j => rfl
    · rfl

theorem at_dropId {n id m : Nat} {ids : List (List Nat)} (hn : 1 ≤ n) (hm : 1 ≤ m) :
    ((dropId n id ids)[m - 1]?).getD [] = if m = n then ((ids[m - 1]?).getD []).filter (· != id) else (ids[m - 1]?).getD [] := by
  unfold dropId
  rw [getD_trunc, List.getElem?_modify]
  by_cases hc : m = n
  · subst hc
    rw [if_pos rfl]
    cases ids[m - 1]? <;> simp
  · have h' : ¬ (n - 1 = m - 1) := by omega
    simp only [if_neg hc, if_neg h']
    cases ids[m - 1]? <;> rfl

/-! ### Words -/

/-- The ID nodes a call has locked. -/
def Phase.holds : Phase V A → List Nat
  | .lock _ held _ | .make held _ | .unlock held _ | .dlock _ held _ | .dunlock held _ _ | .done _ held => held
  | _ => []

/-- The ID nodes a call keeps alive. -/
def Phase.touched : Phase V A → List Nat
  | .touch _ nodes => nodes
  | .lock todo held _ => held ++ todo
  | .make held _ | .unlock held _ => held
  | _ => []

/-- The ID nodes a call knows. -/
def Phase.known : Phase V A → List Nat
  | .touch _ nodes | .dfind _ nodes => nodes
  | .lock todo held _ | .dlock todo held _ => held ++ todo
  | .make held _ | .unlock held _ | .dunlock held _ _ | .done _ held => held
  | _ => []

theorem Phase.holds_known (p : Phase V A) {i : Nat} (h : i ∈ p.holds) : i ∈ p.known := by
  cases p <;> simp_all [holds, known]

theorem Phase.touched_known (p : Phase V A) {i : Nat} (h : i ∈ p.touched) : i ∈ p.known := by
  cases p <;> simp_all [touched, known]

/-- What the index says about a pair. -/
def St.content (s : St V A) (p : GoString × V) (n : Nat) : List Nat :=
  match s.index p with
  | none => []
  | some i => (s.node i).at n

/-- A call whose new item is not stored yet. -/
def Thread.Making (th : Thread V A) (id : Nat) : Prop := ∃ held, th.phase = .make held id

/-- A call that is removing an item from the index. -/
def Thread.Wiping (th : Thread V A) (id : Nat) (todo : KVs V) : Prop := (∃ can, th.call = .destroy id can) ∧ th.phase = .wipe todo

/-- A call that has announced a destruction. -/
def Thread.Marking (th : Thread V A) (id : Nat) : Prop := (∃ can, th.call = .destroy id can) ∧ (th.phase = .seize ∨ ∃ todo, th.phase = .wipe todo)

/-- The call makes an item, or removes one from the index, or has announced a destruction. -/
def Phase.loud : Phase V A → Bool
  | .make _ _ | .seize | .wipe _ => true
  | _ => false

theorem Thread.quiet_making {th : Thread V A} (h : th.phase.loud = false) (id : Nat) : ¬ th.Making id := by
  rintro ⟨held, e⟩; rw [e] at h; cases h
theorem Thread.quiet_wiping {th : Thread V A} (h : th.phase.loud = false) (id : Nat) (todo : KVs V) : ¬ th.Wiping id todo := by
  rintro ⟨_, e⟩; rw [e] at h; cases h
theorem Thread.quiet_marking {th : Thread V A} (h : th.phase.loud = false) (id : Nat) : ¬ th.Marking id := by
  rintro ⟨_, e | ⟨_, e⟩⟩ <;> rw [e] at h <;> cases h

/-- The item has this pair, in the index too. -/
def St.Stored (s : St V A) (id : Nat) (p : GoString × V) (n : Nat) : Prop :=
  ∃ it, s.item id = some it ∧ p ∈ it.kvs ∧ it.kvs.length = n ∧ ∀ (u : Nat) (th : Thread V A) (todo : KVs V), s.threads[u]? = some th → th.Wiping id todo → p ∈ todo

/-- A call is making an item with this pair. -/
def St.MakingAt (s : St V A) (id : Nat) (p : GoString × V) (n : Nat) : Prop :=
  ∃ (u : Nat) (th : Thread V A), s.threads[u]? = some th ∧ th.Making id ∧ p ∈ th.call.kvs ∧ th.call.kvs.length = n

/-- If there is such an item, or will be, then it has this pair. -/
def St.Claim (s : St V A) (id : Nat) (p : GoString × V) (n : Nat) : Prop :=
  id ∈ s.used ∧ (∀ it, s.item id = some it → p ∈ it.kvs ∧ it.kvs.length = n) ∧
    ∀ (u : Nat) (th : Thread V A), s.threads[u]? = some th → th.Making id → p ∈ th.call.kvs ∧ th.call.kvs.length = n

/-- The calls and the phases they can be in. -/
def Fits : Call V A → Phase V A → Prop
  | .find _, .query _ _ | .find _, .lookup _ | .find _, .done _ _ => True
  | .createOrFind _ _, .query _ _ | .createOrFind _ _, .lookup _ => True
  | .createOrFind _ _, .touch _ _ | .createOrFind _ _, .lock _ _ _ | .createOrFind _ _, .make _ _ | .createOrFind _ _, .done _ _ => True
  | .createOrFind _ _, .unlock _ r => r ≠ .failed
  | .create _ _, .touch _ _ | .create _ _, .lock _ _ _ | .create _ _, .make _ _ | .create _ _, .done _ _ => True
  | .create _ _, .unlock _ r => r ≠ .failed
  | .delete _ _, .dfind _ _ | .delete _ _, .dlock _ _ _ | .delete _ _, .dunlock _ _ _ | .delete _ _, .clean _ _ | .delete _ _, .done _ _ => True
  | .destroy _ _, .mark | .destroy _ _, .seize | .destroy _ _, .wipe _ | .destroy _ _, .done _ _ => True
  | _, _ => False

/-- What the ids common to the locked nodes are. -/
def Got (s : St V A) (n : Nat) (held : List Nat) : Option (List Nat) → Prop
  | none => held = []
  | some g => held ≠ [] ∧ g.Nodup ∧ ∀ id, id ∈ g ↔ ∀ i ∈ held, id ∈ (s.node i).at n

/-- What is known where a call is. -/
def PhaseOk (s : St V A) (c : Call V A) : Phase V A → Prop
  | .query todo acc => ∃ before, c.kvs = before ++ todo ∧ (acc = none → before = []) ∧ ∀ l, acc = some l → ∀ id ∈ l, ∀ p ∈ before, s.Claim id p c.kvs.length
  | .lookup ids => ∀ id ∈ ids, ∀ p ∈ c.kvs, s.Claim id p c.kvs.length
  | .touch todo nodes => c.kvs = nodes.map (fun i => (s.node i).pair) ++ todo
  | .lock todo held got => (held ++ todo).map (fun i => (s.node i).pair) = c.kvs ∧ Got s c.kvs.length held got ∧ ∀ i ∈ held, c.kvs.length ≤ (s.node i).ids.length
  | .make held _ => held.map (fun i => (s.node i).pair) = c.kvs
  | .dfind todo nodes => ∃ before, c.kvs = before ++ todo ∧ (nodes.map fun i => (s.node i).pair).Sublist before
  | .dlock todo held got => (held ++ todo).map (fun i => (s.node i).pair) = c.kvs ∧ Got s c.kvs.length held got
  | .unlock held _ | .dunlock held _ _ => held.Nodup
  | _ => True

/-- Locks, and the index of ID nodes. -/
structure Locks (s : St V A) : Prop where
  own : ∀ i t, (s.node i).owner = some t ↔ ∃ th, s.threads[t]? = some th ∧ i ∈ th.phase.holds
  cre : ∀ i, (s.node i).creating = (s.threads.map fun th => th.phase.touched.count i).sum
  idx : ∀ p i, s.index p = some i → i < s.next ∧ (s.node i).pair = p
  tch : ∀ (t : Nat) (th : Thread V A), s.threads[t]? = some th → ∀ i ∈ th.phase.touched, s.index (s.node i).pair = some i
  knw : ∀ (t : Nat) (th : Thread V A), s.threads[t]? = some th → ∀ i ∈ th.phase.known, i < s.next
  stale : ∀ i, i < s.next → s.index (s.node i).pair ≠ some i → (s.node i).ids = []

/-- What is stored. -/
structure Cont (s : St V A) : Prop where
  mem : ∀ p n id, 1 ≤ n → (id ∈ s.content p n ↔ s.Stored id p n ∨ s.MakingAt id p n)
  nod : ∀ p n, 1 ≤ n → (s.content p n).Nodup
  itm : ∀ id it, s.item id = some it → id ∈ s.used ∧ it.kvs ≠ [] ∧ Sorted it.kvs
  mak : ∀ (t : Nat) (th : Thread V A) id, s.threads[t]? = some th → th.Making id → id ∈ s.used ∧ s.item id = none ∧
    ∀ (u : Nat) (th' : Thread V A), s.threads[u]? = some th' → th'.Making id → u = t
  des : s.destroying.Nodup ∧ ∀ id, id ∈ s.destroying ↔ ∃ (t : Nat) (th : Thread V A), s.threads[t]? = some th ∧ th.Marking id
  one : ∀ (t u : Nat) (th th' : Thread V A) id, s.threads[t]? = some th → s.threads[u]? = some th' → th.Marking id → th'.Marking id → u = t
  wip : ∀ (t : Nat) (th : Thread V A) id todo, s.threads[t]? = some th → th.Wiping id todo → ∃ it, s.item id = some it ∧ todo.Sublist it.kvs

structure Inv (s : St V A) : Prop where
  creates : ∀ (t : Nat) (th : Thread V A), s.threads[t]? = some th → th.call.creates = true ∧ th.call.ok ∧ Fits th.call th.phase
  locks : Locks s
  cont : Cont s
  phs : ∀ (t : Nat) (th : Thread V A), s.threads[t]? = some th → PhaseOk s th.call th.phase

/-! ### Lists -/

theorem set_get {α : Type} {l : List α} {t : Nat} {x : α} (h : l[t]? = some x) (y : α) (u : Nat) : (l.set t y)[u]? = if u = t then some y else l[u]? := by
  have ht : t < l.length := (List.getElem?_eq_some_iff.1 h).1
  rw [List.getElem?_set]
  by_cases hu : t = u
  · subst hu; simp [ht]
  · rw [if_neg hu, if_neg (Ne.symm hu)]

theorem sum_set {α : Type} (f : α → Nat) : ∀ {l : List α} {t : Nat} {x : α}, l[t]? = some x → ∀ y : α, ((l.set t y).map f).sum + f x = (l.map f).sum + f y
  | [], t, x, h, y => by simp at h
  | z :: l, 0, x, h, y => by
    simp only [List.getElem?_cons_zero, Option.some.injEq] at h
    subst h
    simp [List.set]
    omega
  | z :: l, t + 1, x, h, y => by
    have := sum_set f (l := l) (t := t) (x := x) (by simpa using h) y
    simp only [List.set, List.map_cons, List.sum_cons]
    omega

theorem le_sum {α : Type} (f : α → Nat) : ∀ {l : List α} {x : α}, x ∈ l → f x ≤ (l.map f).sum
  | y :: l, x, h => by
    simp only [List.map_cons, List.sum_cons]
    rcases List.mem_cons.1 h with rfl | h
    · omega
    · have := le_sum f h; omega

theorem Sorted.nodup {kvs : KVs V} (h : Sorted kvs) : kvs.Nodup := by
  unfold List.Nodup
  refine List.Pairwise.imp ?_ h
  intro a b hab e
  rw [e, strLt_irrefl] at hab
  cases hab

theorem Sorted.key {kvs : KVs V} (h : Sorted kvs) {p q : GoString × V} (hp : p ∈ kvs) (hq : q ∈ kvs) (hk : p.1 = q.1) : p = q := by
  unfold Sorted at h
  induction kvs with
  | nil => cases hp
  | cons x l ih =>
    rw [List.pairwise_cons] at h
    have hno : ∀ q ∈ l, x.1 ≠ q.1 := by
      intro q hq e
      have := h.1 q hq
      rw [e, strLt_irrefl] at this
      cases this
    rcases List.mem_cons.1 hp with e | hp' <;> rcases List.mem_cons.1 hq with e' | hq'
    · rw [e, e']
    · exact absurd (e ▸ hk) (hno q hq')
    · exact absurd (e' ▸ hk.symm) (hno p hp')
    · exact ih h.2 hp' hq'

/-- Sorted key-values with the same number of pairs, one of which has all pairs of the other, are the same. -/
theorem Sorted.eq_of_subset : ∀ {l k : KVs V}, Sorted l → Sorted k → (∀ p ∈ l, p ∈ k) → k.length = l.length → k = l
  | [], k, _, _, _, hl => List.length_eq_zero_iff.1 (by simpa using hl)
  | x :: l, [], _, _, _, hl => by simp at hl
  | x :: l, y :: k, h1, h2, hs, hl => by
    have h1' := List.pairwise_cons.1 h1
    have h2' := List.pairwise_cons.1 h2
    -- all of `l` is in `k`, so it is `k`; then `x` is `y`
    have hxl : ∀ p ∈ l, strLt x.1 p.1 = true := h1'.1
    have hyk : ∀ p ∈ k, strLt y.1 p.1 = true := h2'.1
    have hl' : ∀ p ∈ l, p ∈ k := by
      intro p hp
      rcases List.mem_cons.1 (hs p (List.mem_cons_of_mem _ hp)) with e | h
      · -- p = y: x < y, but x ∈ y :: k
        subst e
        rcases List.mem_cons.1 (hs x (by simp)) with e | h
        · have := hxl p hp; rw [e, strLt_irrefl] at this; cases this
        · have a := hyk x h
          have b := hxl p hp
          have := strLt_trans a b
          rw [strLt_irrefl] at this; cases this
      · exact h
    have e : k = l := Sorted.eq_of_subset h1'.2 h2'.2 hl' (by simpa using hl)
    subst e
    rcases List.mem_cons.1 (hs x (by simp)) with e | h
    · rw [e]
    · have := hxl x h; rw [strLt_irrefl] at this; cases this

/-! ### What other calls do not disturb -/

/-- What a step of call `t` leaves as it is. -/
structure Frame (s s' : St V A) (t : Nat) : Prop where
  nxt : s.next ≤ s'.next
  pair : ∀ i, i < s.next → (s'.node i).pair = (s.node i).pair
  ids : ∀ i u, u ≠ t → (s.node i).owner = some u → (s'.node i).ids = (s.node i).ids
  used : ∀ id ∈ s.used, id ∈ s'.used
  item : ∀ id it, s'.item id = some it → s.item id = some it ∨ ∃ (u : Nat) (th : Thread V A), s.threads[u]? = some th ∧ th.Making id ∧ th.call.kvs = it.kvs
  making : ∀ (id u : Nat) (th : Thread V A), s'.threads[u]? = some th → th.Making id → id ∉ s.used ∨
    ∃ th0 : Thread V A, s.threads[u]? = some th0 ∧ th0.Making id ∧ th0.call.kvs = th.call.kvs

theorem Frame.claim {s s' : St V A} {t : Nat} (f : Frame s s' t) {id : Nat} {p : GoString × V} {n : Nat} (h : s.Claim id p n) : s'.Claim id p n := by
  obtain ⟨h1, h2, h3⟩ := h
  refine ⟨f.used _ h1, ?_, ?_⟩
  · intro it hit
    rcases f.item _ _ hit with h | ⟨u, th, hu, hm, e⟩
    · exact h2 it h
    · rw [← e]; exact h3 u th hu hm
  · intro u th hu hm
    rcases f.making _ _ _ hu hm with h | ⟨th0, hu0, hm0, e⟩
    · exact absurd h1 h
    · rw [← e]; exact h3 u th0 hu0 hm0

theorem map_pair {s s' : St V A} {t : Nat} (f : Frame s s' t) {l : List Nat} (h : ∀ i ∈ l, i < s.next) :
    l.map (fun i => (s'.node i).pair) = l.map (fun i => (s.node i).pair) :=
  List.map_congr_left fun i hi => f.pair i (h i hi)

theorem Got.frame {s s' : St V A} {n : Nat} {held : List Nat} {got : Option (List Nat)} (h : Got s n held got)
    (hids : ∀ i ∈ held, (s'.node i).ids = (s.node i).ids) : Got s' n held got := by
  cases got with
  | none => exact h
  | some g =>
    obtain ⟨h1, h2, h3⟩ := h
    refine ⟨h1, h2, fun id => (h3 id).trans ?_⟩
    constructor <;> intro hh i hi
    · have := hh i hi
      unfold Node.at at this ⊢
      rwa [hids i hi]
    · have := hh i hi
      unfold Node.at at this ⊢
      rwa [← hids i hi]

theorem Frame.phaseOk {s s' : St V A} {t : Nat} (f : Frame s s' t) {c : Call V A} {ph : Phase V A} (hk : ∀ i ∈ ph.known, i < s.next)
    (hids : ∀ i ∈ ph.holds, (s'.node i).ids = (s.node i).ids) (h : PhaseOk s c ph) : PhaseOk s' c ph := by
  cases ph with
  | query todo acc =>
    obtain ⟨b, h1, h2, h3⟩ := h
    exact ⟨b, h1, h2, fun l hl id hid p hp => f.claim (h3 l hl id hid p hp)⟩
  | lookup ids => exact fun id hid p hp => f.claim (h id hid p hp)
  | touch todo nodes =>
    simp only [PhaseOk] at h ⊢
    rw [map_pair f (show ∀ i ∈ nodes, i < s.next from hk)]; exact h
  | lock todo held got =>
    obtain ⟨h1, h2, h3⟩ := h
    refine ⟨?_, h2.frame hids, ?_⟩
    · rw [map_pair f (show ∀ i ∈ held ++ todo, i < s.next from hk)]; exact h1
    · intro i hi; rw [hids i hi]; exact h3 i hi
  | make held id =>
    simp only [PhaseOk] at h ⊢
    rw [map_pair f (show ∀ i ∈ held, i < s.next from hk)]; exact h
  | dfind todo nodes =>
    obtain ⟨b, h1, h2⟩ := h
    refine ⟨b, h1, ?_⟩
    rw [map_pair f (show ∀ i ∈ nodes, i < s.next from hk)]; exact h2
  | dlock todo held got =>
    obtain ⟨h1, h2⟩ := h
    refine ⟨?_, h2.frame hids⟩
    rw [map_pair f (show ∀ i ∈ held ++ todo, i < s.next from hk)]; exact h1
  | unlock todo r => exact h
  | dunlock todo stop r => exact h
  | clean todo r => trivial
  | mark => trivial
  | seize => trivial
  | wipe todo => trivial
  | done r kept => trivial

/-- Putting it together. -/
theorem Inv.build {s s' : St V A} (hi : Inv s) {t : Nat} {th : Thread V A} {p' : Phase V A} (ht : s.threads[t]? = some th)
    (hth : s'.threads = s.threads.set t { th with phase := p' }) (f : Frame s s' t)
    (fits : Fits th.call p')
    (own1 : ∀ i u, u ≠ t → ((s'.node i).owner = some u ↔ (s.node i).owner = some u))
    (own2 : ∀ i, (s'.node i).owner = some t ↔ i ∈ p'.holds)
    (cre : ∀ i, (s'.node i).creating + th.phase.touched.count i = (s.node i).creating + p'.touched.count i)
    (idx : ∀ p i, s'.index p = some i → i < s'.next ∧ (s'.node i).pair = p)
    (keep : ∀ p i, s.index p = some i → s'.index p = some i ∨ (s.node i).creating = 0)
    (tch : ∀ i ∈ p'.touched, s'.index (s'.node i).pair = some i)
    (knw : ∀ i ∈ p'.known, i < s'.next)
    (stale : ∀ i, i < s'.next → s'.index (s'.node i).pair ≠ some i → (s'.node i).ids = [])
    (cont : Cont s')
    (phs : PhaseOk s' th.call p') : Inv s' := by
  have hget : ∀ u, s'.threads[u]? = if u = t then some { th with phase := p' } else s.threads[u]? := by
    intro u; rw [hth]; exact set_get ht _ u
  have split : ∀ (u : Nat) (th' : Thread V A), s'.threads[u]? = some th' → (u = t ∧ th' = { th with phase := p' }) ∨ (u ≠ t ∧ s.threads[u]? = some th') := by
    intro u th' h
    rw [hget u] at h
    by_cases hu : u = t
    · rw [if_pos hu] at h; exact Or.inl ⟨hu, (Option.some.inj h).symm⟩
    · rw [if_neg hu] at h; exact Or.inr ⟨hu, h⟩
  refine ⟨?_, ⟨?_, ?_, idx, ?_, ?_, stale⟩, cont, ?_⟩
  · intro u th' h
    rcases split u th' h with ⟨_, e⟩ | ⟨_, h⟩
    · subst e; exact ⟨(hi.creates t th ht).1, (hi.creates t th ht).2.1, fits⟩
    · exact hi.creates u th' h
  · intro i u
    by_cases hu : u = t
    · subst hu
      rw [own2 i, hget u, if_pos rfl]
      constructor
      · intro h; exact ⟨_, rfl, h⟩
      · rintro ⟨_, e, h⟩; cases e; exact h
    · rw [own1 i u hu, hi.locks.own i u, hget u, if_neg hu]
  · intro i
    have h1 := hi.locks.cre i
    have h2 := sum_set (fun th : Thread V A => th.phase.touched.count i) ht { th with phase := p' }
    have h3 := cre i
    rw [hth]
    simp only at h2
    omega
  · intro u th' h i hit
    rcases split u th' h with ⟨_, e⟩ | ⟨hu, h⟩
    · subst e; exact tch i hit
    · have h1 := hi.locks.tch u th' h i hit
      have h2 := (hi.locks.idx _ _ h1).1
      rw [f.pair i h2]
      rcases keep _ _ h1 with h' | h'
      · exact h'
      · exfalso
        have h3 := hi.locks.cre i
        have h4 : 0 < th'.phase.touched.count i := List.count_pos_iff.2 hit
        have h5 : th'.phase.touched.count i ≤ (s.threads.map fun th => th.phase.touched.count i).sum :=
          le_sum (fun th : Thread V A => th.phase.touched.count i) (List.mem_of_getElem? h)
        omega
  · intro u th' h i hik
    rcases split u th' h with ⟨_, e⟩ | ⟨hu, h⟩
    · subst e; exact knw i hik
    · exact Nat.lt_of_lt_of_le (hi.locks.knw u th' h i hik) f.nxt
  · intro u th' h
    rcases split u th' h with ⟨_, e⟩ | ⟨hu, h⟩
    · subst e; exact phs
    · exact f.phaseOk (hi.locks.knw u th' h) (fun i hih => f.ids i u hu ((hi.locks.own i u).2 ⟨th', h, hih⟩)) (hi.phs u th' h)

/-- Steps that change nothing that is stored. -/
theorem Cont.quiet {s s' : St V A} (hc : Cont s) {t : Nat} {th : Thread V A} {p' : Phase V A} (ht : s.threads[t]? = some th)
    (hth : s'.threads = s.threads.set t { th with phase := p' })
    (hitem : s'.item = s.item) (hused : s'.used = s.used) (hdes : s'.destroying = s.destroying)
    (hcont : ∀ p n, 1 ≤ n → s'.content p n = s.content p n) (q : th.phase.loud = false) (q' : p'.loud = false) : Cont s' := by
  have hget : ∀ u, s'.threads[u]? = if u = t then some { th with phase := p' } else s.threads[u]? := by
    intro u; rw [hth]; exact set_get ht _ u
  have qm : ∀ (P : Thread V A → Prop), ¬ P th → ¬ P { th with phase := p' } → ∀ (u : Nat) (x : Thread V A), (s'.threads[u]? = some x ∧ P x ↔ s.threads[u]? = some x ∧ P x) := by
    intro P h1 h2 u x
    rw [hget u]
    by_cases hu : u = t
    · subst hu
      rw [if_pos rfl, ht]
      constructor
      · rintro ⟨e, h⟩; cases e; exact absurd h h2
      · rintro ⟨e, h⟩; cases e; exact absurd h h1
    · rw [if_neg hu]
  have m1 := fun id => qm (fun x => x.Making id) (Thread.quiet_making q id) (Thread.quiet_making q' id)
  have w1 := fun id todo => qm (fun x => x.Wiping id todo) (Thread.quiet_wiping q id todo) (Thread.quiet_wiping q' id todo)
  have k1 := fun id => qm (fun x => x.Marking id) (Thread.quiet_marking q id) (Thread.quiet_marking q' id)
  refine ⟨?_, ?_, ?_, ?_, ?_, ?_, ?_⟩
  · intro p n id hn
    rw [hcont p n hn, hc.mem p n id hn]
    refine or_congr ?_ ?_
    · unfold St.Stored
      rw [hitem]
      refine exists_congr fun it => and_congr_right fun _ => and_congr_right fun _ => and_congr_right fun _ => ?_
      exact ⟨fun h u x todo hu hw => h u x todo ((w1 id todo u x).1 ⟨hu, hw⟩).1 hw, fun h u x todo hu hw => h u x todo ((w1 id todo u x).2 ⟨hu, hw⟩).1 hw⟩
    · unfold St.MakingAt
      constructor
      · rintro ⟨u, x, hu, hm, h⟩; exact ⟨u, x, ((m1 id u x).2 ⟨hu, hm⟩).1, hm, h⟩
      · rintro ⟨u, x, hu, hm, h⟩; exact ⟨u, x, ((m1 id u x).1 ⟨hu, hm⟩).1, hm, h⟩
  · intro p n hn; rw [hcont p n hn]; exact hc.nod p n hn
  · rw [hitem, hused]; exact hc.itm
  · intro u x id hu hm
    rw [hitem, hused]
    obtain ⟨a, b, c⟩ := hc.mak u x id ((m1 id u x).1 ⟨hu, hm⟩).1 hm
    exact ⟨a, b, fun u' x' hu' hm' => c u' x' ((m1 id u' x').1 ⟨hu', hm'⟩).1 hm'⟩
  · rw [hdes]
    refine ⟨hc.des.1, fun id => (hc.des.2 id).trans ?_⟩
    exact exists_congr fun u => exists_congr fun x => (k1 id u x).symm
  · intro u v x y id hu hv hx hy
    exact hc.one u v x y id ((k1 id u x).1 ⟨hu, hx⟩).1 ((k1 id v y).1 ⟨hv, hy⟩).1 hx hy
  · intro u x id todo hu hw
    rw [hitem]
    exact hc.wip u x id todo ((w1 id todo u x).1 ⟨hu, hw⟩).1 hw

theorem Frame.of {s s' : St V A} {t : Nat} {th : Thread V A} {p' : Phase V A} (ht : s.threads[t]? = some th)
    (hth : s'.threads = s.threads.set t { th with phase := p' })
    (nxt : s.next ≤ s'.next) (pair : ∀ i, i < s.next → (s'.node i).pair = (s.node i).pair)
    (ids : ∀ i u, u ≠ t → (s.node i).owner = some u → (s'.node i).ids = (s.node i).ids)
    (used : ∀ id ∈ s.used, id ∈ s'.used)
    (item : ∀ id it, s'.item id = some it → s.item id = some it ∨ th.Making id ∧ th.call.kvs = it.kvs)
    (making : ∀ id, ({ th with phase := p' } : Thread V A).Making id → id ∉ s.used) : Frame s s' t := by
  refine ⟨nxt, pair, ids, used, ?_, ?_⟩
  · intro id it h
    rcases item id it h with h | ⟨h1, h2⟩
    · exact Or.inl h
    · exact Or.inr ⟨t, th, ht, h1, h2⟩
  · intro id u x hu hm
    rw [hth, set_get ht] at hu
    by_cases he : u = t
    · rw [if_pos he] at hu; cases hu; exact Or.inl (making id hm)
    · rw [if_neg he] at hu; exact Or.inr ⟨x, hu, hm, rfl⟩

/-- Steps that only move on, and are not about making or destroying. -/
theorem Inv.phase {s : St V A} (hi : Inv s) {t : Nat} {th : Thread V A} {p' : Phase V A} (ht : s.threads[t]? = some th)
    (q : th.phase.loud = false) (q' : p'.loud = false) (fits : Fits th.call p')
    (holds : ∀ i, i ∈ th.phase.holds ↔ i ∈ p'.holds) (tch : ∀ i, th.phase.touched.count i = p'.touched.count i)
    (knw : ∀ i ∈ p'.known, i < s.next) (phs : PhaseOk s th.call p') : Inv (s.to t th p') := by
  have f : Frame s (s.to t th p') t := Frame.of ht rfl (Nat.le_refl _) (fun _ _ => rfl) (fun _ _ _ _ => rfl) (fun _ h => h) (fun _ _ h => Or.inl h)
    (fun id h => absurd h (Thread.quiet_making q' id))
  refine hi.build ht rfl f fits (fun _ _ _ => Iff.rfl) ?_ ?_ hi.locks.idx (fun _ _ h => Or.inl h) ?_ knw hi.locks.stale ?_ ?_
  · intro i
    rw [← holds i]
    refine (hi.locks.own i t).trans ?_
    constructor
    · rintro ⟨x, hx, h⟩; rw [ht] at hx; cases hx; exact h
    · intro h; exact ⟨th, ht, h⟩
  · intro i; rw [tch i]; rfl
  · intro i h
    have h' : i ∈ th.phase.touched := by
      rw [← List.count_pos_iff, tch i, List.count_pos_iff]; exact h
    exact hi.locks.tch t th ht i h'
  · exact hi.cont.quiet ht rfl rfl rfl rfl (fun _ _ _ => rfl) q q'
  · exact f.phaseOk knw (fun _ _ => rfl) phs

theorem Inv.own_iff {s : St V A} (hi : Inv s) {t : Nat} {th : Thread V A} (ht : s.threads[t]? = some th) (i : Nat) :
    (s.node i).owner = some t ↔ i ∈ th.phase.holds := by
  refine (hi.locks.own i t).trans ⟨?_, fun h => ⟨th, ht, h⟩⟩
  rintro ⟨x, hx, h⟩; rw [ht] at hx; cases hx; exact h

theorem content_some {s : St V A} {p : GoString × V} {i : Nat} (h : s.index p = some i) (n : Nat) : s.content p n = (s.node i).at n := by
  unfold St.content; rw [h]

theorem content_none {s : St V A} {p : GoString × V} (h : s.index p = none) (n : Nat) : s.content p n = [] := by
  unfold St.content; rw [h]

/-- A new ID node. -/
theorem Inv.touchNew [DecidableEq V] {s : St V A} (hi : Inv s) {t : Nat} {th : Thread V A} {p : GoString × V} {rest : KVs V} {nodes : List Nat}
    (ht : s.threads[t]? = some th) (hph : th.phase = .touch (p :: rest) nodes) (hn : s.index p = none) :
    Inv ({ s with node := fun j => if j = s.next then ⟨p, [], 1, none⟩ else s.node j, next := s.next + 1, index := fun q => if q = p then some s.next else s.index q }.to t th (.touch rest (nodes ++ [s.next]))) := by
  have hk : ∀ i ∈ nodes, i < s.next := fun i h => hi.locks.knw t th ht i (by rw [hph]; exact h)
  have q : th.phase.loud = false := by rw [hph]; rfl
  have hno : (s.node s.next).owner = none := by
    cases h : (s.node s.next).owner with
    | none => rfl
    | some u =>
      obtain ⟨x, hx, h'⟩ := (hi.locks.own _ _).1 h
      exact absurd (hi.locks.knw u x hx _ (x.phase.holds_known h')) (by omega)
  have hnc : (s.node s.next).creating = 0 := by
    rw [hi.locks.cre]
    refine List.sum_eq_zero_iff_forall_eq_nat.2 ?_
    intro n hn
    obtain ⟨x, hx, rfl⟩ := List.mem_map.1 hn
    obtain ⟨u, hu⟩ := List.getElem?_of_mem hx
    refine List.count_eq_zero.2 fun h => ?_
    exact absurd (hi.locks.knw u x hu _ (x.phase.touched_known h)) (by omega)
  have hne : ∀ q i, s.index q = some i → i ≠ s.next := fun q i h e => by have := (hi.locks.idx q i h).1; omega
  have hnp : ∀ i, i < s.next → s.index (s.node i).pair = some i → (s.node i).pair ≠ p := fun i _ h e => by rw [e, hn] at h; cases h
  have f : Frame s ({ s with node := fun j => if j = s.next then ⟨p, [], 1, none⟩ else s.node j, next := s.next + 1, index := fun q => if q = p then some s.next else s.index q }.to t th (.touch rest (nodes ++ [s.next]))) t := by
    refine Frame.of ht rfl (Nat.le_succ _) ?_ ?_ (fun _ h => h) (fun _ _ h => Or.inl h) (fun id h => absurd h (Thread.quiet_making rfl id))
    · intro i h
      simp only [St.to]
      rw [if_neg (by omega)]
    · intro i u hu ho
      simp only [St.to]
      by_cases he : i = s.next
      · rw [he, hno] at ho; cases ho
      · rw [if_neg he]
  have hfit := (hi.creates t th ht).2.2
  refine hi.build ht rfl f ?_ ?_ ?_ ?_ ?_ ?_ ?_ ?_ ?_ ?_ ?_
  · rw [hph] at hfit; cases hc : th.call <;> rw [hc] at hfit <;> first | trivial | exact hfit.elim
  · intro i u hu
    simp only [St.to]
    by_cases he : i = s.next
    · rw [if_pos he, he, hno]
    · rw [if_neg he]
  · intro i
    simp only [St.to, Phase.holds, List.not_mem_nil, iff_false]
    by_cases he : i = s.next
    · rw [if_pos he]; simp
    · rw [if_neg he, hi.own_iff ht, hph]; simp [Phase.holds]
  · intro i
    simp only [St.to, hph, Phase.touched]
    by_cases he : i = s.next
    · rw [if_pos he, he, hnc, List.count_append]; simp; omega
    · rw [if_neg he, List.count_append]
      have : List.count i [s.next] = 0 := List.count_eq_zero.2 (by simpa using he)
      omega
  · intro q i h
    simp only [St.to] at h ⊢
    by_cases he : q = p
    · rw [if_pos he] at h; cases h; rw [if_pos rfl]; exact ⟨by omega, he.symm⟩
    · rw [if_neg he] at h
      rw [if_neg (hne q i h)]
      have := hi.locks.idx q i h
      exact ⟨by omega, this.2⟩
  · intro q i h
    refine Or.inl ?_
    simp only [St.to]
    rw [if_neg ?_]; exact h
    intro e; rw [e, hn] at h; cases h
  · intro i h
    simp only [St.to] at h ⊢
    rcases List.mem_append.1 h with h | h
    · have h1 := hi.locks.tch t th ht i (by rw [hph]; exact h)
      have h2 := hk i h
      rw [if_neg (show ¬ i = s.next by omega), if_neg (hnp i h2 h1)]; exact h1
    · simp at h; subst h; rw [if_pos rfl, if_pos rfl]
  · intro i h
    simp only [St.to]
    rcases List.mem_append.1 h with h | h
    · have := hk i h; omega
    · simp at h; omega
  · intro i h h'
    simp only [St.to] at h h' ⊢
    by_cases he : i = s.next
    · rw [if_pos he]
    · rw [if_neg he] at h' ⊢
      have hlt : i < s.next := by omega
      by_cases hp : (s.node i).pair = p
      · refine hi.locks.stale i hlt ?_
        rw [hp, hn]; simp
      · rw [if_neg hp] at h'
        exact hi.locks.stale i hlt h'
  · refine hi.cont.quiet ht rfl rfl rfl rfl ?_ q rfl
    intro r n hr
    unfold St.content
    simp only [St.to]
    by_cases he : r = p
    · rw [if_pos he, he, hn]; simp [Node.at]
    · rw [if_neg he]
      cases hx : s.index r with
      | none => rfl
      | some j => simp only; rw [if_neg (hne r j hx)]
  · have := hi.phs t th ht
    rw [hph] at this
    simp only [PhaseOk, St.to] at this ⊢
    rw [this, List.map_append]
    simp only [List.map_cons, List.map_nil, if_true, List.append_assoc, List.cons_append, List.nil_append]
    congr 1
    refine List.map_congr_left fun i h => ?_
    have := hk i h
    rw [if_neg (by omega)]

theorem Frame.nodes {s : St V A} (node' : Nat → Node V) {t : Nat} {th : Thread V A} {p' : Phase V A} (ht : s.threads[t]? = some th) (q' : p'.loud = false)
    (pair : ∀ j, (node' j).pair = (s.node j).pair)
    (ids : ∀ j, (node' j).ids = (s.node j).ids ∨ (s.node j).owner = none ∧ s.index (s.node j).pair = some j) :
    Frame s ({ s with node := node' }.to t th p') t :=
  Frame.of ht rfl (Nat.le_refl _) (fun i _ => pair i)
    (fun i u _ ho => (ids i).elim id (fun h => by rw [h.1] at ho; cases ho)) (fun _ h => h) (fun _ _ h => Or.inl h)
    (fun id h => absurd h (Thread.quiet_making q' id))

/-- Steps that change ID nodes, but nothing that is stored. -/
theorem Inv.nodes {s : St V A} (hi : Inv s) (node' : Nat → Node V) {t : Nat} {th : Thread V A} {p' : Phase V A} (ht : s.threads[t]? = some th)
    (q : th.phase.loud = false) (q' : p'.loud = false) (fits : Fits th.call p')
    (pair : ∀ j, (node' j).pair = (s.node j).pair)
    (view : ∀ j n, 1 ≤ n → (node' j).at n = (s.node j).at n)
    (ids : ∀ j, (node' j).ids = (s.node j).ids ∨ (s.node j).owner = none ∧ s.index (s.node j).pair = some j)
    (own1 : ∀ i u, u ≠ t → ((node' i).owner = some u ↔ (s.node i).owner = some u))
    (own2 : ∀ i, (node' i).owner = some t ↔ i ∈ p'.holds)
    (cre : ∀ i, (node' i).creating + th.phase.touched.count i = (s.node i).creating + p'.touched.count i)
    (tch : ∀ i ∈ p'.touched, s.index (s.node i).pair = some i)
    (knw : ∀ i ∈ p'.known, i < s.next)
    (phs : PhaseOk ({ s with node := node' }.to t th p') th.call p') : Inv ({ s with node := node' }.to t th p') := by
  refine hi.build ht rfl (Frame.nodes node' ht q' pair ids) fits own1 own2 cre ?_ (fun _ _ h => Or.inl h) ?_ knw ?_ ?_ phs
  · intro p i h
    have := hi.locks.idx p i h
    exact ⟨this.1, (pair i).trans this.2⟩
  · intro i h
    simp only [St.to]
    rw [pair i]; exact tch i h
  · intro i h h'
    simp only [St.to] at h h' ⊢
    rw [pair i] at h'
    rcases ids i with e | e
    · rw [e]; exact hi.locks.stale i h h'
    · exact absurd e.2 h'
  · refine hi.cont.quiet ht rfl rfl rfl rfl ?_ q q'
    intro p n hn
    unfold St.content
    simp only [St.to]
    cases s.index p with
    | none => rfl
    | some i => exact view i n hn

theorem pair_nodup {s : St V A} {c : Call V A} (hok : c.creates = true ∧ c.ok) {l : List Nat} (h : l.map (fun i => (s.node i).pair) = c.kvs) : l.Nodup := by
  have h1 : (l.map (fun i => (s.node i).pair)).Nodup := by
    rw [h]
    cases c with
    | destroy id can => simp [Call.kvs]
    | _ => exact hok.2.2.nodup
  exact List.Pairwise.of_map _ (fun a b hab e => hab (by rw [e])) h1

/-- One more pair is touched. -/
theorem Inv.touchOld [DecidableEq V] {s : St V A} (hi : Inv s) {t : Nat} {th : Thread V A} {p : GoString × V} {rest : KVs V} {nodes : List Nat} {i : Nat}
    (ht : s.threads[t]? = some th) (hph : th.phase = .touch (p :: rest) nodes) (hx : s.index p = some i) :
    Inv ((s.setNode i fun d => { d with creating := d.creating + 1 }).to t th (.touch rest (nodes ++ [i]))) := by
  have hfit := (hi.creates t th ht).2.2
  have hp := hi.phs t th ht
  have hidx := hi.locks.idx p i hx
  rw [hph] at hp
  refine hi.nodes (fun j => if j = i then { s.node j with creating := (s.node j).creating + 1 } else s.node j) ht (by rw [hph]; rfl) rfl ?_ ?_ ?_ ?_ ?_ ?_ ?_ ?_ ?_ ?_
  · rw [hph] at hfit; cases hc : th.call <;> rw [hc] at hfit <;> first | trivial | exact hfit.elim
  · intro j; split <;> rfl
  · intro j n _; split <;> rfl
  · intro j; left; split <;> rfl
  · intro j u _; split <;> rfl
  · intro j
    have := hi.own_iff ht j
    rw [hph] at this
    simp only [Phase.holds] at this ⊢
    rw [← this]; split <;> rfl
  · intro j
    simp only [hph, Phase.touched, List.count_append]
    by_cases he : j = i
    · rw [if_pos he, he]; simp; omega
    · rw [if_neg he]
      have : List.count j [i] = 0 := List.count_eq_zero.2 (by simpa using he)
      omega
  · intro j hj
    rcases List.mem_append.1 hj with h | h
    · exact hi.locks.tch t th ht j (by rw [hph]; exact h)
    · simp at h; subst h; rw [hidx.2]; exact hx
  · intro j hj
    rcases List.mem_append.1 hj with h | h
    · exact hi.locks.knw t th ht j (by rw [hph]; exact h)
    · simp at h; subst h; exact hidx.1
  · simp only [PhaseOk, St.to] at hp ⊢
    rw [hp, List.map_append]
    simp only [List.map_cons, List.map_nil, if_true, List.append_assoc, List.cons_append, List.nil_append, hidx.2]
    congr 1
    refine List.map_congr_left fun j _ => ?_
    split <;> rfl

/-- What the common ids are after one more node. -/
theorem Got.more {s s' : St V A} {n i : Nat} {held : List Nat} {got : Option (List Nat)} (h : Got s n held got) (hv : ∀ j, (s'.node j).at n = (s.node j).at n)
    (hnod : ((s.node i).at n).Nodup) : Got s' n (held ++ [i]) (some (inter got ((s.node i).at n))) := by
  refine ⟨by simp, ?_, ?_⟩
  · cases got with
    | none => exact hnod
    | some g => exact h.2.1.filter _
  · intro id
    cases got with
    | none => have h : held = [] := h; subst h; simp [inter, hv]
    | some g =>
      simp only [inter, List.mem_filter, h.2.2 id, List.contains_iff_mem, List.forall_mem_append, List.mem_cons, List.not_mem_nil, or_false, forall_eq, hv]

/-- The ids of a node that is kept alive are the ids of its pair. -/
theorem Inv.nodup_at {s : St V A} (hi : Inv s) {i : Nat} (h : i < s.next) {n : Nat} (hn : 1 ≤ n) : ((s.node i).at n).Nodup := by
  by_cases hx : s.index (s.node i).pair = some i
  · have := hi.cont.nod (s.node i).pair n hn
    rwa [content_some hx] at this
  · have := hi.locks.stale i h hx
    unfold Node.at
    rw [this]; simp

theorem call_len {c : Call V A} (h : c.creates = true ∧ c.ok) (hd : ∀ id can, c ≠ .destroy id can) : 1 ≤ c.kvs.length := by
  cases c with
  | destroy id can => exact absurd rfl (hd id can)
  | create kvs a => exact List.length_pos_iff.2 h.2.1
  | createOrFind kvs a => exact List.length_pos_iff.2 h.2.1
  | createFails kvs => exact List.length_pos_iff.2 h.2.1
  | find kvs => exact List.length_pos_iff.2 h.2.1
  | delete kvs can => exact List.length_pos_iff.2 h.2.1

theorem inter_nil (got : Option (List Nat)) : inter got [] = [] := by
  cases got with
  | none => rfl
  | some g => simp [inter]

theorem at_short {d : Node V} {n : Nat} (hn : 1 ≤ n) (h : d.ids.length < n) : d.at n = [] := by
  unfold Node.at
  rw [List.getElem?_eq_none (by omega)]; rfl

theorem locked_got (d : Node V) {n : Nat} (hn : 1 ≤ n) (got : Option (List Nat)) : (if d.ids.length < n then [] else inter got (d.at n)) = inter got (d.at n) := by
  by_cases h : d.ids.length < n
  · rw [if_pos h, at_short hn h, inter_nil]
  · rw [if_neg h]

/-- One more node is locked by a create. -/
theorem Inv.lock {s : St V A} (hi : Inv s) {t : Nat} {th : Thread V A} {i : Nat} {rest held : List Nat} {got : Option (List Nat)}
    (ht : s.threads[t]? = some th) (hph : th.phase = .lock (i :: rest) held got) (hx : (s.node i).owner = none) :
    Inv ((s.setNode i fun d => { d with owner := some t, ids := extend th.call.kvs.length d.ids }).to t th
      (.lock rest (held ++ [i]) (some (inter got ((s.node i).at th.call.kvs.length))))) := by
  have hfit := (hi.creates t th ht).2.2
  have hp := hi.phs t th ht
  rw [hph] at hp
  obtain ⟨hp1, hp2, hp3⟩ := hp
  have htch : s.index (s.node i).pair = some i := hi.locks.tch t th ht i (by rw [hph]; simp [Phase.touched])
  have hlen : 1 ≤ th.call.kvs.length := call_len ⟨(hi.creates t th ht).1, (hi.creates t th ht).2.1⟩ (by
    intro id can e; rw [e, hph] at hfit; exact hfit)
  refine hi.nodes (fun j => if j = i then { s.node j with owner := some t, ids := extend th.call.kvs.length (s.node j).ids } else s.node j) ht (by rw [hph]; rfl) rfl
    ?_ ?_ ?_ ?_ ?_ ?_ ?_ ?_ ?_ ?_
  · rw [hph] at hfit; cases hc : th.call <;> rw [hc] at hfit <;> first | trivial | exact hfit.elim
  · intro j; split <;> rfl
  · intro j n _
    by_cases he : j = i
    · simp only [if_pos he]; exact at_extend _ _ _
    · simp only [if_neg he]
  · intro j
    by_cases he : j = i
    · subst he; right; exact ⟨hx, htch⟩
    · simp only [if_neg he]; left; trivial
  · intro j u hu
    by_cases he : j = i
    · subst he; rw [if_pos rfl, hx]; simp [Ne.symm hu]
    · simp only [if_neg he]
  · intro j
    have := hi.own_iff ht j
    rw [hph] at this
    simp only [Phase.holds] at this ⊢
    by_cases he : j = i
    · simp [he]
    · rw [if_neg he, this]; simp [he]
  · intro j
    simp only [hph, Phase.touched, List.append_assoc, List.cons_append, List.nil_append]
    split <;> rfl
  · intro j hj
    exact hi.locks.tch t th ht j (by rw [hph]; simpa [Phase.touched] using hj)
  · intro j hj
    exact hi.locks.knw t th ht j (by rw [hph]; simpa [Phase.known] using hj)
  · have hv : ∀ j n, ((if j = i then { s.node j with owner := some t, ids := extend th.call.kvs.length (s.node j).ids } else s.node j).at n) = (s.node j).at n := by
      intro j n
      by_cases he : j = i
      · simp only [if_pos he]; exact at_extend _ _ _
      · simp only [if_neg he]
    refine ⟨?_, hp2.more (s' := (s.setNode i fun d => { d with owner := some t, ids := extend th.call.kvs.length d.ids }).to t th
      (.lock rest (held ++ [i]) (some (inter got ((s.node i).at th.call.kvs.length))))) (fun j => hv j _) (hi.nodup_at (hi.locks.idx _ _ htch).1 hlen), ?_⟩
    · rw [← hp1]
      simp only [List.append_assoc, List.cons_append, List.nil_append]
      refine List.map_congr_left fun j _ => ?_
      simp only [St.to]
      split <;> rfl
    · intro j hj
      simp only [St.to]
      by_cases he : j = i
      · simp only [if_pos he]
        unfold extend
        simp; omega
      · simp only [if_neg he]
        rcases List.mem_append.1 hj with h | h
        · exact hp3 j h
        · simp at h; exact absurd h he

/-- A create unlocks a node. -/
theorem Inv.unlock {s : St V A} (hi : Inv s) {t : Nat} {th : Thread V A} {i : Nat} {rest : List Nat} {r : Res A}
    (ht : s.threads[t]? = some th) (hph : th.phase = .unlock (i :: rest) r) : Inv (nextUnlock s t th i rest r) := by
  have hfit := (hi.creates t th ht).2.2
  have hp := hi.phs t th ht
  rw [hph] at hp
  have hnd : i ∉ rest ∧ rest.Nodup := List.nodup_cons.1 hp
  have hown : (s.node i).owner = some t := (hi.own_iff ht i).2 (by rw [hph]; simp [Phase.holds])
  have hcr : 1 ≤ (s.node i).creating := by
    rw [hi.locks.cre i]
    refine Nat.le_trans ?_ (le_sum (fun th : Thread V A => th.phase.touched.count i) (List.mem_of_getElem? ht))
    simp [hph, Phase.touched]
  refine hi.nodes (fun j => if j = i then { s.node j with owner := none, creating := (s.node j).creating - 1 } else s.node j) ht (by rw [hph]; rfl) rfl ?_ ?_ ?_ ?_ ?_ ?_ ?_ ?_ ?_ ?_
  · rw [hph] at hfit; cases hc : th.call <;> rw [hc] at hfit <;> first | exact hfit | exact hfit.elim
  · intro j; split <;> rfl
  · intro j n _; split <;> rfl
  · intro j; left; split <;> rfl
  · intro j u hu
    by_cases he : j = i
    · rw [if_pos he, he, hown]; simp [Ne.symm hu]
    · rw [if_neg he]
  · intro j
    have := hi.own_iff ht j
    rw [hph] at this
    simp only [Phase.holds] at this ⊢
    by_cases he : j = i
    · rw [if_pos he, he]; simp [hnd.1]
    · rw [if_neg he, this]; simp [he]
  · intro j
    simp only [hph, Phase.touched]
    by_cases he : j = i
    · rw [if_pos he, he]; simp; omega
    · rw [if_neg he, List.count_cons_of_ne (Ne.symm he)]
  · intro j hj
    exact hi.locks.tch t th ht j (by rw [hph]; exact List.mem_cons_of_mem _ hj)
  · intro j hj
    exact hi.locks.knw t th ht j (by rw [hph]; exact List.mem_cons_of_mem _ hj)
  · exact hnd.2

/-- A delete unlocks a node. -/
theorem Inv.dunlock {s : St V A} (hi : Inv s) {t : Nat} {th : Thread V A} {i : Nat} {rest : List Nat} {stop : Bool} {r : Res A}
    (ht : s.threads[t]? = some th) (hph : th.phase = .dunlock (i :: rest) stop r) : Inv (nextDunlock s t th i rest stop r) := by
  have hfit := (hi.creates t th ht).2.2
  have hp := hi.phs t th ht
  rw [hph] at hp
  have hnd : i ∉ rest ∧ rest.Nodup := List.nodup_cons.1 hp
  have hown : (s.node i).owner = some t := (hi.own_iff ht i).2 (by rw [hph]; simp [Phase.holds])
  refine hi.nodes (fun j => if j = i then { s.node j with owner := none } else s.node j) ht (by rw [hph]; rfl) rfl ?_ ?_ ?_ ?_ ?_ ?_ ?_ ?_ ?_ ?_
  · rw [hph] at hfit; cases hc : th.call <;> rw [hc] at hfit <;> first | trivial | exact hfit.elim
  · intro j; split <;> rfl
  · intro j n _; split <;> rfl
  · intro j; left; split <;> rfl
  · intro j u hu
    by_cases he : j = i
    · rw [if_pos he, he, hown]; simp [Ne.symm hu]
    · rw [if_neg he]
  · intro j
    have := hi.own_iff ht j
    rw [hph] at this
    simp only [Phase.holds] at this ⊢
    by_cases he : j = i
    · rw [if_pos he, he]; simp [hnd.1]
    · rw [if_neg he, this]; simp [he]
  · intro j
    simp only [hph, Phase.touched]
    split <;> rfl
  · intro j hj; cases hj
  · intro j hj
    exact hi.locks.knw t th ht j (by rw [hph]; exact List.mem_cons_of_mem _ hj)
  · exact hnd.2

/-- A delete locks a node. -/
theorem Inv.dlock {s : St V A} (hi : Inv s) {t : Nat} {th : Thread V A} {i : Nat} {rest held : List Nat} {got : Option (List Nat)} {p' : Phase V A}
    (ht : s.threads[t]? = some th) (hph : th.phase = .dlock (i :: rest) held got) (hx : (s.node i).owner = none)
    (hp' : p' = .dunlock (held ++ [i]) true .nothing ∨ p' = .dlock rest (held ++ [i]) (some (inter got ((s.node i).at th.call.kvs.length)))) :
    Inv ((s.setNode i fun d => { d with owner := some t }).to t th p') := by
  have hcr := hi.creates t th ht
  have hfit := hcr.2.2
  have hp := hi.phs t th ht
  rw [hph] at hp
  obtain ⟨hp1, hp2⟩ := hp
  have hk : ∀ j ∈ held ++ i :: rest, j < s.next := fun j hj => hi.locks.knw t th ht j (by rw [hph]; exact hj)
  have hlen : 1 ≤ th.call.kvs.length := call_len ⟨hcr.1, hcr.2.1⟩ (by intro id can e; rw [e, hph] at hfit; exact hfit)
  have hh : p'.holds = held ++ [i] := by rcases hp' with rfl | rfl <;> rfl
  refine hi.nodes (fun j => if j = i then { s.node j with owner := some t } else s.node j) ht (by rw [hph]; rfl) (by rcases hp' with rfl | rfl <;> rfl) ?_ ?_ ?_ ?_ ?_ ?_ ?_ ?_ ?_ ?_
  · rw [hph] at hfit
    cases hc : th.call <;> rw [hc] at hfit <;> first | exact hfit.elim | (rcases hp' with rfl | rfl <;> trivial)
  · intro j; split <;> rfl
  · intro j n _; split <;> rfl
  · intro j; left; split <;> rfl
  · intro j u hu
    by_cases he : j = i
    · rw [if_pos he, he, hx]; simp [Ne.symm hu]
    · rw [if_neg he]
  · intro j
    have := hi.own_iff ht j
    rw [hph] at this
    simp only [Phase.holds] at this
    rw [hh]
    by_cases he : j = i
    · simp [he]
    · rw [if_neg he, this]; simp [he]
  · intro j
    have : p'.touched = [] := by rcases hp' with rfl | rfl <;> rfl
    rw [this, hph]
    split <;> rfl
  · intro j hj
    have : p'.touched = [] := by rcases hp' with rfl | rfl <;> rfl
    rw [this] at hj; cases hj
  · intro j hj
    refine hk j ?_
    rcases hp' with rfl | rfl
    · simp [Phase.known] at hj ⊢; grind
    · simpa [Phase.known] using hj
  · rcases hp' with rfl | rfl
    · have hnd := pair_nodup ⟨hcr.1, hcr.2.1⟩ hp1
      refine List.Sublist.nodup ?_ hnd
      exact List.Sublist.append_left (by simp) _
    · refine ⟨?_, hp2.more (s' := (s.setNode i fun d => { d with owner := some t }).to t th
        (.dlock rest (held ++ [i]) (some (inter got ((s.node i).at th.call.kvs.length))))) ?_ (hi.nodup_at (hk i (by simp)) hlen)⟩
      · rw [← hp1]
        simp only [List.append_assoc, List.cons_append, List.nil_append]
        refine List.map_congr_left fun j _ => ?_
        simp only [St.to]
        split <;> rfl
      · intro j
        simp only [St.to, St.setNode]
        split <;> rfl

/-- A delete removes an ID node from the index. -/
theorem Inv.clean [DecidableEq V] {s : St V A} (hi : Inv s) {t : Nat} {th : Thread V A} {p : GoString × V} {rest : KVs V} {r : Res A} {i : Nat}
    (ht : s.threads[t]? = some th) (hph : th.phase = .clean (p :: rest) r) (hx : s.index p = some i) (he : (s.node i).ids = []) (hc : (s.node i).creating = 0) :
    Inv ({ s with index := fun q => if q = p then none else s.index q }.to t th (.clean rest r)) := by
  have hcr := hi.creates t th ht
  have hfit := hcr.2.2
  have hidx := hi.locks.idx p i hx
  have f : Frame s ({ s with index := fun q => if q = p then none else s.index q }.to t th (.clean rest r)) t :=
    Frame.of ht rfl (Nat.le_refl _) (fun _ _ => rfl) (fun _ _ _ _ => rfl) (fun _ h => h) (fun _ _ h => Or.inl h) (fun id h => absurd h (Thread.quiet_making rfl id))
  refine hi.build ht rfl f ?_ (fun _ _ _ => Iff.rfl) ?_ ?_ ?_ ?_ ?_ ?_ ?_ ?_ trivial
  · rw [hph] at hfit; cases hc : th.call <;> rw [hc] at hfit <;> first | trivial | exact hfit.elim
  · intro j
    have := hi.own_iff ht j
    rw [hph] at this; exact this
  · intro j; rw [hph]; rfl
  · intro q j h
    simp only [St.to] at h ⊢
    by_cases hq : q = p
    · rw [if_pos hq] at h; cases h
    · rw [if_neg hq] at h; exact hi.locks.idx q j h
  · intro q j h
    simp only [St.to]
    by_cases hq : q = p
    · subst hq; rw [hx] at h; cases h; exact Or.inr hc
    · rw [if_neg hq]; exact Or.inl h
  · intro j hj; cases hj
  · intro j hj; cases hj
  · intro j hj hne
    simp only [St.to] at hj hne ⊢
    by_cases hq : (s.node j).pair = p
    · by_cases hji : j = i
      · rw [hji]; exact he
      · refine hi.locks.stale j hj ?_
        rw [hq, hx]; simp; exact fun e => hji e.symm
    · rw [if_neg hq] at hne; exact hi.locks.stale j hj hne
  · refine hi.cont.quiet ht rfl rfl rfl rfl ?_ (by rw [hph]; rfl) rfl
    intro q n hn
    unfold St.content
    simp only [St.to]
    by_cases hq : q = p
    · rw [if_pos hq, hq, hx]; simp [Node.at, he]
    · rw [if_neg hq]

/-! ### Making and destroying -/

theorem set_cases {l : List (Thread V A)} {t : Nat} {th y : Thread V A} (ht : l[t]? = some th) {u : Nat} {x : Thread V A} (h : (l.set t y)[u]? = some x) :
    (u = t ∧ x = y) ∨ (u ≠ t ∧ l[u]? = some x) := by
  rw [set_get ht] at h
  by_cases hu : u = t
  · rw [if_pos hu] at h; exact Or.inl ⟨hu, (Option.some.inj h).symm⟩
  · rw [if_neg hu] at h; exact Or.inr ⟨hu, h⟩

theorem set_self {l : List (Thread V A)} {t : Nat} {th : Thread V A} (ht : l[t]? = some th) (y : Thread V A) : (l.set t y)[t]? = some y := by
  rw [set_get ht, if_pos rfl]

theorem set_other {l : List (Thread V A)} {t : Nat} {th : Thread V A} (ht : l[t]? = some th) (y : Thread V A) {u : Nat} (hu : u ≠ t) {x : Thread V A} (h : l[u]? = some x) :
    (l.set t y)[u]? = some x := by
  rw [set_get ht, if_neg hu]; exact h

theorem Thread.Making.ne {th : Thread V A} {id : Nat} (h : th.Making id) (p' : Phase V A) (hp : ∀ held, p' ≠ .make held id) : ¬ ({ th with phase := p' } : Thread V A).Making id := by
  rintro ⟨held, e⟩; exact hp held e

/-- An id that all locked nodes have is that of an item with just these key-values. -/
theorem Inv.common {s : St V A} (hi : Inv s) {t : Nat} {th : Thread V A} (ht : s.threads[t]? = some th) (q : th.phase.loud = false) {held : List Nat} {kvs : KVs V}
    (hs : Sorted kvs) (hne : kvs ≠ []) (hh : held.map (fun i => (s.node i).pair) = kvs) (ho : ∀ i ∈ held, i ∈ th.phase.holds) {id : Nat}
    (hid : ∀ i ∈ held, id ∈ (s.node i).at kvs.length) :
    ∃ it, s.item id = some it ∧ it.kvs = kvs ∧ ∀ (u : Nat) (x : Thread V A) (todo : KVs V), s.threads[u]? = some x → x.Wiping id todo → todo = kvs := by
  have hlen : 1 ≤ kvs.length := List.length_pos_iff.2 hne
  have key : ∀ p ∈ kvs, s.Stored id p kvs.length := by
    intro p hp
    rw [← hh] at hp
    obtain ⟨i, hi', e⟩ := List.mem_map.1 hp
    have hlt : i < s.next := hi.locks.knw t th ht i (th.phase.holds_known (ho i hi'))
    have hx : s.index (s.node i).pair = some i := by
      refine Classical.byContradiction fun h => ?_
      have := hi.locks.stale i hlt h
      have h2 := hid i hi'
      unfold Node.at at h2
      rw [this] at h2; simp at h2
    have hm : id ∈ s.content p kvs.length := by
      rw [← e, content_some hx]; exact hid i hi'
    rcases (hi.cont.mem p _ id hlen).1 hm with h | ⟨u, x, hu, ⟨held', hmk⟩, hpx, hl⟩
    · exact h
    · exfalso
      have hp1 := hi.phs u x hu
      rw [hmk] at hp1
      simp only [PhaseOk] at hp1
      rw [← hp1] at hpx
      obtain ⟨j, hj, ej⟩ := List.mem_map.1 hpx
      have hxj := hi.locks.tch u x hu j (by rw [hmk]; exact hj)
      rw [ej, ← e, hx] at hxj
      cases hxj
      have o1 : (s.node i).owner = some u := (hi.own_iff hu i).2 (by rw [hmk]; exact hj)
      have o2 : (s.node i).owner = some t := (hi.own_iff ht i).2 (ho i hi')
      rw [o1] at o2
      cases o2
      rw [ht] at hu; cases hu
      rw [hmk] at q; cases q
  obtain ⟨p0, hp0⟩ := List.exists_mem_of_ne_nil _ hne
  obtain ⟨it, h1, _, h3, _⟩ := key p0 hp0
  have hall : ∀ p ∈ kvs, p ∈ it.kvs := by
    intro p hp
    obtain ⟨it', h1', h2', _⟩ := key p hp
    rw [h1] at h1'; cases h1'; exact h2'
  have he : it.kvs = kvs := Sorted.eq_of_subset hs (hi.cont.itm id it h1).2.2 hall h3
  refine ⟨it, h1, he, ?_⟩
  intro u x todo hu hw
  obtain ⟨it', h1', h2'⟩ := hi.cont.wip u x id todo hu hw
  rw [h1] at h1'; cases h1'
  rw [he] at h2'
  refine h2'.eq_of_length_le ?_
  refine (hs.nodup.length_le_of_subset ?_)
  intro p hp
  obtain ⟨_, _, _, _, h4⟩ := key p hp
  exact h4 u x todo hu hw

/-- All nodes are locked and the id of the new item is added. -/
theorem Inv.startMake [DecidableEq V] {s : St V A} (hi : Inv s) {t : Nat} {th : Thread V A} {held : List Nat} {got : Option (List Nat)} {pick : Nat}
    (ht : s.threads[t]? = some th) (hph : th.phase = .lock [] held got) (hf : pick ∉ s.used) :
    Inv (({ s with used := pick :: s.used }.setNodes held fun d => { d with ids := addId th.call.kvs.length pick d.ids }).to t th (.make held pick)) := by
  have hcr := hi.creates t th ht
  have hfit := hcr.2.2
  have hp := hi.phs t th ht
  rw [hph] at hp
  obtain ⟨hp1, hp2, hp3⟩ := hp
  rw [List.append_nil] at hp1
  have hq : th.phase.loud = false := by rw [hph]; rfl
  have hlen : 1 ≤ th.call.kvs.length := call_len ⟨hcr.1, hcr.2.1⟩ (by intro id can e; rw [e, hph] at hfit; exact hfit)
  have htch : ∀ i ∈ held, s.index (s.node i).pair = some i := fun i h => hi.locks.tch t th ht i (by rw [hph]; simpa [Phase.touched] using h)
  have hown : ∀ i, (s.node i).owner = some t ↔ i ∈ held := fun i => by have := hi.own_iff ht i; rw [hph] at this; exact this
  have hpair : ∀ j, (if j ∈ held then { s.node j with ids := addId th.call.kvs.length pick (s.node j).ids } else s.node j).pair = (s.node j).pair := by
    intro j; split <;> rfl
  have f : Frame s (({ s with used := pick :: s.used }.setNodes held fun d => { d with ids := addId th.call.kvs.length pick d.ids }).to t th (.make held pick)) t := by
    refine Frame.of ht rfl (Nat.le_refl _) (fun i _ => hpair i) ?_ (fun id h => List.mem_cons_of_mem _ h) (fun _ _ h => Or.inl h) ?_
    · intro i u hu ho
      simp only [St.to, St.setNodes]
      rw [if_neg ?_]
      intro h; rw [(hown i).2 h] at ho; exact hu (Option.some.inj ho).symm
    · rintro id ⟨h', e⟩
      cases e; exact hf
  have hcontent : ∀ p n, 1 ≤ n → (({ s with used := pick :: s.used }.setNodes held fun d => { d with ids := addId th.call.kvs.length pick d.ids }).to t th (.make held pick)).content p n =
      if p ∈ th.call.kvs ∧ n = th.call.kvs.length then s.content p n ++ [pick] else s.content p n := by
    intro p n hn
    unfold St.content
    simp only [St.to, St.setNodes]
    cases hx : s.index p with
    | none =>
      refine (if_neg ?_).symm
      rintro ⟨h, _⟩
      rw [← hp1] at h
      obtain ⟨i, hi', e⟩ := List.mem_map.1 h
      have := htch i hi'
      rw [e, hx] at this; cases this
    | some i =>
      simp only
      have hidx := hi.locks.idx p i hx
      by_cases hih : i ∈ held
      · have hpk : p ∈ th.call.kvs := by rw [← hp1, ← hidx.2]; exact List.mem_map.2 ⟨i, hih, rfl⟩
        rw [if_pos hih]
        refine (at_addId (m := n) hlen hn (hp3 i hih)).trans ?_
        by_cases he : n = th.call.kvs.length
        · rw [if_pos he, if_pos ⟨hpk, he⟩]; rfl
        · rw [if_neg he, if_neg (fun h => he h.2)]; rfl
      · rw [if_neg hih, if_neg]
        rintro ⟨h, _⟩
        rw [← hp1] at h
        obtain ⟨j, hj, e⟩ := List.mem_map.1 h
        have := htch j hj
        rw [e, hx] at this; cases this; exact hih hj
  have hpick : ∀ p n, 1 ≤ n → pick ∉ s.content p n := by
    intro p n hn h
    rcases (hi.cont.mem p n pick hn).1 h with ⟨it, h1, _⟩ | ⟨u, x, hu, hm, _⟩
    · exact hf (hi.cont.itm _ _ h1).1
    · exact hf (hi.cont.mak u x pick hu hm).1
  refine hi.build ht rfl f ?_ ?_ ?_ ?_ ?_ (fun _ _ h => Or.inl h) ?_ ?_ ?_ ?_ ?_
  · rw [hph] at hfit; cases hc : th.call <;> rw [hc] at hfit <;> first | trivial | exact hfit.elim
  · intro i u hu; simp only [St.to, St.setNodes]; split <;> rfl
  · intro i
    refine Iff.trans ?_ (hown i)
    simp only [St.to, St.setNodes]; split <;> rfl
  · intro i
    simp only [St.to, St.setNodes, hph, Phase.touched, List.append_nil]; split <;> rfl
  · intro p i h
    have := hi.locks.idx p i h
    exact ⟨this.1, (hpair i).trans this.2⟩
  · intro i h
    simp only [St.to, St.setNodes]
    rw [hpair i]; exact htch i h
  · intro i h
    exact hi.locks.knw t th ht i (by rw [hph]; simpa [Phase.known] using h)
  · intro i h h'
    simp only [St.to, St.setNodes] at h h' ⊢
    rw [hpair i] at h'
    by_cases hih : i ∈ held
    · exact absurd (htch i hih) h'
    · rw [if_neg hih]; exact hi.locks.stale i h h'
  · have hc := hi.cont
    have noW : ∀ id todo, ¬ ({ th with phase := .make held pick } : Thread V A).Wiping id todo := fun id todo h => by cases h.2
    have noK : ∀ id, ¬ ({ th with phase := .make held pick } : Thread V A).Marking id := fun id h => by
      rcases h.2 with h | ⟨_, h⟩ <;> cases h
    refine ⟨?_, ?_, ?_, ?_, ?_, ?_, ?_⟩
    · intro p n id hn
      rw [hcontent p n hn]
      have hor : ∀ P : Prop, (id ∈ s.content p n ∨ P) ↔ (s.Stored id p n ∨ s.MakingAt id p n) ∨ P := fun P => or_congr (hc.mem p n id hn) Iff.rfl
      have hst : (({ s with used := pick :: s.used }.setNodes held fun d => { d with ids := addId th.call.kvs.length pick d.ids }).to t th (.make held pick)).Stored id p n ↔ s.Stored id p n := by
        unfold St.Stored
        refine exists_congr fun it => and_congr_right fun _ => and_congr_right fun _ => and_congr_right fun _ => ?_
        constructor
        · intro h u x todo hu hw
          have hut : u ≠ t := by
            intro e; subst e; rw [ht] at hu; cases hu
            exact Thread.quiet_wiping hq _ _ hw
          exact h u x todo (set_other ht _ hut hu) hw
        · intro h u x todo hu hw
          rcases set_cases ht hu with ⟨_, e⟩ | ⟨_, hu⟩
          · subst e; exact absurd hw (noW _ _)
          · exact h u x todo hu hw
      have hmk : (({ s with used := pick :: s.used }.setNodes held fun d => { d with ids := addId th.call.kvs.length pick d.ids }).to t th (.make held pick)).MakingAt id p n ↔
          s.MakingAt id p n ∨ (id = pick ∧ p ∈ th.call.kvs ∧ n = th.call.kvs.length) := by
        constructor
        · rintro ⟨u, x, hu, hm, h1, h2⟩
          rcases set_cases ht hu with ⟨_, e⟩ | ⟨_, hu⟩
          · subst e
            obtain ⟨h', e⟩ := hm
            cases e
            exact Or.inr ⟨rfl, h1, h2.symm⟩
          · exact Or.inl ⟨u, x, hu, hm, h1, h2⟩
        · rintro (⟨u, x, hu, hm, h1, h2⟩ | ⟨e, h1, h2⟩)
          · have hut : u ≠ t := by
              intro e; subst e; rw [ht] at hu; cases hu
              exact Thread.quiet_making hq _ hm
            exact ⟨u, x, set_other ht _ hut hu, hm, h1, h2⟩
          · subst e; exact ⟨t, _, set_self ht _, ⟨held, rfl⟩, h1, h2.symm⟩
      rw [hst, hmk]
      by_cases hcs : p ∈ th.call.kvs ∧ n = th.call.kvs.length
      · rw [if_pos hcs, List.mem_append, hor, or_assoc]
        refine or_congr Iff.rfl (or_congr Iff.rfl ?_)
        simp [hcs]
      · rw [if_neg hcs, hc.mem p n id hn]
        refine or_congr Iff.rfl ⟨Or.inl, ?_⟩
        rintro (h | ⟨_, h⟩)
        · exact h
        · exact absurd h hcs
    · intro p n hn
      rw [hcontent p n hn]
      by_cases hcs : p ∈ th.call.kvs ∧ n = th.call.kvs.length
      · rw [if_pos hcs, List.nodup_append]
        refine ⟨hc.nod p n hn, by simp, ?_⟩
        intro a ha b hb e
        simp at hb; subst hb; subst e; exact hpick p n hn ha
      · rw [if_neg hcs]; exact hc.nod p n hn
    · intro id it h
      have := hc.itm id it h
      exact ⟨List.mem_cons_of_mem _ this.1, this.2⟩
    · intro u x id hu hm
      rcases set_cases ht hu with ⟨hut, e⟩ | ⟨hut, hu⟩
      · subst e
        obtain ⟨h', e⟩ := hm
        cases e
        refine ⟨List.mem_cons_self .., ?_, ?_⟩
        · cases hx : s.item pick with
          | none => exact hx
          | some it => exact absurd (hc.itm _ _ hx).1 hf
        · intro v y hv hmv
          rcases set_cases ht hv with ⟨hvt, _⟩ | ⟨hvt, hv⟩
          · exact hvt.trans hut.symm
          · exact absurd (hc.mak v y pick hv hmv).1 hf
      · obtain ⟨h1, h2, h3⟩ := hc.mak u x id hu hm
        refine ⟨List.mem_cons_of_mem _ h1, h2, ?_⟩
        intro v y hv hmv
        rcases set_cases ht hv with ⟨hvt, e⟩ | ⟨hvt, hv⟩
        · subst e
          obtain ⟨h', e⟩ := hmv
          cases e
          exact absurd h1 hf
        · exact h3 v y hv hmv
    · refine ⟨hc.des.1, fun id => (hc.des.2 id).trans ?_⟩
      constructor
      · rintro ⟨u, x, hu, hm⟩
        have hut : u ≠ t := by
          intro e; subst e; rw [ht] at hu; cases hu
          exact Thread.quiet_marking hq _ hm
        exact ⟨u, x, set_other ht _ hut hu, hm⟩
      · rintro ⟨u, x, hu, hm⟩
        rcases set_cases ht hu with ⟨_, e⟩ | ⟨_, hu⟩
        · subst e; exact absurd hm (noK _)
        · exact ⟨u, x, hu, hm⟩
    · intro u v x y id hu hv hx hy
      rcases set_cases ht hu with ⟨_, e⟩ | ⟨_, hu⟩
      · subst e; exact absurd hx (noK _)
      · rcases set_cases ht hv with ⟨_, e⟩ | ⟨_, hv⟩
        · subst e; exact absurd hy (noK _)
        · exact hc.one u v x y id hu hv hx hy
    · intro u x id todo hu hw
      rcases set_cases ht hu with ⟨_, e⟩ | ⟨_, hu⟩
      · subst e; exact absurd hw (noW _ _)
      · exact hc.wip u x id todo hu hw
  · simp only [PhaseOk, St.to, St.setNodes]
    refine Eq.trans ?_ hp1
    exact List.map_congr_left fun j _ => hpair j

/-- The new item is stored. -/
theorem Inv.make {s : St V A} (hi : Inv s) {t : Nat} {th : Thread V A} {held : List Nat} {id : Nat} {a : A}
    (ht : s.threads[t]? = some th) (hph : th.phase = .make held id) :
    Inv ({ s with item := fun j => if j = id then some ⟨th.call.kvs, a⟩ else s.item j }.to t th (.unlock held (.created id))) := by
  have hcr := hi.creates t th ht
  have hfit := hcr.2.2
  have hp := hi.phs t th ht
  have hc := hi.cont
  rw [hph] at hp
  simp only [PhaseOk] at hp
  have hmk : th.Making id := ⟨held, hph⟩
  obtain ⟨hu, hit, hone⟩ := hc.mak t th id ht hmk
  have hnd : held.Nodup := pair_nodup ⟨hcr.1, hcr.2.1⟩ hp
  have noW : ∀ j todo, ¬ ({ th with phase := .unlock held (.created id) } : Thread V A).Wiping j todo := fun j todo h => by cases h.2
  have noW' : ∀ j todo, ¬ th.Wiping j todo := fun j todo h => by have := h.2; rw [hph] at this; cases this
  have noK : ∀ j, ¬ ({ th with phase := .unlock held (.created id) } : Thread V A).Marking j := fun j h => by rcases h.2 with h | ⟨_, h⟩ <;> cases h
  have noK' : ∀ j, ¬ th.Marking j := fun j h => by rcases h.2 with h | ⟨_, h⟩ <;> (rw [hph] at h; cases h)
  have noM : ∀ j, ¬ ({ th with phase := .unlock held (.created id) } : Thread V A).Making j := fun j h => by obtain ⟨_, e⟩ := h; cases e
  have nowipe : ∀ (u : Nat) (x : Thread V A) todo, s.threads[u]? = some x → ¬ x.Wiping id todo := by
    intro u x todo hx hw
    obtain ⟨it, h, _⟩ := hc.wip u x id todo hx hw
    rw [hit] at h; cases h
  have f : Frame s ({ s with item := fun j => if j = id then some ⟨th.call.kvs, a⟩ else s.item j }.to t th (.unlock held (.created id))) t := by
    refine Frame.of ht rfl (Nat.le_refl _) (fun _ _ => rfl) (fun _ _ _ _ => rfl) (fun _ h => h) ?_ (fun j h => absurd h (noM j))
    intro j it h
    simp only [St.to] at h
    by_cases hj : j = id
    · rw [if_pos hj] at h; cases h; subst hj; exact Or.inr ⟨hmk, rfl⟩
    · rw [if_neg hj] at h; exact Or.inl h
  have hown : ∀ i, (s.node i).owner = some t ↔ i ∈ held := fun i => by have := hi.own_iff ht i; rw [hph] at this; exact this
  refine hi.build ht rfl f ?_ (fun _ _ _ => Iff.rfl) hown ?_ hi.locks.idx (fun _ _ h => Or.inl h) ?_ ?_ hi.locks.stale ?_ hnd
  · rw [hph] at hfit; cases hc : th.call <;> rw [hc] at hfit <;> first | exact hfit.elim | (simp only [Fits]; intro h; cases h)
  · intro i; rw [hph]; rfl
  · intro i h; exact hi.locks.tch t th ht i (by rw [hph]; exact h)
  · intro i h; exact hi.locks.knw t th ht i (by rw [hph]; exact h)
  · refine ⟨?_, hc.nod, ?_, ?_, ?_, ?_, ?_⟩
    · intro p n j hn
      refine (hc.mem p n j hn).trans ?_
      constructor
      · rintro (⟨it, h1, h2, h3, h4⟩ | ⟨u, x, hx, hm, h1, h2⟩)
        · refine Or.inl ⟨it, ?_, h2, h3, ?_⟩
          · simp only [St.to]
            rw [if_neg ?_]; exact h1
            intro e; rw [e, hit] at h1; cases h1
          · intro u x todo hx hw
            rcases set_cases ht hx with ⟨_, e⟩ | ⟨_, hx⟩
            · subst e; exact absurd hw (noW _ _)
            · exact h4 u x todo hx hw
        · by_cases hut : u = t
          · subst hut; rw [ht] at hx; cases hx
            obtain ⟨h', e⟩ := hm
            rw [hph] at e; cases e
            refine Or.inl ⟨⟨th.call.kvs, a⟩, if_pos rfl, h1, h2, ?_⟩
            intro u x todo hx hw
            rcases set_cases ht hx with ⟨_, e⟩ | ⟨_, hx⟩
            · subst e; exact absurd hw (noW _ _)
            · exact absurd hw (nowipe u x todo hx)
          · exact Or.inr ⟨u, x, set_other ht _ hut hx, hm, h1, h2⟩
      · rintro (⟨it, h1, h2, h3, h4⟩ | ⟨u, x, hx, hm, h1, h2⟩)
        · simp only [St.to] at h1
          by_cases hj : j = id
          · rw [if_pos hj] at h1; cases h1
            subst hj
            exact Or.inr ⟨t, th, ht, hmk, h2, h3⟩
          · rw [if_neg hj] at h1
            refine Or.inl ⟨it, h1, h2, h3, ?_⟩
            intro u x todo hx hw
            have hut : u ≠ t := by
              intro e; subst e; rw [ht] at hx; cases hx; exact noW' _ _ hw
            exact h4 u x todo (set_other ht _ hut hx) hw
        · rcases set_cases ht hx with ⟨_, e⟩ | ⟨_, hx⟩
          · subst e; exact absurd hm (noM _)
          · exact Or.inr ⟨u, x, hx, hm, h1, h2⟩
    · intro j it h
      simp only [St.to] at h
      by_cases hj : j = id
      · rw [if_pos hj] at h; cases h
        subst hj
        refine ⟨hu, ?_⟩
        rw [hph] at hfit
        have hok := hcr.2.1
        cases hcc : th.call <;> rw [hcc] at hfit hok <;> first | exact hfit.elim | exact hok
      · rw [if_neg hj] at h; exact hc.itm j it h
    · intro u x j hx hm
      rcases set_cases ht hx with ⟨_, e⟩ | ⟨hut, hx⟩
      · subst e; exact absurd hm (noM _)
      · obtain ⟨h1, h2, h3⟩ := hc.mak u x j hx hm
        have hj : j ≠ id := by intro e; rw [e] at hm; exact hut (hone u x hx hm)
        refine ⟨h1, ?_, ?_⟩
        · simp only [St.to]; rw [if_neg hj]; exact h2
        · intro v y hv hmv
          rcases set_cases ht hv with ⟨_, e⟩ | ⟨_, hv⟩
          · subst e; exact absurd hmv (noM _)
          · exact h3 v y hv hmv
    · refine ⟨hc.des.1, fun j => (hc.des.2 j).trans ?_⟩
      constructor
      · rintro ⟨u, x, hx, hm⟩
        have hut : u ≠ t := by intro e; subst e; rw [ht] at hx; cases hx; exact noK' _ hm
        exact ⟨u, x, set_other ht _ hut hx, hm⟩
      · rintro ⟨u, x, hx, hm⟩
        rcases set_cases ht hx with ⟨_, e⟩ | ⟨_, hx⟩
        · subst e; exact absurd hm (noK _)
        · exact ⟨u, x, hx, hm⟩
    · intro u v x y j hx hy hmx hmy
      rcases set_cases ht hx with ⟨_, e⟩ | ⟨_, hx⟩
      · subst e; exact absurd hmx (noK _)
      · rcases set_cases ht hy with ⟨_, e⟩ | ⟨_, hy⟩
        · subst e; exact absurd hmy (noK _)
        · exact hc.one u v x y j hx hy hmx hmy
    · intro u x j todo hx hw
      rcases set_cases ht hx with ⟨_, e⟩ | ⟨_, hx⟩
      · subst e; exact absurd hw (noW _ _)
      · obtain ⟨it, h1, h2⟩ := hc.wip u x j todo hx hw
        refine ⟨it, ?_, h2⟩
        simp only [St.to]; rw [if_neg ?_]; exact h1
        intro e; rw [e, hit] at h1; cases h1

theorem dropId_nil (n id : Nat) : dropId n id [] = [] := by
  unfold dropId trunc
  simp

/-- A delete removes an item. -/
theorem Inv.remove [DecidableEq V] {s : St V A} (hi : Inv s) {t : Nat} {th : Thread V A} {held : List Nat} {got : Option (List Nat)} {id : Nat} {it : Item V A} {r : Res A}
    (ht : s.threads[t]? = some th) (hph : th.phase = .dlock [] held got) (hit : s.item id = some it) (hkvs : it.kvs = th.call.kvs) (hd : id ∉ s.destroying)
    (hall : ∀ i ∈ held, id ∈ (s.node i).at th.call.kvs.length) :
    Inv (({ s with item := fun j => if j = id then none else s.item j }.setNodes held fun d => { d with ids := dropId th.call.kvs.length id d.ids }).to t th (.dunlock held false r)) := by
  have hcr := hi.creates t th ht
  have hfit := hcr.2.2
  have hc := hi.cont
  have hp := hi.phs t th ht
  rw [hph] at hp
  obtain ⟨hp1, hp2⟩ := hp
  rw [List.append_nil] at hp1
  have hq : th.phase.loud = false := by rw [hph]; rfl
  have hq' : (Phase.dunlock held false r : Phase V A).loud = false := rfl
  have hlen : 1 ≤ th.call.kvs.length := call_len ⟨hcr.1, hcr.2.1⟩ (by intro id can e; rw [e, hph] at hfit; exact hfit)
  have hown : ∀ i, (s.node i).owner = some t ↔ i ∈ held := fun i => by have := hi.own_iff ht i; rw [hph] at this; exact this
  have hpair : ∀ j, (if j ∈ held then { s.node j with ids := dropId th.call.kvs.length id (s.node j).ids } else s.node j).pair = (s.node j).pair := by
    intro j; split <;> rfl
  have hnd : held.Nodup := pair_nodup ⟨hcr.1, hcr.2.1⟩ hp1
  have nowipe : ∀ (u : Nat) (x : Thread V A) todo, s.threads[u]? = some x → ¬ x.Wiping id todo := by
    intro u x todo hx hw
    exact hd ((hc.des.2 id).2 ⟨u, x, hx, hw.1, Or.inr ⟨todo, hw.2⟩⟩)
  have nomake : ∀ (u : Nat) (x : Thread V A), s.threads[u]? = some x → ¬ x.Making id := by
    intro u x hx hm
    have := (hc.mak u x id hx hm).2.1
    rw [hit] at this; cases this
  have f : Frame s (({ s with item := fun j => if j = id then none else s.item j }.setNodes held fun d => { d with ids := dropId th.call.kvs.length id d.ids }).to t th (.dunlock held false r)) t := by
    refine Frame.of ht rfl (Nat.le_refl _) (fun i _ => hpair i) ?_ (fun _ h => h) ?_ (fun j h => absurd h (Thread.quiet_making hq' j))
    · intro i u hu ho
      simp only [St.to, St.setNodes]
      rw [if_neg ?_]
      intro h; rw [(hown i).2 h] at ho; exact hu (Option.some.inj ho).symm
    · intro j it' h
      simp only [St.to, St.setNodes] at h
      by_cases hj : j = id
      · rw [if_pos hj] at h; cases h
      · rw [if_neg hj] at h; exact Or.inl h
  have hindex : ∀ j ∈ held, s.index (s.node j).pair = some j := by
    intro j hj
    refine Classical.byContradiction fun h => ?_
    have h1 := hi.locks.stale j (hi.locks.knw t th ht j (by rw [hph]; simpa [Phase.known] using hj)) h
    have h2 := hall j hj
    unfold Node.at at h2
    rw [h1] at h2; simp at h2
  have hcontent : ∀ p n, 1 ≤ n → (({ s with item := fun j => if j = id then none else s.item j }.setNodes held fun d => { d with ids := dropId th.call.kvs.length id d.ids }).to t th (.dunlock held false r)).content p n =
      (s.content p n).filter (· != id) := by
    intro p n hn
    have hno : ¬ (p ∈ th.call.kvs ∧ n = th.call.kvs.length) → (s.content p n).filter (· != id) = s.content p n := by
      intro h
      refine List.filter_eq_self.2 fun j hj => ?_
      simp only [bne_iff_ne, ne_eq]
      intro e; subst e
      rcases (hc.mem p n j hn).1 hj with ⟨it', h1, h2, h3, _⟩ | ⟨u, x, hx, hm, _⟩
      · rw [hit] at h1; cases h1
        rw [hkvs] at h2 h3; exact h ⟨h2, h3.symm⟩
      · exact nomake u x hx hm
    cases hx : s.index p with
    | none =>
      have e1 : (({ s with item := fun j => if j = id then none else s.item j }.setNodes held fun d => { d with ids := dropId th.call.kvs.length id d.ids }).to t th (.dunlock held false r)).index p = none := hx
      rw [content_none e1, content_none hx]; rfl
    | some i =>
      have e1 : (({ s with item := fun j => if j = id then none else s.item j }.setNodes held fun d => { d with ids := dropId th.call.kvs.length id d.ids }).to t th (.dunlock held false r)).index p = some i := hx
      rw [content_some e1]
      have hidx := hi.locks.idx p i hx
      by_cases hih : i ∈ held
      · have hpk : p ∈ th.call.kvs := by rw [← hp1, ← hidx.2]; exact List.mem_map.2 ⟨i, hih, rfl⟩
        simp only [St.to, St.setNodes]
        rw [if_pos hih]
        refine (at_dropId (m := n) hlen hn).trans ?_
        by_cases he : n = th.call.kvs.length
        · rw [if_pos he, content_some hx]; rfl
        · rw [if_neg he, hno (fun h => he h.2), content_some hx]; rfl
      · rw [hno ?_, content_some hx]
        · simp only [St.to, St.setNodes]; rw [if_neg hih]
        · rintro ⟨h, hn'⟩
          rw [← hp1] at h
          obtain ⟨j, hj, e⟩ := List.mem_map.1 h
          have hxj := hindex j hj
          rw [e, hx] at hxj; cases hxj; exact hih hj
  have hst : ∀ p n j, (({ s with item := fun j => if j = id then none else s.item j }.setNodes held fun d => { d with ids := dropId th.call.kvs.length id d.ids }).to t th (.dunlock held false r)).Stored j p n ↔
      s.Stored j p n ∧ j ≠ id := by
    intro p n j
    constructor
    · rintro ⟨it', h1, h2, h3, h4⟩
      simp only [St.to, St.setNodes] at h1
      by_cases hj : j = id
      · rw [if_pos hj] at h1; cases h1
      · rw [if_neg hj] at h1
        refine ⟨⟨it', h1, h2, h3, ?_⟩, hj⟩
        intro u x todo hx hw
        have hut : u ≠ t := by intro e; subst e; rw [ht] at hx; cases hx; exact Thread.quiet_wiping hq _ _ hw
        exact h4 u x todo (set_other ht _ hut hx) hw
    · rintro ⟨⟨it', h1, h2, h3, h4⟩, hj⟩
      refine ⟨it', (if_neg hj).trans h1, h2, h3, ?_⟩
      intro u x todo hx hw
      rcases set_cases ht hx with ⟨_, e⟩ | ⟨_, hx⟩
      · subst e; exact absurd hw (Thread.quiet_wiping hq' _ _)
      · exact h4 u x todo hx hw
  have hmkk : ∀ p n j, (({ s with item := fun j => if j = id then none else s.item j }.setNodes held fun d => { d with ids := dropId th.call.kvs.length id d.ids }).to t th (.dunlock held false r)).MakingAt j p n ↔
      s.MakingAt j p n := by
    intro p n j
    constructor
    · rintro ⟨u, x, hx, hm, h⟩
      rcases set_cases ht hx with ⟨_, e⟩ | ⟨_, hx⟩
      · subst e; exact absurd hm (Thread.quiet_making hq' _)
      · exact ⟨u, x, hx, hm, h⟩
    · rintro ⟨u, x, hx, hm, h⟩
      have hut : u ≠ t := by intro e; subst e; rw [ht] at hx; cases hx; exact Thread.quiet_making hq _ hm
      exact ⟨u, x, set_other ht _ hut hx, hm, h⟩
  refine hi.build ht rfl f ?_ ?_ ?_ ?_ ?_ (fun _ _ h => Or.inl h) ?_ ?_ ?_ ?_ hnd
  · rw [hph] at hfit; cases hc : th.call <;> rw [hc] at hfit <;> first | trivial | exact hfit.elim
  · intro i u hu; simp only [St.to, St.setNodes]; split <;> rfl
  · intro i
    refine Iff.trans ?_ (hown i)
    simp only [St.to, St.setNodes]; split <;> rfl
  · intro i
    rw [hph]
    simp only [St.to, St.setNodes, Phase.touched]; split <;> rfl
  · intro p i h
    have := hi.locks.idx p i h
    exact ⟨this.1, (hpair i).trans this.2⟩
  · intro i h; cases h
  · intro i h
    exact hi.locks.knw t th ht i (by rw [hph]; simpa [Phase.known] using h)
  · intro i h h'
    simp only [St.to, St.setNodes] at h h' ⊢
    rw [hpair i] at h'
    have := hi.locks.stale i h h'
    split
    · simp only [this]; exact dropId_nil _ _
    · exact this
  · refine ⟨?_, ?_, ?_, ?_, ?_, ?_, ?_⟩
    · intro p n j hn
      rw [hcontent p n hn, hst, hmkk, List.mem_filter, hc.mem p n j hn]
      simp only [bne_iff_ne, ne_eq]
      constructor
      · rintro ⟨h | h, hj⟩
        · exact Or.inl ⟨h, hj⟩
        · exact Or.inr h
      · rintro (⟨h, hj⟩ | h)
        · exact ⟨Or.inl h, hj⟩
        · refine ⟨Or.inr h, ?_⟩
          obtain ⟨u, x, hx, hm, _⟩ := h
          intro e; subst e; exact nomake u x hx hm
    · intro p n hn
      rw [hcontent p n hn]; exact (hc.nod p n hn).filter _
    · intro j it' h
      simp only [St.to, St.setNodes] at h
      by_cases hj : j = id
      · rw [if_pos hj] at h; cases h
      · rw [if_neg hj] at h; exact hc.itm j it' h
    · intro u x j hx hm
      rcases set_cases ht hx with ⟨_, e⟩ | ⟨hut, hx⟩
      · subst e; exact absurd hm (Thread.quiet_making hq' _)
      · obtain ⟨h1, h2, h3⟩ := hc.mak u x j hx hm
        refine ⟨h1, ?_, ?_⟩
        · simp only [St.to, St.setNodes]; split
          · rfl
          · exact h2
        · intro v y hv hmv
          rcases set_cases ht hv with ⟨_, e⟩ | ⟨_, hv⟩
          · subst e; exact absurd hmv (Thread.quiet_making hq' _)
          · exact h3 v y hv hmv
    · refine ⟨hc.des.1, fun j => (hc.des.2 j).trans ?_⟩
      constructor
      · rintro ⟨u, x, hx, hm⟩
        have hut : u ≠ t := by intro e; subst e; rw [ht] at hx; cases hx; exact Thread.quiet_marking hq _ hm
        exact ⟨u, x, set_other ht _ hut hx, hm⟩
      · rintro ⟨u, x, hx, hm⟩
        rcases set_cases ht hx with ⟨_, e⟩ | ⟨_, hx⟩
        · subst e; exact absurd hm (Thread.quiet_marking hq' _)
        · exact ⟨u, x, hx, hm⟩
    · intro u v x y j hx hy hmx hmy
      rcases set_cases ht hx with ⟨_, e⟩ | ⟨_, hx⟩
      · subst e; exact absurd hmx (Thread.quiet_marking hq' _)
      · rcases set_cases ht hy with ⟨_, e⟩ | ⟨_, hy⟩
        · subst e; exact absurd hmy (Thread.quiet_marking hq' _)
        · exact hc.one u v x y j hx hy hmx hmy
    · intro u x j todo hx hw
      rcases set_cases ht hx with ⟨_, e⟩ | ⟨_, hx⟩
      · subst e; exact absurd hw (Thread.quiet_wiping hq' _ _)
      · obtain ⟨it', h1, h2⟩ := hc.wip u x j todo hx hw
        refine ⟨it', (if_neg ?_).trans h1, h2⟩
        intro e; rw [e] at hw; exact nowipe u x todo hx hw

/-- Steps of a destruction that change no ID node. -/
theorem Inv.destroy {s : St V A} (hi : Inv s) {t : Nat} {th : Thread V A} {id : Nat} {can : A → Bool} {p' : Phase V A} {item' : Nat → Option (Item V A)} {des' : List Nat}
    (ht : s.threads[t]? = some th) (hcall : th.call = .destroy id can)
    (hph : th.phase = .mark ∨ th.phase = .seize ∨ ∃ todo, th.phase = .wipe todo)
    (hp' : (∃ r, p' = .done r []) ∨ p' = .seize ∨ ∃ todo, p' = .wipe todo)
    (hit : ∀ j it, item' j = some it → s.item j = some it)
    (hit' : ∀ j, j ≠ id → item' j = s.item j)
    (hmem : ∀ p n, (∃ it, item' id = some it ∧ p ∈ it.kvs ∧ it.kvs.length = n ∧ ∀ todo, p' = .wipe todo → p ∈ todo) ↔
      (∃ it, s.item id = some it ∧ p ∈ it.kvs ∧ it.kvs.length = n ∧ ∀ todo, th.phase = .wipe todo → p ∈ todo))
    (hsole : th.Marking id ∨ id ∉ s.destroying)
    (hnd : des'.Nodup) (hdes : ∀ j, j ∈ des' ↔ (j ∈ s.destroying ∧ j ≠ id) ∨ (j = id ∧ ({ th with phase := p' } : Thread V A).Marking id))
    (hwip : ∀ todo, p' = .wipe todo → ∃ it, item' id = some it ∧ todo.Sublist it.kvs) :
    Inv ({ s with item := item', destroying := des' }.to t th p') := by
  have hcr := hi.creates t th ht
  have hfit := hcr.2.2
  have hc := hi.cont
  have noM' : ∀ j, ¬ th.Making j := by
    rintro j ⟨_, e⟩; rcases hph with h | h | ⟨_, h⟩ <;> (rw [h] at e; cases e)
  have noM : ∀ j, ¬ ({ th with phase := p' } : Thread V A).Making j := by
    rintro j ⟨_, e⟩; rcases hp' with ⟨_, h⟩ | h | ⟨_, h⟩ <;> (rw [h] at e; cases e)
  have onlyW : ∀ j todo, th.Wiping j todo → j = id := fun j todo h => by
    obtain ⟨⟨c, e⟩, _⟩ := h; rw [hcall] at e; cases e; rfl
  have onlyW' : ∀ j todo, ({ th with phase := p' } : Thread V A).Wiping j todo → j = id := fun j todo h => by
    obtain ⟨⟨c, e⟩, _⟩ := h; simp only at e; rw [hcall] at e; cases e; rfl
  have onlyK : ∀ j, th.Marking j → j = id := fun j h => by
    obtain ⟨⟨c, e⟩, _⟩ := h; rw [hcall] at e; cases e; rfl
  have onlyK' : ∀ j, ({ th with phase := p' } : Thread V A).Marking j → j = id := fun j h => by
    obtain ⟨⟨c, e⟩, _⟩ := h; simp only at e; rw [hcall] at e; cases e; rfl
  -- nobody else has announced the destruction of this id
  have sole : ∀ (u : Nat) (x : Thread V A), u ≠ t → s.threads[u]? = some x → ¬ x.Marking id := by
    intro u x hut hx hm
    rcases hsole with h | h
    · exact hut (hc.one t u th x id ht hx h hm)
    · exact h ((hc.des.2 id).2 ⟨u, x, hx, hm⟩)
  have soleW : ∀ (u : Nat) (x : Thread V A) todo, u ≠ t → s.threads[u]? = some x → ¬ x.Wiping id todo := fun u x todo hut hx hw =>
    sole u x hut hx ⟨hw.1, Or.inr ⟨todo, hw.2⟩⟩
  have h0 : th.phase.touched = [] ∧ th.phase.holds = [] := by
    rcases hph with h | h | ⟨_, h⟩ <;> (rw [h]; exact ⟨rfl, rfl⟩)
  have h0' : p'.touched = [] ∧ p'.holds = [] ∧ p'.known = [] := by
    rcases hp' with ⟨_, h⟩ | h | ⟨_, h⟩ <;> (rw [h]; exact ⟨rfl, rfl, rfl⟩)
  have f : Frame s ({ s with item := item', destroying := des' }.to t th p') t :=
    Frame.of ht rfl (Nat.le_refl _) (fun _ _ => rfl) (fun _ _ _ _ => rfl) (fun _ h => h) (fun j it h => Or.inl (hit j it h)) (fun j h => absurd h (noM j))
  refine hi.build ht rfl f ?_ (fun _ _ _ => Iff.rfl) ?_ ?_ hi.locks.idx (fun _ _ h => Or.inl h) ?_ ?_ hi.locks.stale ?_ ?_
  · rw [hcall]; rcases hp' with ⟨_, h⟩ | h | ⟨_, h⟩ <;> (rw [h]; trivial)
  · intro i
    rw [h0'.2.1]
    have := hi.own_iff ht i
    rw [h0.2] at this; exact this
  · intro i; rw [h0.1, h0'.1]; rfl
  · intro i h; rw [h0'.1] at h; cases h
  · intro i h; rw [h0'.2.2] at h; cases h
  · have hmk : ∀ p n j, ({ s with item := item', destroying := des' }.to t th p').MakingAt j p n ↔ s.MakingAt j p n := by
      intro p n j
      constructor
      · rintro ⟨u, x, hx, hm, h⟩
        rcases set_cases ht hx with ⟨_, e⟩ | ⟨_, hx⟩
        · subst e; exact absurd hm (noM _)
        · exact ⟨u, x, hx, hm, h⟩
      · rintro ⟨u, x, hx, hm, h⟩
        have hut : u ≠ t := by intro e; subst e; rw [ht] at hx; cases hx; exact noM' _ hm
        exact ⟨u, x, set_other ht _ hut hx, hm, h⟩
    have hst : ∀ p n j, ({ s with item := item', destroying := des' }.to t th p').Stored j p n ↔ s.Stored j p n := by
      intro p n j
      by_cases hj : j = id
      · subst hj
        have a1 : ({ s with item := item', destroying := des' }.to t th p').Stored j p n ↔
            ∃ it, item' j = some it ∧ p ∈ it.kvs ∧ it.kvs.length = n ∧ ∀ todo, p' = .wipe todo → p ∈ todo := by
          refine exists_congr fun it => and_congr_right fun _ => and_congr_right fun _ => and_congr_right fun _ => ?_
          constructor
          · intro h todo e
            exact h t _ todo (set_self ht _) ⟨⟨can, hcall⟩, e⟩
          · intro h u x todo hx hw
            rcases set_cases ht hx with ⟨_, e⟩ | ⟨hut, hx⟩
            · subst e; exact h todo hw.2
            · exact absurd hw (soleW u x todo hut hx)
        have a2 : s.Stored j p n ↔ ∃ it, s.item j = some it ∧ p ∈ it.kvs ∧ it.kvs.length = n ∧ ∀ todo, th.phase = .wipe todo → p ∈ todo := by
          refine exists_congr fun it => and_congr_right fun _ => and_congr_right fun _ => and_congr_right fun _ => ?_
          constructor
          · intro h todo e
            exact h t _ todo ht ⟨⟨can, hcall⟩, e⟩
          · intro h u x todo hx hw
            by_cases hut : u = t
            · subst hut; rw [ht] at hx; cases hx; exact h todo hw.2
            · exact absurd hw (soleW u x todo hut hx)
        rw [a1, a2]; exact hmem p n
      · unfold St.Stored
        simp only [St.to]
        rw [hit' j hj]
        refine exists_congr fun it => and_congr_right fun _ => and_congr_right fun _ => and_congr_right fun _ => ?_
        constructor
        · intro h u x todo hx hw
          have hut : u ≠ t := by intro e; subst e; rw [ht] at hx; cases hx; exact hj (onlyW _ _ hw)
          exact h u x todo (set_other ht _ hut hx) hw
        · intro h u x todo hx hw
          rcases set_cases ht hx with ⟨_, e⟩ | ⟨hut, hx⟩
          · subst e; exact absurd (onlyW' _ _ hw) hj
          · exact h u x todo hx hw
    refine ⟨?_, hc.nod, ?_, ?_, ⟨hnd, ?_⟩, ?_, ?_⟩
    · intro p n j hn
      rw [hst, hmk]; exact hc.mem p n j hn
    · intro j it h; exact hc.itm j it (hit j it h)
    · intro u x j hx hm
      rcases set_cases ht hx with ⟨_, e⟩ | ⟨hut, hx⟩
      · subst e; exact absurd hm (noM _)
      · obtain ⟨h1, h2, h3⟩ := hc.mak u x j hx hm
        refine ⟨h1, ?_, ?_⟩
        · cases hx : item' j with
          | none => exact hx
          | some it => rw [hit j it hx] at h2; cases h2
        · intro v y hv hmv
          rcases set_cases ht hv with ⟨_, e⟩ | ⟨_, hv⟩
          · subst e; exact absurd hmv (noM _)
          · exact h3 v y hv hmv
    · intro j
      refine (hdes j).trans ?_
      constructor
      · rintro (⟨h, hj⟩ | ⟨e, h⟩)
        · obtain ⟨u, x, hx, hm⟩ := (hc.des.2 j).1 h
          have hut : u ≠ t := by intro e; subst e; rw [ht] at hx; cases hx; exact hj (onlyK _ hm)
          exact ⟨u, x, set_other ht _ hut hx, hm⟩
        · subst e; exact ⟨t, _, set_self ht _, h⟩
      · rintro ⟨u, x, hx, hm⟩
        rcases set_cases ht hx with ⟨_, e⟩ | ⟨hut, hx⟩
        · subst e
          have hj := onlyK' _ hm
          exact Or.inr ⟨hj, hj ▸ hm⟩
        · refine Or.inl ⟨(hc.des.2 j).2 ⟨u, x, hx, hm⟩, ?_⟩
          intro e; rw [e] at hm; exact sole u x hut hx hm
    · intro u v x y j hx hy hmx hmy
      rcases set_cases ht hx with ⟨eu, e⟩ | ⟨hut, hx⟩
      · subst e
        have hj := onlyK' _ hmx
        rcases set_cases ht hy with ⟨ev, e⟩ | ⟨hvt, hy⟩
        · exact ev.trans eu.symm
        · rw [hj] at hmy; exact absurd hmy (sole v y hvt hy)
      · rcases set_cases ht hy with ⟨ev, e⟩ | ⟨hvt, hy⟩
        · subst e
          have hj := onlyK' _ hmy
          rw [hj] at hmx; exact absurd hmx (sole u x hut hx)
        · exact hc.one u v x y j hx hy hmx hmy
    · intro u x j todo hx hw
      rcases set_cases ht hx with ⟨_, e⟩ | ⟨hut, hx⟩
      · subst e
        have hj := onlyW' _ _ hw
        rw [hj]; exact hwip todo hw.2
      · obtain ⟨it, h1, h2⟩ := hc.wip u x j todo hx hw
        refine ⟨it, ?_, h2⟩
        simp only [St.to]
        rw [hit' j ?_]; exact h1
        intro e; rw [e] at hw; exact soleW u x todo hut hx hw
  · rcases hp' with ⟨_, h⟩ | h | ⟨_, h⟩ <;> (rw [h]; trivial)

theorem Inv.markNew {s : St V A} (hi : Inv s) {t : Nat} {th : Thread V A} {id : Nat} {can : A → Bool}
    (ht : s.threads[t]? = some th) (hcall : th.call = .destroy id can) (hph : th.phase = .mark) (hid : id ∉ s.destroying) :
    Inv ({ s with destroying := s.destroying ++ [id] }.to t th .seize) := by
  refine hi.destroy (item' := s.item) ht hcall (Or.inl hph) (Or.inr (Or.inl rfl)) (fun _ _ h => h) (fun _ _ => rfl) ?_ (Or.inr hid) ?_ ?_ ?_
  · intro p n
    refine exists_congr fun it => and_congr_right fun _ => and_congr_right fun _ => and_congr_right fun _ => ?_
    constructor <;> intro _ todo e
    · rw [hph] at e; cases e
    · cases e
  · rw [List.nodup_append]
    refine ⟨hi.cont.des.1, by simp, ?_⟩
    intro a ha b hb e
    simp at hb; subst hb; subst e; exact hid ha
  · intro j
    rw [List.mem_append, List.mem_singleton]
    constructor
    · rintro (h | h)
      · refine Or.inl ⟨h, ?_⟩
        intro e; rw [e] at h; exact hid h
      · exact Or.inr ⟨h, ⟨can, hcall⟩, Or.inl rfl⟩
    · rintro (⟨h, _⟩ | ⟨h, _⟩)
      · exact Or.inl h
      · exact Or.inr h
  · intro todo e; cases e

theorem mem_erase_iff {l : List Nat} (hn : l.Nodup) (a j : Nat) : j ∈ l.erase a ↔ j ∈ l ∧ j ≠ a := by
  rw [hn.mem_erase_iff]; exact and_comm

theorem Inv.giveUp {s : St V A} (hi : Inv s) {t : Nat} {th : Thread V A} {id : Nat} {can : A → Bool} {r : Res A}
    (ht : s.threads[t]? = some th) (hcall : th.call = .destroy id can) (hph : th.phase = .seize) :
    Inv ({ s with destroying := s.destroying.erase id }.to t th (.done r [])) := by
  refine hi.destroy (item' := s.item) ht hcall (Or.inr (Or.inl hph)) (Or.inl ⟨r, rfl⟩) (fun _ _ h => h) (fun _ _ => rfl) ?_ (Or.inl ⟨⟨can, hcall⟩, Or.inl hph⟩) ?_ ?_ ?_
  · intro p n
    refine exists_congr fun it => and_congr_right fun _ => and_congr_right fun _ => and_congr_right fun _ => ?_
    constructor <;> intro _ todo e
    · rw [hph] at e; cases e
    · cases e
  · exact hi.cont.des.1.erase _
  · intro j
    rw [mem_erase_iff hi.cont.des.1]
    constructor
    · intro h; exact Or.inl h
    · rintro (h | ⟨_, _, h | ⟨_, h⟩⟩)
      · exact h
      · cases h
      · cases h
  · intro todo e; cases e

theorem Inv.startWipe {s : St V A} (hi : Inv s) {t : Nat} {th : Thread V A} {id : Nat} {can : A → Bool} {it : Item V A}
    (ht : s.threads[t]? = some th) (hcall : th.call = .destroy id can) (hph : th.phase = .seize) (hit : s.item id = some it) :
    Inv (s.to t th (.wipe it.kvs)) := by
  have hm : th.Marking id := ⟨⟨can, hcall⟩, Or.inl hph⟩
  refine hi.destroy (item' := s.item) (des' := s.destroying) ht hcall (Or.inr (Or.inl hph)) (Or.inr (Or.inr ⟨_, rfl⟩)) (fun _ _ h => h) (fun _ _ => rfl) ?_ (Or.inl hm) hi.cont.des.1 ?_ ?_
  · intro p n
    constructor
    · rintro ⟨it', h1, h2, h3, _⟩
      refine ⟨it', h1, h2, h3, ?_⟩
      intro todo e; rw [hph] at e; cases e
    · rintro ⟨it', h1, h2, h3, _⟩
      refine ⟨it', h1, h2, h3, ?_⟩
      intro todo e; cases e
      rw [hit] at h1; cases h1; exact h2
  · intro j
    constructor
    · intro h
      by_cases hj : j = id
      · exact Or.inr ⟨hj, ⟨can, hcall⟩, Or.inr ⟨_, rfl⟩⟩
      · exact Or.inl ⟨h, hj⟩
    · rintro (⟨h, _⟩ | ⟨e, _⟩)
      · exact h
      · subst e; exact (hi.cont.des.2 j).2 ⟨t, th, ht, hm⟩
  · intro todo e; cases e; exact ⟨it, hit, List.Sublist.refl _⟩

theorem Inv.wiped {s : St V A} (hi : Inv s) {t : Nat} {th : Thread V A} {id : Nat} {can : A → Bool}
    (ht : s.threads[t]? = some th) (hcall : th.call = .destroy id can) (hph : th.phase = .wipe []) : Inv (nextWiped s t th id) := by
  have hm : th.Marking id := ⟨⟨can, hcall⟩, Or.inr ⟨_, hph⟩⟩
  refine hi.destroy ht hcall (Or.inr (Or.inr ⟨_, hph⟩)) (Or.inl ⟨_, rfl⟩) ?_ ?_ ?_ (Or.inl hm) (hi.cont.des.1.erase _) ?_ ?_
  · intro j it h
    by_cases hj : j = id
    · rw [if_pos hj] at h; cases h
    · rw [if_neg hj] at h; exact h
  · intro j hj; rw [if_neg hj]
  · intro p n
    constructor
    · rintro ⟨it, h, _⟩; simp at h
    · rintro ⟨it, _, _, _, h⟩; exact absurd (h [] hph) (by simp)
  · intro j
    rw [mem_erase_iff hi.cont.des.1]
    constructor
    · intro h; exact Or.inl h
    · rintro (h | ⟨_, _, h | ⟨_, h⟩⟩)
      · exact h
      · cases h
      · cases h
  · intro todo e; cases e

/-- A destruction removes the id from the ID node of one pair. -/
theorem Inv.wipe [DecidableEq V] {s : St V A} (hi : Inv s) {t : Nat} {th : Thread V A} {id : Nat} {can : A → Bool} {it : Item V A} {todo rest : KVs V} {p : GoString × V} {i : Nat}
    {index' : GoString × V → Option Nat}
    (ht : s.threads[t]? = some th) (hcall : th.call = .destroy id can) (hph : th.phase = .wipe todo) (hit : s.item id = some it)
    (hx : s.index p = some i) (ho : (s.node i).owner = none) (hp : p ∈ todo) (hrest : ∀ q, q ∈ rest ↔ q ∈ todo ∧ q ≠ p) (hsub : rest.Sublist todo)
    (hindex : (index' = s.index) ∨ (index' = (fun q => if q = p then none else s.index q) ∧ dropId it.kvs.length id (s.node i).ids = [] ∧ (s.node i).creating = 0)) :
    Inv ({ (s.setNode i fun d => { d with ids := dropId it.kvs.length id d.ids }) with index := index' }.to t th (.wipe rest)) := by
  have hcr := hi.creates t th ht
  have hfit := hcr.2.2
  have hc := hi.cont
  have hidx := hi.locks.idx p i hx
  have hw : th.Wiping id todo := ⟨⟨can, hcall⟩, hph⟩
  have hm : th.Marking id := ⟨⟨can, hcall⟩, Or.inr ⟨_, hph⟩⟩
  have hm' : ({ th with phase := .wipe rest } : Thread V A).Marking id := ⟨⟨can, hcall⟩, Or.inr ⟨_, rfl⟩⟩
  have hsubl : todo.Sublist it.kvs := by
    obtain ⟨it', h1, h2⟩ := hc.wip t th id todo ht hw
    rw [hit] at h1; cases h1; exact h2
  have hpk : p ∈ it.kvs := hsubl.subset hp
  have hlen : 1 ≤ it.kvs.length := List.length_pos_of_mem hpk
  have noM' : ∀ j, ¬ th.Making j := by rintro j ⟨_, e⟩; rw [hph] at e; cases e
  have noM : ∀ j, ¬ ({ th with phase := .wipe rest } : Thread V A).Making j := by rintro j ⟨_, e⟩; cases e
  have onlyW : ∀ j todo, th.Wiping j todo → j = id := fun j todo h => by obtain ⟨⟨c, e⟩, _⟩ := h; rw [hcall] at e; cases e; rfl
  have onlyW' : ∀ j todo, ({ th with phase := .wipe rest } : Thread V A).Wiping j todo → j = id := fun j todo h => by
    obtain ⟨⟨c, e⟩, _⟩ := h; simp only at e; rw [hcall] at e; cases e; rfl
  have onlyK : ∀ j, th.Marking j → j = id := fun j h => by obtain ⟨⟨c, e⟩, _⟩ := h; rw [hcall] at e; cases e; rfl
  have onlyK' : ∀ j, ({ th with phase := .wipe rest } : Thread V A).Marking j → j = id := fun j h => by
    obtain ⟨⟨c, e⟩, _⟩ := h; simp only at e; rw [hcall] at e; cases e; rfl
  have sole : ∀ (u : Nat) (x : Thread V A), u ≠ t → s.threads[u]? = some x → ¬ x.Marking id := fun u x hut hx hmx => hut (hc.one t u th x id ht hx hm hmx)
  have soleW : ∀ (u : Nat) (x : Thread V A) todo, u ≠ t → s.threads[u]? = some x → ¬ x.Wiping id todo := fun u x todo hut hx hw =>
    sole u x hut hx ⟨hw.1, Or.inr ⟨todo, hw.2⟩⟩
  have nomake : ∀ (u : Nat) (x : Thread V A), s.threads[u]? = some x → ¬ x.Making id := by
    intro u x hx hmx
    have := (hc.mak u x id hx hmx).2.1
    rw [hit] at this; cases this
  have hpair : ∀ j, (if j = i then { s.node j with ids := dropId it.kvs.length id (s.node j).ids } else s.node j).pair = (s.node j).pair := by
    intro j; split <;> rfl
  have hixn : ∀ q j, index' q = some j → s.index q = some j := by
    intro q j h
    rcases hindex with e | ⟨e, _⟩
    · rw [e] at h; exact h
    · rw [e] at h
      by_cases hq : q = p
      · simp [hq] at h
      · simp only [if_neg hq] at h; exact h
  have f : Frame s ({ (s.setNode i fun d => { d with ids := dropId it.kvs.length id d.ids }) with index := index' }.to t th (.wipe rest)) t := by
    refine Frame.of ht rfl (Nat.le_refl _) (fun j _ => hpair j) ?_ (fun _ h => h) (fun _ _ h => Or.inl h) (fun j h => absurd h (noM j))
    intro j u hu hown
    simp only [St.to, St.setNode]
    rw [if_neg ?_]
    intro e; rw [e, ho] at hown; cases hown
  have hcontent : ∀ q n, 1 ≤ n → ({ (s.setNode i fun d => { d with ids := dropId it.kvs.length id d.ids }) with index := index' }.to t th (.wipe rest)).content q n =
      if q = p then (s.content q n).filter (· != id) else s.content q n := by
    intro q n hn
    have hdrop : (({ s.node i with ids := dropId it.kvs.length id (s.node i).ids } : Node V).at n) = ((s.node i).at n).filter (· != id) := by
      refine (at_dropId (m := n) hlen hn).trans ?_
      by_cases he : n = it.kvs.length
      · rw [if_pos he]; rfl
      · rw [if_neg he]
        refine (List.filter_eq_self.2 fun j hj => ?_).symm
        simp only [bne_iff_ne, ne_eq]
        intro e; subst e
        have hj' : j ∈ s.content p n := by rw [content_some hx]; exact hj
        rcases (hc.mem p n j hn).1 hj' with ⟨it', h1, h2, h3, _⟩ | ⟨u, x, hxu, hmx, _⟩
        · rw [hit] at h1; cases h1; exact he h3.symm
        · exact nomake u x hxu hmx
    by_cases hq : q = p
    · subst hq
      rw [if_pos rfl, content_some hx]
      rcases hindex with e | ⟨e, h1, _⟩
      · refine (content_some (i := i) ?_ n).trans ?_
        · simp only [St.to]; rw [e]; exact hx
        · simp only [St.to, St.setNode]; exact hdrop
      · refine (content_none ?_ n).trans ?_
        · simp only [St.to]; rw [e]; simp
        · rw [← hdrop]; simp [Node.at, h1]
    · rw [if_neg hq]
      have e1 : index' q = s.index q := by
        rcases hindex with e | ⟨e, _⟩
        · rw [e]
        · rw [e]; simp [hq]
      unfold St.content
      simp only [St.to, St.setNode, e1]
      cases hxq : s.index q with
      | none => rfl
      | some j =>
        simp only
        rw [if_neg]
        intro e; subst e
        exact hq ((hi.locks.idx q j hxq).2.symm.trans hidx.2)
  refine hi.build ht rfl f ?_ ?_ ?_ ?_ ?_ ?_ ?_ ?_ ?_ ?_ trivial
  · rw [hcall]; trivial
  · intro j u hu; simp only [St.to, St.setNode]; split <;> rfl
  · intro j
    have := hi.own_iff ht j
    rw [hph] at this
    refine Iff.trans ?_ this
    simp only [St.to, St.setNode]; split <;> rfl
  · intro j
    rw [hph]
    simp only [St.to, St.setNode, Phase.touched]; split <;> rfl
  · intro q j h
    have := hi.locks.idx q j (hixn q j h)
    exact ⟨this.1, (hpair j).trans this.2⟩
  · intro q j h
    rcases hindex with e | ⟨e, _, h2⟩
    · left; simp only [St.to]; rw [e]; exact h
    · by_cases hq : q = p
      · subst hq; rw [hx] at h; cases h; exact Or.inr h2
      · left; simp only [St.to]; rw [e]; simp only [if_neg hq]; exact h
  · intro j h; cases h
  · intro j h; cases h
  · intro j h h'
    simp only [St.to, St.setNode] at h h' ⊢
    rw [hpair j] at h'
    by_cases hji : j = i
    · rw [if_pos hji]
      subst hji
      rcases hindex with e | ⟨e, h1, _⟩
      · exfalso; rw [e, hidx.2] at h'; exact h' hx
      · exact h1
    · rw [if_neg hji]
      refine hi.locks.stale j h ?_
      intro hxj
      rcases hindex with e | ⟨e, h1, _⟩
      · rw [e] at h'; exact h' hxj
      · rw [e] at h'
        by_cases hq : (s.node j).pair = p
        · rw [hq, hx] at hxj; cases hxj; exact hji rfl
        · simp only [if_neg hq] at h'; exact h' hxj
  · have hmk : ∀ q n j, ({ (s.setNode i fun d => { d with ids := dropId it.kvs.length id d.ids }) with index := index' }.to t th (.wipe rest)).MakingAt j q n ↔ s.MakingAt j q n := by
      intro q n j
      constructor
      · rintro ⟨u, x, hxu, hmx, h⟩
        rcases set_cases ht hxu with ⟨_, e⟩ | ⟨_, hxu⟩
        · subst e; exact absurd hmx (noM _)
        · exact ⟨u, x, hxu, hmx, h⟩
      · rintro ⟨u, x, hxu, hmx, h⟩
        have hut : u ≠ t := by intro e; subst e; rw [ht] at hxu; cases hxu; exact noM' _ hmx
        exact ⟨u, x, set_other ht _ hut hxu, hmx, h⟩
    have hst : ∀ q n j, ({ (s.setNode i fun d => { d with ids := dropId it.kvs.length id d.ids }) with index := index' }.to t th (.wipe rest)).Stored j q n ↔
        s.Stored j q n ∧ ¬ (j = id ∧ q = p) := by
      intro q n j
      by_cases hj : j = id
      · subst hj
        constructor
        · rintro ⟨it', h1, h2, h3, h4⟩
          have hq := (hrest q).1 (h4 t _ rest (set_self ht _) ⟨⟨can, hcall⟩, rfl⟩)
          refine ⟨⟨it', h1, h2, h3, ?_⟩, fun h => hq.2 h.2⟩
          intro u x todo' hxu hwx
          by_cases hut : u = t
          · subst hut; rw [ht] at hxu; cases hxu
            have := hwx.2; rw [hph] at this; cases this; exact hq.1
          · exact absurd hwx (soleW u x todo' hut hxu)
        · rintro ⟨⟨it', h1, h2, h3, h4⟩, hq⟩
          refine ⟨it', h1, h2, h3, ?_⟩
          intro u x todo' hxu hwx
          rcases set_cases ht hxu with ⟨_, e⟩ | ⟨hut, hxu⟩
          · subst e
            have := hwx.2; cases this
            exact (hrest q).2 ⟨h4 t th todo ht hw, fun h => hq ⟨rfl, h⟩⟩
          · exact absurd hwx (soleW u x todo' hut hxu)
      · unfold St.Stored
        constructor
        · rintro ⟨it', h1, h2, h3, h4⟩
          refine ⟨⟨it', h1, h2, h3, ?_⟩, fun h => hj h.1⟩
          intro u x todo' hxu hwx
          have hut : u ≠ t := by intro e; subst e; rw [ht] at hxu; cases hxu; exact hj (onlyW _ _ hwx)
          exact h4 u x todo' (set_other ht _ hut hxu) hwx
        · rintro ⟨⟨it', h1, h2, h3, h4⟩, _⟩
          refine ⟨it', h1, h2, h3, ?_⟩
          intro u x todo' hxu hwx
          rcases set_cases ht hxu with ⟨_, e⟩ | ⟨hut, hxu⟩
          · subst e; exact absurd (onlyW' _ _ hwx) hj
          · exact h4 u x todo' hxu hwx
    refine ⟨?_, ?_, hc.itm, ?_, ⟨hc.des.1, ?_⟩, ?_, ?_⟩
    · intro q n j hn
      rw [hcontent q n hn, hst, hmk]
      by_cases hq : q = p
      · rw [if_pos hq, List.mem_filter, hc.mem q n j hn]
        simp only [bne_iff_ne, ne_eq, hq, and_true]
        constructor
        · rintro ⟨h | h, hj⟩
          · exact Or.inl ⟨h, hj⟩
          · exact Or.inr h
        · rintro (⟨h, hj⟩ | h)
          · exact ⟨Or.inl h, hj⟩
          · refine ⟨Or.inr h, ?_⟩
            obtain ⟨u, x, hxu, hmx, _⟩ := h
            intro e; rw [e] at hmx; exact nomake u x hxu hmx
      · rw [if_neg hq, hc.mem q n j hn]
        simp [hq]
    · intro q n hn
      rw [hcontent q n hn]
      split
      · exact (hc.nod q n hn).filter _
      · exact hc.nod q n hn
    · intro u x j hxu hmx
      rcases set_cases ht hxu with ⟨_, e⟩ | ⟨hut, hxu⟩
      · subst e; exact absurd hmx (noM _)
      · obtain ⟨h1, h2, h3⟩ := hc.mak u x j hxu hmx
        refine ⟨h1, h2, ?_⟩
        intro v y hv hmv
        rcases set_cases ht hv with ⟨_, e⟩ | ⟨_, hv⟩
        · subst e; exact absurd hmv (noM _)
        · exact h3 v y hv hmv
    · intro j
      refine (hc.des.2 j).trans ?_
      constructor
      · rintro ⟨u, x, hxu, hmx⟩
        by_cases hut : u = t
        · subst hut; rw [ht] at hxu; cases hxu
          rw [onlyK _ hmx]; exact ⟨u, _, set_self ht _, hm'⟩
        · exact ⟨u, x, set_other ht _ hut hxu, hmx⟩
      · rintro ⟨u, x, hxu, hmx⟩
        rcases set_cases ht hxu with ⟨_, e⟩ | ⟨_, hxu⟩
        · subst e; rw [onlyK' _ hmx]; exact ⟨t, th, ht, hm⟩
        · exact ⟨u, x, hxu, hmx⟩
    · intro u v x y j hxu hy hmx hmy
      rcases set_cases ht hxu with ⟨eu, e⟩ | ⟨hut, hxu⟩
      · subst e
        have hj := onlyK' _ hmx
        rcases set_cases ht hy with ⟨ev, e⟩ | ⟨hvt, hy⟩
        · exact ev.trans eu.symm
        · rw [hj] at hmy; exact absurd hmy (sole v y hvt hy)
      · rcases set_cases ht hy with ⟨ev, e⟩ | ⟨hvt, hy⟩
        · subst e
          have hj := onlyK' _ hmy
          rw [hj] at hmx; exact absurd hmx (sole u x hut hxu)
        · exact hc.one u v x y j hxu hy hmx hmy
    · intro u x j todo' hxu hwx
      rcases set_cases ht hxu with ⟨_, e⟩ | ⟨hut, hxu⟩
      · subst e
        have hj := onlyW' _ _ hwx
        have := hwx.2; cases this
        rw [hj]; exact ⟨it, hit, hsub.trans hsubl⟩
      · exact hc.wip u x j todo' hxu hwx

end Willow.AssocConc
