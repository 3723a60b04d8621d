import Verif.Proofs.Requests
import Verif.Proofs.AssocMore
import Verif.Spec.World
/-
C77, C79: what requests do to the queues, the channels and the items (Model/Requests.lean against Spec/World.lean).
-/
namespace Willow.Requests
open Willow Willow.BTree Willow.Assoc Willow.Spec Willow.LimSpec Willow.Limiter Willow.Queue Willow.Queues Willow.QueuesSpec Willow.RequestsSpec Willow.WorldSpec

/-! ### Items of a relation -/

/-- The items of a relation. -/
def itemsOf (c : OTM.Tree Key Nat) (n : GoString) : List (Item Key (OTM.OItem Key Nat)) := ((OTM.rel c n).map (·.items)).getD []
/-- The channels that the items point to. -/
def refsOf (c : OTM.Tree Key Nat) (n : GoString) : List Nat := (itemsOf c n).map (fun i => i.value.value)
/-- The channel of an item. -/
def chanOf (heap : List (List Int)) (i : Item Key (OTM.OItem Key Nat)) : Channel := (i.kvs, heap.getD i.value.value [])

theorem channelsOf_eq (s : St) (n : GoString) : channelsOf s n = (itemsOf s.chans n).map (chanOf s.heap) := by
  unfold channelsOf itemsOf chanOf
  cases OTM.rel s.chans n <;> rfl

theorem itemsOf_plain (c : OTM.Tree Key Nat) (n : GoString) : itemsOf c n = (((OTM.rel c n).map OTM.plain).getD ⟨[], 0⟩).items := by
  unfold itemsOf; cases OTM.rel c n <;> rfl

theorem itemsOf_rel {c c' : OTM.Tree Key Nat} {n : GoString} (h : OTM.rel c' n = OTM.rel c n) : itemsOf c' n = itemsOf c n := by unfold itemsOf; rw [h]

/-- The items of a relation are unique. -/
theorem items_uniq {c : OTM.Tree Key Nat} {f : OTMSpec.Family Nat} (h : OTM.Sim c f) {n : GoString} {x y : Item Key (OTM.OItem Key Nat)}
    (hx : x ∈ itemsOf c n) (hy : y ∈ itemsOf c n) {kvs : KVs Key} (hk : ValidKVs kvs) (h1 : sameKVs kvs x.kvs = true) (h2 : sameKVs kvs y.kvs = true) : x = y := by
  unfold itemsOf at hx hy
  cases hr : OTM.rel c n with
  | none => simp [hr] at hx
  | some t =>
    simp only [hr, Option.map_some, Option.getD_some] at hx hy
    have hi := h.inv n t hr
    exact hi.uniq hx hy (sameKVs_trans (sameKVs_symm hk (hi.valid hx) h1) h2)

theorem items_id {c : OTM.Tree Key Nat} {f : OTMSpec.Family Nat} (h : OTM.Sim c f) (n : GoString) : ((itemsOf c n).map (·.id)).Nodup := by
  unfold itemsOf
  cases hr : OTM.rel c n with
  | none => simp
  | some t => simpa using (h.inv n t hr).ids

theorem nodup_map_inj {α β : Type} {f : α → β} : ∀ {l : List α}, (l.map f).Nodup → ∀ {x y : α}, x ∈ l → y ∈ l → f x = f y → x = y
  | [], _, x, _, hx, _, _ => by simp at hx
  | a :: l, h, x, y, hx, hy, e => by
    simp only [List.map_cons, List.nodup_cons, List.mem_map, not_exists, not_and] at h
    rcases List.mem_cons.1 hx with ea | hx'
    · rcases List.mem_cons.1 hy with eb | hy'
      · rw [ea, eb]
      · rw [ea] at e; exact absurd e.symm (h.1 y hy')
    · rcases List.mem_cons.1 hy with eb | hy'
      · rw [eb] at e; exact absurd e (h.1 x hx')
      · exact nodup_map_inj h.2 hx' hy' e

/-- What CreateOrFind does to the items. -/
theorem createOrFind_items {c c' : OTM.Tree Key Nat} {f : OTMSpec.Family Nat} (h : OTM.Sim c f) {n : GoString} (hn : n ≠ []) {kvs : KVs Key} (hk : ValidKVs kvs)
    {v : Option Nat} {out : OTM.OOut Key Nat} (e : OTM.createOrFind c n kvs v = some (c', out)) :
    (∀ b, b ≠ n → itemsOf c' b = itemsOf c b) ∧
    match out with
    | .created id => (itemsOf c n).find? (fun i => sameKVs kvs i.kvs) = none ∧ ∃ r, v = some r ∧ itemsOf c' n = itemsOf c n ++ [⟨id, kvs, ⟨r, n, id, kvs⟩⟩]
    | .found i => ∃ j, (itemsOf c n).find? (fun i => sameKVs kvs i.kvs) = some j ∧ i = j.value ∧ itemsOf c' n = itemsOf c n
    | _ => itemsOf c' n = itemsOf c n := by
  obtain ⟨c1, out1, e1, hsim, hs⟩ := OTM.step_sim h (op := .createOrFind n kvs v) hk
  have e1' : OTM.createOrFind c n kvs v = some (c1, out1) := e1
  rw [e] at e1'
  cases e1'
  refine ⟨fun b hb => itemsOf_rel (OTM.step_other e1 hb), ?_⟩
  have h1 := hsim.eq n
  have h2 := h.eq n
  simp only [OTMSpec.famStep, OTM.OOp.one, if_true, OTMSpec.relStep, if_neg hn] at h1 hs
  rw [itemsOf_plain c', itemsOf_plain c, h1, h2]
  split at hs
  · rename_i hres
    simp only [hres, if_true]
    cases out <;> simp_all [OTMSpec.Same]
  · rename_i hres
    simp only [if_neg hres]
    cases hfi : ((f n).getD ⟨[], 0⟩).items.find? (fun i => sameKVs kvs i.kvs) with
    | some i =>
      simp only [hfi] at hs ⊢
      cases out <;> simp_all [OTMSpec.Same]
    | none =>
      simp only [hfi] at hs ⊢
      cases v with
      | some v => cases out <;> simp_all [OTMSpec.Same]
      | none => cases out <;> simp_all [OTMSpec.Same]

/-- What DeleteByKeyValues does to the items. -/
theorem delete_items {c c' : OTM.Tree Key Nat} {f : OTMSpec.Family Nat} (h : OTM.Sim c f) {n : GoString} (hn : n ≠ []) {kvs : KVs Key} (hk : ValidKVs kvs)
    {can : OTM.OItem Key Nat → Bool} {out : OTM.OOut Key Nat} (e : OTM.deleteByKeyValues c n kvs (some can) = some (c', out)) :
    (∀ b, b ≠ n → itemsOf c' b = itemsOf c b) ∧ itemsOf c' n = (itemsOf c n).filter (fun i => !(sameKVs kvs i.kvs && can i.value)) := by
  obtain ⟨c1, out1, e1, hsim, hs⟩ := OTM.step_sim h (op := .deleteByKeyValues n kvs (some can)) hk
  have e1' : OTM.deleteByKeyValues c n kvs (some can) = some (c1, out1) := e1
  rw [e] at e1'
  cases e1'
  refine ⟨fun b hb => itemsOf_rel (OTM.step_other e1 hb), ?_⟩
  have h1 := hsim.eq n
  have h2 := h.eq n
  simp only [OTMSpec.famStep, OTM.OOp.one, if_true, OTMSpec.relStep, OTMSpec.relStep.remove, if_neg hn] at h1
  rw [itemsOf_plain c', h1]
  have hi := itemsOf_plain c n
  rw [h2] at hi
  have hid := items_id h n
  have huniq : ∀ x ∈ itemsOf c n, ∀ y ∈ itemsOf c n, sameKVs kvs x.kvs = true → sameKVs kvs y.kvs = true → x = y :=
    fun x hx y hy h1 h2 => items_uniq h hx hy hk h1 h2
  cases hf : f n with
  | none => simp [hi, hf]
  | some s =>
    rw [hf] at hi
    simp only [Option.getD_some] at hi
    rw [hi] at hid huniq ⊢
    cases hfi : s.items.find? (fun i => sameKVs kvs i.kvs) with
    | none =>
      simp only [hfi, Option.getD_some]
      rw [List.filter_eq_self.2]
      intro a ha
      have := List.find?_eq_none.1 hfi a ha
      simp only [Bool.not_eq_true] at this
      simp [this]
    | some i =>
      have him := List.mem_of_find?_eq_some hfi
      have his : sameKVs kvs i.kvs = true := by have := List.find?_some hfi; exact this
      simp only [hfi]
      split
      · rename_i hc
        simp only [Option.getD_some]
        apply List.filter_congr
        intro a ha
        by_cases ea : a = i
        · subst ea; simp [his, hc]
        · have : a.id ≠ i.id := fun e => ea (nodup_map_inj hid ha him e)
          have h3 : sameKVs kvs a.kvs = false := by
            cases hx : sameKVs kvs a.kvs with
            | false => rfl
            | true => exact absurd (huniq a ha i him hx his) ea
          simp [this, h3]
      · rename_i hc
        simp only [Option.getD_some]
        rw [List.filter_eq_self.2]
        intro a ha
        by_cases ea : a = i
        · subst ea; simp [hc]
        · have h3 : sameKVs kvs a.kvs = false := by
            cases hx : sameKVs kvs a.kvs with
            | false => rfl
            | true => exact absurd (huniq a ha i him hx his) ea
          simp [h3]

/-- What a query visits. -/
theorem query_items {c c' : OTM.Tree Key Nat} {n : GoString} {q : Query Key} {l : List (OTM.OItem Key Nat)} (hn : n ≠ [])
    (e : OTM.query c n q = some (c', .visited l)) : ∀ i ∈ l, ∃ j ∈ itemsOf c n, i = j.value := by
  unfold OTM.query OTM.onRelation at e
  rw [if_neg hn] at e
  unfold itemsOf
  cases hr : OTM.rel c n with
  | none => simp [hr] at e; intro i hi; rw [e.2] at hi; simp at hi
  | some t =>
    simp only [hr, Option.map_some, Option.getD_some] at e ⊢
    cases hq : t.queryAction q with
    | none => simp [hq] at e
    | some its =>
      simp only [hq, Option.map_some, Option.some.injEq, Prod.mk.injEq, OTM.OOut.visited.injEq] at e
      have hsub : ∀ j ∈ its, j ∈ t.items := by
        intro j hj
        unfold ATree.queryAction at hq
        split at hq
        · cases hq; exact hj
        · split at hq
          · cases hq
            obtain ⟨id, _, hid⟩ := List.mem_filterMap.1 hj
            unfold ATree.itemById at hid
            exact List.mem_of_find?_eq_some hid
          · cases hq
      intro i hi
      rw [← e.2] at hi
      obtain ⟨j, hj, rfl⟩ := List.mem_map.1 hi
      exact ⟨j, hsub j hj, rfl⟩

/-- What an exact query visits. -/
theorem query_exact {c c' : OTM.Tree Key Nat} {f : OTMSpec.Family Nat} (h : OTM.Sim c f) {n : GoString} (hn : n ≠ []) {q : Query Key} {l : List (OTM.OItem Key Nat)}
    (hq : ExactQuery q) (e : OTM.query c n q = some (c', .visited l)) : l.Perm (((itemsOf c n).filter (fun i => wanted q i.kvs)).map (·.value)) := by
  have hv : OTMSpec.ValidOp (V := Nat) (.query n q) := ⟨everywhere_imp (fun s hs => ⟨hs.1, hs.2.1⟩) (fun _ h => h) q hq.1, hq.2⟩
  obtain ⟨c1, out1, e1, hsim, hs⟩ := OTM.step_sim h (op := .query n q) hv
  have e1' : OTM.query c n q = some (c1, out1) := e1
  rw [e] at e1'
  cases e1'
  have hw : ∀ i : Item Key (OTM.OItem Key Nat), satisfies q i = wanted q i.kvs :=
    fun i => queryHolds_noIds rfl q (everywhere_imp (fun s hs => hs.2.2) (fun _ _ => trivial) q hq.1)
  have h2 := h.eq n
  simp only [OTMSpec.famStep, OTM.OOp.one, OTMSpec.relStep, OTMSpec.relStep.visit, if_neg hn, ← h2] at hs
  unfold itemsOf
  cases hr : OTM.rel c n with
  | none => simpa [hr, OTMSpec.Same] using hs
  | some t =>
    simp only [hr, Option.map_some, OTM.plain, OTMSpec.Same, hw] at hs
    simpa using hs

/-! ### References -/

/-- Every channel has one item that points to it. -/
structure Refs (c : OTM.Tree Key Nat) (len : Nat) : Prop where
  bound : ∀ n, ∀ r ∈ refsOf c n, r < len
  nodup : ∀ n, (refsOf c n).Nodup
  disj : ∀ n b, n ≠ b → ∀ r ∈ refsOf c n, r ∉ refsOf c b

/-- Fewer items. -/
theorem Refs.sub {c c' : OTM.Tree Key Nat} {len : Nat} (h : Refs c len) (hs : ∀ n, (itemsOf c' n).Sublist (itemsOf c n)) : Refs c' len := by
  have hs' : ∀ n, (refsOf c' n).Sublist (refsOf c n) := fun n => (hs n).map _
  exact ⟨fun n r hr => h.bound n r ((hs' n).subset hr), fun n => (h.nodup n).sublist (hs' n), fun n b hb r hr hr' => h.disj n b hb r ((hs' n).subset hr) ((hs' b).subset hr')⟩

/-- Another item, with a new channel. -/
theorem Refs.add {c c' : OTM.Tree Key Nat} {len : Nat} (h : Refs c len) {n : GoString} {i : Item Key (OTM.OItem Key Nat)} (hi : i.value.value = len)
    (h1 : ∀ b, b ≠ n → itemsOf c' b = itemsOf c b) (h2 : itemsOf c' n = itemsOf c n ++ [i]) : Refs c' (len + 1) := by
  have e1 : ∀ b, b ≠ n → refsOf c' b = refsOf c b := fun b hb => by unfold refsOf; rw [h1 b hb]
  have e2 : refsOf c' n = refsOf c n ++ [len] := by unfold refsOf; rw [h2]; simp [hi]
  have hb : ∀ b, ∀ r ∈ refsOf c' b, r < len + 1 := by
    intro b r hr
    by_cases e : b = n
    · subst e; rw [e2] at hr
      rcases List.mem_append.1 hr with hr | hr
      · have := h.bound b r hr; omega
      · simp at hr; omega
    · rw [e1 b e] at hr; have := h.bound b r hr; omega
  refine ⟨hb, ?_, ?_⟩
  · intro b
    by_cases e : b = n
    · subst e; rw [e2, List.nodup_append]
      refine ⟨h.nodup b, by simp, ?_⟩
      intro x hx y hy exy
      have := h.bound b x hx
      simp at hy; omega
    · rw [e1 b e]; exact h.nodup b
  · intro a b hab r hr hr'
    by_cases ea : a = n
    · subst ea
      have eb : b ≠ a := fun e => hab e.symm
      rw [e2] at hr; rw [e1 b eb] at hr'
      rcases List.mem_append.1 hr with hr | hr
      · exact h.disj a b hab r hr hr'
      · have := h.bound b r hr'; simp at hr; omega
    · rw [e1 a ea] at hr
      by_cases eb : b = n
      · subst eb
        rw [e2] at hr'
        rcases List.mem_append.1 hr' with hr' | hr'
        · exact h.disj a b hab r hr hr'
        · have := h.bound a r hr; simp at hr'; omega
      · rw [e1 b eb] at hr'; exact h.disj a b hab r hr hr'

/-- Changing a channel does not change the channels of items that do not point to it. -/
theorem chans_set {heap : List (List Int)} {r : Nat} {v : List Int} {l : List (Item Key (OTM.OItem Key Nat))} (h : r ∉ l.map (fun i => i.value.value)) :
    l.map (chanOf (heap.set r v)) = l.map (chanOf heap) := by
  apply List.map_congr_left
  intro i hi
  have : i.value.value ≠ r := fun e => h (List.mem_map.2 ⟨i, hi, e⟩)
  unfold chanOf
  simp [List.getD_eq_getElem?_getD, List.getElem?_set_ne (Ne.symm this)]

/-- Adding an item to the channel that is found. -/
theorem chans_put {heap : List (List Int)} {kvs : KVs Key} {t : Int} : ∀ {l : List (Item Key (OTM.OItem Key Nat))} {j : Item Key (OTM.OItem Key Nat)},
    (l.map (fun i => i.value.value)).Nodup → (∀ r ∈ l.map (fun i => i.value.value), r < heap.length) → l.find? (fun i => sameKVs kvs i.kvs) = some j →
    l.map (chanOf (heap.set j.value.value (heap.getD j.value.value [] ++ [t]))) = put kvs t (l.map (chanOf heap))
  | [], j, _, _, hf => by simp at hf
  | a :: l, j, hn, hb, hf => by
    simp only [List.map_cons, List.nodup_cons] at hn
    rw [List.find?_cons] at hf
    by_cases hs : sameKVs kvs a.kvs = true
    · simp only [hs] at hf
      cases hf
      have hlt := hb a.value.value (by simp)
      rw [List.map_cons, chans_set hn.1, List.map_cons, put, if_pos (by exact hs)]
      congr 1
      unfold chanOf
      simp [List.getD_eq_getElem?_getD, hlt]
    · simp only [Bool.not_eq_true] at hs
      simp only [hs] at hf
      have hj := List.mem_of_find?_eq_some hf
      have hne : a.value.value ≠ j.value.value := fun e => hn.1 (List.mem_map.2 ⟨j, hj, e.symm⟩)
      rw [List.map_cons, List.map_cons, put, if_neg (by simp [chanOf, hs]), chans_put hn.2 (fun r hr => hb r (by simp [hr])) hf]
      congr 1
      unfold chanOf
      simp [List.getD_eq_getElem?_getD, List.getElem?_set_ne (Ne.symm hne)]

/-- A new channel. -/
theorem chans_new {heap : List (List Int)} {kvs : KVs Key} {t : Int} {i : Item Key (OTM.OItem Key Nat)} (hi : i.kvs = kvs) (hr : i.value.value = heap.length) :
    ∀ {l : List (Item Key (OTM.OItem Key Nat))}, (∀ r ∈ l.map (fun i => i.value.value), r < heap.length) → l.find? (fun i => sameKVs kvs i.kvs) = none →
    (l ++ [i]).map (chanOf (heap ++ [[t]])) = put kvs t (l.map (chanOf heap))
  | [], _, _ => by simp [chanOf, put, hi, hr, List.getD_eq_getElem?_getD]
  | a :: l, hb, hf => by
    rw [List.find?_cons] at hf
    have hlt := hb a.value.value (by simp)
    cases hs : sameKVs kvs a.kvs with
    | true => simp [hs] at hf
    | false =>
      simp only [hs] at hf
      rw [List.cons_append, List.map_cons, List.map_cons, put, if_neg (by simp [chanOf, hs]), chans_new hi hr (fun r hr => hb r (by simp [hr])) hf]
      congr 1
      unfold chanOf
      simp [List.getD_eq_getElem?_getD, List.getElem?_append_left hlt]

/-- A channel that is new for all. -/
theorem chans_grow {heap : List (List Int)} {v : List Int} {l : List (Item Key (OTM.OItem Key Nat))} (hb : ∀ r ∈ l.map (fun i => i.value.value), r < heap.length) :
    l.map (chanOf (heap ++ [v])) = l.map (chanOf heap) := by
  apply List.map_congr_left
  intro i hi
  have := hb i.value.value (List.mem_map.2 ⟨i, hi, rfl⟩)
  unfold chanOf
  simp [List.getD_eq_getElem?_getD, List.getElem?_append_left this]

/-- Taking the first item of a channel. -/
theorem chans_take {heap : List (List Int)} {t : Int} {ts : List Int} {l : List (Item Key (OTM.OItem Key Nat))} {j : Item Key (OTM.OItem Key Nat)} (hj : j ∈ l)
    (hn : (l.map (fun i => i.value.value)).Nodup) (hh : heap[j.value.value]? = some (t :: ts)) :
    Takes (l.map (chanOf heap)) j.kvs t (l.map (chanOf (heap.set j.value.value ts))) := by
  obtain ⟨pre, post, rfl⟩ := List.append_of_mem hj
  simp only [List.map_append, List.map_cons, List.nodup_append, List.nodup_cons] at hn
  have h1 : j.value.value ∉ pre.map (fun i => i.value.value) := fun hm => hn.2.2 _ hm _ (by simp) rfl
  refine ⟨pre.map (chanOf heap), ts, post.map (chanOf heap), ?_, ?_⟩
  · simp [chanOf, List.getD_eq_getElem?_getD, hh]
  · rw [List.map_append, List.map_cons, chans_set h1, chans_set hn.2.1.1]
    have : (heap.set j.value.value ts)[j.value.value]? = some ts := by
      rw [List.getElem?_set_self]
      exact (List.getElem?_eq_some_iff.1 hh).1
    simp [chanOf, List.getD_eq_getElem?_getD, this]

/-! ### The map of queues -/

theorem get?_cons (q : GoString × Int) (m : Map) (b : GoString) : Map.get? (q :: m) b = if q.1 = b then some q.2 else Map.get? m b := by
  unfold Map.get?
  rw [List.find?_cons]
  by_cases h : q.1 = b
  · simp [h]
  · simp only [beq_eq_false_iff_ne.2 h, if_neg h]

theorem get?_append {m : Map} {n : GoString} {l : Int} (h : m.get? n = none) (b : GoString) :
    Map.get? (m ++ [(n, l)]) b = if b = n then some l else m.get? b := by
  induction m with
  | nil => simp only [List.nil_append, get?_cons]; by_cases e : n = b <;> simp [e, eq_comm]
  | cons q m ih =>
    rw [get?_cons] at h
    split at h
    · cases h
    · rename_i hq
      rw [List.cons_append, get?_cons, get?_cons, ih h]
      by_cases e : q.1 = b
      · subst e; simp [hq]
      · simp [e]

theorem get?_set {m : Map} {n : GoString} {l : Int} (h : m.get? n ≠ none) (b : GoString) : (m.set n l).get? b = if b = n then some l else m.get? b := by
  unfold Map.set
  by_cases e : b = n
  · subst e
    simp only [if_true]
    induction m with
    | nil => exact absurd rfl h
    | cons q m ih =>
      rw [List.map_cons, get?_cons]
      by_cases hq : q.1 = b
      · simp [hq]
      · rw [get?_cons, if_neg hq] at h
        have he : (if (q.1 == b) = true then (b, l) else q) = q := if_neg (by simpa using hq)
        rw [he, if_neg hq]
        exact ih h
  · simp only [if_neg e]
    clear h
    induction m with
    | nil => rfl
    | cons q m ih =>
      rw [List.map_cons, get?_cons, get?_cons, ih]
      by_cases hq : q.1 = n
      · simp only [hq, BEq.rfl, if_true, if_neg (Ne.symm e)]
      · simp only [beq_iff_eq, hq, if_false]

theorem get?_del {m : Map} {n : GoString} (b : GoString) : (m.del n).get? b = if b = n then none else m.get? b := by
  unfold QueuesSpec.Map.del
  induction m with
  | nil => simp [Map.get?]
  | cons q m ih =>
    rw [List.filter_cons]
    by_cases hq : q.1 = n
    · simp only [hq, bne_self_eq_false, Bool.false_eq_true, if_false, ih]
      by_cases e : b = n
      · simp [e]
      · rw [if_neg e, if_neg e, get?_cons, if_neg (fun h => e (h.symm.trans hq))]
    · have : (q.1 != n) = true := by simp [hq]
      simp only [this, if_true, get?_cons, ih]
      by_cases e : b = n
      · subst e; simp [hq]
      · simp [e]

/-! ### One request -/

theorem limit_eq {s : St} {m : Map} {B : Int} (h : RInv s m B) (n : GoString) : (worldOf s).limit n = m.get? n := by
  show limitIn (queueOf s n) = _
  rw [queueOf_spec h]
  cases m.get? n <;> rfl

theorem world_eq {s : St} {m : Map} {B : Int} (h : RInv s m B) {w : World} (h1 : ∀ n, w.limit n = m.get? n) (h2 : ∀ n, channelsOf s n = w.chans n) :
    worldOf s = w := by
  obtain ⟨l, c⟩ := w
  have e1 : (worldOf s).limit = l := funext fun n => (limit_eq h n).trans (h1 n).symm
  have e2 : (worldOf s).chans = c := funext h2
  cases hw : worldOf s
  rw [hw] at e1 e2
  simp only at e1 e2
  rw [e1, e2]

/-- The invariant. -/
structure WInv (s : St) (m : Map) (B : Int) : Prop where
  r : RInv s m B
  refs : Refs s.chans s.heap.length
  orphan : ∀ n, m.get? n = none → itemsOf s.chans n = []

/-- What is shown of one request. -/
structure Good (s : St) (m : Map) (r : Req) (s' : St) (o : Reply) : Prop where
  refs : Refs s'.chans s'.heap.length
  orphan : ∀ n, (RequestsSpec.mapStep m r).get? n = none → itemsOf s'.chans n = []
  does : ¬ IsError o → Does (worldOf s) r o (worldOf s')
  others : ∀ b, namedBy r ≠ some b → channelsOf s' b = channelsOf s b

/-- Nothing happens to the channels, and no queue goes. -/
theorem Good.still {s s' : St} {m : Map} {B : Int} (h : WInv s m B) {r : Req} {o : Reply} (hc : s'.chans = s.chans) (hh : s'.heap = s.heap)
    (hm : ∀ n, (RequestsSpec.mapStep m r).get? n = none → m.get? n = none) (hd : ¬ IsError o → Does (worldOf s) r o (worldOf s')) : Good s m r s' o := by
  refine ⟨by rw [hc, hh]; exact h.refs, fun n hn => by rw [hc]; exact h.orphan n (hm n hn), hd, fun b _ => ?_⟩
  rw [channelsOf_eq, channelsOf_eq, hc, hh]

/-- The state is the same. -/
theorem Good.same {s : St} {m : Map} {B : Int} (h : WInv s m B) {r : Req} {o : Reply} (hq : queueReq? r = none)
    (hd : ¬ IsError o → Does (worldOf s) r o (worldOf s)) : Good s m r s o :=
  .still h rfl rfl (fun n hn => by rw [mapStep_none hq] at hn; exact hn) hd

theorem Good.err {s : St} {m : Map} {B : Int} (h : WInv s m B) {r : Req} {o : Reply} (hq : queueReq? r = none) (he : IsError o) : Good s m r s o :=
  .same h hq (fun hn => absurd he hn)

/-- Only the channels of the queue that is named change. -/
theorem Good.at {s s' : St} {m : Map} {B : Int} (h : WInv s m B) {r : Req} {o : Reply} {n : GoString} (hq : queueReq? r = none) (hn : m.get? n ≠ none)
    (hnm : namedBy r = some n) (hr : Refs s'.chans s'.heap.length) (hi : ∀ b, b ≠ n → itemsOf s'.chans b = itemsOf s.chans b)
    (hc : ∀ b, b ≠ n → channelsOf s' b = channelsOf s b) (hd : ¬ IsError o → Does (worldOf s) r o (worldOf s')) : Good s m r s' o := by
  refine ⟨hr, fun b hb => ?_, hd, fun b hb => hc b (fun e => hb (by rw [hnm, e]))⟩
  rw [mapStep_none hq] at hb
  have hbn : b ≠ n := fun e => hn (e ▸ hb)
  rw [hi b hbn]; exact h.orphan b hb

theorem out_of_same {o o' : Out} (h : QueuesSpec.Same o o') (hn : ∀ l, o' ≠ .all l) : o = o' := by
  cases o' <;> cases o <;> simp_all [QueuesSpec.Same]

/-- GET, list, update, create and the requests of others. -/
theorem queueReq_good {s s' : St} {m : Map} {B : Int} (h : WInv s m B) {r : Req} {q : Queues.Req} {o : Reply} (hq : queueReq? r = some q)
    (hv : ValidReq s.q.rule q) (hs : Safe m q) (hB : B + reqAmount q < 2 ^ 63) (hr : ∀ l up, q ≠ .create [] l up) (hd : ∀ n upQ up, q ≠ .delete n upQ up)
    (e : queueReq s q = (some s', o)) (hi : RInv s' (QueuesSpec.specStep m q).1 (B + reqAmount q))
    (hdoes : ∀ out, o = .answer out → QueuesSpec.Same out (QueuesSpec.specStep m q).2 → ¬ IsError o → channelsOf s' = channelsOf s → Does (worldOf s) r o (worldOf s')) :
    Good s m r s' o := by
  obtain ⟨q', out, e', _, hsame, _⟩ := queueReq_spec h.r hv hs hB hr
  rw [e'] at e
  cases e
  refine .still h rfl rfl ?_ (fun hn => hdoes out rfl hsame hn rfl)
  intro n hn
  simp only [RequestsSpec.mapStep, hq] at hn
  cases q with
  | create a l up =>
    simp only [QueuesSpec.specStep] at hn
    split at hn
    · exact hn
    · rename_i hg
      split at hn
      · rw [get?_append hg] at hn
        split at hn
        · cases hn
        · exact hn
      · exact hn
  | get a => simp only [QueuesSpec.specStep] at hn; split at hn <;> exact hn
  | list => exact hn
  | update a l upQ up =>
    simp only [QueuesSpec.specStep] at hn
    split at hn
    · rename_i hg
      split at hn
      · rw [get?_set (by rw [hg]; simp)] at hn
        split at hn
        · cases hn
        · exact hn
      · exact hn
    · exact hn
  | delete a upQ up => exact absurd rfl (hd a upQ up)
  | other op => exact hn

theorem create_good {s s' : St} {m : Map} {B : Int} (h : WInv s m B) {b : Option QueueBody} {up : Bool} {o : Reply} (hw : WellTyped s.q.rule (.create b up))
    (ht : Tame m (.create b up)) (hB : B + amountOf (.create b up) < 2 ^ 63) (e : handle s (.create b up) = (some s', o))
    (hi : RInv s' (RequestsSpec.mapStep m (.create b up)) (B + amountOf (.create b up))) : Good s m (.create b up) s' o := by
  cases b with
  | none => cases e; exact .err h rfl trivial
  | some b =>
    by_cases hv : b.validateSpecOnly = true
    · obtain ⟨spec, state⟩ := b
      have hv' := hv
      simp only [QueueBody.validateSpecOnly, Bool.and_eq_true, Bool.not_eq_true'] at hv
      obtain ⟨hs1, rfl⟩ := hv
      cases spec with
      | none => simp at hs1
      | some spec =>
        obtain ⟨name, props⟩ := spec
        simp only [QueueSpec.validate, Bool.and_eq_true] at hs1
        obtain ⟨hs1, hs2⟩ := hs1
        match name, hs1 with
        | some (some n), hs1 =>
          have hn : n ≠ [] := by simpa using hs1
          match props, hs2 with
          | some ⟨some l⟩, _ =>
            have hq : queueReq? (.create (some ⟨some ⟨some (some n), some ⟨some l⟩⟩, false⟩) up) = some (.create n l up) := by
              simp [queueReq?, hn]
            have e' : queueReq s (.create n l up) = (some s', o) := by
              rw [← e]; simp [handle, create, QueueBody.validateSpecOnly, QueueSpec.validate, QueueProps.validate, hn]
            simp only [RequestsSpec.mapStep, amountOf, hq] at hi hB
            refine queueReq_good h hq (hw.1 _ hq) (ht.1 _ hq) hB (by intro l' up' e; cases e; exact hn rfl) (by simp) e' hi ?_
            intro out ho hsame hne hch
            subst ho
            simp only [QueuesSpec.specStep] at hsame hi
            cases hg : m.get? n with
            | some l0 =>
              simp only [hg] at hsame
              cases out <;> simp_all [QueuesSpec.Same, IsError]
            | none =>
              simp only [hg] at hsame hi
              by_cases hc : up = true ∧ -1 ≤ l
              · simp only [hc, and_self, if_true] at hsame hi
                have := out_of_same hsame (by simp)
                subst this
                refine ⟨n, l, rfl, by rw [limit_eq h.r, hg], ?_, rfl⟩
                refine world_eq hi (fun b => ?_) (fun b => by rw [hch]; rfl)
                rw [get?_append hg]
                simp only [World.setLimit]
                split
                · rfl
                · exact limit_eq h.r b
              · simp only [hc, if_false] at hsame
                have := out_of_same hsame (by simp)
                subst this
                exact absurd trivial hne
          | none, _ =>
            have := createNoProps_found h.r (n := n) (ht.2.resolve_left hn)
            simp [handle, create, QueueBody.validateSpecOnly, QueueSpec.validate, hn, this] at e
            obtain ⟨rfl, rfl⟩ := e
            exact .err h rfl trivial
    · have hq : queueReq? (.create (some b) up) = none := by
        obtain ⟨spec, state⟩ := b
        unfold queueReq?
        split
        · rename_i n l up' heq
          injection heq with heq _
          injection heq with heq
          injection heq with h1 h2
          subst h1 h2
          simp only [QueueBody.validateSpecOnly, QueueSpec.validate, QueueProps.validate] at hv
          simp at hv
          simp [hv]
        all_goals first | rfl | (rename_i heq; cases heq)
      simp [handle, create, hv] at e
      obtain ⟨rfl, rfl⟩ := e
      exact .err h hq trivial

theorem update_good {s s' : St} {m : Map} {B : Int} (h : WInv s m B) {n : GoString} {b : Option QueueProps} {upQ up : Bool} {o : Reply}
    (hw : WellTyped s.q.rule (.update n b upQ up)) (ht : Tame m (.update n b upQ up)) (hB : B + amountOf (.update n b upQ up) < 2 ^ 63)
    (e : handle s (.update n b upQ up) = (some s', o)) (hi : RInv s' (RequestsSpec.mapStep m (.update n b upQ up)) (B + amountOf (.update n b upQ up))) :
    Good s m (.update n b upQ up) s' o := by
  match b with
  | none => cases e; exact .err h rfl trivial
  | some ⟨none⟩ => cases e; exact .err h rfl trivial
  | some ⟨some l⟩ =>
    have hq : queueReq? (.update n (some ⟨some l⟩) upQ up) = some (.update n l upQ up) := rfl
    have e' : queueReq s (.update n l upQ up) = (some s', o) := e
    simp only [RequestsSpec.mapStep, amountOf, hq] at hi hB
    refine queueReq_good h hq (hw.1 _ hq) (ht.1 _ hq) hB (by simp) (by simp) e' hi ?_
    intro out ho hsame hne hch
    subst ho
    simp only [QueuesSpec.specStep] at hsame hi
    cases hg : m.get? n with
    | none =>
      simp only [hg] at hsame
      cases out <;> simp_all [QueuesSpec.Same, IsError]
    | some l0 =>
      simp only [hg] at hsame hi
      by_cases hc : up = true ∧ -1 ≤ l
      · simp only [hc, and_self, if_true] at hsame hi
        have := out_of_same hsame (by simp)
        subst this
        refine ⟨l, rfl, by rw [limit_eq h.r, hg]; simp, ?_, rfl⟩
        refine world_eq hi (fun b => ?_) (fun b => by rw [hch]; rfl)
        rw [get?_set (by rw [hg]; simp)]
        simp only [World.setLimit]
        split
        · rfl
        · exact limit_eq h.r b
      · simp only [hc, if_false] at hsame
        have := out_of_same hsame (by simp)
        subst this
        exact absurd trivial hne

theorem read_good {s s' : St} {m : Map} {B : Int} (h : WInv s m B) {r : Req} {q : Queues.Req} {o : Reply}
    (hq : (r = .list ∧ q = .list) ∨ (∃ n, r = .get n ∧ q = .get n) ∨ (∃ op, r = .other op ∧ q = .other op)) (hw : WellTyped s.q.rule r)
    (ht : Tame m r) (hB : B + amountOf r < 2 ^ 63) (e : handle s r = (some s', o)) (hi : RInv s' (RequestsSpec.mapStep m r) (B + amountOf r)) : Good s m r s' o := by
  have hqr : queueReq? r = some q ∧ handle s r = queueReq s q := by
    rcases hq with ⟨rfl, rfl⟩ | ⟨n, rfl, rfl⟩ | ⟨op, rfl, rfl⟩ <;> exact ⟨rfl, rfl⟩
  have hm : (QueuesSpec.specStep m q).1 = m := by
    rcases hq with ⟨rfl, rfl⟩ | ⟨n, rfl, rfl⟩ | ⟨op, rfl, rfl⟩
    · rfl
    · simp only [QueuesSpec.specStep]; split <;> rfl
    · rfl
  have hne : (∀ l up, q ≠ .create [] l up) ∧ ∀ n upQ up, q ≠ .delete n upQ up := by
    rcases hq with ⟨rfl, rfl⟩ | ⟨n, rfl, rfl⟩ | ⟨op, rfl, rfl⟩ <;> simp
  simp only [RequestsSpec.mapStep, amountOf, hqr.1] at hi hB
  refine queueReq_good h hqr.1 (hw.1 _ hqr.1) (ht.1 _ hqr.1) hB hne.1 hne.2 (hqr.2.symm.trans e) hi ?_
  intro out ho hsame hnerr hch
  have hww : worldOf s' = worldOf s := by
    rw [hm] at hi
    exact world_eq hi (fun b => limit_eq h.r b) (fun b => by rw [hch]; rfl)
  subst ho
  rcases hq with ⟨rfl, rfl⟩ | ⟨n, rfl, rfl⟩ | ⟨op, rfl, rfl⟩
  · refine ⟨hww, ?_⟩
    simp only [QueuesSpec.specStep] at hsame
    cases out with
    | all l =>
      have hp : l.Perm m := hsame
      refine ⟨l, rfl, (hp.map (·.1)).nodup_iff.2 h.r.q.names, fun n v => ?_⟩
      rw [hp.mem_iff, limit_eq h.r, get?_some h.r.q.names]
    | _ => cases hsame
  · refine ⟨hww, ?_⟩
    simp only [QueuesSpec.specStep] at hsame
    cases hg : m.get? n with
    | none =>
      simp only [hg] at hsame
      have := out_of_same hsame (by simp)
      subst this
      exact absurd trivial hnerr
    | some l =>
      simp only [hg] at hsame
      have := out_of_same hsame (by simp)
      subst this
      exact ⟨l, by rw [limit_eq h.r, hg], rfl⟩
  · exact hww

theorem channelsOf_nil {s : St} {n : GoString} (h : itemsOf s.chans n = []) : channelsOf s n = [] := by rw [channelsOf_eq, h]; rfl

theorem delete_good {s s' : St} {m : Map} {B : Int} (h : WInv s m B) {n : GoString} {upC upQ up : Bool} {o : Reply}
    (ht : Tame m (.delete n upC upQ up)) (hB : B + amountOf (.delete n upC upQ up) < 2 ^ 63) (e : handle s (.delete n upC upQ up) = (some s', o))
    (hi : RInv s' (RequestsSpec.mapStep m (.delete n upC upQ up)) (B + amountOf (.delete n upC upQ up))) : Good s m (.delete n upC upQ up) s' o := by
  have hq : queueReq? (.delete n upC upQ up) = some (.delete n upQ up) := rfl
  have hms : RequestsSpec.mapStep m (.delete n upC upQ up) = (QueuesSpec.specStep m (.delete n upQ up)).1 := rfl
  rcases onQueue_spec h.r n (.answer .ok) (deleteFound s n upC upQ up) with ⟨hg, e'⟩ | ⟨hg, hn, e'⟩
  · have e2 : handle s (.delete n upC upQ up) = (some s, .answer .ok) := e'
    rw [e2] at e
    cases e
    have hm : (QueuesSpec.specStep m (.delete n upQ up)).1 = m := by simp only [QueuesSpec.specStep, hg]
    refine .still h rfl rfl (fun b hb => by rw [hms, hm] at hb; exact hb) (fun _ => ⟨?_, rfl⟩)
    refine world_eq h.r (fun b => ?_) (fun b => ?_)
    · simp only [World.setLimit, World.setChans]
      split
      · rename_i hb; rw [hb, hg]
      · exact limit_eq h.r b
    · simp only [World.setLimit, World.setChans]
      split
      · rename_i hb; rw [hb]; exact channelsOf_nil (h.orphan n hg)
      · rfl
  · have hup : upC = true := ht.2.resolve_left hg
    subst hup
    obtain ⟨c, ec, hc, hcn, hco⟩ := destroyChannels_spec h.r.chans hn
    have h' : RInv { s with chans := c } m B := ⟨h.r.q, hc, h.r.pos, h.r.named⟩
    obtain ⟨q', out, e2, _, hsame, _⟩ := queueReq_spec h' (r := .delete n upQ up) trivial (ht.1 _ hq) hB (by simp)
    have e3 : handle s (.delete n true upQ up) = (some { s with q := q', chans := c }, .answer out) := by
      show delete s n true upQ up = _
      unfold delete
      rw [e']
      simp only [deleteFound, ec]
      exact e2
    rw [e3] at e
    cases e
    have hin : itemsOf c n = [] := by unfold itemsOf; rw [hcn]; rfl
    have hio : ∀ b, b ≠ n → itemsOf c b = itemsOf s.chans b := fun b hb => itemsOf_rel (hco b hb)
    refine ⟨h.refs.sub (fun b => ?_), fun b hb => ?_, fun hne => ⟨?_, ?_⟩, fun b hb => ?_⟩
    · by_cases eb : b = n
      · subst eb; show (itemsOf c b).Sublist _; rw [hin]; exact List.nil_sublist _
      · show (itemsOf c b).Sublist _; rw [hio b eb]; exact List.Sublist.refl _
    · show itemsOf c b = []
      by_cases eb : b = n
      · subst eb; exact hin
      · rw [hio b eb]
        refine h.orphan b ?_
        rw [hms] at hb
        simp only [QueuesSpec.specStep] at hb
        split at hb
        · split at hb
          · rw [get?_del, if_neg eb] at hb; exact hb
          · exact hb
        · exact hb
    · cases hg' : m.get? n with
      | none => exact absurd hg' hg
      | some l =>
        simp only [QueuesSpec.specStep, hg'] at hsame
        cases up with
        | false =>
          simp only [Bool.false_eq_true, if_false] at hsame
          have := out_of_same hsame (by simp)
          subst this
          exact absurd trivial hne
        | true =>
          have hm : RequestsSpec.mapStep m (.delete n true upQ true) = m.del n := by rw [hms]; simp only [QueuesSpec.specStep, hg', if_true]
          rw [hm] at hi
          refine world_eq hi (fun b => ?_) (fun b => ?_)
          · rw [get?_del]
            simp only [World.setLimit, World.setChans]
            split
            · rfl
            · exact limit_eq h.r b
          · simp only [World.setLimit, World.setChans]
            split
            · rename_i hb; rw [hb]; exact channelsOf_nil hin
            · rename_i hb
              show _ = channelsOf s b
              rw [channelsOf_eq, channelsOf_eq]
              show List.map _ (itemsOf c b) = _
              rw [hio b hb]
    · cases hg' : m.get? n with
      | none => exact absurd hg' hg
      | some l =>
        simp only [QueuesSpec.specStep, hg'] at hsame
        cases up with
        | false =>
          simp only [Bool.false_eq_true, if_false] at hsame
          have := out_of_same hsame (by simp)
          subst this
          exact absurd trivial hne
        | true =>
          simp only [if_true] at hsame
          rw [out_of_same hsame (by simp)]
    · have eb : b ≠ n := fun eb => hb (by rw [eb]; rfl)
      rw [channelsOf_eq, channelsOf_eq]
      show List.map _ (itemsOf c b) = _
      rw [hio b eb]

theorem channelQuery_good {s s' : St} {m : Map} {B : Int} (h : WInv s m B) {n : GoString} {q : Option (Query Key)} {o : Reply}
    (e : handle s (.channelQuery n q) = (some s', o)) : Good s m (.channelQuery n q) s' o := by
  cases q with
  | none => cases e; exact .err h rfl trivial
  | some q =>
    simp only [handle, channelQuery] at e
    split at e
    · rcases onQueue_spec h.r n (.channels 0) (queryFound s n q) with ⟨hg, e'⟩ | ⟨hg, hn, e'⟩
      · rw [e'] at e
        cases e
        refine .same h rfl (fun _ => ⟨rfl, 0, rfl, fun q' _ _ => ?_⟩)
        show 0 = ((channelsOf s n).filter _).length
        rw [channelsOf_nil (h.orphan n hg)]; rfl
      · rw [e'] at e
        unfold queryFound at e
        split at e
        · cases e
        · rename_i c' l hl
          cases e
          refine .same h rfl (fun _ => ⟨rfl, l.length, rfl, fun q' hq' hex => ?_⟩)
          cases hq'
          obtain ⟨f, hf⟩ := h.r.chans
          have hp := query_exact hf hn hex hl
          show l.length = ((channelsOf s n).filter _).length
          rw [hp.length_eq, channelsOf_eq, List.filter_map, List.length_map, List.length_map]
          rfl
        · cases e
    · cases e; exact .err h rfl trivial

/-- The channels after `itemsOf` was filtered. -/
theorem channelsOf_filter {s : St} {c : OTM.Tree Key Nat} {n : GoString} {p : Item Key (OTM.OItem Key Nat) → Bool} {p' : Channel → Bool}
    (h : itemsOf c n = (itemsOf s.chans n).filter p) (hp : ∀ i, p i = p' (chanOf s.heap i)) :
    channelsOf { s with chans := c } n = (channelsOf s n).filter p' := by
  rw [channelsOf_eq, channelsOf_eq]
  show (itemsOf c n).map (chanOf s.heap) = _
  rw [h, List.filter_map]
  congr 1
  exact List.filter_congr fun i _ => hp i

theorem channelsOf_other {s : St} {c : OTM.Tree Key Nat} {b : GoString} (h : itemsOf c b = itemsOf s.chans b) : channelsOf { s with chans := c } b = channelsOf s b := by
  rw [channelsOf_eq, channelsOf_eq]
  show (itemsOf c b).map (chanOf s.heap) = _
  rw [h]

theorem setChans_world {s s' : St} {m : Map} {B B' : Int} (h : RInv s m B) (h' : RInv s' m B') {n : GoString} {cs : List Channel}
    (h1 : ∀ b, b ≠ n → channelsOf s' b = channelsOf s b) (h2 : channelsOf s' n = cs) : worldOf s' = (worldOf s).setChans n cs := by
  refine world_eq h' (fun b => limit_eq h b) (fun b => ?_)
  simp only [World.setChans]
  split
  · rename_i hb; rw [hb]; exact h2
  · rename_i hb; exact h1 b hb

theorem channelDelete_good {s s' : St} {m : Map} {B : Int} (h : WInv s m B) {n : GoString} {kvs : RawKVs} {complete up : Bool} {o : Reply}
    (hw : WellTyped s.q.rule (.channelDelete n kvs complete up)) (e : handle s (.channelDelete n kvs complete up) = (some s', o))
    (hi : RInv s' m B) : Good s m (.channelDelete n kvs complete up) s' o := by
  have e1 : channelDelete s n kvs complete up = (some s', o) := e
  unfold channelDelete at e1
  rcases onQueue_spec h.r n (if complete && validKVs false kvs then .answer .notFound else .rejected)
      (deleteChannel s n kvs up (if complete && validKVs false kvs then .answer .ok else .rejected)) with ⟨hg, e'⟩ | ⟨hg, hn, e'⟩
  · rw [e'] at e1
    cases e1
    exact .err h rfl (by split <;> trivial)
  · rw [e'] at e1
    unfold deleteChannel at e1
    split at e1
    case isFalse => cases e1
    rename_i hv
    have key : ∀ c out, OTM.deleteByKeyValues s.chans n (kvsOf kvs) (some (fun _ => true)) = some (c, out) →
        s' = { s with chans := c } → o = (if complete && validKVs false kvs then .answer .ok else .rejected) → Good s m (.channelDelete n kvs complete up) s' o := by
      intro c out hd hs ho
      subst hs
      obtain ⟨f, hf⟩ := h.r.chans
      obtain ⟨d1, d2⟩ := delete_items hf hn (kvsOf_valid hv hw.2) hd
      have hoth : ∀ b, b ≠ n → channelsOf { s with chans := c } b = channelsOf s b := fun b hb => channelsOf_other (d1 b hb)
      refine .at h rfl hg rfl (h.refs.sub (fun b => ?_)) d1 hoth (fun hne => ?_)
      · show (itemsOf c b).Sublist _
        by_cases eb : b = n
        · subst eb; rw [d2]; exact List.filter_sublist
        · rw [d1 b eb]; exact List.Sublist.refl _
      · have hok : o = .answer .ok := by
          rw [ho]
          split
          · rfl
          · rename_i hx; rw [ho, if_neg hx] at hne; exact absurd trivial hne
        refine ⟨by rw [limit_eq h.r]; exact hg, ?_, hok⟩
        exact setChans_world h.r hi hoth (channelsOf_filter d2 (fun i => by simp [chanOf]))
    split at e1
    · cases e1
    · rename_i c i hd
      split at e1
      · cases e1; exact key c _ hd rfl rfl
      · cases e1
    · rename_i c hd
      cases e1; exact key c _ hd rfl rfl
    · cases e1

theorem enqueue_good {s s' : St} {m : Map} {B : Int} (h : WInv s m B) {n : GoString} {b : Option ItemBody} {admit : Bool} {o : Reply}
    (hw : WellTyped s.q.rule (.enqueue n b admit)) (e : handle s (.enqueue n b admit) = (some s', o))
    (hi : RInv s' m B) : Good s m (.enqueue n b admit) s' o := by
  cases b with
  | none => cases e; exact .err h rfl trivial
  | some b =>
    by_cases hv : b.validateSpecOnly = true
    · obtain ⟨spec, state⟩ := b
      match spec, hv with
      | some (some kvs, some ⟨data, updateable, retryAttempts, retryPosition, timeout⟩), hv =>
        have hv' := hv
        simp only [ItemBody.validateSpecOnly, ItemProps.validate, Bool.and_eq_true, Bool.not_eq_true'] at hv
        cases timeout with
        | none => simp at hv
        | some t =>
          have hk := kvsOf_valid hv.1.1 hw.2
          have hst : state = false := hv.2
          simp only [handle, enqueue, hv', if_true] at e
          rcases onQueue_spec h.r n (.answer .notFound) (enqueueFound s n kvs t admit) with ⟨hg, e'⟩ | ⟨hg, hn, e'⟩
          · rw [e'] at e; cases e; exact .err h rfl trivial
          · rw [e'] at e
            obtain ⟨f, hf⟩ := h.r.chans
            have keep : ∀ c out, OTM.createOrFind s.chans n (kvsOf kvs) (if admit then some s.heap.length else none) = some (c, out) → (∀ id, out ≠ .created id) →
                s' = { s with chans := c } → IsError o → Good s m (.enqueue n (some ⟨some (some kvs, some ⟨data, updateable, retryAttempts, retryPosition, some t⟩), state⟩) admit) s' o := by
              intro c out hx hne hs he
              subst hs
              obtain ⟨d1, d2⟩ := createOrFind_items hf hn hk hx
              have d3 : itemsOf c n = itemsOf s.chans n := by
                cases out with
                | created id => exact absurd rfl (hne id)
                | found i => obtain ⟨_, _, _, d⟩ := d2; exact d
                | _ => exact d2
              have d4 : ∀ b, itemsOf c b = itemsOf s.chans b := fun b => by
                by_cases eb : b = n
                · rw [eb]; exact d3
                · exact d1 b eb
              exact .at h rfl hg rfl (h.refs.sub (fun b => by show (itemsOf c b).Sublist _; rw [d4 b]; exact List.Sublist.refl _)) d1
                (fun b _ => channelsOf_other (d4 b)) (fun hn => absurd he hn)
            have doesIt : ∀ cs, channelsOf s' n = put (kvsOf kvs) t cs → cs = channelsOf s n → o = .answer .ok → (∀ b, b ≠ n → channelsOf s' b = channelsOf s b) →
                Does (worldOf s) (.enqueue n (some ⟨some (some kvs, some ⟨data, updateable, retryAttempts, retryPosition, some t⟩), state⟩) admit) o (worldOf s') := by
              intro cs h1 h2 h3 h4
              refine ⟨by rw [limit_eq h.r]; exact hg, h3, kvs, _, t, by rw [hst], rfl, ?_⟩
              exact setChans_world h.r hi h4 (by rw [h1, h2]; rfl)
            unfold enqueueFound at e
            split at e
            · cases e
            · rename_i c id hx
              cases e
              obtain ⟨d1, d2, r, hr, d3⟩ := createOrFind_items hf hn hk hx
              have hr' : r = s.heap.length := by
                cases admit with
                | true => simp at hr; exact hr.symm
                | false => simp at hr
              have hb := h.refs.bound
              have hoth : ∀ b, b ≠ n → channelsOf { s with chans := c, heap := s.heap ++ [[t]] } b = channelsOf s b := by
                intro b hbn
                rw [channelsOf_eq, channelsOf_eq]
                show (itemsOf c b).map (chanOf (s.heap ++ [[t]])) = _
                rw [d1 b hbn]
                exact chans_grow (hb b)
              refine .at h rfl hg rfl ?_ d1 hoth (fun _ => doesIt _ ?_ rfl rfl hoth)
              · show Refs c (s.heap ++ [[t]]).length
                rw [List.length_append]
                exact h.refs.add (i := ⟨id, kvsOf kvs, ⟨r, n, id, kvsOf kvs⟩⟩) hr' d1 d3
              · rw [channelsOf_eq, channelsOf_eq]
                show (itemsOf c n).map (chanOf (s.heap ++ [[t]])) = _
                rw [d3]
                exact chans_new (by rfl) hr' (hb n) d2
            · rename_i c i hx
              split at e
              · cases e
                obtain ⟨d1, j, d2, d3, d4⟩ := createOrFind_items hf hn hk hx
                subst d3
                have hj := List.mem_of_find?_eq_some d2
                have hjr : j.value.value ∈ refsOf s.chans n := List.mem_map.2 ⟨j, hj, rfl⟩
                have hoth : ∀ b, b ≠ n → channelsOf { s with chans := c, heap := s.heap.set j.value.value (s.heap.getD j.value.value [] ++ [t]) } b = channelsOf s b := by
                  intro b hbn
                  rw [channelsOf_eq, channelsOf_eq]
                  show (itemsOf c b).map (chanOf (s.heap.set j.value.value (s.heap.getD j.value.value [] ++ [t]))) = _
                  rw [d1 b hbn]
                  exact chans_set (h.refs.disj n b (Ne.symm hbn) _ hjr)
                refine .at h rfl hg rfl ?_ d1 hoth (fun _ => doesIt _ ?_ rfl rfl hoth)
                · show Refs c (s.heap.set _ _).length
                  rw [List.length_set]
                  refine h.refs.sub (fun b => ?_)
                  by_cases eb : b = n
                  · subst eb; rw [d4]; exact List.Sublist.refl _
                  · rw [d1 b eb]; exact List.Sublist.refl _
                · rw [channelsOf_eq, channelsOf_eq]
                  show (itemsOf c n).map (chanOf (s.heap.set j.value.value (s.heap.getD j.value.value [] ++ [t]))) = _
                  rw [d4]
                  exact chans_put (h.refs.nodup n) (h.refs.bound n) d2
              · cases e; exact keep c _ hx (by simp) rfl trivial
            · rename_i c hx
              cases e; exact keep c _ hx (by simp) rfl trivial
            · rename_i c out g1 g2 g3 hx
              cases e; exact keep c _ hx (by intro id hi; subst hi; exact g1 _ rfl) rfl trivial
    · simp [handle, enqueue, hv] at e
      obtain ⟨rfl, rfl⟩ := e
      exact .err h rfl trivial

theorem dequeue_good {s s' : St} {m : Map} {B : Int} (h : WInv s m B) {n : GoString} {q : Option (Query Key)} {pick : Nat} {admit : Bool} {o : Reply}
    (e : handle s (.dequeue n q pick admit) = (some s', o)) (hi : RInv s' m B) : Good s m (.dequeue n q pick admit) s' o := by
  cases q with
  | none => cases e; exact .err h rfl trivial
  | some q =>
    simp only [handle, dequeue] at e
    split at e
    case isFalse => cases e; exact .err h rfl trivial
    rcases onQueue_spec h.r n (.answer .notFound) (dequeueFound s n q pick admit) with ⟨hg, e'⟩ | ⟨hg, hn, e'⟩
    · rw [e'] at e; cases e; exact .err h rfl trivial
    rw [e'] at e
    unfold dequeueFound at e
    split at e
    case h_2 => cases e
    rename_i c' l hl
    split at e
    case h_2 => cases e; exact .err h rfl trivial
    rename_i r t ts ho
    split at e
    · cases e
    · cases e
      have hm := List.mem_of_getElem? ho
      simp only [offers, List.mem_filterMap] at hm
      obtain ⟨i, hil, hio⟩ := hm
      have hx : s.heap[i.value]? = some (t :: ts) ∧ r = i.value := by
        rw [List.getD_eq_getElem?_getD] at hio
        cases hx : s.heap[i.value]? with
        | none => simp [hx] at hio
        | some y =>
          cases y with
          | nil => simp [hx] at hio
          | cons a as => simp [hx] at hio; exact ⟨by rw [hio.2.1, hio.2.2], hio.1.symm⟩
      obtain ⟨hx, rfl⟩ := hx
      obtain ⟨j, hj, rfl⟩ := query_items hn hl i hil
      have hjr : j.value.value ∈ refsOf s.chans n := List.mem_map.2 ⟨j, hj, rfl⟩
      have hoth : ∀ b, b ≠ n → channelsOf { s with heap := s.heap.set j.value.value ts } b = channelsOf s b := by
        intro b hbn
        rw [channelsOf_eq, channelsOf_eq]
        exact chans_set (h.refs.disj n b (Ne.symm hbn) _ hjr)
      refine .at h rfl hg rfl ?_ (fun _ _ => rfl) hoth (fun _ => ⟨by rw [limit_eq h.r]; exact hg, j.kvs, t, _, rfl, ?_, setChans_world h.r hi hoth rfl, ?_⟩)
      · show Refs s.chans (s.heap.set _ _).length
        rw [List.length_set]; exact h.refs
      · show Takes (channelsOf s n) _ _ _
        rw [channelsOf_eq, channelsOf_eq]
        exact chans_take hj (h.refs.nodup n) hx
      · intro q' hq' hex
        cases hq'
        obtain ⟨f, hf⟩ := h.r.chans
        have hp := query_exact hf hn hex hl
        obtain ⟨k, hk, hkv⟩ := List.mem_map.1 (hp.mem_iff.1 hil)
        obtain ⟨hk1, hk2⟩ := List.mem_filter.1 hk
        have : k = j := nodup_map_inj (h.refs.nodup n) hk1 hj (by rw [hkv])
        rw [← this]; exact hk2

theorem exactQuery_exact {kvs : KVs Key} (hv : ValidKVs kvs) : ExactQuery (exactQuery kvs) := by
  obtain ⟨h1, _, _⟩ := exactQuery_ok hv
  refine ⟨⟨?_, trivial, trivial⟩, (exactQuery_proper kvs).2⟩
  rintro s hs
  have h2 := h1 s hs
  cases hs
  exact ⟨h2.1, h2.2, rfl⟩

/-- What the exact query finds. -/
theorem exact_found {s : St} {f : OTMSpec.Family Nat} (hf : OTM.Sim s.chans f) {n : GoString} (hn : n ≠ []) {kvs : KVs Key} (hk : ValidKVs kvs) {c' : OTM.Tree Key Nat}
    {x : OTM.OItem Key Nat} {l : List (OTM.OItem Key Nat)} (e : OTM.query s.chans n (exactQuery kvs) = some (c', .visited l)) (hx : x ∈ l) :
    ∃ c ∈ channelsOf s n, sameKVs kvs c.1 = true := by
  have hp := query_exact hf hn (exactQuery_exact hk) e
  obtain ⟨j, hj, _⟩ := List.mem_map.1 (hp.mem_iff.1 hx)
  obtain ⟨hj1, hj2⟩ := List.mem_filter.1 hj
  have hw : satisfies (exactQuery kvs) j = wanted (exactQuery kvs) j.kvs :=
    queryHolds_noIds rfl _ (everywhere_imp (fun s hs => hs.2.2) (fun _ _ => trivial) _ (exactQuery_exact hk).1)
  have hjv : ValidKVs j.kvs := by
    unfold itemsOf at hj1
    cases hr : OTM.rel s.chans n with
    | none => simp [hr] at hj1
    | some t => simp only [hr, Option.map_some, Option.getD_some] at hj1; exact (hf.inv n t hr).valid hj1
  refine ⟨chanOf s.heap j, by rw [channelsOf_eq]; exact List.mem_map.2 ⟨j, hj1, rfl⟩, ?_⟩
  show sameKVs kvs j.kvs = true
  rw [← exact_satisfies j hjv, hw]; exact hj2

theorem ref_valid {b : ItemRef} (hv : b.validate = true) (hd : Distinct b.kvs) : ValidKVs (kvsOf b.kvs) := by
  simp only [ItemRef.validate, Bool.and_eq_true] at hv
  exact kvsOf_valid hv.2 hd

theorem ack_good {s s' : St} {m : Map} {B : Int} (h : WInv s m B) {n : GoString} {b : Option ItemRef} {res : AckRes} {o : Reply}
    (hw : WellTyped s.q.rule (.ack n b res)) (e : handle s (.ack n b res) = (some s', o)) (hi : RInv s' m B) : Good s m (.ack n b res) s' o := by
  cases b with
  | none => cases e; exact .err h rfl trivial
  | some b =>
    simp only [handle, ack] at e
    split at e
    case isFalse => cases e; exact .err h rfl trivial
    rename_i hv
    have hk := ref_valid hv hw.2
    rcases onQueue_spec h.r n (.answer .notFound) (ackFound s n b.kvs res) with ⟨hg, e'⟩ | ⟨hg, hn, e'⟩
    · rw [e'] at e; cases e; exact .err h rfl trivial
    rw [e'] at e
    obtain ⟨f, hf⟩ := h.r.chans
    unfold ackFound at e
    split at e
    · cases e
    · cases e; exact .err h rfl trivial
    · rename_i c0 l hl0 hl
      have hex : ∃ c ∈ channelsOf s n, sameKVs (kvsOf b.kvs) c.1 = true := by
        cases l with
        | nil => exact absurd rfl (hl0 · )
        | cons x l => exact exact_found hf hn hk hl (List.mem_cons_self)
      have hlim : (worldOf s).limit n ≠ none := by rw [limit_eq h.r]; exact hg
      split at e
      · cases e; exact .err h rfl trivial
      · cases e
        exact .same h rfl (fun _ => ⟨hlim, rfl, b, rfl, hex, .inl ⟨rfl, rfl⟩⟩)
      · split at e
        · cases e
        · rename_i c a hd
          cases e
          obtain ⟨d1, d2⟩ := delete_items hf hn hk hd
          have hoth : ∀ b, b ≠ n → channelsOf { s with chans := c } b = channelsOf s b := fun b hb => channelsOf_other (d1 b hb)
          refine .at h rfl hg rfl (h.refs.sub (fun b => ?_)) d1 hoth (fun _ => ⟨hlim, rfl, b, rfl, hex, .inr ⟨rfl, ?_⟩⟩)
          · show (itemsOf c b).Sublist _
            by_cases eb : b = n
            · subst eb; rw [d2]; exact List.filter_sublist
            · rw [d1 b eb]; exact List.Sublist.refl _
          · exact setChans_world h.r hi hoth (channelsOf_filter d2 (fun i => rfl))
        · cases e
      · cases e
    · cases e

theorem heartbeat_good {s s' : St} {m : Map} {B : Int} (h : WInv s m B) {n : GoString} {b : Option ItemRef} {found : Bool} {o : Reply}
    (hw : WellTyped s.q.rule (.heartbeat n b found)) (e : handle s (.heartbeat n b found) = (some s', o)) : Good s m (.heartbeat n b found) s' o := by
  cases b with
  | none => cases e; exact .err h rfl trivial
  | some b =>
    simp only [handle, heartbeat] at e
    split at e
    case isFalse => cases e; exact .err h rfl trivial
    rename_i hv
    have hk := ref_valid hv hw.2
    rcases onQueue_spec h.r n (.answer .notFound) (heartbeatFound s n b.kvs found) with ⟨hg, e'⟩ | ⟨hg, hn, e'⟩
    · rw [e'] at e; cases e; exact .err h rfl trivial
    rw [e'] at e
    obtain ⟨f, hf⟩ := h.r.chans
    unfold heartbeatFound at e
    split at e
    · rename_i c0 l hl
      cases l with
      | nil => cases e; exact .err h rfl trivial
      | cons x l =>
        cases found with
        | false => cases e; exact .err h rfl trivial
        | true =>
          cases e
          exact .same h rfl (fun _ => ⟨by rw [limit_eq h.r]; exact hg, rfl, rfl, b, rfl, exact_found hf hn hk hl List.mem_cons_self⟩)
    · cases e

/-- Every request. -/
theorem handle_good {s s' : St} {m : Map} {B : Int} (h : WInv s m B) {r : Req} (hw : WellTyped s.q.rule r) (ht : Tame m r)
    (hB : B + amountOf r < 2 ^ 63) {o : Reply} (e : handle s r = (some s', o)) (hi : RInv s' (RequestsSpec.mapStep m r) (B + amountOf r)) : Good s m r s' o := by
  have nq : queueReq? r = none → RInv s' m B := fun hq => by rw [mapStep_none hq, amountOf_none hq, Int.add_zero] at hi; exact hi
  cases r with
  | create b up => exact create_good h hw ht hB e hi
  | list => exact read_good h (.inl ⟨rfl, rfl⟩) hw ht hB e hi
  | get n => exact read_good h (.inr (.inl ⟨n, rfl, rfl⟩)) hw ht hB e hi
  | update n b upQ up => exact update_good h hw ht hB e hi
  | delete n upC upQ up => exact delete_good h ht hB e hi
  | channelQuery n q => exact channelQuery_good h e
  | channelDelete n kvs complete up => exact channelDelete_good h hw e (nq rfl)
  | enqueue n b admit => exact enqueue_good h hw e (nq rfl)
  | dequeue n q pick admit => exact dequeue_good h e (nq rfl)
  | ack n b res => exact ack_good h hw e (nq rfl)
  | heartbeat n b found => exact heartbeat_good h hw e
  | other op => exact read_good h (.inr (.inr ⟨op, rfl, rfl⟩)) hw ht hB e hi

/-- The queues that a request does not name keep their limits. -/
theorem mapStep_other (m : Map) {r : Req} {b : GoString} (hb : namedBy r ≠ some b) : (RequestsSpec.mapStep m r).get? b = m.get? b := by
  unfold RequestsSpec.mapStep
  cases hq : queueReq? r with
  | none => rfl
  | some q =>
    simp only
    unfold queueReq? at hq
    split at hq
    · rename_i n l up
      split at hq
      · cases hq
      · cases hq
        have hbn : b ≠ n := fun e => hb (by rw [e]; rfl)
        simp only [QueuesSpec.specStep]
        split
        · rfl
        · rename_i hg
          split
          · rw [get?_append hg, if_neg hbn]
          · rfl
    · cases hq; rfl
    · cases hq; simp only [QueuesSpec.specStep]; split <;> rfl
    · rename_i n l upQ up
      cases hq
      have hbn : b ≠ n := fun e => hb (by rw [e]; rfl)
      simp only [QueuesSpec.specStep]
      split
      · rename_i hg
        split
        · rw [get?_set (by rw [hg]; simp), if_neg hbn]
        · rfl
      · rfl
    · rename_i n _ upQ up
      cases hq
      have hbn : b ≠ n := fun e => hb (by rw [e]; rfl)
      simp only [QueuesSpec.specStep]
      split
      · split
        · rw [get?_del, if_neg hbn]
        · rfl
      · rfl
    · cases hq; rfl
    · cases hq

/-- The invariant is kept. -/
theorem handle_world {s : St} {m : Map} {B : Int} (h : WInv s m B) {r : Req} (hw : WellTyped s.q.rule r) (ht : Tame m r) (hB : B + amountOf r < 2 ^ 63) :
    ∃ s' o, handle s r = (some s', o) ∧ Answered o ∧ WInv s' (RequestsSpec.mapStep m r) (B + amountOf r) ∧ s'.q.rule = s.q.rule ∧
      (¬ IsError o → Does (worldOf s) r o (worldOf s')) ∧
      ∀ b, namedBy r ≠ some b → (worldOf s').limit b = (worldOf s).limit b ∧ (worldOf s').chans b = (worldOf s).chans b := by
  obtain ⟨s', o, e, ha, hi, hr⟩ := handle_fine h.r hw ht hB
  have hg := handle_good h hw ht hB e hi
  exact ⟨s', o, e, ha, ⟨hi, hg.refs, hg.orphan⟩, hr, hg.does, fun b hb => ⟨by rw [limit_eq hi, limit_eq h.r, mapStep_other m hb], hg.others b hb⟩⟩

theorem run_world : ∀ {rs : List Req} {s : St} {m : Map} {B : Int}, WInv s m B → TameRun s.q.rule m rs → B + amountsOf rs < 2 ^ 63 →
    ∃ s' os, run s rs = (some s', os) ∧ WInv s' (mapRun m rs) (B + amountsOf rs) ∧ s'.q.rule = s.q.rule
  | [], s, m, B, h, _, _ => ⟨s, [], rfl, by simpa [amountsOf, mapRun] using h, rfl⟩
  | r :: rs, s, m, B, h, ht, hB => by
    have e : amountsOf (r :: rs) = amountOf r + amountsOf rs := by simp [amountsOf]
    have := amountsOf_nonneg rs
    obtain ⟨s1, o, a1, a2, a3, a4, _⟩ := handle_world h ht.1 ht.2.1 (by omega)
    obtain ⟨s2, os, b1, b4, b5⟩ := run_world a3 (by rw [a4]; exact ht.2.2) (by omega)
    refine ⟨s2, o :: os, by simp only [run, a1, b1], ?_, by rw [b5, a4]⟩
    rw [e, ← Int.add_assoc]; exact b4

theorem start_world {lim : Limiter.State Key} {B : Int} (h : Limiter.LInv lim B) {s : St} (hs : start lim = some s) : WInv s [] B := by
  have hi := start_inv h hs
  unfold start at hs
  obtain ⟨q, _, rfl⟩ := Option.map_eq_some_iff.1 hs
  have hit : ∀ n, itemsOf ([] : OTM.Tree Key Nat) n = [] := fun n => rfl
  refine ⟨hi, ⟨fun n r hr => ?_, fun n => ?_, fun n b _ r hr => ?_⟩, fun n _ => hit n⟩
  · simp [refsOf, hit] at hr
  · show (refsOf [] n).Nodup; simp [refsOf, hit]
  · simp [refsOf, hit] at hr

theorem unchanged_world {s s' : St} (h : Unchanged s s') : worldOf s' = worldOf s := by
  have e1 : queueOf s' = queueOf s := funext h.1
  have e2 : channelsOf s' = channelsOf s := funext h.2
  unfold worldOf
  rw [e1, e2]

/-- What a request that is answered with an error does. -/
theorem handle_fails {s s' : St} {m : Map} {B : Int} (h : WInv s m B) {r : Req} (hw : WellTyped s.q.rule r) (ht : Tame m r)
    (hB : B + amountOf r < 2 ^ 63) {o : Reply} (e : handle s r = (some s', o)) (hi : RInv s' (RequestsSpec.mapStep m r) (B + amountOf r)) (he : IsError o) :
    Fails (worldOf s) r (worldOf s') := by
  by_cases hdel : ∃ n upC upQ up, r = .delete n upC upQ up
  · obtain ⟨n, upC, upQ, up, rfl⟩ := hdel
    right
    show worldOf s' = (worldOf s).setChans n []
    have hq : queueReq? (.delete n upC upQ up) = some (.delete n upQ up) := rfl
    have hms : RequestsSpec.mapStep m (.delete n upC upQ up) = (QueuesSpec.specStep m (.delete n upQ up)).1 := rfl
    rcases onQueue_spec h.r n (.answer .ok) (deleteFound s n upC upQ up) with ⟨hg, e'⟩ | ⟨hg, hn, e'⟩
    · have e2 : handle s (.delete n upC upQ up) = (some s, .answer .ok) := e'
      rw [e2] at e
      cases e
      exact absurd he (fun h => h)
    · have hup : upC = true := ht.2.resolve_left hg
      subst hup
      obtain ⟨c, ec, hc, hcn, hco⟩ := destroyChannels_spec h.r.chans hn
      have h' : RInv { s with chans := c } m B := ⟨h.r.q, hc, h.r.pos, h.r.named⟩
      obtain ⟨q', out, e2, _, hsame, _⟩ := queueReq_spec h' (r := .delete n upQ up) trivial (ht.1 _ hq) hB (by simp)
      have e3 : handle s (.delete n true upQ up) = (some { s with q := q', chans := c }, .answer out) := by
        show delete s n true upQ up = _
        unfold delete
        rw [e']
        simp only [deleteFound, ec]
        exact e2
      rw [e3] at e
      cases e
      have hin : itemsOf c n = [] := by unfold itemsOf; rw [hcn]; rfl
      rw [hms, specStep_error hsame he] at hi
      refine setChans_world h.r hi (fun b hb => ?_) (channelsOf_nil hin)
      rw [channelsOf_eq, channelsOf_eq]
      show List.map _ (itemsOf c b) = _
      rw [itemsOf_rel (hco b hb)]
  · by_cases hcd : ∃ n kvs c up, r = .channelDelete n kvs c up ∧ ¬ (c = true ∧ validKVs false kvs = true)
    · obtain ⟨n, kvs, complete, up, rfl, hbad⟩ := hcd
      rw [mapStep_none rfl, amountOf_none rfl, Int.add_zero] at hi
      have hbad' : (complete && validKVs false kvs) = false := by
        rw [Bool.and_eq_false_iff]
        cases complete with
        | false => exact .inl rfl
        | true => exact .inr (by simpa using hbad)
      have e1 : channelDelete s n kvs complete up = (some s', o) := e
      unfold channelDelete at e1
      rcases onQueue_spec h.r n (if complete && validKVs false kvs then .answer .notFound else .rejected)
          (deleteChannel s n kvs up (if complete && validKVs false kvs then .answer .ok else .rejected)) with ⟨hg, e'⟩ | ⟨hg, hn, e'⟩
      · rw [e'] at e1
        cases e1
        exact .inl rfl
      · right
        refine ⟨Bool.and_eq_false_iff.1 hbad', ?_⟩
        rw [e'] at e1
        unfold deleteChannel at e1
        split at e1
        case isFalse => cases e1
        rename_i hv
        have key : ∀ c out, OTM.deleteByKeyValues s.chans n (kvsOf kvs) (some (fun _ => true)) = some (c, out) →
            s' = { s with chans := c } → worldOf s' = (worldOf s).setChans n (drop (kvsOf kvs) ((worldOf s).chans n)) := by
          intro c out hd hs
          subst hs
          obtain ⟨f, hf⟩ := h.r.chans
          obtain ⟨d1, d2⟩ := delete_items hf hn (kvsOf_valid hv hw.2) hd
          exact setChans_world h.r hi (fun b hb => channelsOf_other (d1 b hb)) (channelsOf_filter d2 (fun i => by simp [chanOf]))
        split at e1
        · cases e1
        · rename_i c i hd
          split at e1
          · cases e1; exact key c _ hd rfl
          · cases e1
        · rename_i c hd
          cases e1; exact key c _ hd rfl
        · cases e1
    · left
      exact unchanged_world (handle_error h.r hw ht hB e he (fun n upC upQ up hr => hdel ⟨n, upC, upQ, up, hr⟩)
        (fun n kvs c up hr => Classical.byContradiction fun hx => hcd ⟨n, kvs, c, up, hr, hx⟩))

theorem run_runs : ∀ {rs : List Req} {s : St} {m : Map} {B : Int}, WInv s m B → TameRun s.q.rule m rs → B + amountsOf rs < 2 ^ 63 →
    ∃ s' os, run s rs = (some s', os) ∧ Runs (worldOf s) rs os (worldOf s')
  | [], s, m, B, _, _, _ => ⟨s, [], rfl, .nil _⟩
  | r :: rs, s, m, B, h, ht, hB => by
    have e : amountsOf (r :: rs) = amountOf r + amountsOf rs := by simp [amountsOf]
    have := amountsOf_nonneg rs
    obtain ⟨s1, o, a1, a2, a3, a4, a5, _⟩ := handle_world h ht.1 ht.2.1 (by omega)
    obtain ⟨s2, os, b1, b2⟩ := run_runs a3 (by rw [a4]; exact ht.2.2) (by omega)
    refine ⟨s2, o :: os, by simp only [run, a1, b1], ?_⟩
    by_cases he : IsError o
    · exact .error (handle_fails h ht.1 ht.2.1 (by omega) a1 a3.r he) he b2
    · exact .ok (a5 he) he b2

end Willow.Requests

/-! ### Counting items -/
namespace Willow.WorldSpec
open Willow Willow.Assoc Willow.Spec Willow.Queues Willow.Requests Willow.RequestsSpec

theorem waiting_put (kvs : KVs Key) (t t' : Int) : ∀ cs, waiting t (put kvs t' cs) = waiting t cs + (if t' = t then 1 else 0)
  | [] => by simp [put, waiting, List.count_cons]
  | c :: cs => by
    unfold put
    split
    · simp only [waiting, List.map_cons, List.sum_cons, List.count_append, List.count_cons, List.count_nil, beq_iff_eq, Nat.zero_add]
      omega
    · have := waiting_put kvs t t' cs
      simp only [waiting, List.map_cons, List.sum_cons] at this ⊢
      omega

theorem waiting_takes {cs cs' : List Channel} {kvs : KVs Key} {t t' : Int} (h : Takes cs kvs t' cs') : waiting t cs = waiting t cs' + (if t' = t then 1 else 0) := by
  obtain ⟨pre, ts, post, rfl, rfl⟩ := h
  simp only [waiting, List.map_append, List.map_cons, List.sum_append, List.sum_cons, List.count_cons, beq_iff_eq]
  omega

theorem waiting_filter (t : Int) (p : Channel → Bool) : ∀ cs : List Channel, waiting t (cs.filter p) ≤ waiting t cs
  | [] => Nat.le_refl _
  | c :: cs => by
    have := waiting_filter t p cs
    rw [List.filter_cons]
    split <;> simp only [waiting, List.map_cons, List.sum_cons] at this ⊢ <;> omega

theorem waiting_filter_empty (t : Int) (p : Channel → Bool) : ∀ cs : List Channel, (∀ c ∈ cs, p c = false → c.2 = []) → waiting t (cs.filter p) = waiting t cs
  | [], _ => rfl
  | c :: cs, h => by
    have := waiting_filter_empty t p cs (fun c hc => h c (by simp [hc]))
    rw [List.filter_cons]
    split
    · simp only [waiting, List.map_cons, List.sum_cons] at this ⊢; omega
    · rename_i hp
      have := h c (by simp) (by simpa using hp)
      simp only [waiting, List.map_cons, List.sum_cons, this, List.count_nil] at *; omega

theorem setChans_same (w : World) (n : GoString) (cs : List Channel) : (w.setChans n cs).chans n = cs := by simp [World.setChans]
theorem setChans_ne (w : World) {n b : GoString} (cs : List Channel) (h : b ≠ n) : (w.setChans n cs).chans b = w.chans b := by simp [World.setChans, h]

/-- One request that succeeds. -/
theorem count_does {w w' : World} {r : Requests.Req} {o : Reply} (n : GoString) (t : Int) (h : Does w r o w') (ho : ¬ IsError o) :
    waiting t (w'.chans n) + gave n t r o ≤ waiting t (w.chans n) + got n t r o ∧
      (¬ Destroys n r → waiting t (w'.chans n) + gave n t r o = waiting t (w.chans n) + got n t r o) := by
  have key : waiting t (w'.chans n) = waiting t (w.chans n) → gave n t r o = 0 → got n t r o = 0 →
      waiting t (w'.chans n) + gave n t r o ≤ waiting t (w.chans n) + got n t r o ∧
      (¬ Destroys n r → waiting t (w'.chans n) + gave n t r o = waiting t (w.chans n) + got n t r o) := by
    intro h1 h2 h3; rw [h1, h2, h3]; exact ⟨Nat.le_refl _, fun _ => rfl⟩
  cases r with
  | create b up => obtain ⟨_, _, _, _, rfl, rfl⟩ := h; exact key rfl rfl rfl
  | list => obtain ⟨rfl, _, rfl, _⟩ := h; exact key rfl rfl rfl
  | get a => obtain ⟨rfl, _, _, rfl⟩ := h; exact key rfl rfl rfl
  | update a b upQ up => obtain ⟨_, _, _, rfl, rfl⟩ := h; exact key rfl rfl rfl
  | delete a upC upQ up =>
    obtain ⟨rfl, rfl⟩ := h
    by_cases e : n = a
    · subst e
      rw [setChans_same]
      exact ⟨by simp [waiting, gave, got], fun hd => absurd rfl hd⟩
    · refine key ?_ rfl rfl
      rw [setChans_ne _ _ e]; rfl
  | channelQuery a q => obtain ⟨rfl, _, rfl, _⟩ := h; exact key rfl rfl rfl
  | channelDelete a kvs c up =>
    obtain ⟨_, rfl, rfl⟩ := h
    by_cases e : n = a
    · subst e
      rw [setChans_same]
      exact ⟨by have := waiting_filter t (fun c => !sameKVs (kvsOf kvs) c.1) (w.chans n); simpa [drop, gave, got] using this, fun hd => absurd rfl hd⟩
    · exact key (by rw [setChans_ne _ _ e]) rfl rfl
  | enqueue a b admit =>
    obtain ⟨_, rfl, kvs, p, t', rfl, hp, rfl⟩ := h
    by_cases e : n = a
    · subst e
      rw [setChans_same, waiting_put]
      simp [gave, got, hp]
    · exact key (by rw [setChans_ne _ _ e]) rfl (by simp [got, Ne.symm e])
  | dequeue a q pick admit =>
    obtain ⟨_, kvs, t', cs, rfl, hk, rfl, _⟩ := h
    by_cases e : n = a
    · subst e
      rw [setChans_same, waiting_takes (t := t) hk]
      simp [gave, got]
    · exact key (by rw [setChans_ne _ _ e]) (by simp [gave, Ne.symm e]) rfl
  | ack a b res =>
    obtain ⟨_, rfl, ref, rfl, _, hk⟩ := h
    rcases hk with ⟨_, rfl⟩ | ⟨_, rfl⟩
    · exact key rfl rfl rfl
    · by_cases e : n = a
      · subst e
        refine key ?_ rfl rfl
        rw [setChans_same]
        refine waiting_filter_empty t _ _ (fun c _ hc => ?_)
        simp only [Bool.not_eq_false', Bool.and_eq_true, List.isEmpty_iff] at hc
        exact hc.2
      · exact key (by rw [setChans_ne _ _ e]) rfl rfl
  | heartbeat a b found => obtain ⟨_, rfl, rfl, _⟩ := h; exact key rfl rfl rfl
  | other op => cases h; exact key rfl rfl (by cases o <;> rfl)

/-- One request that fails. -/
theorem count_fails {w w' : World} {r : Requests.Req} {o : Reply} (n : GoString) (t : Int) (h : Fails w r w') (ho : IsError o) :
    waiting t (w'.chans n) + gave n t r o ≤ waiting t (w.chans n) + got n t r o ∧
      (¬ Destroys n r → waiting t (w'.chans n) + gave n t r o = waiting t (w.chans n) + got n t r o) := by
  have h1 : gave n t r o = 0 := by cases r <;> cases o <;> simp_all [gave, IsError]
  have h2 : got n t r o = 0 := by
    cases r <;> try rfl
    cases o with
    | answer o => cases o <;> simp_all [got, IsError]
    | _ => simp_all [got, IsError]
  rw [h1, h2]
  rcases h with rfl | h
  · exact ⟨Nat.le_refl _, fun _ => rfl⟩
  · cases r with
    | delete a upC upQ up =>
      have h' : w' = w.setChans a [] := h
      subst h'
      by_cases e : n = a
      · subst e
        rw [setChans_same]
        exact ⟨by simp [waiting], fun hd => absurd rfl hd⟩
      · rw [setChans_ne _ _ e]; exact ⟨Nat.le_refl _, fun _ => rfl⟩
    | channelDelete a kvs c up =>
      obtain ⟨_, rfl⟩ := h
      by_cases e : n = a
      · subst e
        rw [setChans_same]
        exact ⟨waiting_filter t _ _, fun hd => absurd rfl hd⟩
      · rw [setChans_ne _ _ e]; exact ⟨Nat.le_refl _, fun _ => rfl⟩
    | _ => exact absurd h (fun h => h)

/-- A history. -/
theorem count_runs (n : GoString) (t : Int) {w w' : World} {rs : List Requests.Req} {os : List Reply} (h : Runs w rs os w') :
    waiting t (w'.chans n) + delivered n t rs os ≤ waiting t (w.chans n) + accepted n t rs os ∧
      ((∀ r ∈ rs, ¬ Destroys n r) → waiting t (w'.chans n) + delivered n t rs os = waiting t (w.chans n) + accepted n t rs os) := by
  induction h with
  | nil w => exact ⟨Nat.le_refl _, fun _ => rfl⟩
  | ok hd ho hr ih =>
    have h1 := count_does n t hd ho
    simp only [delivered, accepted]
    refine ⟨by omega, fun hx => ?_⟩
    have a := h1.2 (hx _ (by simp))
    have b := ih.2 (fun r hr => hx r (by simp [hr]))
    omega
  | error hd ho hr ih =>
    have h1 := count_fails n t hd ho
    simp only [delivered, accepted]
    refine ⟨by omega, fun hx => ?_⟩
    have a := h1.2 (hx _ (by simp))
    have b := ih.2 (fun r hr => hx r (by simp [hr]))
    omega

end Willow.WorldSpec
