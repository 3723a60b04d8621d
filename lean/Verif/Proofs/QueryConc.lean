import Verif.Proofs.QueryConcProg
import Verif.Proofs.MatchConc
/-! Queries while items come and go: C95. -/
namespace Willow.QueryConc
open Willow.AssocConc (St Step Item Event Inv Call Thread Sorted)
open Willow.Assoc (Query Selection ValueQuery GSet FindState KVs treeHolds inBounds)
open Willow.Spec (everywhere queryHolds Asks IsEmptyQuery)
open Willow.BTree (LawfulKey)
open Willow.MatchConc (get_set get_append map_set_same)

variable {K A : Type}

/-! ### The index -/

theorem move_index [DecidableEq K] {s s' : St K A} {t : Nat} {th : Thread K A} (hm : AssocConc.Move s t th s') (p : GoString × K) (h : s.index p ≠ none) (h' : s'.index p ≠ none) :
    s'.index p = s.index p := by
  cases hm with
  | touchNew hp hx =>
    simp only [St.to]
    split
    next e => subst e; exact absurd hx h
    · rfl
  | clean hp hx he hc =>
    simp only [St.to] at h' ⊢
    split at h'
    next => exact absurd rfl h'
    next e => rw [if_neg e]
  | wipe hp hc hit hq hx ho hindex =>
    simp only [St.to] at h' ⊢
    rcases hindex with e | ⟨e, _⟩
    · rw [e]
    · rw [e] at h' ⊢
      simp only at h' ⊢
      split at h'
      next => exact absurd rfl h'
      next e => rw [if_neg e]
  | _ => rfl

theorem step_index [DecidableEq K] {blocks : (Nat → Option (Item K A)) → Nat → Nat → Bool} {s s' : St K A} {e : Option (Event K A)} (hi : Inv s) (hs : Step blocks s e s') (p : GoString × K)
    (h : s.index p ≠ none) (h' : s'.index p ≠ none) : s'.index p = s.index p := by
  cases hs with
  | call c hok => rfl
  | go t pick th ht hn => exact move_index (AssocConc.next_move hi ht hn) p h h'
  | ret t th r kept ht hr hp => rfl

/-- The pairs of an item that is there have an ID node. -/
theorem present_index {s : St K A} (hi : Inv s) {id : Nat} {it : Item K A} (h : s.item id = some it) (hd : id ∉ s.destroying) {p : GoString × K} (hp : p ∈ it.kvs) : s.index p ≠ none := by
  intro e
  have := MatchConc.present_indexed hi h hd hp
  rw [AssocConc.content_none e] at this
  cases this

/-- The item of an id has these claims. -/
theorem item_claim {s : St K A} (hi : Inv s) {id : Nat} {it : Item K A} (h : s.item id = some it) {p : GoString × K} (hp : p ∈ it.kvs) : s.Claim id p it.kvs.length := by
  refine ⟨(hi.cont.itm id it h).1, ?_, ?_⟩
  · intro it' h'; rw [h] at h'; cases h'; exact ⟨hp, rfl⟩
  · intro u th hu hm
    have := (hi.cont.mak u th id hu hm).2.1
    rw [h] at this; cases this

/-! ### What can be known about an id -/

/-- An item with these key-values is not ruled out for the id. -/
def Can (s : St K A) (id : Nat) (kvs : KVs K) : Prop := Sorted kvs ∧ kvs ≠ [] ∧ ∀ p n, s.Claim id p n → p ∈ kvs ∧ kvs.length = n

theorem Can.item {s : St K A} (hi : Inv s) {id : Nat} {it : Item K A} (h : s.item id = some it) : Can s id it.kvs :=
  ⟨(hi.cont.itm id it h).2.2, (hi.cont.itm id it h).2.1, fun _ _ hc => hc.2.1 it h⟩

theorem Can.back [DecidableEq K] {blocks : (Nat → Option (Item K A)) → Nat → Nat → Bool} {s s' : St K A} {e : Option (Event K A)} (hi : Inv s) (hs : Step blocks s e s') {id : Nat} {kvs : KVs K}
    (h : Can s' id kvs) : Can s id kvs :=
  ⟨h.1, h.2.1, fun p n hc => h.2.2 p n (MatchConc.claim_step hi hs hc)⟩

theorem Can.same {s : St K A} (hi : Inv s) {id : Nat} {it : Item K A} {kvs : KVs K} (h : s.item id = some it) (hc : Can s id kvs) : it.kvs = kvs := by
  obtain ⟨_, hne, hs⟩ := hi.cont.itm id it h
  have hall := fun p hp => hc.2.2 p _ (item_claim hi h hp)
  obtain ⟨p, hp⟩ := List.exists_mem_of_ne_nil _ hne
  exact (AssocConc.Sorted.eq_of_subset hs hc.1 (fun p hp => (hall p hp).1) (hall p hp).2).symm

section
variable [LawfulKey K]

theorem sorted_keys {kvs : KVs K} (h : Sorted kvs) : (kvs.map (·.1)).Nodup := by
  rw [List.Nodup, List.pairwise_map]
  refine List.Pairwise.imp ?_ h
  intro a b hab e
  rw [e, strLt_irrefl] at hab; cases hab

theorem hits_of_mem {q : Search K} {kvs : KVs K} (hs : Sorted kvs) {p : GoString × K} (hp : p ∈ kvs) (hc : q.covers p = true) (hb : inBounds q.min q.max kvs.length = true) : q.hits kvs = true := by
  unfold Search.hits
  unfold Search.covers at hc
  rw [hb, Bool.true_and]
  split
  · rfl
  next kq e =>
    rw [e] at hc
    simp only [Bool.and_eq_true, beq_iff_eq] at hc
    unfold treeHolds
    rw [← hc.1, Assoc.valueOf_of_mem (sorted_keys hs) hp]
    exact hc.2

theorem mem_of_hits {q : Search K} {kvs : KVs K} (hne : kvs ≠ []) (h : q.hits kvs = true) : inBounds q.min q.max kvs.length = true ∧ ∃ p ∈ kvs, q.covers p = true := by
  unfold Search.hits at h
  rw [Bool.and_eq_true] at h
  refine ⟨h.1, ?_⟩
  have h2 := h.2
  cases hk : q.key with
  | none =>
    obtain ⟨p, hp⟩ := List.exists_mem_of_ne_nil _ hne
    exact ⟨p, hp, by simp [Search.covers, hk]⟩
  | some kq =>
    rw [hk] at h2
    simp only [treeHolds] at h2
    split at h2
    next v e =>
      refine ⟨(kq.1, v), Assoc.valueOf_mem e, ?_⟩
      simp [Search.covers, hk, h2]
    · cases h2

/-! ### Where a query is, as far as one item is concerned -/

/-- What is known about an item: an item like this is not ruled out for its id; and if `full`, it is there. -/
def Facts (full : Prop) (id : Nat) (it : Item K A) (s : St K A) : Prop := Can s id it.kvs ∧ (full → s.item id = some it ∧ id ∉ s.destroying)

/-- Where a query is, as far as one item is concerned.  `ix`: the index now. -/
def Ok (full : Prop) (id : Nat) (it : Item K A) (ix : GoString × K → Option Nat) (x : Job K A) : Phase K A → Prop
  | .think p => p.All (SOk full id it.kvs) (LOk full id it.kvs) (fun r => ∃ g, r = some g ∧ g.Nodup ∧ About full id g (queryHolds (idOk id) it.kvs x.query))
  | .search q start seen ids k => (id ∈ ids → q.hits it.kvs = true) ∧
      (full → ∀ p ∈ it.kvs, q.covers p = true → start p ≠ none ∧ ix p = start p ∧ (p ∈ seen → inBounds q.min q.max it.kvs.length = true → id ∈ ids)) ∧
      ∀ ids', SOk full id it.kvs q ids' →
        (k ids').All (SOk full id it.kvs) (LOk full id it.kvs) (fun r => ∃ g, r = some g ∧ g.Nodup ∧ About full id g (queryHolds (idOk id) it.kvs x.query))
  | .visit ids got => (id ∈ ids ∨ id ∈ got.map (·.1) → queryHolds (idOk id) it.kvs x.query = true) ∧ (full → queryHolds (idOk id) it.kvs x.query = true → id ∈ ids ∨ (id, it) ∈ got)
  | .scan start got => queryHolds (idOk id) it.kvs x.query = true ∧ (full → start id ≠ none ∧ (id ∈ got.map (·.1) → (id, it) ∈ got))
  | .done got => (id ∈ got.map (·.1) → queryHolds (idOk id) it.kvs x.query = true) ∧
      (full → queryHolds (idOk id) it.kvs x.query = true → (id, it) ∈ got ∨ ∃ y ∈ got, x.more y.2.val = false)
  | .panicked => False

variable {full : Prop} {id : Nat} {it : Item K A}

theorem Ok.begin {s : St K A} {ix : GoString × K → Option Nat} {x : Job K A} (hx : everywhere (SelFine full) Asks x.query) (ha : IsEmptyQuery x.query ∨ Asks x.query) (hf : Facts full id it s) :
    Ok full id it ix x (start s x.query) := by
  unfold start
  split
  next h =>
    obtain ⟨q, more, ph, r⟩ := x
    obtain ⟨sel, or, and, nl⟩ := q
    simp only [selectsAll] at h
    split at h
    next e =>
      cases e
      refine ⟨by simp [queryHolds, Spec.allHold, Option.all], fun hfu => ⟨by rw [(hf.2 hfu).1]; simp, fun h => by cases h⟩⟩
    · cases h
  next h =>
    refine prog_all hx (ha.resolve_left ?_)
    intro he
    apply h
    obtain ⟨q, more, ph, r⟩ := x
    obtain ⟨sel, or, and, nl⟩ := q
    obtain ⟨rfl, rfl, rfl, rfl⟩ := he
    rfl

theorem Ok.search {s : St K A} (hi : Inv s) (hf : Facts full id it s) {x : Job K A} {q : Search K} {k : List Nat → Prog K} (h : Ok full id it s.index x (.think (.search q k))) :
    Ok full id it s.index x (.search q s.index [] [] k) := by
  refine ⟨fun h => (by cases h), fun hfu p hp _ => ⟨present_index hi (hf.2 hfu).1 (hf.2 hfu).2 hp, rfl, fun h => by cases h⟩, ?_⟩
  exact h

theorem Ok.node {s : St K A} (hi : Inv s) (hf : Facts full id it s) {x : Job K A} {q : Search K} {start : GoString × K → Option Nat} {seen : List (GoString × K)} {ids : List Nat}
    {k : List Nat → Prog K} {p : GoString × K} {ph : Phase K A} (h : Ok full id it s.index x (.search q start seen ids k)) (hc : q.covers p = true)
    (hn : nextNode s q start seen ids k p = some ph) : Ok full id it s.index x ph := by
  unfold nextNode at hn
  split at hn
  · cases hn
  next i hx =>
    split at hn
    · cases hn
    · cases hn
      obtain ⟨h1, h2, h3⟩ := h
      refine ⟨fun hid => ?_, fun hfu p' hp' hc' => ?_, h3⟩
      · rcases List.mem_append.1 hid with hid | hid
        · exact h1 hid
        · obtain ⟨n, hb, hm⟩ := Assoc.mem_nodeIds.1 hid
          rw [MatchConc.node_content hx] at hm
          obtain ⟨hp, hl⟩ := hf.1.2.2 p (n + 1) (hi.claim (by omega) hm)
          exact hits_of_mem hf.1.1 hp hc (by rw [hl]; exact hb)
      · obtain ⟨g1, g2, g3⟩ := h2 hfu p' hp' hc'
        refine ⟨g1, g2, fun hs hb => ?_⟩
        rcases List.mem_cons.1 hs with e | hs
        · subst e
          refine List.mem_append_right _ (Assoc.mem_nodeIds.2 ⟨it.kvs.length - 1, ?_, ?_⟩)
          · have hl : 1 ≤ it.kvs.length := List.length_pos_iff.2 hf.1.2.1
            rw [Nat.sub_add_cancel hl]; exact hb
          · have hl : 1 ≤ it.kvs.length := List.length_pos_iff.2 hf.1.2.1
            rw [MatchConc.node_content hx, Nat.sub_add_cancel hl]
            exact MatchConc.present_indexed hi (hf.2 hfu).1 (hf.2 hfu).2 hp'
        · exact List.mem_append_left _ (g3 hs hb)

theorem Ok.found {s : St K A} (hf : Facts full id it s) {x : Job K A} {q : Search K} {start : GoString × K → Option Nat} {seen : List (GoString × K)} {ids : List Nat}
    {k : List Nat → Prog K} (h : Ok full id it s.index x (.search q start seen ids k))
    (hall : ∀ p, q.covers p = true → start p ≠ none → s.index p = start p → p ∈ seen) : Ok full id it s.index x (.think (k ids)) := by
  obtain ⟨h1, h2, h3⟩ := h
  refine h3 ids ⟨h1, fun hfu hh => ?_⟩
  obtain ⟨hb, p, hp, hc⟩ := mem_of_hits hf.1.2.1 hh
  obtain ⟨g1, g2, g3⟩ := h2 hfu p hp hc
  exact g3 (hall p hc g1 g2) hb

theorem Ok.lookup {blocks : (Nat → Option (Item K A)) → Nat → Nat → Bool} {s : St K A} (hi : Inv s) (hf : Facts full id it s) {x : Job K A} {id' : Nat} {k : Option (KVs K) → Prog K}
    {o : Option (KVs K)} (h : Ok full id it s.index x (.think (.lookup id' k))) (ho : lookAt blocks s id' = some o) : Ok full id it s.index x (.think (k o)) := by
  refine h o ?_
  rintro rfl
  unfold lookAt at ho
  refine ⟨fun kvs' e => ?_, fun hfu => ?_⟩
  · subst e
    split at ho
    · cases ho
    · split at ho
      · cases ho
      · cases hx : s.item id' with
        | none => rw [hx] at ho; cases ho
        | some it' => rw [hx] at ho; cases ho; exact hf.1.same hi hx
  · obtain ⟨h1, h2⟩ := hf.2 hfu
    rw [if_neg h2, h1] at ho
    split at ho
    · cases ho
    · cases ho; rfl

theorem Ok.eval {ix : GoString × K → Option Nat} {x : Job K A} {g : GSet} {ids : List Nat} (h : Ok full id it ix x (.think (.ret (some g)))) (hp : ids.Perm g) : Ok full id it ix x (.visit ids []) := by
  obtain ⟨g', e, _, h1, h2⟩ := h
  cases e
  refine ⟨fun h => ?_, fun hfu hh => Or.inl (hp.mem_iff.2 (h2 hfu hh))⟩
  rcases h with h | h
  · exact h1 (hp.mem_iff.1 h)
  · cases h

theorem Ok.report {s : St K A} (hf : Facts full id it s) {x : Job K A} {id' : Nat} {it' : Item K A} {rest : List Nat} {got : List (Nat × Item K A)}
    (h : Ok full id it s.index x (.visit (id' :: rest) got)) (hit : s.item id' = some it') : Ok full id it s.index x (afterReport x.more id' it' rest got) := by
  obtain ⟨h1, h2⟩ := h
  have k1 : id ∈ rest ∨ id ∈ (got ++ [(id', it')]).map (·.1) → queryHolds (idOk id) it.kvs x.query = true := by
    intro h
    simp only [List.map_append, List.mem_append, List.map_cons, List.map_nil, List.mem_singleton] at h
    apply h1
    rcases h with h | h | h
    · exact Or.inl (List.mem_cons_of_mem _ h)
    · exact Or.inr h
    · exact Or.inl (h ▸ List.mem_cons_self)
  have k2 : full → queryHolds (idOk id) it.kvs x.query = true → id ∈ rest ∨ (id, it) ∈ got ++ [(id', it')] := by
    intro hfu hh
    rcases h2 hfu hh with h | h
    · rcases List.mem_cons.1 h with e | h
      · subst e
        have := (hf.2 hfu).1
        rw [hit] at this; cases this
        exact Or.inr (by simp)
      · exact Or.inl h
    · exact Or.inr (List.mem_append_left _ h)
  unfold afterReport
  split
  · exact ⟨k1, k2⟩
  next hm => exact ⟨fun h => k1 (Or.inr h), fun _ _ => Or.inr ⟨(id', it'), by simp, by simpa using hm⟩⟩

theorem Ok.miss {s : St K A} (hf : Facts full id it s) {x : Job K A} {id' : Nat} {rest : List Nat} {got : List (Nat × Item K A)} (h : Ok full id it s.index x (.visit (id' :: rest) got))
    (hm : id' ∈ s.destroying ∨ s.item id' = none) : Ok full id it s.index x (.visit rest got) := by
  obtain ⟨h1, h2⟩ := h
  refine ⟨fun h => h1 (h.imp_left (List.mem_cons_of_mem _)), fun hfu hh => ?_⟩
  rcases h2 hfu hh with h | h
  · rcases List.mem_cons.1 h with e | h
    · subst e
      obtain ⟨g1, g2⟩ := hf.2 hfu
      rcases hm with hm | hm
      · exact absurd hm g2
      · rw [g1] at hm; cases hm
    · exact Or.inl h
  · exact Or.inr h

theorem Ok.finish {ix : GoString × K → Option Nat} {x : Job K A} {got : List (Nat × Item K A)} (h : Ok full id it ix x (.visit [] got)) : Ok full id it ix x (.done got) := by
  obtain ⟨h1, h2⟩ := h
  refine ⟨fun h => h1 (Or.inr h), fun hfu hh => Or.inl ?_⟩
  rcases h2 hfu hh with h | h
  · cases h
  · exact h

theorem Ok.scan {s : St K A} (hf : Facts full id it s) {x : Job K A} {start : Nat → Option (Item K A)} {id' : Nat} {it' : Item K A} {got : List (Nat × Item K A)}
    (h : Ok full id it s.index x (.scan start got)) (hit : s.item id' = some it') : Ok full id it s.index x (afterScan x.more start id' it' got) := by
  obtain ⟨h1, h2⟩ := h
  have k2 : full → id ∈ (got ++ [(id', it')]).map (·.1) → (id, it) ∈ got ++ [(id', it')] := by
    intro hfu hm
    simp only [List.map_append, List.mem_append, List.map_cons, List.map_nil, List.mem_singleton] at hm
    rcases hm with hm | hm
    · exact List.mem_append_left _ ((h2 hfu).2 hm)
    · subst hm
      have := (hf.2 hfu).1
      rw [hit] at this; cases this
      simp
  unfold afterScan
  split
  · exact ⟨h1, fun hfu => ⟨(h2 hfu).1, k2 hfu⟩⟩
  next hm => exact ⟨fun _ => h1, fun _ _ => Or.inr ⟨(id', it'), by simp, by simpa using hm⟩⟩

theorem Ok.scanned {s : St K A} (hf : Facts full id it s) {x : Job K A} {start : Nat → Option (Item K A)} {got : List (Nat × Item K A)} (h : Ok full id it s.index x (.scan start got))
    (hall : ∀ id, start id ≠ none → s.item id ≠ none → id ∈ got.map (·.1)) : Ok full id it s.index x (.done got) := by
  obtain ⟨h1, h2⟩ := h
  refine ⟨fun _ => h1, fun hfu _ => Or.inl ?_⟩
  obtain ⟨h3, h4⟩ := h2 hfu
  exact h4 (hall id h3 (by rw [(hf.2 hfu).1]; simp))

/-- A step of a query. -/
theorem Ok.own [DecidableEq K] {blocks : (Nat → Option (Item K A)) → Nat → Nat → Bool} {s s' : Sys K A} {e : Option (Ev K A)} (hi : Inv s.tree) (hf : Facts full id it s.tree) (hs : QStep blocks s e s')
    {m : Nat} {x : Job K A} (hm : s.js[m]? = some x) (h : Ok full id it s.tree.index x x.phase) :
    ∃ x', s'.js[m]? = some x' ∧ x'.query = x.query ∧ x'.more = x.more ∧ Ok full id it s.tree.index x x'.phase := by
  have key : ∀ {m' : Nat} {y y' : Job K A}, s.js[m']? = some y → y'.query = y.query → y'.more = y.more →
      (Ok full id it s.tree.index y y.phase → Ok full id it s.tree.index y y'.phase) →
      ∃ x', (s.js.set m' y')[m]? = some x' ∧ x'.query = x.query ∧ x'.more = x.more ∧ Ok full id it s.tree.index x x'.phase := by
    intro m' y y' hy e1 e2 hstep
    by_cases e : m = m'
    · subst e
      rw [hm] at hy; cases hy
      exact ⟨y', by rw [AssocConc.set_get hm, if_pos rfl], e1, e2, hstep h⟩
    · exact ⟨x, by rw [AssocConc.set_get hy, if_neg e]; exact hm, rfl, rfl, h⟩
  cases hs with
  | other h' => exact ⟨x, hm, rfl, rfl, h⟩
  | call q more => exact ⟨x, by rw [List.getElem?_append_left (List.getElem?_eq_some_iff.1 hm).1]; exact hm, rfl, rfl, h⟩
  | search m' y hy hp => exact key hy rfl rfl fun h => (hp ▸ h : Ok full id it s.tree.index y _).search hi hf
  | node m' y p hy hp hc hn => exact key hy rfl rfl fun h => (hp ▸ h : Ok full id it s.tree.index y _).node hi hf hc hn
  | found m' y hy hp hall => exact key hy rfl rfl fun h => (hp ▸ h : Ok full id it s.tree.index y _).found hf hall
  | lookup m' y hy hp ho => exact key hy rfl rfl fun h => (hp ▸ h : Ok full id it s.tree.index y _).lookup hi hf ho
  | eval m' y ids hy hp ho => exact key hy rfl rfl fun h => (hp ▸ h : Ok full id it s.tree.index y _).eval ho
  | panic m' y hy hp =>
    refine key hy rfl rfl fun h => ?_
    obtain ⟨g, e, _⟩ := (hp ▸ h : Ok full id it s.tree.index y (.think (.ret none)))
    cases e
  | report m' y hy hp hd hb hit => exact key hy rfl rfl fun h => (hp ▸ h : Ok full id it s.tree.index y _).report hf hit
  | miss m' y hy hp hmi => exact key hy rfl rfl fun h => (hp ▸ h : Ok full id it s.tree.index y _).miss hf (hmi.imp_right (·.2))
  | finish m' y hy hp => exact key hy rfl rfl fun h => (hp ▸ h : Ok full id it s.tree.index y _).finish
  | scan m' y id' hy hp hn hb hit => exact key hy rfl rfl fun h => (hp ▸ h : Ok full id it s.tree.index y _).scan hf hit
  | scanned m' y hy hp hall => exact key hy rfl rfl fun h => (hp ▸ h : Ok full id it s.tree.index y _).scanned hf hall
  | ret m' y hy hp hr => exact key (y' := { y with returned := true }) hy rfl rfl fun h => h

theorem Ok.job {ix : GoString × K → Option Nat} {x x' : Job K A} (h1 : x'.query = x.query) (h2 : x'.more = x.more) {p : Phase K A} (h : Ok full id it ix x p) : Ok full id it ix x' p := by
  obtain ⟨q, more, ph, r⟩ := x
  obtain ⟨q', more', ph', r'⟩ := x'
  simp only at h1 h2
  subst h1; subst h2
  cases p <;> exact h

/-- The index may change where nothing of the item is. -/
theorem Ok.moves {ix ix' : GoString × K → Option Nat} {x : Job K A} (hix : full → ∀ p ∈ it.kvs, ix' p = ix p) {p : Phase K A} (h : Ok full id it ix x p) : Ok full id it ix' x p := by
  unfold Ok at h ⊢
  split at h
  · exact h
  · obtain ⟨h1, h2, h3⟩ := h
    refine ⟨h1, fun hfu p hp hc => ?_, h3⟩
    obtain ⟨g1, g2, g3⟩ := h2 hfu p hp hc
    exact ⟨g1, (hix hfu p hp).trans g2, g3⟩
  · exact h
  · exact h
  · exact h
  · exact h

end

end Willow.QueryConc
