import Verif.Proofs.LimiterAllowed
/-! The limiter refines the plain state. -/
namespace Willow.Limiter
open Willow Willow.Assoc Willow.Spec Willow.OTM Willow.OTMSpec Willow.LimSpec KeyOps BTree

/-- A step is simulated. -/
def StepOk (st : State Key) (B : Int) (op : Op Key) : Prop :=
  ∃ st' out, step st op = some (st', out) ∧ LInv st' (B + amount op) ∧ abs st' = (specStep (abs st) op).1 ∧ LimSpec.Same out (specStep (abs st) op).2

theorem Same.rfl' (o : Out Key) : LimSpec.Same o o := by cases o <;> simp [LimSpec.Same]

/-! ### Lookups -/

theorem rule?_abs (st : State Key) (id : Nat) : (abs st).rule? id = (st.rules.itemById id).map (absRule st.overrides) := by
  unfold St.rule? abs ATree.itemById
  rw [List.find?_map]
  rfl

theorem override?_abs (o : OTM.Tree Key Int) (i : Item Key Int) (id : Nat) :
    (absRule o i).override? id = match rel o (idStr i.id) with
      | none => none
      | some t => (t.itemById id).map (fun j => ⟨j.id, j.kvs, j.value.value⟩) := by
  unfold Rule.override? absRule ovs
  simp only
  cases rel o (idStr i.id) with
  | none => rfl
  | some t => simp only [List.find?_map]; rfl

/-! ### Counters -/

theorem same_iff_id {V : Type} {t : ATree Key V} (h : Assoc.Inv t) {kvs : KVs Key} (hv : ValidKVs kvs) {i : Item Key V} (hi : i ∈ t.items)
    (hs : sameKVs kvs i.kvs = true) {j : Item Key V} (hj : j ∈ t.items) : sameKVs kvs j.kvs = (j.id == i.id) := by
  rw [Bool.eq_iff_iff, beq_iff_eq]
  constructor
  · intro h1
    have h2 := sameKVs_symm hv (h.valid hj) h1
    exact congrArg _ (h.uniq hj hi (sameKVs_trans h2 hs))
  · intro e; rw [h.item_eq hj hi e]; exact hs

theorem find_none {V : Type} {l : List (Item Key V)} {kvs : KVs Key} (h : l.find? (fun i => sameKVs kvs i.kvs) = none) {j : Item Key V} (hj : j ∈ l) :
    sameKVs kvs j.kvs = false := by
  have := List.find?_eq_none.1 h j hj; simpa using this

theorem valueAt_abs (l : List (Item Key Int)) (kvs : KVs Key) :
    valueAt (l.map absCounter) kvs = match l.find? (fun i => sameKVs kvs i.kvs) with | some i => i.value | none => 0 := by
  unfold valueAt
  rw [List.find?_map]
  show (match (l.find? (fun i => sameKVs kvs i.kvs)).map absCounter with | some c => c.value | none => 0) = _
  cases l.find? (fun i => sameKVs kvs i.kvs) <;> rfl

theorem present_abs (l : List (Item Key Int)) (kvs : KVs Key) :
    present (l.map absCounter) kvs = (l.find? (fun i => sameKVs kvs i.kvs)).isSome := by
  unfold present
  rw [List.any_map, List.isSome_find?]; rfl

theorem change_abs {t : ATree Key Int} (h : Assoc.Inv t) {kvs : KVs Key} (hv : ValidKVs kvs) {i : Item Key Int} (hi : i ∈ t.items)
    (hs : sameKVs kvs i.kvs = true) (f : Int → Int) :
    (modify t i.id f).items.map absCounter = changeCounter (t.items.map absCounter) kvs f := by
  unfold modify changeCounter
  simp only [List.map_map]
  apply List.map_congr_left
  intro j hj
  simp only [Function.comp, absCounter, same_iff_id h hv hi hs hj]
  split <;> rfl

theorem remove_abs {t : ATree Key Int} (h : Assoc.Inv t) {kvs : KVs Key} (hv : ValidKVs kvs) {i : Item Key Int} (hi : i ∈ t.items)
    (hs : sameKVs kvs i.kvs = true) :
    (t.items.filter (fun j => j.id != i.id)).map absCounter = removeCounter (t.items.map absCounter) kvs := by
  unfold removeCounter
  rw [List.filter_map]
  congr 1
  apply List.filter_congr
  intro j hj
  simp only [Function.comp, absCounter, same_iff_id h hv hi hs hj, bne]

theorem remove_abs_none {l : List (Item Key Int)} {kvs : KVs Key} (h : l.find? (fun i => sameKVs kvs i.kvs) = none) :
    l.map absCounter = removeCounter (l.map absCounter) kvs := by
  unfold removeCounter
  rw [List.filter_map]
  congr 1
  symm; rw [List.filter_eq_self]
  intro j hj
  simp [Function.comp, absCounter, find_none h hj]

theorem change_abs_none {l : List (Item Key Int)} {kvs : KVs Key} (h : l.find? (fun i => sameKVs kvs i.kvs) = none) (f : Int → Int) :
    l.map absCounter = changeCounter (l.map absCounter) kvs f := by
  unfold changeCounter
  rw [List.map_map]
  apply List.map_congr_left
  intro j hj
  simp [Function.comp, absCounter, find_none h hj]

theorem sum_modify {l : List (Item Key Int)} (nd : (l.map (·.id)).Nodup) {i : Item Key Int} (hi : i ∈ l) (f : Int → Int) :
    ((l.map (fun j => if j.id == i.id then { j with value := f j.value } else j)).map (·.value)).sum = (l.map (·.value)).sum - i.value + f i.value := by
  induction l with
  | nil => cases hi
  | cons a l ih =>
    simp only [List.map_cons, List.nodup_cons, List.sum_cons] at nd ⊢
    rcases List.mem_cons.1 hi with rfl | hi'
    · have hl : l.map (fun j => if j.id == i.id then { j with value := f j.value } else j) = l := by
        conv => rhs; rw [← List.map_id l]
        apply List.map_congr_left
        intro j hj
        rw [if_neg]; · rfl
        simp only [beq_iff_eq]
        exact fun e => nd.1 (List.mem_map.2 ⟨j, hj, e⟩)
      rw [hl]; simp only [beq_self_eq_true, if_true]; omega
    · have hne : ¬ (a.id == i.id) = true := by
        simp only [beq_iff_eq]
        exact fun e => nd.1 (List.mem_map.2 ⟨i, hi', e.symm⟩)
      rw [ih nd.2 hi', if_neg hne]; omega

theorem le_sum {l : List (Item Key Int)} (h : ∀ i ∈ l, 0 < i.value) {i : Item Key Int} (hi : i ∈ l) : i.value ≤ (l.map (·.value)).sum := by
  induction l with
  | nil => cases hi
  | cons a l ih =>
    simp only [List.map_cons, List.sum_cons]
    have h0 := sum_nonneg (l := l.map (·.value)) (fun v hv => by
      obtain ⟨j, hj, rfl⟩ := List.mem_map.1 hv; exact h j (by simp [hj]))
    rcases List.mem_cons.1 hi with rfl | hi'
    · omega
    · have := ih (fun j hj => h j (by simp [hj])) hi'
      have := h a (by simp)
      omega

/-- The counters of a state are replaced. -/
theorem LInv.counters {st : State Key} {B B' : Int} (h : LInv st B) {t : ATree Key Int} (hi : Assoc.Inv t) (hp : ∀ i ∈ t.items, 0 < i.value)
    (ht : ∀ i ∈ t.items, Typed i.kvs) (hs : (t.items.map (·.value)).sum ≤ B') : LInv { st with counters := t } B' :=
  { h with cinv := hi, cpos := hp, ctyp := ht, csum := hs }

theorem abs_counters {st : State Key} {t : ATree Key Int} : abs { st with counters := t } = { abs st with counters := t.items.map absCounter } := rfl

theorem mem_modify {V : Type} {t : ATree Key V} {id : Nat} {f : V → V} {x : Item Key V} (h : x ∈ (modify t id f).items) :
    ∃ j ∈ t.items, x.id = j.id ∧ x.kvs = j.kvs ∧ ((j.id = id ∧ x.value = f j.value) ∨ (j.id ≠ id ∧ x.value = j.value)) := by
  obtain ⟨j, hj, rfl⟩ := List.mem_map.1 h
  refine ⟨j, hj, ?_⟩
  split
  · rename_i e; exact ⟨rfl, rfl, .inl ⟨by simpa using e, rfl⟩⟩
  · rename_i e; exact ⟨rfl, rfl, .inr ⟨by simpa using e, rfl⟩⟩

/-- Create the counter or change it in place. -/
theorem put_spec {st : State Key} {B B' : Int} (h : LInv st B) {kvs : KVs Key} (hv : ValidKVs kvs) (ht : Typed kvs) {c : Int} (hc : 0 < c) (f g : Int → Int)
    (hf : ∀ i ∈ st.counters.items, f i.value = g i.value ∧ 0 < g i.value ∧ g i.value ≤ i.value + c) (hB' : B' = B + c) :
    ∃ t o, st.counters.createOrFind kvs (some c) = some (t, o) ∧
      ∃ t', (match o with | .found i => modify t i.id f | _ => t) = t' ∧ LInv { st with counters := t' } B' ∧
        t'.items.map absCounter = putCounter (st.counters.items.map absCounter) kvs c g := by
  obtain ⟨t, o, e, hI, hs⟩ := h.cinv.createOrFind hv (some c)
  refine ⟨t, o, e, _, rfl, ?_⟩
  simp only [storeStep] at hs
  unfold putCounter
  rw [present_abs]
  cases hfi : st.counters.items.find? (fun i => sameKVs kvs i.kvs) with
  | none =>
    rw [hfi] at hs
    simp only [Prod.mk.injEq, Store.mk.injEq] at hs
    obtain ⟨⟨h1, h2⟩, h3⟩ := hs
    cases o <;> simp only [seen] at h3 <;> cases h3
    simp only [Option.isSome_none, Bool.false_eq_true, if_false]
    refine ⟨h.counters hI ?_ ?_ ?_, ?_⟩
    · intro i hi; rw [← h1] at hi
      rcases List.mem_append.1 hi with hi | hi
      · exact h.cpos i hi
      · simp only [List.mem_singleton] at hi; subst hi; exact hc
    · intro i hi; rw [← h1] at hi
      rcases List.mem_append.1 hi with hi | hi
      · exact h.ctyp i hi
      · simp only [List.mem_singleton] at hi; subst hi; exact ht
    · rw [← h1]; have := h.csum; simp; omega
    · rw [← h1]; simp [absCounter]
  | some i =>
    rw [hfi] at hs
    simp only [Prod.mk.injEq, Store.mk.injEq] at hs
    obtain ⟨⟨h1, h2⟩, h3⟩ := hs
    cases o <;> simp only [seen] at h3 <;> cases h3
    simp only [Option.isSome_some, if_true]
    have hi := List.mem_of_find?_eq_some hfi
    have hsi := List.find?_some hfi
    have hit : i ∈ t.items := h1 ▸ hi
    have hgf : modify t i.id f = modify t i.id g := by
      unfold modify
      congr 1
      apply List.map_congr_left
      intro j hj
      rw [← h1] at hj
      rw [(hf j hj).1]
    rw [hgf]
    refine ⟨h.counters (inv_modify hI _ _) ?_ ?_ ?_, ?_⟩
    · intro x hx
      obtain ⟨j, hj, _, _, hx⟩ := mem_modify hx
      rw [← h1] at hj
      rcases hx with ⟨_, e⟩ | ⟨_, e⟩
      · rw [e]; exact (hf j hj).2.1
      · rw [e]; exact h.cpos j hj
    · intro x hx
      obtain ⟨j, hj, _, e, _⟩ := mem_modify hx
      rw [← h1] at hj
      rw [e]; exact h.ctyp j hj
    · have := sum_modify hI.ids hit g
      simp only [modify]
      rw [this]
      have h4 := (hf i hi).2.2
      have := h.csum
      rw [h1] at this; omega
    · rw [change_abs hI hv hit hsi g, ← h1]

theorem sim_increment {st : State Key} {B : Int} (h : LInv st B) {ch : Choice Key} (hc : ValidChoice ch) {kvs : KVs Key}
    (hv : ValidKVs kvs) (ht : Typed kvs) {c : Int} (hpos : 0 < c) (hB : B + c < 2 ^ 63) :
    StepOk st B (.upsert ch kvs c) := by
  unfold StepOk
  have hm : max c 0 = c := by omega
  simp only [step, upsert, specStep, amount, hpos, if_true, hm]
  rw [increment_eq h (by omega) hc hv ht]
  cases ha : allowed (abs st) kvs
  · simp only [Bool.false_eq_true, if_false]
    refine ⟨_, _, rfl, { h with csum := by have := h.csum; omega }, rfl, Same.rfl' _⟩
  · simp only [if_true]
    obtain ⟨t, o, e, t', ht', hI, hab⟩ := put_spec h hv ht hpos (fun v => add64 v c) (· + c) (by
      intro i hi
      have h1 := h.cpos i hi
      have h2 := le_sum h.cpos hi
      have := h.csum
      exact ⟨add64_eq (by omega) (by omega), by omega, by omega⟩) rfl
    unfold addCounter
    rw [e]
    refine ⟨{ st with counters := t' }, .ok, ?_, hI, ?_, Same.rfl' _⟩
    · subst ht'; cases o <;> rfl
    · rw [abs_counters, hab]; rfl

theorem sum_filter_le {l : List (Item Key Int)} (p : Item Key Int → Bool) (h : ∀ i ∈ l, 0 < i.value) {B : Int} (hs : (l.map (·.value)).sum ≤ B) :
    ((l.filter p).map (·.value)).sum ≤ B := by
  have := pos_sum_filter p h; omega

theorem sim_decrement {st : State Key} {B : Int} (h : LInv st B) (hB : B < 2 ^ 63) {ch : Choice Key} {kvs : KVs Key}
    (hv : ValidKVs kvs) {c : Int} (hpos : ¬ 0 < c) (hc : -2 ^ 63 ≤ c) :
    StepOk st B (.upsert ch kvs c) := by
  unfold StepOk
  have hm : max c 0 = 0 := by omega
  simp only [step, upsert, specStep, amount, hpos, if_false, hm, Int.add_zero]
  obtain ⟨hI, hs⟩ := h.cinv.delete hv (some fun i => decide (add64 i.value c ≤ 0))
  unfold decrement
  have hva : valueAt (abs st).counters kvs = _ := valueAt_abs st.counters.items kvs
  rw [hva]
  generalize st.counters.delete kvs (some fun i => decide (add64 i.value c ≤ 0)) = r at hI hs
  obtain ⟨t, o⟩ := r
  simp only [Store.remove] at hs
  cases hfi : st.counters.items.find? (fun i => sameKVs kvs i.kvs) with
  | none =>
    rw [hfi] at hs
    simp only [Prod.mk.injEq, Store.mk.injEq, AOut.deleted.injEq] at hs
    obtain ⟨⟨h1, h2⟩, rfl⟩ := hs
    have : (0 : Int) + c ≤ 0 := by omega
    simp only [this, if_true]
    refine ⟨_, _, rfl, h.counters hI (h1 ▸ h.cpos) (h1 ▸ h.ctyp) (h1 ▸ h.csum), ?_, Same.rfl' _⟩
    rw [abs_counters, ← h1]
    have := remove_abs_none hfi
    simp only [abs]; rw [← this]
  | some i =>
    have hi := List.mem_of_find?_eq_some hfi
    have hsi := List.find?_some hfi
    have h1 := h.cpos i hi
    have h2 := le_sum h.cpos hi
    have h3 := h.csum
    have e64 : add64 i.value c = i.value + c := add64_eq (by omega) (by omega)
    rw [hfi] at hs
    simp only [e64] at hs ⊢
    by_cases hz : i.value + c ≤ 0
    · simp only [hz, decide_true, if_true, Prod.mk.injEq, Store.mk.injEq, AOut.deleted.injEq] at hs
      obtain ⟨⟨h4, h5⟩, rfl⟩ := hs
      simp only [e64, hz, if_true]
      refine ⟨_, _, rfl, h.counters hI ?_ ?_ ?_, ?_, Same.rfl' _⟩
      · intro j hj; rw [← h4] at hj; exact h.cpos j (List.mem_filter.1 hj).1
      · intro j hj; rw [← h4] at hj; exact h.ctyp j (List.mem_filter.1 hj).1
      · rw [← h4]; exact sum_filter_le _ h.cpos h.csum
      · rw [abs_counters, ← h4, remove_abs h.cinv hv hi hsi]; rfl
    · simp only [hz, decide_false, Bool.false_eq_true, if_false, Prod.mk.injEq, Store.mk.injEq, AOut.deleted.injEq] at hs
      obtain ⟨⟨h4, h5⟩, rfl⟩ := hs
      simp only [e64, hz, if_false]
      have hit : i ∈ t.items := h4 ▸ hi
      have hgf : modify t i.id (fun v => add64 v c) = modify t i.id (· + c) := by
        unfold modify
        congr 1
        apply List.map_congr_left
        intro j hj
        rw [← h4] at hj
        have g1 := h.cpos j hj
        have g2 := le_sum h.cpos hj
        have g3 : add64 j.value c = j.value + c := add64_eq (by omega) (by omega)
        simp only [g3]
      rw [hgf]
      refine ⟨_, _, rfl, h.counters (inv_modify hI _ _) ?_ ?_ ?_, ?_, Same.rfl' _⟩
      · intro x hx
        obtain ⟨j, hj, _, _, hx⟩ := mem_modify hx
        rw [← h4] at hj
        rcases hx with ⟨e, e'⟩ | ⟨_, e⟩
        · rw [e', h.cinv.item_eq hj hi e]; omega
        · rw [e]; exact h.cpos j hj
      · intro x hx
        obtain ⟨j, hj, _, e, _⟩ := mem_modify hx
        rw [← h4] at hj
        rw [e]; exact h.ctyp j hj
      · have := sum_modify hI.ids hit (· + c)
        simp only [modify]
        rw [this, ← h4]; omega
      · rw [abs_counters, change_abs hI hv hit hsi, ← h4]; rfl

theorem sim_setCounter {st : State Key} {B : Int} (h : LInv st B) {kvs : KVs Key} (hv : ValidKVs kvs) (ht : Typed kvs) {c : Int} :
    StepOk st B (.setCounter kvs c) := by
  unfold StepOk
  simp only [step, setCounter, specStep, amount]
  by_cases hc : c ≤ 0
  · have hm : max c 0 = 0 := by omega
    simp only [hc, if_true, hm, Int.add_zero]
    obtain ⟨hI, hs⟩ := h.cinv.delete hv (some fun _ => true)
    generalize st.counters.delete kvs (some fun _ => true) = r at hI hs
    obtain ⟨t, o⟩ := r
    simp only [Store.remove] at hs
    cases hfi : st.counters.items.find? (fun i => sameKVs kvs i.kvs) with
    | none =>
      rw [hfi] at hs
      simp only [Prod.mk.injEq, Store.mk.injEq, AOut.deleted.injEq] at hs
      obtain ⟨⟨h1, h2⟩, rfl⟩ := hs
      refine ⟨_, _, rfl, h.counters hI (h1 ▸ h.cpos) (h1 ▸ h.ctyp) (h1 ▸ h.csum), ?_, Same.rfl' _⟩
      rw [abs_counters]; simp only; rw [← h1]
      have := remove_abs_none hfi
      simp only [abs]; rw [← this]
    | some i =>
      have hi := List.mem_of_find?_eq_some hfi
      have hsi := List.find?_some hfi
      rw [hfi] at hs
      simp only [if_true, Prod.mk.injEq, Store.mk.injEq, AOut.deleted.injEq] at hs
      obtain ⟨⟨h4, h5⟩, rfl⟩ := hs
      refine ⟨_, _, rfl, h.counters hI ?_ ?_ ?_, ?_, Same.rfl' _⟩
      · intro j hj; rw [← h4] at hj; exact h.cpos j (List.mem_filter.1 hj).1
      · intro j hj; rw [← h4] at hj; exact h.ctyp j (List.mem_filter.1 hj).1
      · rw [← h4]; exact sum_filter_le _ h.cpos h.csum
      · rw [abs_counters]; simp only; rw [← h4, remove_abs h.cinv hv hi hsi]; rfl
  · have hm : max c 0 = c := by omega
    simp only [hc, if_false, hm]
    obtain ⟨t, o, e, t', ht', hI, hab⟩ := put_spec h hv ht (c := c) (by omega) (fun _ => c) (fun _ => c) (by
      intro i hi
      have h1 := h.cpos i hi
      exact ⟨rfl, by omega, by omega⟩) rfl
    rw [e]
    refine ⟨{ st with counters := t' }, .ok, ?_, hI, ?_, Same.rfl' _⟩
    · subst ht'; cases o <;> rfl
    · rw [abs_counters, hab]; rfl

theorem sim_query {st : State Key} {B : Int} (h : LInv st B) {q : Query Key} (hv : LimSpec.ValidOp (.queryCounters q)) :
    StepOk st B (.queryCounters q) := by
  unfold StepOk
  simp only [step, queryCounters, specStep, amount, Int.add_zero]
  have hv1 : everywhere SelOk Asks q := everywhere_imp (fun s hs => ⟨hs.1, hs.2.1⟩) (fun _ h => h) q hv.1
  have hv2 : everywhere (fun s => s.ids = []) (fun _ => True) q := everywhere_imp (fun s hs => hs.2.2) (fun _ _ => trivial) q hv.1
  obtain ⟨l, e, hp⟩ := queryAction_spec h.cinv hv1 hv.2
  rw [e]
  refine ⟨_, _, rfl, h, rfl, ?_⟩
  simp only [LimSpec.Same]
  refine (hp.map _).trans (List.Perm.of_eq ?_)
  simp only [abs]
  rw [List.filter_map, List.map_map]
  have : st.counters.items.filter (satisfies q) =
      st.counters.items.filter ((fun c => satisfies q (⟨0, c.kvs, c.value⟩ : Item Key Int)) ∘ absCounter) := by
    apply List.filter_congr
    intro i _
    have hh : ∀ (j : Item Key Int), satisfies q j = queryHolds (fun _ => true) j.kvs q := by
      intro j
      unfold satisfies
      rw [queryHolds_noIds (by simp) q hv2, ← queryHolds_noIds (f := fun _ => true) rfl q hv2]
    rw [hh]; simp only [Function.comp]; rw [hh]; rfl
  rw [this]
  apply List.map_congr_left
  intro i _; rfl

/-! ### Rules -/

theorem sim_createRule {st : State Key} {B : Int} (h : LInv st B) {kvs : KVs Key} (hv : ValidKVs kvs) {l : Int} (hl : ValidLimit l) :
    StepOk st B (.createRule kvs l) := by
  unfold StepOk
  simp only [step, createRule, specStep, amount, Int.add_zero]
  obtain ⟨hI, hs⟩ := h.rinv.insert hv (some l) false
  unfold ATree.create
  generalize st.rules.insert kvs (some l) false = r at hI hs
  obtain ⟨t, o⟩ := r
  simp only [Bool.false_eq_true, if_false, storeStep] at hs
  have hany : (abs st).rules.any (fun r => sameKVs kvs r.kvs) = (st.rules.items.find? (fun i => sameKVs kvs i.kvs)).isSome := by
    simp only [abs, List.any_map, List.isSome_find?]; rfl
  rw [hany]
  cases hfi : st.rules.items.find? (fun i => sameKVs kvs i.kvs) with
  | some i =>
    rw [hfi] at hs
    simp only [Prod.mk.injEq, Store.mk.injEq] at hs
    obtain ⟨⟨h1, h2⟩, h3⟩ := hs
    cases o <;> simp only [seen] at h3 <;> cases h3
    simp only [Option.isSome_some, if_true]
    refine ⟨_, _, rfl, { h with rinv := hI, own := h1 ▸ h.own, rlim := h1 ▸ h.rlim, sup := h1 ▸ h.sup }, ?_, Same.rfl' _⟩
    simp only [abs]; rw [← h1, ← h2]
  | none =>
    rw [hfi] at hs
    simp only [Prod.mk.injEq, Store.mk.injEq] at hs
    obtain ⟨⟨h1, h2⟩, h3⟩ := hs
    cases o <;> simp only [seen] at h3 <;> cases h3
    simp only [Option.isSome_none, Bool.false_eq_true, if_false]
    have hnone : rel st.overrides (idStr st.rules.next) = none := by
      cases hr : rel st.overrides (idStr st.rules.next) with
      | none => rfl
      | some t' =>
        obtain ⟨i, hi, e⟩ := h.own _ _ hr
        have := idStr_inj e
        have := h.rinv.fresh i hi
        omega
    refine ⟨_, _, rfl, { h with rinv := hI, own := ?_, rlim := ?_, sup := ?_ }, ?_, Same.rfl' _⟩
    · intro b t' hr
      obtain ⟨i, hi, e⟩ := h.own b t' hr
      exact ⟨i, by rw [← h1]; exact List.mem_append_left _ hi, e⟩
    · intro i hi
      rw [← h1] at hi
      rcases List.mem_append.1 hi with hi | hi
      · exact h.rlim i hi
      · simp only [List.mem_singleton] at hi; subst hi; exact hl
    · intro i hi
      rw [← h1] at hi
      rcases List.mem_append.1 hi with hi | hi
      · exact h.sup i hi
      · simp only [List.mem_singleton] at hi; subst hi
        intro t' hr; rw [hnone] at hr; cases hr
    · simp only [abs]; rw [← h1, ← h2]
      simp [absRule, ovs, nxt, hnone]

theorem sim_getRule {st : State Key} {B : Int} (h : LInv st B) (id : Nat) : StepOk st B (.getRule id) := by
  unfold StepOk
  simp only [step, getRule, specStep, amount, Int.add_zero, queryAction_id h.rinv, rule?_abs]
  cases st.rules.itemById id with
  | none => exact ⟨_, _, rfl, h, rfl, Same.rfl' _⟩
  | some i => exact ⟨_, _, rfl, h, rfl, Same.rfl' _⟩

theorem setRule_abs {l : List (Item Key Int)} {f : Item Key Int → Rule} {g : Item Key Int → Rule} {id : Nat} {F : Rule → Rule}
    (hid : ∀ i ∈ l, (g i).id = i.id) (h : ∀ i ∈ l, f i = if i.id = id then F (g i) else g i) :
    l.map f = (l.map g).map (fun r => if r.id == id then F r else r) := by
  rw [List.map_map]
  apply List.map_congr_left
  intro i hi
  rw [h i hi]
  simp only [Function.comp, hid i hi, beq_iff_eq]

theorem sim_updateRule {st : State Key} {B : Int} (h : LInv st B) (id : Nat) {l : Int} (hl : ValidLimit l) : StepOk st B (.updateRule id l) := by
  unfold StepOk
  simp only [step, updateRule, specStep, amount, Int.add_zero, queryAction_id h.rinv, rule?_abs]
  cases hi : st.rules.itemById id with
  | none => exact ⟨_, _, rfl, h, rfl, Same.rfl' _⟩
  | some i =>
    obtain ⟨him, rfl⟩ := itemById_some hi
    refine ⟨_, _, rfl, { h with rinv := (inv_modify h.rinv i.id (fun _ => l)), own := ?_, rlim := ?_, sup := ?_ }, ?_, Same.rfl' _⟩
    · intro b t hr
      obtain ⟨j, hj, e⟩ := h.own b t hr
      exact ⟨_, List.mem_map.2 ⟨j, hj, rfl⟩, by split <;> exact e⟩
    · intro x hx
      obtain ⟨j, hj, _, _, hx⟩ := mem_modify hx
      rcases hx with ⟨_, e⟩ | ⟨_, e⟩
      · rw [e]; exact hl
      · rw [e]; exact h.rlim j hj
    · intro x hx
      obtain ⟨j, hj, e1, e2, _⟩ := mem_modify hx
      rw [e1, e2]; exact h.sup j hj
    · simp only [Option.map_some]
      unfold St.setRule abs
      simp only [modify, List.map_map, St.mk.injEq, and_true]
      apply List.map_congr_left
      intro j hj
      have e1 : (absRule st.overrides j).id = j.id := rfl
      simp only [Function.comp, beq_iff_eq, e1]
      split <;> rfl

theorem famStep_rel {o o' : OTM.Tree Key Int} {op : OOp Key Int}
    (hs : OTM.Sim o' (famStep (fun b => (rel o b).map plain) op).1) (b : GoString) (hb : b ≠ op.one) : (rel o' b).map plain = (rel o b).map plain := by
  rw [hs.eq b]; simp [famStep, hb]

theorem ovs_plain {o o' : OTM.Tree Key Int} {id : Nat} (h : (rel o' (idStr id)).map plain = (rel o (idStr id)).map plain) :
    ovs o' id = ovs o id ∧ nxt o' id = nxt o id := by
  unfold ovs nxt
  cases h1 : rel o' (idStr id) <;> cases h2 : rel o (idStr id) <;> simp [h1, h2, plain] at h ⊢
  rw [h.1, h.2]; simp

theorem Sim.tagged {o o' : OTM.Tree Key Int} {op : OOp Key Int} (ht : ∀ b t, rel o b = some t → Tagged b (plain t)) (hne : op.one ≠ [])
    (hs : OTM.Sim o' (famStep (fun b => (rel o b).map plain) op).1) : ∀ b t, rel o' b = some t → Tagged b (plain t) := by
  intro b t hr
  have he := hs.eq b
  rw [hr] at he
  simp only [Option.map_some, famStep] at he
  split at he
  · rename_i e
    subst e
    refine (relStep_tagged (r := (rel o op.one).map plain) ?_ (plain t) he.symm).2
    intro s hsome
    cases hr' : rel o op.one with
    | none => rw [hr'] at hsome; cases hsome
    | some t0 => rw [hr'] at hsome; cases hsome; exact ⟨hne, ht _ _ hr'⟩
  · cases hr' : rel o b with
    | none => rw [hr'] at he; cases he
    | some t0 =>
      rw [hr'] at he
      simp only [Option.map_some, Option.some.injEq] at he
      rw [he]; exact ht _ _ hr'

theorem sim_deleteRule {st : State Key} {B : Int} (h : LInv st B) {ch : Choice Key} (hc : ValidChoice ch) (id : Nat) : StepOk st B (.deleteRule ch id) := by
  unfold StepOk
  simp only [step, deleteRule, specStep, amount, Int.add_zero, rule?_abs]
  cases hi : st.rules.itemById id with
  | none => exact ⟨_, _, rfl, h, rfl, Same.rfl' _⟩
  | some i =>
    obtain ⟨him, rfl⟩ := itemById_some hi
    obtain ⟨o', out, e, hs, hsame⟩ := step_sim h.osim (op := .destroyOne (idStr i.id) (some fun _ => true) ch.destroy) hc.2.2.2.2
    have htag := Sim.tagged h.otag (op := .destroyOne (idStr i.id) (some fun _ => true) ch.destroy) (idStr_ne i.id) hs
    have hoth := famStep_rel hs
    have hgone : rel o' (idStr i.id) = none := by
      have := hs.eq (idStr i.id)
      simp only [famStep, OOp.one, if_true, relStep, if_neg (idStr_ne i.id)] at this
      cases hr : rel st.overrides (idStr i.id) with
      | none => rw [hr] at this; simpa using this
      | some t => rw [hr] at this; simpa using this
    rw [show OTM.destroyOne st.overrides (idStr i.id) (some fun _ => true) ch.destroy = some (o', out) from e]
    have hout : ∀ e, out ≠ .error e := by
      rintro e rfl
      simp only [famStep, OOp.one, relStep, if_neg (idStr_ne i.id)] at hsame
      cases hr : rel st.overrides (idStr i.id) with
      | none => rw [hr] at hsame; simp [OTMSpec.Same] at hsame
      | some t => rw [hr] at hsame; simp [OTMSpec.Same] at hsame
    obtain ⟨t', asked, e2, hI, hst⟩ := h.rinv.destroyById i.id (some fun _ => true)
    have hitems : t'.items = st.rules.items.filter (fun j => j.id != i.id) ∧ t'.next = st.rules.next := by
      have hf : st.rules.items.find? (fun j => j.id == i.id) = some i := h.rinv.find_id him
      simp only [storeStep, Store.remove, hf, if_true, Prod.mk.injEq, Store.mk.injEq] at hst
      exact ⟨hst.1.1.symm, hst.1.2.symm⟩
    have hne : ∀ b t, rel o' b = some t → b ≠ idStr i.id := by rintro b t hr rfl; rw [hgone] at hr; cases hr
    have hback : ∀ b t, rel o' b = some t → ∃ t0, rel st.overrides b = some t0 ∧ plain t = plain t0 := by
      intro b t hr
      have := hoth b (hne b t hr)
      rw [hr] at this
      cases hr0 : rel st.overrides b with
      | none => rw [hr0] at this; cases this
      | some t0 => rw [hr0] at this; exact ⟨t0, rfl, by simpa using this⟩
    have hbi : ∀ b t, rel o' b = some t → ∃ t0, rel st.overrides b = some t0 ∧ t.items = t0.items := by
      intro b t hr
      obtain ⟨t0, h0, hp⟩ := hback b t hr
      exact ⟨t0, h0, congrArg Store.items hp⟩
    refine ⟨{ st with rules := t', overrides := o' }, .ok, ?_, ?_, ?_, Same.rfl' _⟩
    · cases out <;> first | exact absurd rfl (hout _) | simp only [e2]
    · refine { h with rinv := hI, ouniq := hs.uniq, oinv := hs.inv, otag := htag, own := ?_, rlim := ?_, olim := ?_, sup := ?_ }
      · intro b t hr
        obtain ⟨t0, h0, _⟩ := hbi b t hr
        obtain ⟨j, hj, e⟩ := h.own b t0 h0
        refine ⟨j, ?_, e⟩
        rw [hitems.1, List.mem_filter]
        refine ⟨hj, ?_⟩
        have := hne b t hr
        simp only [bne_iff_ne, ne_eq]
        intro ej; exact this (by rw [e, ej])
      · intro j hj
        rw [hitems.1] at hj
        exact h.rlim j (List.mem_filter.1 hj).1
      · intro b t hr
        obtain ⟨t0, h0, hp⟩ := hbi b t hr
        rw [hp]; exact h.olim b t0 h0
      · intro j hj t hr
        rw [hitems.1] at hj
        obtain ⟨t0, h0, hp⟩ := hbi _ t hr
        rw [hp]
        exact h.sup j (List.mem_filter.1 hj).1 t0 h0
    · simp only [abs, hitems.1, hitems.2, St.mk.injEq, and_true, Option.map_some]
      rw [List.filter_map]
      apply List.map_congr_left
      intro j hj
      have hj' := (List.mem_filter.1 hj).2
      simp only [bne_iff_ne, ne_eq] at hj'
      have := ovs_plain (hoth (idStr j.id) (fun e => hj' (idStr_inj e)))
      simp [absRule, this.1, this.2]

/-! ### Overrides -/

/-- The overrides of one rule are replaced. -/
theorem LInv.put {st : State Key} {B : Int} (h : LInv st B) {i : Item Key Int} (hi : i ∈ st.rules.items) {o' : OTM.Tree Key Int} (hu : Uniq seq o')
    {t : ATree Key (OItem Key Int)} (ht : Assoc.Inv t) (htag : Tagged (idStr i.id) (plain t)) (hlim : ∀ j ∈ t.items, ValidLimit j.value.value)
    (hsup : ∀ j ∈ t.items, missesKey i.kvs j.kvs = false)
    (hrel : ∀ b, rel o' b = if b = idStr i.id then some t else rel st.overrides b) {F : Rule → Rule}
    (hF : F (absRule st.overrides i) = ⟨i.id, i.kvs, i.value, t.items.map (fun j => ⟨j.id, j.kvs, j.value.value⟩), t.next⟩) :
    LInv { st with overrides := o' } B ∧ abs { st with overrides := o' } = (abs st).setRule i.id F := by
  have hcase : ∀ b t', rel o' b = some t' → (b = idStr i.id ∧ t' = t) ∨ (b ≠ idStr i.id ∧ rel st.overrides b = some t') := by
    intro b t' hr
    rw [hrel] at hr
    split at hr
    · rename_i e; exact .inl ⟨e, by simpa using hr.symm⟩
    · rename_i e; exact .inr ⟨e, hr⟩
  refine ⟨{ h with ouniq := hu, oinv := ?_, otag := ?_, own := ?_, olim := ?_, sup := ?_ }, ?_⟩
  · intro b t' hr
    rcases hcase b t' hr with ⟨_, rfl⟩ | ⟨_, h1⟩
    · exact ht
    · exact h.oinv b t' h1
  · intro b t' hr
    rcases hcase b t' hr with ⟨rfl, rfl⟩ | ⟨_, h1⟩
    · exact htag
    · exact h.otag b t' h1
  · intro b t' hr
    rcases hcase b t' hr with ⟨rfl, rfl⟩ | ⟨_, h1⟩
    · exact ⟨i, hi, rfl⟩
    · exact h.own b t' h1
  · intro b t' hr
    rcases hcase b t' hr with ⟨_, rfl⟩ | ⟨_, h1⟩
    · exact hlim
    · exact h.olim b t' h1
  · intro j hj t' hr
    rcases hcase _ t' hr with ⟨e, rfl⟩ | ⟨_, h1⟩
    · rw [h.rinv.item_eq hj hi (idStr_inj e)]; exact hsup
    · exact h.sup j hj t' h1
  · unfold St.setRule abs
    simp only [St.mk.injEq, and_true]
    apply setRule_abs (fun _ _ => rfl)
    intro j hj
    split
    · rename_i e
      rw [h.rinv.item_eq hj hi e, hF]
      simp [absRule, ovs, nxt, hrel]
    · rename_i e
      have : idStr j.id ≠ idStr i.id := fun e' => e (idStr_inj e')
      simp [absRule, ovs, nxt, hrel, this]

theorem setRule_id (st : St) (id : Nat) : st.setRule id (fun r => r) = st := by
  unfold St.setRule
  have : st.rules.map (fun r => if r.id == id then r else r) = st.rules := by
    conv => rhs; rw [← List.map_id st.rules]
    apply List.map_congr_left; intro r _; simp
  rw [this]

theorem absRule_some {o : OTM.Tree Key Int} {i : Item Key Int} {t : ATree Key (OItem Key Int)} (h : rel o (idStr i.id) = some t) :
    absRule o i = ⟨i.id, i.kvs, i.value, t.items.map (fun j => ⟨j.id, j.kvs, j.value.value⟩), t.next⟩ := by simp [absRule, ovs, nxt, h]

theorem absRule_none {o : OTM.Tree Key Int} {i : Item Key Int} (h : rel o (idStr i.id) = none) :
    absRule o i = ⟨i.id, i.kvs, i.value, [], 0⟩ := by simp [absRule, ovs, nxt, h]

theorem absRule_getD (o : OTM.Tree Key Int) (i : Item Key Int) :
    absRule o i = ⟨i.id, i.kvs, i.value, ((rel o (idStr i.id)).getD ATree.new).items.map (fun j => ⟨j.id, j.kvs, j.value.value⟩), ((rel o (idStr i.id)).getD ATree.new).next⟩ := by
  cases h : rel o (idStr i.id) with
  | none => rw [absRule_none h]; rfl
  | some t => rw [absRule_some h]; rfl

theorem sim_createOverride {st : State Key} {B : Int} (h : LInv st B) (rid : Nat) {kvs : KVs Key} (hv : ValidKVs kvs) {l : Int} (hl : ValidLimit l) :
    StepOk st B (.createOverride rid kvs l) := by
  unfold StepOk
  simp only [step, createOverride, specStep, amount, Int.add_zero, queryAction_id h.rinv, rule?_abs]
  cases hi : st.rules.itemById rid with
  | none => exact ⟨_, _, rfl, h, rfl, Same.rfl' _⟩
  | some i =>
    obtain ⟨him, rfl⟩ := itemById_some hi
    simp only [Option.toList_some, Option.map_some]
    have hm : List.any (absRule st.overrides i).kvs (fun kv => !kvs.any (fun x => x.1 == kv.1)) = missesKey i.kvs kvs := rfl
    rw [hm]
    by_cases h1 : missesKey i.kvs kvs = true
    · simp only [if_pos h1]; exact ⟨_, _, rfl, h, rfl, Same.rfl' _⟩
    simp only [if_neg h1]
    simp only [OTM.createOrFind, if_neg (idStr_ne i.id)]
    have hr : List.any kvs (fun kv => kv.1 == reservedID) = hasReservedKeys kvs := rfl
    rw [hr]
    by_cases h2 : hasReservedKeys kvs = true
    · simp only [if_pos h2]; exact ⟨_, _, rfl, h, rfl, Same.rfl' _⟩
    simp only [if_neg h2]
    have hab := absRule_getD st.overrides i
    have hI : Assoc.Inv ((rel st.overrides (idStr i.id)).getD ATree.new) := (h.osim.getD (idStr i.id)).1
    have hT : ∀ j ∈ ((rel st.overrides (idStr i.id)).getD ATree.new).items, j.value.oneID = idStr i.id ∧ j.value.manyID = j.id ∧ j.value.kvs = j.kvs ∧ ¬ j.kvs.any (fun kv => kv.1 == reservedID) = true := by
      intro j hj
      cases hr : rel st.overrides (idStr i.id) with
      | none => rw [hr] at hj; cases hj
      | some t => rw [hr] at hj; exact h.otag _ _ hr j hj
    have hL : ∀ j ∈ ((rel st.overrides (idStr i.id)).getD ATree.new).items, ValidLimit j.value.value := by
      intro j hj
      cases hr : rel st.overrides (idStr i.id) with
      | none => rw [hr] at hj; cases hj
      | some t => rw [hr] at hj; exact h.olim _ _ hr j hj
    have hS : ∀ j ∈ ((rel st.overrides (idStr i.id)).getD ATree.new).items, missesKey i.kvs j.kvs = false := by
      intro j hj
      cases hr : rel st.overrides (idStr i.id) with
      | none => rw [hr] at hj; cases hj
      | some t => rw [hr] at hj; exact h.sup i him _ hr j hj
    generalize (rel st.overrides (idStr i.id)).getD ATree.new = t at hab hI hT hL hS
    obtain ⟨t', out, e, hI', hs⟩ := hI.createOrFind hv ((some l).map (newItem t (idStr i.id) kvs))
    rw [e]
    simp only [Option.map_some, storeStep] at hs
    have hany : (absRule st.overrides i).overrides.any (fun o => sameKVs kvs o.kvs) = (t.items.find? (fun j => sameKVs kvs j.kvs)).isSome := by
      rw [hab]; simp only [List.any_map, List.isSome_find?]; rfl
    rw [hany]
    cases hf : t.items.find? (fun j => sameKVs kvs j.kvs) with
    | some x =>
      rw [hf] at hs
      simp only [Prod.mk.injEq, Store.mk.injEq] at hs
      obtain ⟨⟨h3, h4⟩, h5⟩ := hs
      cases out <;> simp only [seen] at h5 <;> cases h5
      simp only [createOut, Option.isSome_some, if_true]
      obtain ⟨g1, g2⟩ := h.put him (uniq_aupsert h.ouniq) (t := t') hI' (fun j hj => hT j (by rw [h3]; exact hj)) (fun j hj => hL j (by rw [h3]; exact hj))
        (fun j hj => hS j (by rw [h3]; exact hj)) (fun b => rel_upsert) (F := fun r => r) (by rw [hab, h3, h4])
      refine ⟨_, _, rfl, g1, ?_, Same.rfl' _⟩
      rw [g2, setRule_id]
    | none =>
      rw [hf] at hs
      simp only [Prod.mk.injEq, Store.mk.injEq] at hs
      obtain ⟨⟨h3, h4⟩, h5⟩ := hs
      cases out <;> simp only [seen] at h5 <;> cases h5
      simp only [createOut, Option.isSome_none, Bool.false_eq_true, if_false]
      have hmem : ∀ j ∈ t'.items, j ∈ t.items ∨ j = ⟨t.next, kvs, newItem t (idStr i.id) kvs l⟩ := by
        intro j hj; rw [← h3] at hj; simpa using hj
      obtain ⟨g1, g2⟩ := h.put him (uniq_aupsert h.ouniq) (t := t') hI'
        (by
          intro j hj
          rcases hmem j hj with hj | rfl
          · exact hT j hj
          · exact ⟨rfl, rfl, rfl, h2⟩)
        (by
          intro j hj
          rcases hmem j hj with hj | rfl
          · exact hL j hj
          · exact hl)
        (by
          intro j hj
          rcases hmem j hj with hj | rfl
          · exact hS j hj
          · simpa using h1)
        (fun b => rel_upsert) (F := fun r => { r with overrides := r.overrides ++ [⟨r.nextId, kvs, l⟩], nextId := r.nextId + 1 })
        (by rw [hab, ← h3, ← h4]; simp [newItem])
      refine ⟨_, _, rfl, g1, g2, ?_⟩
      rw [hab]; exact Same.rfl' _

theorem sim_getOverride {st : State Key} {B : Int} (h : LInv st B) (rid id : Nat) : StepOk st B (.getOverride rid id) := by
  unfold StepOk
  simp only [step, getOverride, specStep, amount, Int.add_zero, queryAction_id h.rinv, rule?_abs]
  cases hi : st.rules.itemById rid with
  | none => exact ⟨_, _, rfl, h, rfl, Same.rfl' _⟩
  | some i =>
    obtain ⟨him, rfl⟩ := itemById_some hi
    simp only [Option.toList_some, Option.map_some, override?_abs, OTM.query, onRelation, if_neg (idStr_ne i.id)]
    cases hr : rel st.overrides (idStr i.id) with
    | none => exact ⟨_, _, rfl, h, rfl, Same.rfl' _⟩
    | some t =>
      simp only [queryAction_id (h.oinv _ _ hr), Option.map_some]
      cases hj : t.itemById id with
      | none => exact ⟨_, _, rfl, h, rfl, Same.rfl' _⟩
      | some j =>
        obtain ⟨hjm, rfl⟩ := itemById_some hj
        have := (h.otag _ _ hr j hjm).2.2.1
        refine ⟨_, _, rfl, h, rfl, ?_⟩
        simp only [Option.map_some, this]; exact Same.rfl' _

theorem sim_updateOverride {st : State Key} {B : Int} (h : LInv st B) (rid id : Nat) {l : Int} (hl : ValidLimit l) : StepOk st B (.updateOverride rid id l) := by
  unfold StepOk
  simp only [step, updateOverride, specStep, amount, Int.add_zero, queryAction_id h.rinv, rule?_abs]
  cases hi : st.rules.itemById rid with
  | none => exact ⟨_, _, rfl, h, rfl, Same.rfl' _⟩
  | some i =>
    obtain ⟨him, rfl⟩ := itemById_some hi
    simp only [Option.toList_some, Option.map_some, override?_abs, onRelation, if_neg (idStr_ne i.id)]
    cases hr : rel st.overrides (idStr i.id) with
    | none => exact ⟨_, _, rfl, h, rfl, Same.rfl' _⟩
    | some t =>
      simp only [setOverride, queryAction_id (h.oinv _ _ hr)]
      cases hj : t.itemById id with
      | none =>
        simp only [Option.toList_none, Option.map_none]
        obtain ⟨g1, g2⟩ := h.put him (uniq_aupsert h.ouniq) (t := t) (h.oinv _ _ hr) (h.otag _ _ hr) (h.olim _ _ hr) (h.sup i him _ hr) (fun b => rel_upsert)
          (F := fun r => r) (absRule_some hr)
        exact ⟨_, _, rfl, g1, by rw [g2, setRule_id], Same.rfl' _⟩
      | some j =>
        obtain ⟨hjm, rfl⟩ := itemById_some hj
        simp only [Option.toList_some, Option.map_some]
        obtain ⟨g1, g2⟩ := h.put him (uniq_aupsert h.ouniq) (t := modify t j.id (fun x => { x with value := l })) (inv_modify (h.oinv _ _ hr) _ _)
          (by
            intro x hx
            obtain ⟨y, hy, e1, e2, e3⟩ := mem_modify (show x ∈ (modify t j.id (fun x => { x with value := l })).items from hx)
            have := h.otag _ _ hr y hy
            rw [e1, e2]
            rcases e3 with ⟨_, e3⟩ | ⟨_, e3⟩ <;> rw [e3] <;> exact this)
          (by
            intro x hx
            obtain ⟨y, hy, e1, e2, e3⟩ := mem_modify hx
            rcases e3 with ⟨_, e3⟩ | ⟨_, e3⟩ <;> rw [e3]
            · exact hl
            · exact h.olim _ _ hr y hy)
          (by
            intro x hx
            obtain ⟨y, hy, e1, e2, e3⟩ := mem_modify hx
            rw [e2]; exact h.sup i him _ hr y hy)
          (fun b => rel_upsert) (F := fun r => r.setOverride j.id l)
          (by
            rw [absRule_some hr]
            simp only [Rule.setOverride, modify, List.map_map, Rule.mk.injEq, true_and, and_true]
            apply List.map_congr_left
            intro y _
            simp only [Function.comp]
            split <;> rfl)
        exact ⟨_, _, rfl, g1, g2, Same.rfl' _⟩

theorem sim_deleteOverride {st : State Key} {B : Int} (h : LInv st B) (rid id : Nat) : StepOk st B (.deleteOverride rid id) := by
  unfold StepOk
  simp only [step, deleteOverride, specStep, amount, Int.add_zero, queryAction_id h.rinv, rule?_abs]
  cases hi : st.rules.itemById rid with
  | none => exact ⟨_, _, rfl, h, rfl, Same.rfl' _⟩
  | some i =>
    obtain ⟨him, rfl⟩ := itemById_some hi
    simp only [Option.toList_some, Option.map_some, OTM.destroyManyByID, onRelation, if_neg (idStr_ne i.id)]
    cases hr : rel st.overrides (idStr i.id) with
    | none =>
      refine ⟨_, _, rfl, h, ?_, Same.rfl' _⟩
      have : (abs st).setRule i.id (fun r => { r with overrides := r.overrides.filter (fun o => o.id != id) }) = abs st := by
        unfold St.setRule abs
        simp only [St.mk.injEq, and_true]
        rw [← setRule_abs (fun _ _ => rfl)]
        intro j hj
        split
        · rename_i e
          rw [h.rinv.item_eq hj him e, absRule_none hr]; rfl
        · rfl
      exact this.symm
    | some t =>
      have hI := h.oinv _ _ hr
      obtain ⟨t', asked, e2, hI', hst⟩ := hI.destroyById id (onItem (some fun _ => true))
      have hit : t'.items = t.items.filter (fun j => j.id != id) ∧ t'.next = t.next := by
        simp only [storeStep, Store.remove, onItem, Option.map_some, if_true] at hst
        cases hf : t.items.find? (fun j => j.id == id) with
        | none =>
          rw [hf] at hst
          simp only [Prod.mk.injEq, Store.mk.injEq] at hst
          refine ⟨?_, hst.1.2.symm⟩
          rw [← hst.1.1]; symm; rw [List.filter_eq_self]
          intro j hj
          have := List.find?_eq_none.1 hf j hj
          simpa using this
        | some x =>
          rw [hf] at hst
          simp only [if_true, Prod.mk.injEq, Store.mk.injEq] at hst
          have : x.id = id := by simpa using List.find?_some hf
          subst this
          exact ⟨hst.1.1.symm, hst.1.2.symm⟩
      have hmem : ∀ j ∈ t'.items, j ∈ t.items := by intro j hj; rw [hit.1] at hj; exact (List.mem_filter.1 hj).1
      simp only [e2, Option.map_some]
      obtain ⟨g1, g2⟩ := h.put him (uniq_aupsert h.ouniq) (t := t') hI' (fun j hj => h.otag _ _ hr j (hmem j hj)) (fun j hj => h.olim _ _ hr j (hmem j hj))
        (fun j hj => h.sup i him _ hr j (hmem j hj)) (fun b => rel_upsert)
        (F := fun r => { r with overrides := r.overrides.filter (fun o => o.id != id) })
        (by rw [absRule_some hr, hit.1, hit.2]; simp only [Rule.mk.injEq, true_and, and_true]; rw [List.filter_map]; rfl)
      exact ⟨_, _, rfl, g1, g2, Same.rfl' _⟩

/-! ### Histories -/

theorem amount_nonneg (op : Op Key) : 0 ≤ amount op := by cases op <;> simp only [amount] <;> omega

theorem LInv.bound {st : State Key} {B : Int} (h : LInv st B) : 0 ≤ B := by
  have := sum_nonneg (l := st.counters.items.map (·.value)) (fun v hv => by
    obtain ⟨j, hj, rfl⟩ := List.mem_map.1 hv; exact h.cpos j hj)
  have := h.csum; omega

theorem sim_step {st : State Key} {B : Int} (h : LInv st B) {op : Op Key} (hv : LimSpec.ValidOp op) (hB : B + amount op < 2 ^ 63) : StepOk st B op := by
  cases op with
  | createRule kvs l => exact sim_createRule h hv.1 hv.2
  | getRule id => exact sim_getRule h id
  | updateRule id l => exact sim_updateRule h id hv
  | deleteRule ch id => exact sim_deleteRule h hv id
  | createOverride rid kvs l => exact sim_createOverride h rid hv.1 hv.2
  | getOverride rid id => exact sim_getOverride h rid id
  | updateOverride rid id l => exact sim_updateOverride h rid id hv
  | deleteOverride rid id => exact sim_deleteOverride h rid id
  | upsert ch kvs c =>
    obtain ⟨h1, h2, h3, h4⟩ := hv
    by_cases hc : 0 < c
    · exact sim_increment h h4 h1 h2 hc (by simp only [amount] at hB; omega)
    · exact sim_decrement h (by have := amount_nonneg (.upsert ch kvs c); omega) h1 hc h3.1
  | setCounter kvs c => exact sim_setCounter h hv.1 hv.2.1
  | queryCounters q => exact sim_query h hv

theorem totalAmount_cons (op : Op Key) (ops : List (Op Key)) : totalAmount (op :: ops) = amount op + totalAmount ops := by simp [totalAmount]

theorem totalAmount_nonneg : ∀ ops : List (Op Key), 0 ≤ totalAmount ops
  | [] => by simp [totalAmount]
  | op :: ops => by
    have := totalAmount_nonneg ops
    have := amount_nonneg op
    rw [totalAmount_cons]; omega

theorem sim_run {ops : List (Op Key)} : ∀ {st : State Key} {B : Int}, LInv st B → (∀ op ∈ ops, LimSpec.ValidOp op) → B + totalAmount ops < 2 ^ 63 →
    ∃ st' outs, run st ops = some (st', outs) ∧ LInv st' (B + totalAmount ops) ∧ abs st' = (specRun (abs st) ops).1 ∧
      List.Forall₂ LimSpec.Same outs (specRun (abs st) ops).2 := by
  induction ops with
  | nil => intro st B h _ _; exact ⟨st, [], rfl, by simpa [totalAmount] using h, rfl, .nil⟩
  | cons op ops ih =>
    intro st B h hv hB
    rw [totalAmount_cons] at hB ⊢
    have := totalAmount_nonneg ops
    obtain ⟨st1, out, e1, h1, a1, s1⟩ := sim_step h (hv op (by simp)) (by omega)
    obtain ⟨st2, outs, e2, h2, a2, s2⟩ := ih h1 (fun op' ho => hv op' (by simp [ho])) (by omega)
    refine ⟨st2, out :: outs, by simp [run, e1, e2], ?_, ?_, ?_⟩
    · rw [← Int.add_assoc]; exact h2
    · rw [a2, a1]; rfl
    · rw [a1] at s2; exact .cons s1 s2

theorem linv_init : LInv (State.init : State Key) 0 := by
  refine ⟨⟨inv_new, inv_new, by simp [State.init, Uniq], ?_, ?_, ?_, ?_, ?_, ?_, ?_⟩, ?_, ?_⟩ <;> simp [State.init, rel, ATree.new]

theorem abs_init : abs (State.init : State Key) = St.init := rfl

end Willow.Limiter
