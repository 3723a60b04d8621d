import Verif.Proofs.LimiterLocks
/-! Concurrent increments: the total of a group stays bounded. -/
namespace Willow.LimConc
open Willow Willow.Assoc Willow.Spec Willow.OTM Willow.OTMSpec Willow.Limiter Willow.LimSpec KeyOps BTree

/-- The sum over the counters of a group whose id is in a set. -/
def gsum (keys : List GoString) (kvs : KVs Key) (l : List (Item Key Int)) (q : Nat → Bool) : Int :=
  ((l.filter (fun i => agree keys kvs i.kvs && q i.id)).map (·.value)).sum

theorem gsum_nil (keys : List GoString) (kvs : KVs Key) (q : Nat → Bool) : gsum keys kvs [] q = 0 := rfl

theorem gsum_cons (keys : List GoString) (kvs : KVs Key) (i : Item Key Int) (l : List (Item Key Int)) (q : Nat → Bool) :
    gsum keys kvs (i :: l) q = (if agree keys kvs i.kvs && q i.id then i.value else 0) + gsum keys kvs l q := by
  unfold gsum
  rw [List.filter_cons]
  split <;> simp

theorem gsum_append (keys : List GoString) (kvs : KVs Key) (a b : List (Item Key Int)) (q : Nat → Bool) :
    gsum keys kvs (a ++ b) q = gsum keys kvs a q + gsum keys kvs b q := by
  unfold gsum; rw [List.filter_append, List.map_append, List.sum_append]

theorem gsum_total (st : State Key) (keys : List GoString) (kvs : KVs Key) :
    gsum keys kvs st.counters.items (fun _ => true) = groupTotal (abs st).counters keys kvs := by
  show _ = groupTotal (st.counters.items.map absCounter) keys kvs
  rw [groupTotal_abs]; simp [gsum]

theorem gsum_split (keys : List GoString) (kvs : KVs Key) (l : List (Item Key Int)) (q : Nat → Bool) :
    gsum keys kvs l (fun _ => true) = gsum keys kvs l q + gsum keys kvs l (fun i => !q i) := by
  induction l with
  | nil => rfl
  | cons i l ih =>
    rw [gsum_cons, gsum_cons, gsum_cons, ih]
    cases agree keys kvs i.kvs <;> cases q i.id <;> simp <;> omega

theorem gsum_nonneg {keys : List GoString} {kvs : KVs Key} {l : List (Item Key Int)} (h : ∀ i ∈ l, 0 < i.value) (q : Nat → Bool) : 0 ≤ gsum keys kvs l q := by
  apply sum_nonneg
  intro v hv
  obtain ⟨i, hi, rfl⟩ := List.mem_map.1 hv
  exact h i (List.mem_filter.1 hi).1

theorem gsum_filter_le {keys : List GoString} {kvs : KVs Key} {l : List (Item Key Int)} (h : ∀ i ∈ l, 0 < i.value) (p : Item Key Int → Bool) (q : Nat → Bool) :
    gsum keys kvs (l.filter p) q ≤ gsum keys kvs l q := by
  induction l with
  | nil => exact Int.le_refl _
  | cons i l ih =>
    have h1 := ih (fun j hj => h j (by simp [hj]))
    have h2 := h i (by simp)
    rw [List.filter_cons]
    split
    · rw [gsum_cons, gsum_cons]; omega
    · rw [gsum_cons]; split <;> omega

theorem gsum_map_le {keys : List GoString} {kvs : KVs Key} {l : List (Item Key Int)} {id : Nat} {f : Int → Int} (q : Nat → Bool)
    (h : ∀ i ∈ l, i.id = id → agree keys kvs i.kvs = true → f i.value ≤ i.value) :
    gsum keys kvs (l.map (fun i => if i.id == id then { i with value := f i.value } else i)) q ≤ gsum keys kvs l q := by
  induction l with
  | nil => exact Int.le_refl _
  | cons i l ih =>
    have h1 := ih (fun j hj => h j (by simp [hj]))
    rw [List.map_cons, gsum_cons, gsum_cons]
    generalize gsum keys kvs (l.map (fun i => if i.id == id then { i with value := f i.value } else i)) q = S at h1 ⊢
    by_cases hid : i.id = id
    · simp only [hid, beq_self_eq_true, if_true]
      cases hg : agree keys kvs i.kvs
      · simp; omega
      · have := h i (by simp) hid hg
        cases q id <;> simp <;> omega
    · simp only [beq_iff_eq, hid, if_false]; omega

/-- From one state to the next no counter of the group was added or increased. -/
structure Frozen (keys : List GoString) (kvs : KVs Key) (t t' : ATree Key Int) : Prop where
  sum : ∀ q, gsum keys kvs t'.items q ≤ gsum keys kvs t.items q
  old : ∀ i' ∈ t'.items, i'.id < t.next → ∃ i ∈ t.items, i.id = i'.id ∧ i.kvs = i'.kvs
  next : t.next ≤ t'.next

theorem Frozen.refl (keys : List GoString) (kvs : KVs Key) (t : ATree Key Int) : Frozen keys kvs t t :=
  ⟨fun _ => Int.le_refl _, fun i hi _ => ⟨i, hi, rfl, rfl⟩, Nat.le_refl _⟩

theorem Frozen.of_items {keys : List GoString} {kvs : KVs Key} {t t' : ATree Key Int} (h1 : t'.items = t.items) (h2 : t'.next = t.next) : Frozen keys kvs t t' :=
  ⟨fun q => by rw [h1]; exact Int.le_refl _, fun i hi _ => ⟨i, by rw [← h1]; exact hi, rfl, rfl⟩, by rw [h2]; exact Nat.le_refl _⟩

theorem Frozen.trans {keys : List GoString} {kvs : KVs Key} {a b c : ATree Key Int} (h1 : Frozen keys kvs a b) (h2 : Frozen keys kvs b c) : Frozen keys kvs a c := by
  refine ⟨fun q => Int.le_trans (h2.sum q) (h1.sum q), ?_, Nat.le_trans h1.next h2.next⟩
  intro i hi hn
  obtain ⟨j, hj, e1, e2⟩ := h2.old i hi (Nat.lt_of_lt_of_le hn h1.next)
  obtain ⟨k, hk, e3, e4⟩ := h1.old j hj (by omega)
  exact ⟨k, hk, by omega, by rw [e4, e2]⟩

theorem frozen_modify {keys : List GoString} {kvs : KVs Key} {t : ATree Key Int} {id : Nat} {f : Int → Int}
    (h : ∀ i ∈ t.items, i.id = id → agree keys kvs i.kvs = true → f i.value ≤ i.value) : Frozen keys kvs t (modify t id f) := by
  refine ⟨fun q => gsum_map_le q h, ?_, Nat.le_refl _⟩
  intro i' hi' _
  obtain ⟨j, hj, e1, e2, _⟩ := mem_modify hi'
  exact ⟨j, hj, by omega, e2.symm⟩

theorem frozen_delete {keys : List GoString} {kvs : KVs Key} {t : ATree Key Int} (hI : Assoc.Inv t) (hp : ∀ i ∈ t.items, 0 < i.value) {k : KVs Key} (hk : ValidKVs k)
    (f : Item Key Int → Bool) : Frozen keys kvs t (t.delete k (some f)).1 ∧
      ∀ i, (t.delete k (some f)).2 = some i → i ∈ t.items ∧ (f i = false → (t.delete k (some f)).1.items = t.items) := by
  obtain ⟨_, hs⟩ := hI.delete hk (some f)
  generalize t.delete k (some f) = r at hs
  obtain ⟨t', o⟩ := r
  unfold Store.remove at hs
  cases hfi : t.items.find? (fun i => sameKVs k i.kvs) with
  | none =>
    rw [hfi] at hs
    simp only [Prod.mk.injEq, Store.mk.injEq, AOut.deleted.injEq] at hs
    refine ⟨.of_items hs.1.1.symm hs.1.2.symm, ?_⟩
    intro i hi; simp only at hi; rw [← hs.2] at hi; cases hi
  | some x =>
    rw [hfi] at hs
    simp only at hs
    split at hs
    · rename_i hx
      simp only [Prod.mk.injEq, Store.mk.injEq, AOut.deleted.injEq] at hs
      refine ⟨⟨fun q => ?_, ?_, by simp only; omega⟩, ?_⟩
      · rw [← hs.1.1]; exact gsum_filter_le hp _ q
      · intro i hi _; simp only at hi; rw [← hs.1.1] at hi; exact ⟨i, (List.mem_filter.1 hi).1, rfl, rfl⟩
      · intro i hi; simp only at hi; rw [← hs.2] at hi; cases hi
        exact ⟨List.mem_of_find?_eq_some hfi, fun hc => by rw [hx] at hc; cases hc⟩
    · simp only [Prod.mk.injEq, Store.mk.injEq, AOut.deleted.injEq] at hs
      refine ⟨.of_items hs.1.1.symm hs.1.2.symm, ?_⟩
      intro i hi; simp only at hi; rw [← hs.2] at hi; cases hi
      exact ⟨List.mem_of_find?_eq_some hfi, fun _ => hs.1.1.symm⟩

/-- No request but an increment, or setting a counter to a positive value, adds to the group. -/
theorem other_frozen {st st' : State Key} {B : Int} (h : LInv st B) (hB : B < 2 ^ 63) {op : Op Key} (hv : LimSpec.ValidOp op)
    (hu : ∀ ch k c, op = .upsert ch k c → c ≤ 0) (hset : ∀ k c, op = .setCounter k c → c ≤ 0) {out : Out Key} (e : Limiter.step st op = some (st', out))
    (keys : List GoString) (kvs : KVs Key) : Frozen keys kvs st.counters st'.counters := by
  by_cases hr : OnRules op
  · have := step_counters (st := st) hr st.counters
    rw [show ({ st with counters := st.counters } : State Key) = st from rfl, e] at this
    simp only [Option.map_some, Option.some.injEq, Prod.mk.injEq, and_true] at this
    rw [this]; exact .refl _ _ _
  · cases op with
    | upsert ch k c =>
      have hc := hu ch k c rfl
      have hneg : ¬ c > 0 := by omega
      obtain ⟨hF, hi⟩ := frozen_delete (keys := keys) (kvs := kvs) h.cinv h.cpos hv.1 (fun i => decide (add64 i.value c ≤ 0))
      simp only [Limiter.step, upsert, if_neg hneg, decrement] at e
      generalize st.counters.delete k (some fun i => decide (add64 i.value c ≤ 0)) = r at e hF hi
      obtain ⟨t, o⟩ := r
      cases o with
      | none => cases e; exact hF
      | some i =>
        simp only [Option.some.injEq, Prod.mk.injEq] at e
        obtain ⟨hm, hsame⟩ := hi i rfl
        rw [← e.1]
        simp only
        split
        · exact hF
        · rename_i hz
          have hit := hsame (by simpa using hz)
          simp only at hit
          refine hF.trans (frozen_modify ?_)
          intro j hj _ _
          simp only at hj
          rw [hit] at hj
          have h1 := h.cpos j hj
          have h2 := le_sum h.cpos hj
          have := h.csum
          have h3 := hv.2.2.1.1
          rw [add64_eq (by omega) (by omega)]; omega
    | setCounter k c =>
      have hc := hset k c rfl
      simp only [Limiter.step, setCounter, if_pos hc, Option.some.injEq, Prod.mk.injEq] at e
      rw [← e.1]
      exact (frozen_delete h.cinv h.cpos hv.1 _).1
    | queryCounters q =>
      simp only [Limiter.step, queryCounters] at e
      split at e <;> cases e
      exact .refl _ _ _
    | _ => exact absurd trivial hr

/-- What adding to a counter does. -/
theorem add_spec {st : State Key} {B : Int} (h : LInv st B) {k : KVs Key} (hv : ValidKVs k) (ht : Typed k) {c : Int} (hpos : 0 < c) (hB : B + c < 2 ^ 63)
    (keys : List GoString) (kvs : KVs Key) : ∃ st', addCounter st k c = some (st', .ok) ∧ LInv st' (B + c) ∧ (abs st').rules = (abs st).rules ∧
      (abs st').nextId = (abs st).nextId ∧
      groupTotal (abs st').counters keys kvs = groupTotal (abs st).counters keys kvs + (if agree keys kvs k then c else 0) ∧
      (agree keys kvs k = false → Frozen keys kvs st.counters st'.counters) := by
  obtain ⟨t, o, e, t', ht', hI, hab⟩ := put_spec h hv ht hpos (fun v => add64 v c) (· + c) (by
    intro i hi
    have h1 := h.cpos i hi
    have h2 := le_sum h.cpos hi
    have := h.csum
    exact ⟨add64_eq (by omega) (by omega), by omega, by omega⟩) rfl
  have hadd : addCounter st k c = some ({ st with counters := t' }, .ok) := by
    unfold addCounter; rw [e]; subst ht'; cases o <;> rfl
  refine ⟨_, hadd, hI, rfl, rfl, ?_, ?_⟩
  · rw [abs_counters]
    simp only
    rw [hab]
    exact groupTotal_put h.sinv.cuniq h.sinv.cval hv c keys kvs
  · intro hg
    obtain ⟨t1, o1, e1, hI1, hs⟩ := h.cinv.createOrFind hv (some c)
    rw [e] at e1; cases e1
    simp only [storeStep] at hs
    simp only
    cases hfi : st.counters.items.find? (fun i => sameKVs k i.kvs) with
    | none =>
      rw [hfi] at hs
      simp only [Prod.mk.injEq, Store.mk.injEq] at hs
      obtain ⟨⟨hit, hnx⟩, ho⟩ := hs
      have : t' = t := by
        cases o <;> simp [Spec.seen] at ho
        exact ht'.symm
      rw [this]
      refine ⟨?_, ?_, by omega⟩
      · intro q
        rw [← hit, gsum_append, gsum_cons]
        simp [hg, gsum_nil]
      · intro i hi hn
        rw [← hit] at hi
        rcases List.mem_append.1 hi with hi | hi
        · exact ⟨i, hi, rfl, rfl⟩
        · simp only [List.mem_singleton] at hi; subst hi; simp only at hn; omega
    | some x =>
      rw [hfi] at hs
      simp only [Prod.mk.injEq, Store.mk.injEq] at hs
      obtain ⟨⟨hit, hnx⟩, ho⟩ := hs
      cases o <;> simp [Spec.seen] at ho
      subst ho
      simp only at ht'
      rw [← ht']
      refine (Frozen.of_items hit.symm hnx.symm).trans (frozen_modify ?_)
      intro j hj hid hga
      rw [← hit] at hj
      have hxm := List.mem_of_find?_eq_some hfi
      have hxs := List.find?_some hfi
      have : j = x := by
        have hnd := h.cinv.ids
        exact item_eq hnd hj hxm hid
      subst this
      rw [← agree_congr hv (h.cinv.valid hxm) hxs, hg] at hga; cases hga

/-! ### The invariant of a group -/

/-- The limit will still be checked, or a 0 limit will. -/
def Pend (keys : List GoString) (L : Int) (ls : List (List GoString × Int)) : Prop := (keys, L) ∈ ls ∨ ∃ x ∈ ls, x.2 = 0

/-- What holds of an increment of a counter of the group; `T` bounds all sums, `ρ` is what others added while it was checking. -/
def GPhase (keys : List GoString) (kvs : KVs Key) (L ρ T : Int) (t : ATree Key Int) : Phase Key → Prop
  | .start | .releasing _ _ | .done _ => True
  | .locking ls _ => Pend keys L ls
  | .checking ls => Pend keys L ls ∨ gsum keys kvs t.items (fun _ => true) < L + ρ
  | .summing limit rest ids acc => Pend keys L rest ∨ gsum keys kvs t.items (fun _ => true) < L + ρ ∨ (limit = 0 ∧ acc = 0) ∨
      (limit = L ∧ ids.Nodup ∧ (∀ id ∈ ids, id < t.next) ∧ (∀ i ∈ t.items, i.id ∈ ids → agree keys kvs i.kvs = true) ∧ 0 ≤ acc ∧
        gsum keys kvs t.items (fun id => !ids.contains id) ≤ acc + ρ ∧ acc + gsum keys kvs t.items (fun id => ids.contains id) ≤ T)
  | .adding b => b = true ∧ gsum keys kvs t.items (fun _ => true) < L + ρ

theorem GPhase.frozen {keys : List GoString} {kvs : KVs Key} {L ρ T : Int} {t t' : ATree Key Int} {p : Phase Key} (h : GPhase keys kvs L ρ T t p)
    (hf : Frozen keys kvs t t') : GPhase keys kvs L ρ T t' p := by
  have hs := hf.sum (fun _ => true)
  cases p with
  | start => trivial
  | releasing _ _ => trivial
  | done _ => trivial
  | locking _ _ => exact h
  | checking _ => exact h.imp id (fun x => by omega)
  | adding b => exact ⟨h.1, by have := h.2; omega⟩
  | summing limit rest ids acc =>
    refine h.imp id (Or.imp (fun x => by omega) (Or.imp id ?_))
    rintro ⟨h1, h2, h3, h4, h5, h6, h7⟩
    refine ⟨h1, h2, fun id hi => Nat.lt_of_lt_of_le (h3 id hi) hf.next, ?_, h5, Int.le_trans (hf.sum _) h6, ?_⟩
    · intro i hi hid
      obtain ⟨j, hj, e1, e2⟩ := hf.old i hi (h3 _ hid)
      rw [← e2]; exact h4 j hj (by rw [e1]; exact hid)
    · have := hf.sum (fun id => ids.contains id); omega

/-- Phases that depend on the counters belong to critical sections. -/
theorem GPhase.same {keys : List GoString} {kvs : KVs Key} {L ρ T : Int} {t t' : ATree Key Int} {th : Thread Key} (h : GPhase keys kvs L ρ T t th.phase)
    (hc : ¬ th.critical) : GPhase keys kvs L ρ T t' th.phase := by
  obtain ⟨r, p⟩ := th
  cases p with
  | start => trivial
  | releasing _ _ => trivial
  | done _ => trivial
  | locking _ _ => exact h
  | checking _ => exact absurd trivial hc
  | summing _ _ _ _ => exact absurd trivial hc
  | adding b => obtain ⟨rfl, _⟩ := h; exact absurd trivial hc

/-- What an increment may still add. -/
def pend (t : Thread Key) : Int :=
  match t.phase with
  | .releasing _ _ | .done _ => 0
  | _ => t.req.c

/-- All that may still be added by running increments. -/
def pends (l : List (Thread Key)) : Int := (l.map pend).sum

theorem pends_middle (a b : List (Thread Key)) (t : Thread Key) : pends (a ++ t :: b) = pend t + pends (a ++ b) := by
  simp only [pends, List.map_append, List.map_cons, List.sum_append, List.sum_cons]; omega

/-- The invariant; `R` is what the remaining steps may bring. -/
structure GI (keys : List GoString) (kvs : KVs Key) (L m T M : Int) (P : St → Prop) (s : Sys Key) (R : Int) : Prop where
  base : SysInv s
  lim : ∃ B, LInv s.st B ∧ B + pends s.threads + R ≤ T
  rule : P (abs s.st)
  tot : groupTotal (abs s.st).counters keys kvs ≤ M
  thr : ∀ t ∈ s.threads, agree keys kvs t.req.kvs = true → GPhase keys kvs L 0 T s.st.counters t.phase
  amt : ∀ t ∈ s.threads, t.req.c ≤ m

theorem pend_nonneg {t : Thread Key} (h : TInv t) : 0 ≤ pend t := by
  have := h.pos
  unfold pend; split <;> omega

theorem pends_nonneg : ∀ {l : List (Thread Key)}, (∀ t ∈ l, TInv t) → 0 ≤ pends l
  | [], _ => Int.le_refl _
  | t :: l, h => by
    have h1 := pend_nonneg (h t (by simp))
    have h2 := pends_nonneg (l := l) (fun u hu => h u (by simp [hu]))
    simp only [pends, List.map_cons, List.sum_cons] at *
    omega

section
variable {keys : List GoString} {kvs : KVs Key} {L m T M : Int} {P : St → Prop}

/-- Items of a group, split off one id. -/
theorem gsum_take {l : List (Item Key Int)} (nd : (l.map (·.id)).Nodup) {i : Item Key Int} (hi : i ∈ l) (hg : agree keys kvs i.kvs = true) {ids : List Nat} (hn : i.id ∉ ids) :
    gsum keys kvs l (fun id => (i.id :: ids).contains id) = i.value + gsum keys kvs l (fun id => ids.contains id) ∧
    gsum keys kvs l (fun id => !ids.contains id) = i.value + gsum keys kvs l (fun id => !(i.id :: ids).contains id) := by
  induction l with
  | nil => cases hi
  | cons j l ih =>
    simp only [List.map_cons, List.nodup_cons] at nd
    simp only [gsum_cons]
    rcases List.mem_cons.1 hi with rfl | hi
    · have hsame : ∀ q q' : Nat → Bool, (∀ x, x ≠ i.id → q x = q' x) → gsum keys kvs l q = gsum keys kvs l q' := by
        intro q q' hq
        unfold gsum
        congr 2
        apply List.filter_congr
        intro x hx
        rw [hq x.id]
        intro e; exact nd.1 (List.mem_map.2 ⟨x, hx, e⟩)
      have e1 := hsame (fun id => (i.id :: ids).contains id) (fun id => ids.contains id) (fun x hx => by simp [hx])
      have e2 := hsame (fun id => !(i.id :: ids).contains id) (fun id => !ids.contains id) (fun x hx => by simp [hx])
      rw [e1, e2]
      simp [hg, hn]
    · obtain ⟨h1, h2⟩ := ih nd.2 hi
      have hne : j.id ≠ i.id := fun e => nd.1 (List.mem_map.2 ⟨i, hi, e.symm⟩)
      rw [h1, h2]
      simp only [List.contains_cons, beq_iff_eq, hne, Bool.false_or, show (j.id == i.id) = false from by simp [hne]]
      constructor <;> omega

theorem gsum_gone {l : List (Item Key Int)} {id : Nat} (hn : ∀ i ∈ l, i.id ≠ id) (ids : List Nat) :
    gsum keys kvs l (fun x => (id :: ids).contains x) = gsum keys kvs l (fun x => ids.contains x) ∧
    gsum keys kvs l (fun x => !(id :: ids).contains x) = gsum keys kvs l (fun x => !ids.contains x) := by
  unfold gsum
  constructor <;> (congr 2; apply List.filter_congr; intro x hx; have := hn x hx; simp [this])

/-- A step of an increment of the group, other than adding. -/
theorem GPhase.advance {st : State Key} {B ρ : Int} (hρ : 0 ≤ ρ) (h : LInv st B) (hBT : B ≤ T) (hT : T < 2 ^ 63) (hL : L ≠ -1) {t : Thread Key} (ht : TInv t)
    (hg : agree keys kvs t.req.kvs = true) (heff : (keys, L) ∈ effective (abs st).rules t.req.kvs) (hp : GPhase keys kvs L ρ T st.counters t.phase)
    {st' : State Key} {p : Phase Key} (e : advance st t = some (st', p)) :
    (∃ b, t.phase = .adding b) ∨ (st' = st ∧ GPhase keys kvs L ρ T st.counters p) := by
  obtain ⟨⟨k, c, ch⟩, p0⟩ := t
  have hv := ht.kvs; have hty := ht.typed; have hch := ht.choice; have hph := ht.phase
  simp only at hg heff hv hty hch
  have hlv : -1 ≤ L := (effective_mem h.toRInv heff).2.2.1
  cases p0 with
  | adding b => exact .inl ⟨b, rfl⟩
  | start =>
    right
    obtain ⟨rs, e1, hsub, hall⟩ := findLimits_spec h.toRInv hch hv hty
    simp only [LimConc.advance, e1, afterFind] at e
    have hpend : Pend keys L (rs.flatMap Found.limits) := by
      rcases hall with hz | hall
      · exact .inr hz
      · exact .inl (hall _ heff)
    split at e
    · cases e; exact ⟨rfl, trivial⟩
    · split at e <;> cases e
      · exact ⟨rfl, hpend⟩
      · rename_i hlim
        exfalso
        apply hlim
        obtain ⟨x, hx, hne⟩ : ∃ x ∈ rs.flatMap Found.limits, x.2 ≠ -1 := by
          rcases hpend with hp | ⟨x, hx, hz⟩
          · exact ⟨_, hp, hL⟩
          · exact ⟨x, hx, by omega⟩
        obtain ⟨r, hr, hx⟩ := List.mem_flatMap.1 hx
        unfold limited
        rw [List.any_eq_true]
        refine ⟨r, hr, ?_⟩
        rw [List.any_eq_true]
        exact ⟨x, hx, by simpa using hne⟩
  | locking ls todo =>
    right
    cases todo with
    | nil => cases e; exact ⟨rfl, .inl hp⟩
    | cons x todo => cases e; exact ⟨rfl, hp⟩
  | checking ls =>
    right
    cases ls with
    | nil =>
      cases e
      refine ⟨rfl, rfl, ?_⟩
      rcases hp with (hp | ⟨_, hp, _⟩) | hp
      · cases hp
      · cases hp
      · exact hp
    | cons x ls =>
      obtain ⟨keys', limit⟩ := x
      simp only [LimConc.advance, checkNext] at e
      have hrest : (keys', limit) = (keys, L) ∨ limit = 0 ∨ Pend keys L ls ∨ gsum keys kvs st.counters.items (fun _ => true) < L + ρ := by
        rcases hp with (hp | ⟨x, hx, hz⟩) | hp
        · rcases List.mem_cons.1 hp with e | hp
          · exact .inl e.symm
          · exact .inr (.inr (.inl (.inl hp)))
        · rcases List.mem_cons.1 hx with rfl | hx
          · exact .inr (.inl hz)
          · exact .inr (.inr (.inl (.inr ⟨x, hx, hz⟩)))
        · exact .inr (.inr (.inr hp))
      split at e
      · rename_i hm
        simp only [beq_iff_eq] at hm
        cases e
        refine ⟨rfl, ?_⟩
        rcases hrest with he | h0 | hp | hp
        · cases he; exact absurd hm hL
        · omega
        · exact .inl hp
        · exact .inr hp
      · obtain ⟨h1, h2⟩ := hph (keys', limit) (by simp)
        obtain ⟨l, el, hperm⟩ := checkQuery_some h.toRInv (r := ⟨k, c, ch⟩) hv hty h1 h2
        simp only at el hperm
        rw [el] at e
        cases e
        refine ⟨rfl, ?_⟩
        rcases hrest with he | h0 | hp | hp
        · cases he
          right; right; right
          have hp2 := (hch.2.2.2.1 l).trans hperm
          have hids := hp2.map (·.id)
          have hfm : ∀ i, i ∈ ch.counters l ↔ i ∈ st.counters.items ∧ agree keys kvs i.kvs = true := by
            intro i
            rw [hp2.mem_iff, List.mem_filter, agree_left hg]
          have hin : ∀ i ∈ st.counters.items, agree keys kvs i.kvs = true → i.id ∈ (ch.counters l).map (·.id) :=
            fun i hi hgi => List.mem_map.2 ⟨i, (hfm i).2 ⟨hi, hgi⟩, rfl⟩
          refine ⟨rfl, ?_, ?_, ?_, Int.le_refl _, ?_, ?_⟩
          · rw [hids.nodup_iff]
            exact (h.cinv.ids).sublist (List.filter_sublist.map _)
          · intro id hid
            obtain ⟨i, hi, rfl⟩ := List.mem_map.1 hid
            exact h.cinv.fresh i ((hfm i).1 hi).1
          · intro i hi hid
            obtain ⟨j, hj, ej⟩ := List.mem_map.1 hid
            have := item_eq h.cinv.ids ((hfm j).1 hj).1 hi ej
            rw [← this]; exact ((hfm j).1 hj).2
          · have : gsum keys kvs st.counters.items (fun id => !((ch.counters l).map (·.id)).contains id) = 0 := by
              unfold gsum
              rw [List.filter_eq_nil_iff.2]; · rfl
              intro i hi hc
              simp only [Bool.and_eq_true] at hc
              have := hin i hi hc.1
              rw [List.contains_iff_mem.2 this] at hc
              exact absurd hc.2 (by simp)
            omega
          · have h1 := gsum_split keys kvs st.counters.items (fun id => ((ch.counters l).map (·.id)).contains id)
            have h2 := gsum_nonneg (keys := keys) (kvs := kvs) h.cpos (fun id => !((ch.counters l).map (·.id)).contains id)
            have h3 := gsum_total st keys kvs
            have h4 : gsum keys kvs st.counters.items (fun _ => true) ≤ B := by
              have := pos_sum_filter (fun i => agree keys kvs i.kvs && (fun _ => true) i.id) h.cpos
              have := h.csum
              unfold gsum; omega
            omega
        · subst h0; exact .inr (.inr (.inl ⟨rfl, rfl⟩))
        · exact .inl hp
        · exact .inr (.inl hp)
  | summing limit rest ids acc =>
    right
    cases ids with
    | nil =>
      simp only [LimConc.advance, sumNext, Option.some.injEq, Prod.mk.injEq] at e
      obtain ⟨rfl, rfl⟩ := e
      refine ⟨rfl, ?_⟩
      split
      · trivial
      · rename_i hlt
        rcases hp with hp | hp | ⟨h0, ha⟩ | ⟨rfl, _, _, _, _, h6, _⟩
        · exact .inl hp
        · exact .inr hp
        · omega
        · right
          simp only [List.contains_nil, Bool.not_false] at h6
          omega
    | cons id ids =>
      simp only [LimConc.advance, sumNext, Option.some.injEq, Prod.mk.injEq] at e
      obtain ⟨rfl, rfl⟩ := e
      refine ⟨rfl, ?_⟩
      split
      · rename_i hnone
        have hgone : ∀ i ∈ st.counters.items, i.id ≠ id := by
          intro i hi he
          have := List.find?_eq_none.1 (show st.counters.items.find? (fun i => i.id == id) = none from hnone) i hi
          simp [he] at this
        refine hp.imp (fun x => x) (Or.imp (fun x => x) (Or.imp (fun x => x) ?_))
        rintro ⟨h1, h2, h3, h4, h5, h6, h7⟩
        obtain ⟨g1, g2⟩ := gsum_gone (keys := keys) (kvs := kvs) hgone ids
        rw [g1] at h7
        rw [g2] at h6
        exact ⟨h1, (List.nodup_cons.1 h2).2, fun x hx => h3 x (by simp [hx]), fun i hi hx => h4 i hi (by simp [hx]), h5, h6, h7⟩
      · rename_i i hi
        have him : i ∈ st.counters.items := List.mem_of_find?_eq_some (show st.counters.items.find? (fun i => i.id == id) = some i from hi)
        have hid : i.id = id := by
          have := List.find?_some (show st.counters.items.find? (fun i => i.id == id) = some i from hi); simpa using this
        have hpos := h.cpos i him
        have hle := le_sum h.cpos him
        have hcs := h.csum
        split
        · rename_i hlt
          rcases hp with hp | hp | ⟨h0, ha⟩ | ⟨h1, h2, h3, h4, h5, h6, h7⟩
          · exact .inl hp
          · exact .inr (.inl hp)
          · rw [h0, ha, add64_eq (by omega) (by omega)] at hlt; omega
          · right; right; right
            have hga := h4 i him (by simp [hid])
            rw [List.nodup_cons] at h2
            obtain ⟨g1, g2⟩ := gsum_take (keys := keys) (kvs := kvs) h.cinv.ids him hga (ids := ids) (by rw [hid]; exact h2.1)
            rw [hid] at g1 g2
            have g3 := gsum_nonneg (keys := keys) (kvs := kvs) h.cpos (fun id => ids.contains id)
            rw [add64_eq (by omega) (by omega)]
            exact ⟨h1, h2.2, fun x hx => h3 x (by simp [hx]), fun i hi hx => h4 i hi (by simp [hx]), by omega, by omega, by omega⟩
        · trivial
  | releasing todo out =>
    right
    cases todo <;> (cases e; exact ⟨rfl, trivial⟩)
  | done out => cases e

theorem GI.step {s s' : Sys Key} {l : Label Key} {R : Int} (hT : T < 2 ^ 63) (hL : L ≠ -1) (hne : keys ≠ []) (hM : L - 1 + m ≤ M)
    (hP : ∀ st, P st → ∀ k, agree keys kvs k = true → (keys, L) ∈ effective st.rules k)
    (hPr : ∀ st st', P st → st'.rules = st.rules → P st') (keeps : Op Key → Prop)
    (hK : ∀ op, keeps op → ∀ st, SInv st → P st → P (specStep st op).1)
    (h : GI keys kvs L m T M P s (labelAmount l + R)) (hR : 0 ≤ R) (hv : ValidLabel l) (hq : Quiet keeps m l) (hs : Step s l s') :
    GI keys kvs L m T M P s' R := by
  obtain ⟨B, hI, hBT⟩ := h.lim
  have hpn := pends_nonneg h.base.threads
  have hb := h.base.step hv hs
  cases hs with
  | arrive r =>
    rename_i r
    refine ⟨hb, ⟨B, hI, ?_⟩, h.rule, h.tot, ?_, ?_⟩
    · simp only [labelAmount] at hBT
      simp only [pends, List.map_cons, List.sum_cons, pend] at hBT ⊢
      omega
    · intro t ht hg
      rcases List.mem_cons.1 ht with rfl | ht
      · trivial
      · exact h.thr t ht hg
    · intro t ht
      rcases List.mem_cons.1 ht with rfl | ht
      · exact hq
      · exact h.amt t ht
  | other s0 op st' out e =>
    have ha : amount op ≤ 0 := by
      cases op with
      | upsert ch k c => have := hv.2 ch k c rfl; simp only [amount]; omega
      | setCounter k c => have := hq.2 k c rfl; simp only [amount]; omega
      | _ => exact Int.le_refl _
    have ha0 := amount_nonneg op
    have haz : amount op = 0 := by omega
    simp only [labelAmount, haz] at hBT
    obtain ⟨st1, out1, e1, h1, hab, _⟩ := sim_step hI hv.1 (by rw [haz]; omega)
    rw [e] at e1; cases e1
    have hf := other_frozen hI (by omega) hv.1 hv.2 hq.2 e keys kvs
    rw [haz] at h1
    refine ⟨hb, ⟨B, by simpa using h1, by simp only; omega⟩, ?_, ?_, ?_, h.amt⟩
    · show P (abs _); rw [hab]; exact hK op hq.1 _ hI.sinv h.rule
    · have h2 := hf.sum (fun _ => true)
      rw [gsum_total, gsum_total] at h2
      exact Int.le_trans h2 h.tot
    · intro t ht hg
      exact (h.thr t ht hg).frozen hf
  | move st a b t st' p hfree e =>
    have htm : t ∈ a ++ t :: b := mem_middle.2 (.inl rfl)
    have hti := h.base.threads t htm
    have hbase' : ∀ u ∈ a ++ b, u ∈ a ++ t :: b := fun u hu => mem_middle.2 (.inr hu)
    simp only [labelAmount, Int.zero_add] at hBT
    rw [pends_middle] at hBT
    have hpab : 0 ≤ pends (a ++ b) := pends_nonneg (fun u hu => h.base.threads u (hbase' u hu))
    have hpt := pend_nonneg hti
    have hamt : ∀ u ∈ a ++ { t with phase := p } :: b, u.req.c ≤ m := by
      intro u hu
      rcases mem_middle.1 hu with rfl | hu
      · exact h.amt t htm
      · exact h.amt u (hbase' u hu)
    by_cases hadd : ∃ b', t.phase = .adding b'
    · -- the counter is increased
      obtain ⟨b', hb'⟩ := hadd
      have hpc : pend t = t.req.c := by unfold pend; rw [hb']
      obtain ⟨st1, e1, h1, hr, hn, htot, hfz⟩ := add_spec hI hti.kvs hti.typed hti.pos (by omega) keys kvs
      have e' : LimConc.advance st t = some (st', p) := e
      unfold LimConc.advance at e'
      rw [hb'] at e'
      simp only at e' e1
      rw [e1] at e'
      simp only [Option.map_some, Option.some.injEq, Prod.mk.injEq] at e'
      obtain ⟨rfl, rfl⟩ := e'
      have hgp : GPhase keys kvs L 0 T st1.counters (if b' = true then Phase.releasing (sortedKeys t.req.kvs) Out.ok else Phase.done Out.ok) := by
        cases b' <;> trivial
      have hpp : pend { t with phase := if b' = true then Phase.releasing (sortedKeys t.req.kvs) Out.ok else Phase.done Out.ok } = 0 := by
        cases b' <;> rfl
      refine ⟨hb, ⟨B + t.req.c, h1, ?_⟩, hPr _ _ h.rule hr, ?_, ?_, hamt⟩
      · simp only; rw [pends_middle, hpp]; omega
      · simp only
        rw [htot]
        split
        · rename_i hg
          have := h.thr t htm hg
          rw [hb'] at this
          have h2 := this.2
          rw [gsum_total] at h2
          simp only at h2
          have := h.amt t htm
          show groupTotal (abs st).counters keys kvs + t.req.c ≤ M
          omega
        · have := h.tot
          show groupTotal (abs st).counters keys kvs + 0 ≤ M
          simp only at this; omega
      · intro u hu hg
        rcases mem_middle.1 hu with rfl | hu
        · exact hgp
        · have hgu := h.thr u (hbase' u hu) hg
          cases hgt : agree keys kvs t.req.kvs
          · exact hgu.frozen (hfz hgt)
          · refine hgu.same ?_
            intro hcu
            have hct : t.critical := by
              have := h.thr t htm hgt
              rw [hb'] at this
              obtain ⟨rfl, _⟩ := this
              unfold Thread.critical; rw [hb']; trivial
            have := h.base.exclusive hu hct hcu hne
            rw [agree_trans (agree_symm hgt) hg] at this; cases this
    · -- nothing stored changes
      have hst : st' = st := by
        clear hbase' hamt
        obtain ⟨r, p0⟩ := t
        have e' : LimConc.advance st ⟨r, p0⟩ = some (st', p) := e
        cases p0 with
        | adding b' => exact absurd ⟨b', rfl⟩ hadd
        | start =>
          simp only [LimConc.advance] at e'
          cases h : afterFind r.kvs (findLimits st r.ch r.kvs) <;> rw [h] at e' <;> simp at e'
          exact e'.1.symm
        | checking ls =>
          simp only [LimConc.advance] at e'
          cases h : checkNext st r ls <;> rw [h] at e' <;> simp at e'
          exact e'.1.symm
        | locking ls todo => cases todo <;> (simp [LimConc.advance] at e'; exact e'.1.symm)
        | summing _ _ _ _ => simp [LimConc.advance] at e'; exact e'.1.symm
        | releasing todo _ => cases todo <;> (simp [LimConc.advance] at e'; exact e'.1.symm)
        | done _ => simp [LimConc.advance] at e'
      subst hst
      refine ⟨hb, ⟨B, hI, ?_⟩, h.rule, h.tot, ?_, hamt⟩
      · simp only; rw [pends_middle]
        have : pend { t with phase := p } ≤ pend t := by
          have hpos := hti.pos
          have hle : pend { t with phase := p } ≤ t.req.c := by unfold pend; split <;> first | omega | exact Int.le_refl _ | (simp; omega)
          obtain ⟨r, p0⟩ := t
          have e' : LimConc.advance st' ⟨r, p0⟩ = some (st', p) := e
          cases p0 with
          | releasing todo _ =>
            cases todo <;> (simp only [LimConc.advance, Option.some.injEq, Prod.mk.injEq, true_and] at e'; subst e'; exact Int.le_refl _)
          | done _ => simp [LimConc.advance] at e'
          | _ => exact hle
        omega
      · intro u hu hg
        rcases mem_middle.1 hu with rfl | hu
        · rcases GPhase.advance (Int.le_refl 0) hI (by omega) hT hL hti hg (hP _ h.rule _ hg) (h.thr t htm hg) e with hx | ⟨_, hx⟩
          · exact absurd hx hadd
          · exact hx
        · exact h.thr u (hbase' u hu) hg
  | fail st a b r ls todo =>
    have htm : (⟨r, .locking ls todo⟩ : Thread Key) ∈ a ++ ⟨r, .locking ls todo⟩ :: b := mem_middle.2 (.inl rfl)
    simp only [labelAmount, Int.zero_add] at hBT
    rw [pends_middle] at hBT
    have hpt := pend_nonneg (h.base.threads _ htm)
    refine ⟨hb, ⟨B, hI, ?_⟩, h.rule, h.tot, ?_, ?_⟩
    · simp only; rw [pends_middle]; simp only [pend] at hpt hBT ⊢; omega
    · intro u hu hg
      rcases mem_middle.1 hu with rfl | hu
      · trivial
      · exact h.thr u (mem_middle.2 (.inr hu)) hg
    · intro u hu
      rcases mem_middle.1 hu with rfl | hu
      · exact h.amt ⟨r, .locking ls todo⟩ htm
      · exact h.amt u (mem_middle.2 (.inr hu))

theorem labelAmount_nonneg {l : Label Key} (hv : ValidLabel l) : 0 ≤ labelAmount l := by
  cases l with
  | arrive r => have := hv.2.2.1; simp only [labelAmount]; omega
  | other op => exact amount_nonneg op
  | move => exact Int.le_refl _

theorem labelsAmount_nonneg : ∀ {ls : List (Label Key)}, (∀ l ∈ ls, ValidLabel l) → 0 ≤ labelsAmount ls
  | [], _ => Int.le_refl _
  | l :: ls, h => by
    have h1 := labelAmount_nonneg (h l (by simp))
    have h2 := labelsAmount_nonneg (ls := ls) (fun u hu => h u (by simp [hu]))
    simp only [labelsAmount, List.map_cons, List.sum_cons] at *
    omega

theorem GI.run {s s' : Sys Key} {ls : List (Label Key)} (hT : T < 2 ^ 63) (hL : L ≠ -1) (hne : keys ≠ []) (hM : L - 1 + m ≤ M)
    (hP : ∀ st, P st → ∀ k, agree keys kvs k = true → (keys, L) ∈ effective st.rules k)
    (hPr : ∀ st st', P st → st'.rules = st.rules → P st') (keeps : Op Key → Prop)
    (hK : ∀ op, keeps op → ∀ st, SInv st → P st → P (specStep st op).1)
    (hr : Run s ls s') (h : GI keys kvs L m T M P s (labelsAmount ls)) (hv : ∀ l ∈ ls, ValidLabel l) (hq : ∀ l ∈ ls, Quiet keeps m l) :
    GI keys kvs L m T M P s' 0 := by
  induction hr with
  | nil => simpa [labelsAmount] using h
  | @cons s s1 s2 l ls hs _ ih =>
    have hv' : ∀ l ∈ ls, ValidLabel l := fun x hx => hv x (by simp [hx])
    refine ih (GI.step hT hL hne hM hP hPr keeps hK (l := l) ?_ (labelsAmount_nonneg hv') (hv l (by simp)) (hq l (by simp)) hs) hv' (fun x hx => hq x (by simp [hx]))
    simpa [labelsAmount] using h

end
end Willow.LimConc
