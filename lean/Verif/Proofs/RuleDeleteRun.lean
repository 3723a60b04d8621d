import Verif.Proofs.RuleDelete
/-! Histories of the limiter with deletions. -/
namespace Willow.RuleDelete
open Willow Willow.Assoc Willow.Spec Willow.OTM Willow.Limiter Willow.LimSpec KeyOps BTree

/-- What a step adds to the counters at most. -/
def evAmount : Option (Ev Key) → Int
  | some (.served op _) => amount op
  | _ => 0

/-- The requests of a step pass validation. -/
def EvFine : Option (Ev Key) → Prop
  | some (.served op _) => LimSpec.ValidOp op
  | _ => True

/-- The invariant; `B` bounds the sum of all counters. -/
structure DInv (s : Sys Key) (B : Int) : Prop where
  lim : LInv s.st B
  there : ∀ x ∈ s.closing, ∃ i ∈ s.st.rules.items, i.id = x.1
  nd : (s.closing.map (·.1)).Nodup
  gone : ∀ id, (id, true) ∈ s.closing → rel s.st.overrides (idStr id) = none

theorem DInv.init : DInv (Sys.init : Sys Key) 0 :=
  ⟨linv_init, by simp [Sys.init], by simp [Sys.init], by simp [Sys.init]⟩

theorem isClosing_iff {s : Sys Key} {id : Nat} : s.isClosing id = true ↔ Deleting s id := by
  simp only [Sys.isClosing, List.any_eq_true, beq_iff_eq, Deleting]
  constructor
  · rintro ⟨x, hx, rfl⟩; exact ⟨x.2, hx⟩
  · rintro ⟨b, h⟩; exact ⟨_, h, rfl⟩

theorem mem_ids {st : State Key} {id : Nat} : id ∈ (abs st).rules.map (·.id) ↔ ∃ i ∈ st.rules.items, i.id = id := by
  simp only [abs, List.map_map, List.mem_map, Function.comp, absRule]

/-- The ids of the rules after a request that does not delete rules. -/
theorem ids_spec (st : St) {op : Limiter.Op Key} (hop : ∀ ch id, op ≠ .deleteRule ch id) :
    ((specStep st op).1.rules.map (·.id) = st.rules.map (·.id) ∧ (specStep st op).1.nextId = st.nextId) ∨
    ((specStep st op).1.rules.map (·.id) = st.rules.map (·.id) ++ [st.nextId] ∧ (specStep st op).1.nextId = st.nextId + 1) := by
  have hset : ∀ (id : Nat) (F : LimSpec.Rule → LimSpec.Rule), (∀ r, (F r).id = r.id) → (st.setRule id F).rules.map (·.id) = st.rules.map (·.id) := by
    intro id F hF
    simp only [St.setRule, List.map_map]
    apply List.map_congr_left
    intro r _
    simp only [Function.comp]
    split
    · exact hF r
    · rfl
  cases op with
  | createRule kvs l =>
    simp only [specStep]
    split
    · exact .inl ⟨rfl, rfl⟩
    · exact .inr ⟨by simp, rfl⟩
  | getRule i => simp only [specStep]; split <;> exact .inl ⟨rfl, rfl⟩
  | updateRule i l =>
    simp only [specStep]
    split
    · exact .inl ⟨rfl, rfl⟩
    · exact .inl ⟨hset _ _ (fun _ => rfl), rfl⟩
  | deleteRule ch i => exact absurd rfl (hop ch i)
  | createOverride i kvs l =>
    simp only [specStep]
    split
    · exact .inl ⟨rfl, rfl⟩
    · split
      · exact .inl ⟨rfl, rfl⟩
      · split
        · exact .inl ⟨rfl, rfl⟩
        · split
          · exact .inl ⟨rfl, rfl⟩
          · exact .inl ⟨hset _ _ (fun _ => rfl), rfl⟩
  | getOverride i o =>
    simp only [specStep]
    split
    · exact .inl ⟨rfl, rfl⟩
    · split <;> exact .inl ⟨rfl, rfl⟩
  | updateOverride i o l =>
    simp only [specStep]
    split
    · exact .inl ⟨rfl, rfl⟩
    · split
      · exact .inl ⟨rfl, rfl⟩
      · exact .inl ⟨hset _ _ (fun _ => rfl), rfl⟩
  | deleteOverride i o =>
    simp only [specStep]
    split
    · exact .inl ⟨rfl, rfl⟩
    · exact .inl ⟨hset _ _ (fun _ => rfl), rfl⟩
  | upsert ch kvs c =>
    simp only [specStep]
    split
    · split <;> exact .inl ⟨rfl, rfl⟩
    · split <;> exact .inl ⟨rfl, rfl⟩
  | setCounter kvs c => simp only [specStep]; split <;> exact .inl ⟨rfl, rfl⟩
  | queryCounters q => exact .inl ⟨rfl, rfl⟩

theorem named_eq (op : Limiter.Op Key) : named op = concerns op := by cases op <;> rfl

theorem serve_other {s : Sys Key} {op : Limiter.Op Key} (hi : Increases op = false) :
    serve s op = match named op with
      | some id => if s.isClosing id then some (s, .notFound) else (Limiter.step s.st op).map (fun r => (⟨r.1, s.closing⟩, r.2))
      | none => (Limiter.step s.st op).map (fun r => (⟨r.1, s.closing⟩, r.2)) := by
  cases op <;> try rfl
  rename_i ch kvs c
  simp only [Increases, decide_eq_false_iff_not] at hi
  simp only [serve, if_neg hi, named]

/-- The effect of a request. -/
theorem serve_spec {s : Sys Key} {B : Int} (h : DInv s B) {op : Limiter.Op Key} (hop : ∀ ch id, op ≠ .deleteRule ch id) (hv : LimSpec.ValidOp op) (hB : B + amount op < 2 ^ 63) :
    ∃ s' out, serve s op = some (s', out) ∧ s'.closing = s.closing ∧ DInv s' (B + amount op) ∧
      (((abs s'.st).rules.map (·.id) = (abs s.st).rules.map (·.id) ∧ (abs s'.st).nextId = (abs s.st).nextId) ∨
        ((abs s'.st).rules.map (·.id) = (abs s.st).rules.map (·.id) ++ [(abs s.st).nextId] ∧ (abs s'.st).nextId = (abs s.st).nextId + 1)) ∧
      (Increases op = false → (∀ id, concerns op = some id → s.isClosing id = true → s' = s ∧ out = .notFound) ∧
        ((∀ id, concerns op = some id → s.isClosing id = false) → abs s'.st = (specStep (abs s.st) op).1 ∧ LimSpec.Same out (specStep (abs s.st) op).2)) ∧
      (∀ ch kvs c, op = .upsert ch kvs c → 0 < c → ∃ l : List LimSpec.Rule, l.Perm ((abs s.st).rules.filter (fun r => applies r.kvs kvs)) ∧
        if allowed (withRules (abs s.st) (l.takeWhile (fun r => !s.isClosing r.id))) kvs
        then out = .ok ∧ abs s'.st = { abs s.st with counters := putCounter (abs s.st).counters kvs c (· + c) } else out = .conflict ∧ s' = s) := by
  have hlift : ∀ {st' : State Key}, LInv st' (B + amount op) → (∀ id, s.isClosing id = true → rel st'.overrides (idStr id) = rel s.st.overrides (idStr id)) →
      (((abs st').rules.map (·.id) = (abs s.st).rules.map (·.id) ∧ (abs st').nextId = (abs s.st).nextId) ∨
        ((abs st').rules.map (·.id) = (abs s.st).rules.map (·.id) ++ [(abs s.st).nextId] ∧ (abs st').nextId = (abs s.st).nextId + 1)) →
      DInv ⟨st', s.closing⟩ (B + amount op) := by
    intro st' h1 h2 h3
    refine ⟨h1, ?_, h.nd, ?_⟩
    · intro x hx
      have hm := mem_ids.2 (h.there x hx)
      refine mem_ids.1 ?_
      rcases h3 with h3 | h3 <;> rw [h3.1] <;> simp [hm]
    · intro id hid
      rw [h2 id (isClosing_iff.2 ⟨true, hid⟩)]
      exact h.gone id hid
  have hself : DInv s (B + amount op) := by
    have := amount_nonneg op
    exact ⟨{ h.lim with csum := by have := h.lim.csum; omega }, h.there, h.nd, h.gone⟩
  cases hi : Increases op with
  | false =>
    rw [serve_other hi, named_eq]
    have hgen : (∀ id, concerns op = some id → s.isClosing id = false) → ∃ s' out, (Limiter.step s.st op).map (fun r => ((⟨r.1, s.closing⟩ : Sys Key), r.2)) = some (s', out) ∧ s'.closing = s.closing ∧
        DInv s' (B + amount op) ∧
        (((abs s'.st).rules.map (·.id) = (abs s.st).rules.map (·.id) ∧ (abs s'.st).nextId = (abs s.st).nextId) ∨
        ((abs s'.st).rules.map (·.id) = (abs s.st).rules.map (·.id) ++ [(abs s.st).nextId] ∧ (abs s'.st).nextId = (abs s.st).nextId + 1)) ∧
        abs s'.st = (specStep (abs s.st) op).1 ∧ LimSpec.Same out (specStep (abs s.st) op).2 := by
      intro hn
      obtain ⟨st', out, e, hI, ha, hs⟩ := sim_step h.lim hv hB
      have hids : (((abs st').rules.map (·.id) = (abs s.st).rules.map (·.id) ∧ (abs st').nextId = (abs s.st).nextId) ∨
        ((abs st').rules.map (·.id) = (abs s.st).rules.map (·.id) ++ [(abs s.st).nextId] ∧ (abs st').nextId = (abs s.st).nextId + 1)) := by
        rw [ha]; exact ids_spec _ hop
      refine ⟨⟨st', s.closing⟩, out, by rw [e]; rfl, rfl, hlift hI ?_ hids, hids, ha, hs⟩
      intro id hid
      exact rel_step e hop (fun hne => by rw [hn id ((named_eq op).symm.trans hne)] at hid; cases hid)
    have hfin : ∀ {s' : Sys Key} {out : Out Key}, (∀ ch kvs c, op = .upsert ch kvs c → 0 < c → ∃ l : List LimSpec.Rule, l.Perm ((abs s.st).rules.filter (fun r => applies r.kvs kvs)) ∧
        if allowed (withRules (abs s.st) (l.takeWhile (fun r => !s.isClosing r.id))) kvs
        then out = .ok ∧ abs s'.st = { abs s.st with counters := putCounter (abs s.st).counters kvs c (· + c) } else out = .conflict ∧ s' = s) := by
      intro s' out ch kvs c e hc
      subst e
      simp only [Increases, decide_eq_false_iff_not] at hi
      exact absurd hc hi
    cases hn : concerns op with
    | none =>
      obtain ⟨s', out, e, h1, h2, h3, h4⟩ := hgen (fun id hid => by rw [hn] at hid; cases hid)
      exact ⟨s', out, e, h1, h2, h3, fun _ => ⟨(fun id hid => by cases hid), fun _ => h4⟩, hfin⟩
    | some id =>
      simp only
      cases hcl : s.isClosing id with
      | true =>
        refine ⟨s, .notFound, rfl, rfl, hself, .inl ⟨rfl, rfl⟩, fun _ => ⟨fun _ _ _ => ⟨rfl, rfl⟩, fun hno => ?_⟩, hfin⟩
        rw [hno id rfl] at hcl; cases hcl
      | false =>
        obtain ⟨s', out, e, h1, h2, h3, h4⟩ := hgen (fun id' hid => by rw [hn] at hid; cases hid; exact hcl)
        refine ⟨s', out, by simpa using e, h1, h2, h3, fun _ => ⟨fun id' hid hc' => ?_, fun _ => h4⟩, hfin⟩
        cases hid
        rw [hcl] at hc'; cases hc'
  | true =>
    cases op <;> simp only [Increases, Bool.false_eq_true] at hi
    rename_i ch kvs c
    have hc : c > 0 := by simpa using hi
    obtain ⟨hk, ht, _, hch⟩ := hv
    have hamt : amount (Limiter.Op.upsert ch kvs c) = c := by simp only [amount]; omega
    rw [hamt] at hB hlift hself ⊢
    simp only [serve, if_pos hc]
    obtain ⟨l, hp, e⟩ := increment_spec h.lim (by omega) hch hk ht c
    cases ha : allowed (withRules (abs s.st) (l.takeWhile (fun r => !s.isClosing r.id))) kvs with
    | false =>
      rw [ha] at e
      simp only [Bool.false_eq_true, if_false] at e
      refine ⟨s, .conflict, by rw [e]; rfl, rfl, hself, .inl ⟨rfl, rfl⟩, fun h => by simp at h, ?_⟩
      intro ch' kvs' c' e' _
      cases e'
      exact ⟨l, hp, by rw [ha]; exact ⟨rfl, rfl⟩⟩
    | true =>
      rw [ha] at e
      simp only [if_true] at e
      obtain ⟨st', e2, hI, hab⟩ := add_put h.lim hk ht hc hB
      rw [e2] at e
      refine ⟨⟨st', s.closing⟩, .ok, by rw [e]; rfl, rfl, hlift hI ?_ (.inl ⟨by rw [hab], by rw [hab]⟩), .inl ⟨by rw [hab], by rw [hab]⟩, fun h => by simp at h, ?_⟩
      · intro id _
        rw [(overrides_add e2).1]
      · intro ch' kvs' c' e' _
        cases e'
        exact ⟨l, hp, by rw [ha]; exact ⟨rfl, hab⟩⟩

theorem not_closing {s : Sys Key} {id : Nat} : s.isClosing id = false ↔ ¬ Deleting s id := by
  rw [← isClosing_iff]; simp

/-- Every step keeps the invariant and does what it should. -/
theorem step_effect {s s' : Sys Key} {B : Int} {e : Option (Ev Key)} (h : DInv s B) (hf : EvFine e) (hB : B + evAmount e < 2 ^ 63) (hs : Step s e s') :
    DInv s' (B + evAmount e) ∧ Effect s s' e := by
  cases hs with
  | serve hop e =>
    rename_i op out
    obtain ⟨s1, out1, e1, h1, h2, _, h4, h5⟩ := serve_spec h hop hf hB
    rw [e] at e1; cases e1
    refine ⟨h2, ⟨fun hi => ⟨fun id hn hd => (h4 hi).1 id hn (isClosing_iff.2 hd), fun hn => (h4 hi).2 (fun id hid => not_closing.2 (hn id hid))⟩, h5⟩, h1⟩
  | missing id hc hno =>
    simp only [evAmount, Int.add_zero]
    refine ⟨h, .inr (.inr ⟨rfl, ?_, rfl⟩)⟩
    intro r hr e
    obtain ⟨i, hi, e2⟩ := mem_ids.1 (List.mem_map.2 ⟨r, hr, e⟩)
    have := List.find?_eq_none.1 hno i hi
    simp [e2] at this
  | again id hc =>
    simp only [evAmount, Int.add_zero]
    exact ⟨h, .inr (.inl ⟨rfl, isClosing_iff.1 hc, rfl⟩)⟩
  | begin id hc hi =>
    rename_i i
    obtain ⟨him, rfl⟩ := itemById_some hi
    simp only [evAmount, Int.add_zero]
    refine ⟨⟨h.lim, ?_, ?_, ?_⟩, rfl, ⟨_, List.mem_map.2 ⟨i, him, rfl⟩, rfl⟩, not_closing.1 hc, ?_⟩
    · intro x hx
      rcases List.mem_append.1 hx with hx | hx
      · exact h.there x hx
      · simp only [List.mem_singleton] at hx; subst hx; exact ⟨i, him, rfl⟩
    · simp only [List.map_append, List.map_cons, List.map_nil]
      rw [List.nodup_append]
      refine ⟨h.nd, by simp, ?_⟩
      intro a ha b hb e
      simp only [List.mem_singleton] at hb
      subst hb; subst e
      obtain ⟨x, hx, e⟩ := List.mem_map.1 ha
      exact not_closing.1 hc ⟨x.2, by rw [← e]; exact hx⟩
    · intro id hid
      simp at hid
      exact h.gone id hid
    · intro x
      simp only [Deleting, List.mem_append, List.mem_singleton, Prod.mk.injEq]
      constructor
      · rintro ⟨b, hb | ⟨hb, _⟩⟩
        · exact .inl ⟨b, hb⟩
        · exact .inr hb
      · rintro (⟨b, hb⟩ | hb)
        · exact ⟨b, .inl hb⟩
        · exact ⟨false, .inr ⟨hb, rfl⟩⟩
  | wipe id ord hc ho e hout =>
    obtain ⟨i, him, rfl⟩ := h.there _ hc
    obtain ⟨o', out', e', _, hg, hoth, hI, hab⟩ := wipe_spec h.lim him ho
    rw [e] at e'; cases e'
    simp only [evAmount, Int.add_zero]
    have hmap : (s.closing.map (fun x => if x.1 = i.id then (i.id, true) else x)).map (·.1) = s.closing.map (·.1) := by
      rw [List.map_map]
      apply List.map_congr_left
      intro x _
      simp only [Function.comp]
      split
      · rename_i e; exact e.symm
      · rfl
    have hdel : ∀ x, (∃ b, (x, b) ∈ s.closing.map (fun x => if x.1 = i.id then (i.id, true) else x)) ↔ ∃ b, (x, b) ∈ s.closing := by
      intro x
      have key : ∀ l : List (Nat × Bool), (∃ b, (x, b) ∈ l) ↔ x ∈ l.map (·.1) := by
        intro l
        rw [List.mem_map]
        constructor
        · rintro ⟨b, hb⟩; exact ⟨_, hb, rfl⟩
        · rintro ⟨y, hy, rfl⟩; exact ⟨y.2, hy⟩
      rw [key, key, hmap]
    refine ⟨⟨hI, ?_, by simp only [hmap]; exact h.nd, ?_⟩, i.id, ⟨_, hc⟩, hab, hdel⟩
    · intro x hx
      obtain ⟨b, hb⟩ := (hdel x.1).1 ⟨x.2, hx⟩
      exact h.there (x.1, b) hb
    · intro id hid
      simp only [List.mem_map] at hid
      obtain ⟨y, hy, e⟩ := hid
      split at e
      · cases e; exact hg
      · rename_i hne
        subst e
        have h1 := h.gone _ hy
        have h2 := hoth (idStr id) (idStr_ne_of hne)
        rw [h1] at h2
        simpa using h2
  | wipeFails id ord hc ho e =>
    obtain ⟨i, him, rfl⟩ := h.there _ hc
    obtain ⟨o', out', e', hno, _⟩ := wipe_spec h.lim him ho
    rw [e] at e'; cases e'
    exact absurd rfl (hno _)
  | finish id hc e =>
    obtain ⟨i, him, rfl⟩ := h.there _ hc
    obtain ⟨t', r', e', hI, hab⟩ := finish_spec h.lim him (h.gone _ hc)
    rw [e] at e'; cases e'
    simp only [evAmount, Int.add_zero]
    have hdel : ∀ x, (∃ b, (x, b) ∈ s.closing.filter (fun x => x.1 != i.id)) ↔ (∃ b, (x, b) ∈ s.closing) ∧ x ≠ i.id := by
      intro x
      constructor
      · rintro ⟨b, hb⟩
        have := List.mem_filter.1 hb
        exact ⟨⟨b, this.1⟩, by simpa using this.2⟩
      · rintro ⟨⟨b, hb⟩, hne⟩
        exact ⟨b, List.mem_filter.2 ⟨hb, by simpa using hne⟩⟩
    refine ⟨⟨hI, ?_, ?_, ?_⟩, .inl ⟨rfl, ⟨_, hc⟩, hab, hdel⟩⟩
    · intro x hx
      have hm := List.mem_filter.1 hx
      have h1 := mem_ids.2 (h.there x hm.1)
      refine (mem_ids (st := _)).1 ?_
      show x.1 ∈ (abs { s.st with rules := _ }).rules.map (·.id)
      rw [hab]
      obtain ⟨r, hr, e⟩ := List.mem_map.1 h1
      exact List.mem_map.2 ⟨r, List.mem_filter.2 ⟨hr, by rw [e]; exact hm.2⟩, e⟩
    · exact h.nd.sublist (List.Sublist.map _ List.filter_sublist)
    · intro id hid
      exact h.gone id (List.mem_filter.1 hid).1

/-! ### Histories -/

theorem requests_append (a b : List (Ev Key)) : requests (a ++ b) = requests a ++ requests b := by
  induction a with
  | nil => rfl
  | cons e a ih =>
    cases e <;> simp [requests, ih]

theorem totalAmount_append (a b : List (Limiter.Op Key)) : totalAmount (a ++ b) = totalAmount a + totalAmount b := by
  simp [totalAmount]

theorem fine_split {evs : List (Ev Key)} {e : Option (Ev Key)} (h : Fine (evs ++ e.toList)) :
    Fine evs ∧ EvFine e ∧ totalAmount (requests evs) + evAmount e = totalAmount (requests (evs ++ e.toList)) := by
  obtain ⟨h1, h2⟩ := h
  rw [requests_append] at h1 h2 ⊢
  rw [totalAmount_append] at h2 ⊢
  have hn := totalAmount_nonneg (requests e.toList)
  refine ⟨⟨fun op ho => h1 op (List.mem_append_left _ ho), by omega⟩, ?_, ?_⟩
  · match e with
    | none => trivial
    | some (.begin _) => trivial
    | some (.deleted _ _) => trivial
    | some (.served op out) => exact h1 op (List.mem_append_right _ (by simp [requests]))
  · match e with
    | none => rfl
    | some (.begin _) => rfl
    | some (.deleted _ _) => rfl
    | some (.served op out) => simp [requests, totalAmount, evAmount]

theorem DInv.runFrom {s0 s : Sys Key} {evs : List (Ev Key)} {B : Int} (h0 : DInv s0 B) (h : Run s0 evs s) (hv : ∀ op ∈ requests evs, LimSpec.ValidOp op)
    (hB : B + totalAmount (requests evs) < 2 ^ 63) : DInv s (B + totalAmount (requests evs)) := by
  induction h with
  | nil => simpa [requests, totalAmount] using h0
  | step _ h' ih =>
    rename_i e _
    have h0' := h0.lim.bound
    obtain ⟨h1, h2, h3⟩ := fine_split (⟨hv, by omega⟩ : Fine _)
    have hn : 0 ≤ evAmount e := by
      match e with
      | none => simp [evAmount]
      | some (.begin _) => simp [evAmount]
      | some (.deleted _ _) => simp [evAmount]
      | some (.served op out) => exact amount_nonneg op
    rw [← h3, ← Int.add_assoc]
    exact (step_effect (ih h1.1 (by omega)) h2 (by omega) h').1

theorem DInv.run {s : Sys Key} {evs : List (Ev Key)} (h : Run Sys.init evs s) (hf : Fine evs) : DInv s (totalAmount (requests evs)) := by
  have := DInv.runFrom DInv.init h hf.1 (by have := hf.2; omega)
  simpa using this

/-- The id of a rule that was deleted: it never comes back. -/
def Gone (s : Sys Key) (id : Nat) : Prop := (∀ r ∈ (abs s.st).rules, r.id ≠ id) ∧ id < (abs s.st).nextId

theorem gone_iff {s : Sys Key} {id : Nat} : Gone s id ↔ id ∉ (abs s.st).rules.map (·.id) ∧ id < (abs s.st).nextId := by
  unfold Gone
  rw [List.mem_map]
  constructor
  · rintro ⟨h1, h2⟩; exact ⟨fun ⟨r, hr, e⟩ => h1 r hr e, h2⟩
  · rintro ⟨h1, h2⟩; exact ⟨fun r hr e => h1 ⟨r, hr, e⟩, h2⟩

theorem DInv.id_lt {s : Sys Key} {B : Int} (h : DInv s B) {r : LimSpec.Rule} (hr : r ∈ (abs s.st).rules) : r.id < (abs s.st).nextId := by
  obtain ⟨i, hi, rfl⟩ := List.mem_map.1 hr
  exact h.lim.rinv.fresh i hi

theorem gone_step {s s' : Sys Key} {B : Int} {e : Option (Ev Key)} (h : DInv s B) (hf : EvFine e) (hB : B + evAmount e < 2 ^ 63) (hs : Step s e s') {id : Nat}
    (hg : Gone s id) : Gone s' id := by
  have heff := (step_effect h hf hB hs).2
  cases hs with
  | serve hop e =>
    obtain ⟨s1, out1, e1, _, _, h3, _⟩ := serve_spec h hop hf hB
    rw [e] at e1; cases e1
    rw [gone_iff] at hg ⊢
    rcases h3 with ⟨h3, h4⟩ | ⟨h3, h4⟩
    · rw [h3, h4]; exact hg
    · rw [h3, h4]
      refine ⟨?_, by omega⟩
      simp only [List.mem_append, List.mem_singleton, not_or]
      exact ⟨hg.1, by omega⟩
  | missing id hc hno => exact hg
  | again id hc => exact hg
  | begin id hc hi => exact hg
  | wipe id' ord hc ho e hout =>
    obtain ⟨id', _, ha, _⟩ := heff
    unfold Gone
    rw [ha]
    refine ⟨?_, hg.2⟩
    intro r hr
    obtain ⟨r0, hr0, rfl⟩ := List.mem_map.1 hr
    split
    · exact hg.1 r0 hr0
    · exact hg.1 r0 hr0
  | wipeFails id' ord hc ho e =>
    rcases heff with ⟨h, _⟩ | ⟨h, _⟩ | ⟨h, _⟩ <;> cases h
  | finish id' hc e =>
    rcases heff with ⟨_, _, ha, _⟩ | ⟨h, _⟩ | ⟨h, _⟩
    · unfold Gone
      rw [ha]
      exact ⟨fun r hr => hg.1 r (List.mem_filter.1 hr).1, hg.2⟩
    · cases h
    · cases h

/-- The rule is being deleted, or it has been. -/
def Ended (s : Sys Key) (id : Nat) : Prop := Deleting s id ∨ Gone s id

theorem ended_step {s s' : Sys Key} {B : Int} {e : Option (Ev Key)} (h : DInv s B) (hf : EvFine e) (hB : B + evAmount e < 2 ^ 63) (hs : Step s e s') {id : Nat}
    (hg : Ended s id) : Ended s' id := by
  rcases hg with hd | hg
  · have heff := (step_effect h hf hB hs).2
    match e, heff with
    | none, ⟨_, _, _, hx⟩ => exact .inl ((hx id).2 hd)
    | some (.served op out), ⟨_, hx⟩ => exact .inl (by unfold Deleting; rw [hx]; exact hd)
    | some (.begin j), ⟨_, _, _, hx⟩ => exact .inl ((hx id).2 (.inl hd))
    | some (.deleted j out), heff =>
      rcases heff with ⟨_, hj, ha, hx⟩ | ⟨_, _, hx⟩ | ⟨_, _, hx⟩
      · by_cases e : id = j
        · subst e
          refine .inr ?_
          unfold Gone
          rw [ha]
          refine ⟨fun r hr e => by have := (List.mem_filter.1 hr).2; simp [e] at this, ?_⟩
          obtain ⟨b, hb⟩ := hd
          obtain ⟨i, hi, e⟩ := h.there _ hb
          have := h.lim.rinv.fresh i hi
          simp only at e
          rw [← e]; exact this
        · exact .inl ((hx id).2 ⟨hd, e⟩)
      · rw [hx]; exact .inl hd
      · rw [hx]; exact .inl hd
  · exact .inr (gone_step h hf hB hs hg)

/-- How requests for a rule whose deletion has begun are answered. -/
def Refuses (id : Nat) : Ev Key → Prop
  | .served op out => concerns op = some id → out = .notFound
  | .begin j => j ≠ id
  | .deleted j out => j = id → out = .ok ∨ out = .conflict ∨ out = .notFound

theorem missing_spec {st : St} {op : Limiter.Op Key} {id : Nat} (hn : concerns op = some id) (hno : ∀ r ∈ st.rules, r.id ≠ id) : (specStep st op).2 = .notFound := by
  have hr : st.rule? id = none := by
    unfold St.rule?
    rw [List.find?_eq_none]
    intro r hr
    simpa using hno r hr
  cases op <;> simp only [concerns, Option.some.injEq, reduceCtorEq] at hn <;> subst hn <;> simp only [specStep, hr]

theorem same_notFound {o : Out Key} (h : LimSpec.Same o .notFound) : o = .notFound := by
  cases o <;> simp_all [LimSpec.Same]

theorem refuses_step {s s' : Sys Key} {B : Int} {e : Ev Key} (h : DInv s B) (hf : EvFine (some e)) (hB : B + evAmount (some e) < 2 ^ 63) (hs : Step s (some e) s') {id : Nat}
    (hg : Ended s id) : Refuses id e := by
  have heff := (step_effect h hf hB hs).2
  match e, heff with
  | .served op out, heff =>
    intro hn
    have hi : Increases op = false := by cases op <;> first | rfl | cases hn
    obtain ⟨h1, h2⟩ := heff.1.1 hi
    by_cases hd : Deleting s id
    · exact (h1 id hn hd).2
    · have hgone : Gone s id := hg.resolve_left hd
      have := (h2 (fun j hj => by rw [hn] at hj; cases hj; exact hd)).2
      rw [missing_spec hn hgone.1] at this
      exact same_notFound this
  | .begin j, ⟨_, ⟨r, hr, e⟩, hnd, _⟩ =>
    rintro rfl
    rcases hg with hg | hg
    · exact hnd hg
    · exact hg.1 r hr e
  | .deleted j out, heff =>
    rintro rfl
    rcases heff with ⟨h, _⟩ | ⟨h, _⟩ | ⟨h, _⟩
    · exact .inl h
    · exact .inr (.inl h)
    · exact .inr (.inr h)

theorem refuses_run {s0 s : Sys Key} {evs : List (Ev Key)} {B : Int} {id : Nat} (h0 : DInv s0 B) (hg : Ended s0 id) (h : Run s0 evs s) (hv : ∀ op ∈ requests evs, LimSpec.ValidOp op)
    (hB : B + totalAmount (requests evs) < 2 ^ 63) : Ended s id ∧ ∀ e ∈ evs, Refuses id e := by
  induction h with
  | nil => exact ⟨hg, by simp⟩
  | step hr h' ih =>
    rename_i e
    have h0' := h0.lim.bound
    obtain ⟨h1, h2, h3⟩ := fine_split (⟨hv, by omega⟩ : Fine _)
    have hn : 0 ≤ evAmount e := by
      match e with
      | none => simp [evAmount]
      | some (.begin _) => simp [evAmount]
      | some (.deleted _ _) => simp [evAmount]
      | some (.served op out) => exact amount_nonneg op
    obtain ⟨i1, i2⟩ := ih h1.1 (by omega)
    have hd := DInv.runFrom h0 hr h1.1 (by omega)
    refine ⟨ended_step hd h2 (by omega) h' i1, ?_⟩
    intro x hx
    rcases List.mem_append.1 hx with hx | hx
    · exact i2 x hx
    · cases e with
      | none => cases hx
      | some y =>
        simp only [Option.toList_some, List.mem_singleton] at hx
        subst hx
        exact refuses_step hd h2 (by omega) h' i1

theorem gone_run {s0 s : Sys Key} {evs : List (Ev Key)} {B : Int} {id : Nat} (h0 : DInv s0 B) (hg : Gone s0 id) (h : Run s0 evs s) (hv : ∀ op ∈ requests evs, LimSpec.ValidOp op)
    (hB : B + totalAmount (requests evs) < 2 ^ 63) : Gone s id := by
  induction h with
  | nil => exact hg
  | step hr h' ih =>
    rename_i e
    have h0' := h0.lim.bound
    obtain ⟨h1, h2, h3⟩ := fine_split (⟨hv, by omega⟩ : Fine _)
    have hn : 0 ≤ evAmount e := by
      match e with
      | none => simp [evAmount]
      | some (.begin _) => simp [evAmount]
      | some (.deleted _ _) => simp [evAmount]
      | some (.served op out) => exact amount_nonneg op
    exact gone_step (DInv.runFrom h0 hr h1.1 (by omega)) h2 (by omega) h' (ih h1.1 (by omega))

end Willow.RuleDelete
