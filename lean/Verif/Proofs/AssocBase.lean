import Verif.Spec.Assoc
import Verif.Proofs.BTreeBase
/-! Helper lemmas for the associated tree: sets, finite maps, id nodes. -/
namespace Willow.Assoc
open KeyOps BTree Spec

variable {K V : Type}

/-! ### GSet -/
theorem GSet.mem_add {s : GSet} {x y : Nat} : y ∈ s.add x ↔ y ∈ s ∨ y = x := by
  unfold GSet.add; split
  · rename_i h; simp at h; constructor
    · exact Or.inl
    · rintro (h' | rfl) <;> assumption
  · simp
theorem GSet.nodup_add {s : GSet} {x : Nat} (h : s.Nodup) : (s.add x).Nodup := by
  unfold GSet.add; split
  · exact h
  · rename_i h'; simp at h'; simp [List.nodup_append, h]; intro a ha e; exact h' (e ▸ ha)
theorem GSet.mem_addBulk {s : GSet} {l : List Nat} {y : Nat} : y ∈ s.addBulk l ↔ y ∈ s ∨ y ∈ l := by
  unfold GSet.addBulk
  induction l generalizing s with
  | nil => simp
  | cons a l ih => simp only [List.foldl_cons, ih, GSet.mem_add, List.mem_cons]; grind
theorem GSet.nodup_addBulk {s : GSet} {l : List Nat} (h : s.Nodup) : (s.addBulk l).Nodup := by
  unfold GSet.addBulk
  induction l generalizing s with
  | nil => simpa
  | cons a l ih => exact ih (GSet.nodup_add h)
theorem GSet.mem_new {l : List Nat} {y : Nat} : y ∈ GSet.new l ↔ y ∈ l := by simp [GSet.new, GSet.mem_addBulk]
theorem GSet.nodup_new {l : List Nat} : (GSet.new l).Nodup := GSet.nodup_addBulk List.nodup_nil
theorem GSet.mem_inter {s : GSet} {l : List Nat} {y : Nat} : y ∈ s.inter l ↔ y ∈ s ∧ y ∈ l := by
  simp [GSet.inter, GSet.mem_addBulk]; exact And.comm
theorem GSet.nodup_inter {s : GSet} {l : List Nat} : (s.inter l).Nodup := GSet.nodup_addBulk List.nodup_nil
theorem GSet.mem_remove {s : GSet} {x y : Nat} : y ∈ s.remove x ↔ y ∈ s ∧ y ≠ x := by simp [GSet.remove]
theorem GSet.nodup_remove {s : GSet} {x : Nat} (h : s.Nodup) : (s.remove x).Nodup := h.filter _
theorem GSet.mem_removeAll {l : List Nat} {s : GSet} {y : Nat} : y ∈ l.foldl GSet.remove s ↔ y ∈ s ∧ y ∉ l := by
  induction l generalizing s with
  | nil => simp
  | cons a l ih => simp only [List.foldl_cons, ih, GSet.mem_remove, List.mem_cons]; grind
theorem GSet.nodup_removeAll {l : List Nat} {s : GSet} (h : s.Nodup) : (l.foldl GSet.remove s).Nodup := by
  induction l generalizing s with
  | nil => simpa
  | cons a l ih => exact ih (GSet.nodup_remove h)

/-! ### Finite maps -/
section maps
variable {A B : Type} {eq : A → A → Bool}

/-- `eq` is an equivalence. -/
structure Equiv' (eq : A → A → Bool) : Prop where
  refl : ∀ a, eq a a = true
  symm : ∀ {a b}, eq a b = true → eq b a = true
  trans : ∀ {a b c}, eq a b = true → eq b c = true → eq a c = true

theorem Equiv'.comm (h : Equiv' eq) (a b : A) : eq a b = eq b a := by
  rw [Bool.eq_iff_iff]; exact ⟨h.symm, h.symm⟩
theorem Equiv'.congr (h : Equiv' eq) {a b : A} (e : eq a b = true) (c : A) : eq a c = eq b c := by
  rw [Bool.eq_iff_iff]; exact ⟨h.trans (h.symm e), h.trans e⟩
theorem Equiv'.congr_right (h : Equiv' eq) {a b : A} (e : eq a b = true) (c : A) : eq c a = eq c b := by
  rw [h.comm c a, h.comm c b, h.congr e]

/-- Every key once. -/
def Uniq (eq : A → A → Bool) (l : List (A × B)) : Prop := l.Pairwise (fun x y => eq x.1 y.1 = false)

@[simp] theorem alookup_nil {a : A} : alookup eq a ([] : List (A × B)) = none := rfl
theorem alookup_cons {a : A} {x : A × B} {l : List (A × B)} :
    alookup eq a (x :: l) = if eq x.1 a then some x.2 else alookup eq a l := by
  unfold alookup; rw [List.find?_cons]; cases eq x.1 a <;> simp

theorem alookup_congr (h : Equiv' eq) {a b : A} (e : eq a b = true) (l : List (A × B)) : alookup eq a l = alookup eq b l := by
  induction l with
  | nil => rfl
  | cons x l ih => rw [alookup_cons, alookup_cons, ih, h.congr_right e]

theorem alookup_mem {a : A} {b : B} {l : List (A × B)} (e : alookup eq a l = some b) :
    ∃ a', (a', b) ∈ l ∧ eq a' a = true := by
  induction l with
  | nil => simp at e
  | cons x l ih =>
    rw [alookup_cons] at e
    split at e
    · rename_i hx; cases e; exact ⟨x.1, by simp, hx⟩
    · obtain ⟨a', h1, h2⟩ := ih e; exact ⟨a', by simp [h1], h2⟩

theorem alookup_of_mem (h : Equiv' eq) {a : A} {b : B} {l : List (A × B)} (u : Uniq eq l) (m : (a, b) ∈ l) :
    alookup eq a l = some b := by
  induction l with
  | nil => simp at m
  | cons x l ih =>
    rw [alookup_cons]
    cases u with
    | cons u1 u2 =>
      rcases List.mem_cons.1 m with rfl | m'
      · simp [h.refl]
      · have := u1 _ m'; simp only at this; rw [this]; simp [ih u2 m']

theorem alookup_none {a : A} {l : List (A × B)} : alookup eq a l = none ↔ ∀ x ∈ l, eq x.1 a = false := by
  induction l with
  | nil => simp
  | cons x l ih => rw [alookup_cons]; cases hx : eq x.1 a <;> simp [hx]; simpa using ih

theorem alookup_aupsert (h : Equiv' eq) {a a' : A} {f : Option B → B} {l : List (A × B)} :
    alookup eq a' (aupsert eq a f l) = if eq a a' then some (f (alookup eq a l)) else alookup eq a' l := by
  induction l with
  | nil => simp [aupsert, alookup_cons]
  | cons x l ih =>
    rw [aupsert]
    cases hx : eq x.1 a
    · simp only [Bool.false_eq_true, if_false, alookup_cons, hx, ih]
      cases hx' : eq x.1 a' <;> simp
      intro e; rw [h.congr_right e, hx'] at hx; cases hx
    · simp only [if_true, alookup_cons, hx]
      rw [h.congr hx a']; cases eq a a' <;> simp

theorem mem_aupsert {a : A} {f : Option B → B} {l : List (A × B)} {y : A × B} (m : y ∈ aupsert eq a f l) :
    y ∈ l ∨ (y.1 = a ∧ y.2 = f none) ∨ ∃ x ∈ l, y.1 = x.1 ∧ eq x.1 a = true ∧ y.2 = f (some x.2) := by
  induction l with
  | nil => simp [aupsert] at m; subst m; simp
  | cons x l ih =>
    rw [aupsert] at m
    split at m
    · rename_i hx
      rcases List.mem_cons.1 m with rfl | m
      · exact .inr (.inr ⟨x, by simp, rfl, hx, rfl⟩)
      · exact .inl (by simp [m])
    · rcases List.mem_cons.1 m with rfl | m
      · exact .inl (by simp)
      · rcases ih m with h | h | ⟨z, h1, h2⟩
        · exact .inl (by simp [h])
        · exact .inr (.inl h)
        · exact .inr (.inr ⟨z, by simp [h1], h2⟩)

theorem keys_aupsert {a : A} {f : Option B → B} {l : List (A × B)} {y : A × B} (m : y ∈ aupsert eq a f l) :
    y.1 = a ∨ ∃ x ∈ l, x.1 = y.1 := by
  rcases mem_aupsert m with h | h | ⟨x, h1, h2, _⟩
  · exact .inr ⟨y, h, rfl⟩
  · exact .inl h.1
  · exact .inr ⟨x, h1, h2.symm⟩

theorem uniq_aupsert {a : A} {f : Option B → B} {l : List (A × B)} (u : Uniq eq l) : Uniq eq (aupsert eq a f l) := by
  induction l with
  | nil => simp [aupsert, Uniq]
  | cons x l ih =>
    rw [aupsert]
    cases u with
    | cons u1 u2 =>
      split
      · rename_i hx; exact List.Pairwise.cons (fun y hy => u1 y hy) u2
      · rename_i hx
        refine List.Pairwise.cons (fun y hy => ?_) (ih u2)
        rcases keys_aupsert hy with e | ⟨z, hz, e⟩
        · rw [e]; simpa using hx
        · rw [← e]; exact u1 z hz

theorem aupsert_ne_nil {a : A} {f : Option B → B} {l : List (A × B)} : aupsert eq a f l ≠ [] := by
  cases l <;> simp [aupsert]; split <;> simp

theorem mem_aremove {a : A} {f : B → Option B} {l : List (A × B)} {y : A × B} (m : y ∈ aremove eq a f l) :
    (y ∈ l) ∨ ∃ x ∈ l, y.1 = x.1 ∧ eq x.1 a = true ∧ f x.2 = some y.2 := by
  induction l with
  | nil => simp [aremove] at m
  | cons x l ih =>
    rw [aremove] at m
    split at m
    · rename_i hx
      split at m
      · exact .inl (by simp [m])
      · rename_i b hb
        rcases List.mem_cons.1 m with rfl | m
        · exact .inr ⟨x, by simp, rfl, hx, hb⟩
        · exact .inl (by simp [m])
    · rcases List.mem_cons.1 m with rfl | m
      · exact .inl (by simp)
      · rcases ih m with h | ⟨z, h1, h2⟩
        · exact .inl (by simp [h])
        · exact .inr ⟨z, by simp [h1], h2⟩

theorem uniq_aremove {a : A} {f : B → Option B} {l : List (A × B)} (u : Uniq eq l) : Uniq eq (aremove eq a f l) := by
  induction l with
  | nil => simp [aremove, Uniq]
  | cons x l ih =>
    rw [aremove]
    cases u with
    | cons u1 u2 =>
      split
      · split
        · exact u2
        · exact List.Pairwise.cons (fun y hy => u1 y hy) u2
      · refine List.Pairwise.cons (fun y hy => ?_) (ih u2)
        rcases mem_aremove hy with e | ⟨z, hz, e, _⟩
        · exact u1 y e
        · rw [e]; exact u1 z hz

theorem alookup_aremove (h : Equiv' eq) {a a' : A} {f : B → Option B} {l : List (A × B)} (u : Uniq eq l) :
    alookup eq a' (aremove eq a f l) = if eq a a' then (alookup eq a l).bind f else alookup eq a' l := by
  induction l with
  | nil => simp [aremove]
  | cons x l ih =>
    rw [aremove]
    cases u with
    | cons u1 u2 =>
      cases hx : eq x.1 a
      · simp only [Bool.false_eq_true, if_false, alookup_cons, hx, ih u2]
        cases hx' : eq x.1 a' <;> simp
        intro e; rw [h.congr_right e, hx'] at hx; cases hx
      · simp only [if_true, alookup_cons, hx, Option.bind_some]
        cases hf : f x.2 with
        | none =>
          simp only
          cases e : eq a a'
          · simp [h.congr hx a', e]
          · simp only [if_true]
            rw [alookup_none]; intro y hy
            have := u1 y hy
            rw [h.comm, ← h.congr (h.trans hx e) y.1]; exact this
        | some b => simp only [alookup_cons]; rw [h.congr hx a']; cases eq a a' <;> simp
end maps

theorem seq_equiv : Equiv' seq := ⟨by simp [seq], by simp only [seq, beq_iff_eq]; intro a b h; exact h.symm, by simp only [seq, beq_iff_eq]; intro a b c h1 h2; exact h1.trans h2⟩

section
variable [LawfulKey K]

theorem veq_equiv : Equiv' (veq : K → K → Bool) :=
  ⟨keq_refl, fun h => keq_symm h, fun h1 h2 => keq_trans h1 h2⟩

/-! ### The index -/

/-- Every key once, and every value once per key. -/
structure Index.WF (ix : Index K) : Prop where
  keys : Uniq seq ix
  vals : ∀ x ∈ ix, Uniq veq x.2
  ne : ∀ x ∈ ix, x.2 ≠ []

/-- One pair contains key `k` with value `v`. -/
def hits (kv : GoString × K) (k : GoString) (v : K) : Bool := seq kv.1 k && veq kv.2 v
/-- The key-values contain key `k` with value `v`. -/
def hasKV (kvs : KVs K) (k : GoString) (v : K) : Bool := kvs.any (fun kv => hits kv k v)

theorem node_upsert {ix : Index K} {kv : GoString × K} {f : IdNode → IdNode} {k' : GoString} {v' : K} :
    (ix.upsert kv.1 kv.2 f).node k' v' = if hits kv k' v' then some (f ((ix.node kv.1 kv.2).getD [])) else ix.node k' v' := by
  unfold Index.upsert Index.node hits
  rw [alookup_aupsert seq_equiv]
  cases hk : seq kv.1 k'
  · simp
  · simp only [if_true, Option.bind_some, Bool.true_and]
    rw [alookup_aupsert veq_equiv]
    have : k' = kv.1 := by simp [seq] at hk; exact hk.symm
    subst this
    cases hl : alookup seq kv.1 ix <;> simp

theorem wf_upsert {ix : Index K} {k : GoString} {v : K} {f : IdNode → IdNode} (w : ix.WF) : (ix.upsert k v f).WF := by
  refine ⟨uniq_aupsert w.keys, ?_, ?_⟩
  · intro x hx
    rcases mem_aupsert hx with h | ⟨_, h⟩ | ⟨y, hy, _, _, h⟩
    · exact w.vals x h
    · rw [h]; exact uniq_aupsert (by simp [Uniq])
    · rw [h]; exact uniq_aupsert (w.vals y hy)
  · intro x hx
    rcases mem_aupsert hx with h | ⟨_, h⟩ | ⟨y, hy, _, _, h⟩
    · exact w.ne x h
    · rw [h]; exact aupsert_ne_nil
    · rw [h]; exact aupsert_ne_nil

/-- Keep a node only if not empty. -/
def keepNE (nd : IdNode) : Option IdNode := if nd.isEmpty then none else some nd

theorem node_cleanup {ix : Index K} (w : ix.WF) {kv : GoString × K} {f : IdNode → IdNode} {k' : GoString} {v' : K} :
    (ix.cleanup kv.1 kv.2 f).node k' v' = if hits kv k' v' then (ix.node kv.1 kv.2).bind (fun nd => keepNE (f nd)) else ix.node k' v' := by
  unfold Index.cleanup Index.node hits
  rw [alookup_aremove seq_equiv w.keys]
  cases hk : seq kv.1 k'
  · simp
  · have : k' = kv.1 := by simp [seq] at hk; exact hk.symm
    subst this
    simp only [if_true, Bool.true_and]
    cases hl : alookup seq kv.1 ix with
    | none => simp
    | some vs =>
      obtain ⟨k0, hm, _⟩ := alookup_mem hl
      have hu := w.vals _ hm
      have key := alookup_aremove veq_equiv (a := kv.2) (a' := v') (f := fun nd => if (f nd).isEmpty then none else some (f nd)) hu
      simp only [Option.bind_some]
      split
      · rename_i he
        replace he := List.isEmpty_iff.1 he
        simp only at key
        rw [he] at key; simp only [alookup_nil] at key
        simp only [Option.bind_none]
        rw [key]; rfl
      · simp only [Option.bind_some]; rw [key]; rfl

theorem wf_cleanup {ix : Index K} {k : GoString} {v : K} {f : IdNode → IdNode} (w : ix.WF) : (ix.cleanup k v f).WF := by
  refine ⟨uniq_aremove w.keys, ?_, ?_⟩
  · intro x hx
    rcases mem_aremove hx with h | ⟨y, hy, _, _, h⟩
    · exact w.vals x h
    · simp only at h; split at h
      · cases h
      · simp only [Option.some.injEq] at h; rw [← h]; exact uniq_aremove (w.vals y hy)
  · intro x hx
    rcases mem_aremove hx with h | ⟨y, hy, _, _, h⟩
    · exact w.ne x h
    · simp only at h; split at h
      · cases h
      · rename_i h'; simp only [Option.some.injEq] at h; rw [← h]; intro e; apply h'; rw [e]; rfl

theorem hits_node_congr {ix : Index K} {kv : GoString × K} {k : GoString} {v : K} (h : hits kv k v = true) :
    ix.node kv.1 kv.2 = ix.node k v := by
  simp [hits, seq] at h
  unfold Index.node
  rw [h.1]; congr 1; funext l; exact alookup_congr veq_equiv h.2 l

theorem not_hasKV_of_key {kvs : KVs K} {k : GoString} {v : K} (h : k ∉ kvs.map (·.1)) : hasKV kvs k v = false := by
  simp [hasKV, hits, seq] at *; intro a b hab e; subst e; exact absurd hab (h b)

theorem node_foldUpsert {kvs : KVs K} (nd : (kvs.map (·.1)).Nodup) {ix : Index K} {f : IdNode → IdNode} {k : GoString} {v : K} :
    (kvs.foldl (fun ix kv => ix.upsert kv.1 kv.2 f) ix).node k v
      = if hasKV kvs k v then some (f ((ix.node k v).getD [])) else ix.node k v := by
  induction kvs generalizing ix with
  | nil => simp [hasKV]
  | cons kv kvs ih =>
    simp only [List.map_cons, List.nodup_cons] at nd
    rw [List.foldl_cons, ih nd.2, node_upsert]
    have hs : hasKV (kv :: kvs) k v = (hits kv k v || hasKV kvs k v) := by simp [hasKV]
    rw [hs]
    cases h1 : hits kv k v
    · simp
    · have hk : kv.1 = k := by simp [hits, seq] at h1; exact h1.1
      have h2 : hasKV kvs k v = false := not_hasKV_of_key (hk ▸ nd.1)
      simp [h2, hits_node_congr h1]

theorem wf_foldUpsert {kvs : KVs K} {ix : Index K} {f : IdNode → IdNode} (w : ix.WF) :
    (kvs.foldl (fun ix kv => ix.upsert kv.1 kv.2 f) ix).WF := by
  induction kvs generalizing ix with
  | nil => exact w
  | cons kv kvs ih => exact ih (wf_upsert w)

theorem wf_foldCleanup {kvs : KVs K} {ix : Index K} {f : IdNode → IdNode} (w : ix.WF) :
    (kvs.foldl (fun ix kv => ix.cleanup kv.1 kv.2 f) ix).WF := by
  induction kvs generalizing ix with
  | nil => exact w
  | cons kv kvs ih => exact ih (wf_cleanup w)

theorem node_foldCleanup {kvs : KVs K} (nd : (kvs.map (·.1)).Nodup) {ix : Index K} (w : ix.WF) {f : IdNode → IdNode} {k : GoString} {v : K} :
    (kvs.foldl (fun ix kv => ix.cleanup kv.1 kv.2 f) ix).node k v
      = if hasKV kvs k v then (ix.node k v).bind (fun nd => keepNE (f nd)) else ix.node k v := by
  induction kvs generalizing ix with
  | nil => simp [hasKV]
  | cons kv kvs ih =>
    simp only [List.map_cons, List.nodup_cons] at nd
    rw [List.foldl_cons, ih nd.2 (wf_cleanup w), node_cleanup w]
    have hs : hasKV (kv :: kvs) k v = (hits kv k v || hasKV kvs k v) := by simp [hasKV]
    rw [hs]
    cases h1 : hits kv k v
    · simp
    · have hk : kv.1 = k := by simp [hits, seq] at h1; exact h1.1
      have h2 : hasKV kvs k v = false := not_hasKV_of_key (hk ▸ nd.1)
      simp [h2, hits_node_congr h1]

end
end Willow.Assoc
