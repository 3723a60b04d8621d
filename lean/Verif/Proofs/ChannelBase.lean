import Verif.Model.Channel
/- Facts about the association list of items of Model/Channel.lean. -/
namespace Willow.Channel
variable {D : Type}

abbrev keys (l : List (Nat × Item D)) : List Nat := l.map (·.1)

/-- the number of items with a heartbeat process -/
def procs (l : List (Nat × Item D)) : Nat := (l.filter (fun e => e.2.hb != .none)).length

def one (b : Bool) : Nat := if b then 1 else 0

theorem lookup_nil (id : Nat) : lookup ([] : List (Nat × Item D)) id = none := rfl

theorem lookup_cons (a : Nat) (it : Item D) (l : List (Nat × Item D)) (id : Nat) :
    lookup ((a, it) :: l) id = if a = id then some it else lookup l id := by
  unfold lookup; by_cases h : a = id <;> simp [h]

theorem lookup_append (l l' : List (Nat × Item D)) (id : Nat) :
    lookup (l ++ l') id = (lookup l id).or (lookup l' id) := by
  induction l with
  | nil => simp [lookup_nil]
  | cons e l ih => obtain ⟨a, it⟩ := e; simp only [List.cons_append, lookup_cons]; split <;> simp [ih]

theorem lookup_mem_keys {l : List (Nat × Item D)} {id : Nat} {it : Item D} (h : lookup l id = some it) : id ∈ keys l := by
  induction l with
  | nil => simp [lookup_nil] at h
  | cons e l ih => obtain ⟨a, i⟩ := e; rw [lookup_cons] at h; split at h <;> simp_all

theorem lookup_none {l : List (Nat × Item D)} {id : Nat} : lookup l id = none ↔ id ∉ keys l := by
  induction l with
  | nil => simp [lookup_nil]
  | cons e l ih => obtain ⟨a, i⟩ := e; rw [lookup_cons]; split <;> simp_all <;> grind

theorem lookup_some_of_mem {l : List (Nat × Item D)} {id : Nat} (h : id ∈ keys l) : ∃ it, lookup l id = some it := by
  cases hl : lookup l id with
  | none => exact absurd h (lookup_none.1 hl)
  | some it => exact ⟨it, rfl⟩

theorem keys_change (l : List (Nat × Item D)) (id : Nat) (f : Item D → Item D) : keys (change l id f) = keys l := by
  induction l with
  | nil => rfl
  | cons e l ih => simp only [keys, change, List.map_cons, List.map_map] at ih ⊢; split <;> simp_all

theorem lookup_change (l : List (Nat × Item D)) (id id' : Nat) (f : Item D → Item D) :
    lookup (change l id f) id' = if id = id' then (lookup l id').map f else lookup l id' := by
  induction l with
  | nil => simp [change, lookup_nil]
  | cons e l ih =>
    obtain ⟨a, it⟩ := e
    simp only [change, List.map_cons] at ih ⊢
    by_cases h : a = id
    · subst h; simp only [beq_self_eq_true, ↓reduceIte, lookup_cons]
      split <;> simp_all
    · have : (a == id) = false := by simp [h]
      simp only [this, Bool.false_eq_true, ↓reduceIte, lookup_cons]
      split
      · split
        · subst_vars; simp_all
        · rfl
      · exact ih

theorem keys_remove (l : List (Nat × Item D)) (id : Nat) : keys (remove l id) = (keys l).filter (· != id) := by
  induction l with
  | nil => rfl
  | cons e l ih => simp only [keys, remove, List.map_cons, List.filter_cons] at ih ⊢; split <;> simp_all

theorem lookup_remove (l : List (Nat × Item D)) (id id' : Nat) :
    lookup (remove l id) id' = if id = id' then none else lookup l id' := by
  induction l with
  | nil => simp [remove, lookup_nil]
  | cons e l ih =>
    obtain ⟨a, it⟩ := e
    simp only [remove, List.filter_cons] at ih ⊢
    by_cases h : a = id
    · subst h; simp only [bne_self_eq_false, Bool.false_eq_true, ↓reduceIte, lookup_cons, ih]
      split <;> rfl
    · have : (a != id) = true := by simp [h]
      simp only [this, ↓reduceIte, lookup_cons, ih]
      split <;> split <;> simp_all

theorem mem_keys_remove {l : List (Nat × Item D)} {id x : Nat} : x ∈ keys (remove l id) ↔ x ∈ keys l ∧ x ≠ id := by
  rw [keys_remove]; simp

theorem remove_notin {l : List (Nat × Item D)} {id : Nat} (h : id ∉ keys l) : remove l id = l := by
  rw [remove, List.filter_eq_self]
  intro e he; simp only [bne_iff_ne]; intro hc; exact h (hc ▸ List.mem_map_of_mem he)

theorem procs_cons (a : Nat) (it : Item D) (l : List (Nat × Item D)) : procs ((a, it) :: l) = one (it.hb != .none) + procs l := by
  simp only [procs, List.filter_cons, one]; split <;> simp <;> omega

theorem procs_append (l l' : List (Nat × Item D)) : procs (l ++ l') = procs l + procs l' := by simp [procs]

theorem change_notin {l : List (Nat × Item D)} {id : Nat} (h : id ∉ keys l) (f : Item D → Item D) : change l id f = l := by
  rw [change]
  refine (List.map_congr_left (g := fun e => e) ?_).trans (List.map_id' l)
  intro e he
  have : e.1 ≠ id := fun hc => h (hc ▸ List.mem_map_of_mem he)
  simp [this]

theorem procs_change {l : List (Nat × Item D)} {id : Nat} {it : Item D} (hn : (keys l).Nodup) (h : lookup l id = some it)
    (f : Item D → Item D) : procs (change l id f) + one (it.hb != .none) = procs l + one ((f it).hb != .none) := by
  induction l with
  | nil => simp [lookup_nil] at h
  | cons e l ih =>
    obtain ⟨a, i⟩ := e
    rw [lookup_cons] at h
    simp only [keys, List.map_cons, List.nodup_cons] at hn
    by_cases ha : a = id
    · subst ha
      simp only [↓reduceIte, Option.some.injEq] at h; subst h
      have : change ((a, i) :: l) a f = (a, f i) :: l := by
        have := change_notin hn.1 f
        simp only [change, List.map_cons, beq_self_eq_true, ↓reduceIte] at this ⊢
        rw [this]
      rw [this, procs_cons, procs_cons]; omega
    · rw [if_neg ha] at h
      have : change ((a, i) :: l) id f = (a, i) :: change l id f := by simp [change, ha]
      rw [this, procs_cons, procs_cons]
      have := ih hn.2 h; omega

theorem procs_remove {l : List (Nat × Item D)} {id : Nat} {it : Item D} (hn : (keys l).Nodup) (h : lookup l id = some it) :
    procs (remove l id) + one (it.hb != .none) = procs l := by
  induction l with
  | nil => simp [lookup_nil] at h
  | cons e l ih =>
    obtain ⟨a, i⟩ := e
    rw [lookup_cons] at h
    simp only [keys, List.map_cons, List.nodup_cons] at hn
    by_cases ha : a = id
    · subst ha
      simp only [↓reduceIte, Option.some.injEq] at h; subst h
      have : remove ((a, i) :: l) a = l := by
        have := remove_notin hn.1
        simp only [remove, List.filter_cons, bne_self_eq_false, Bool.false_eq_true, ↓reduceIte] at this ⊢
        rw [this]
      rw [this, procs_cons]; omega
    · rw [if_neg ha] at h
      have : remove ((a, i) :: l) id = (a, i) :: remove l id := by simp [remove, ha]
      rw [this, procs_cons, procs_cons]
      have := ih hn.2 h; omega

theorem length_change (l : List (Nat × Item D)) (id : Nat) (f : Item D → Item D) : (change l id f).length = l.length := by simp [change]

theorem length_remove {l : List (Nat × Item D)} {id : Nat} (hn : (keys l).Nodup) (h : id ∈ keys l) :
    (remove l id).length + 1 = l.length := by
  induction l with
  | nil => simp at h
  | cons e l ih =>
    obtain ⟨a, i⟩ := e
    simp only [keys, List.map_cons, List.nodup_cons, List.mem_cons] at hn h
    by_cases ha : a = id
    · subst ha
      have : remove ((a, i) :: l) a = l := by
        have := remove_notin hn.1
        simp only [remove, List.filter_cons, bne_self_eq_false, Bool.false_eq_true, ↓reduceIte] at this ⊢
        rw [this]
      rw [this]; simp
    · have : remove ((a, i) :: l) id = (a, i) :: remove l id := by simp [remove, ha]
      rw [this]; simp only [List.length_cons]
      have := ih hn.2 (by grind); omega

theorem nodup_remove {l : List (Nat × Item D)} {id : Nat} (hn : (keys l).Nodup) : (keys (remove l id)).Nodup := by
  rw [keys_remove]; exact hn.filter _

theorem nodup_change {l : List (Nat × Item D)} {id : Nat} (hn : (keys l).Nodup) (f : Item D → Item D) : (keys (change l id f)).Nodup := by
  rw [keys_change]; exact hn

theorem one_true : one true = 1 := rfl
theorem one_false : one false = 0 := rfl

theorem mem_iff_lookup {l : List (Nat × Item D)} (hn : (keys l).Nodup) {a : Nat} {b : Item D} : (a, b) ∈ l ↔ lookup l a = some b := by
  induction l with
  | nil => simp [lookup_nil]
  | cons e l ih =>
    obtain ⟨i, it⟩ := e
    simp only [keys, List.map_cons, List.nodup_cons] at hn
    rw [lookup_cons, List.mem_cons]
    split
    · rename_i h; subst h
      simp only [Prod.mk.injEq, Option.some.injEq, true_and]
      constructor
      · rintro (h | h)
        · exact h.symm
        · exact absurd (List.mem_map.2 ⟨_, h, rfl⟩) hn.1
      · intro h; exact .inl h.symm
    · rename_i h
      rw [← ih hn.2]
      constructor
      · rintro (h2 | h2)
        · simp at h2; exact absurd h2.1.symm h
        · exact h2
      · exact .inr

theorem count_nodup {l : List Nat} (hn : l.Nodup) (a : Nat) : l.count a = if a ∈ l then 1 else 0 := by
  induction l with
  | nil => simp
  | cons b l ih =>
    rw [List.nodup_cons] at hn
    rw [List.count_cons, ih hn.2]
    by_cases h : b = a
    · subst h; simp [hn.1]
    · have : a ≠ b := fun e => h e.symm
      simp [h, this]

end Willow.Channel
