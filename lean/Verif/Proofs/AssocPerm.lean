import Verif.Model.Assoc
import Verif.Proofs.DataTypes
import Batteries.Data.List.Perm
/-! Generation of key combinations. -/
namespace Willow.Assoc

section
variable {A : Type}

theorem sizeOk_mono {min max : Int} {n m : Nat} (h1 : ¬ (n : Int) < min) (h2 : ¬ sizeOk min max n = true) (hm : n ≤ m) : sizeOk min max m = false := by
  simp only [sizeOk, Bool.and_eq_true, Bool.or_eq_true, decide_eq_true_eq, not_and, not_or] at h2
  have := h2 (by omega)
  simp only [sizeOk, Bool.and_eq_false_iff, Bool.or_eq_false_iff, decide_eq_false_iff_not]
  exact .inr ⟨by omega, this.2⟩

theorem genGroupsLoop_cons {min max : Int} {pre : List A} {x : A} {xs : List A} :
    genGroupsLoop min max pre (x :: xs) = genGroups min max (pre ++ [x]) xs ++ genGroupsLoop min max pre xs := rfl

theorem genGroups_spec {min max : Int} (n : Nat) : ∀ (suffix : List A), suffix.length ≤ n → ∀ pre : List A,
    (∀ l, l ∈ genGroups min max pre suffix ↔ ∃ m, m.Sublist suffix ∧ l = pre ++ m ∧ sizeOk min max l.length = true) ∧
    (∀ l, l ∈ genGroupsLoop min max pre suffix ↔ ∃ m, m ≠ [] ∧ m.Sublist suffix ∧ l = pre ++ m ∧ sizeOk min max l.length = true) ∧
    (suffix.Nodup → (genGroups min max pre suffix).Nodup ∧ (genGroupsLoop min max pre suffix).Nodup) := by
  induction n with
  | zero =>
    intro suffix hs pre
    have : suffix = [] := List.length_eq_zero_iff.1 (by omega)
    subst this
    have hl : genGroupsLoop min max pre ([] : List A) = [] := by rw [genGroupsLoop]
    refine ⟨fun l => ?_, fun l => ?_, fun _ => ?_⟩
    · rw [genGroups, hl]
      split
      · rename_i h
        constructor
        · intro hx; cases hx
        · rintro ⟨m, _, rfl, hk⟩
          rw [sizeOk_mono h.1 h.2 (m := (pre ++ m).length) (by simp)] at hk; cases hk
      · constructor
        · intro hx
          split at hx
          · rename_i hk
            simp at hx; subst hx; exact ⟨[], by simp, by simp, hk⟩
          · simp at hx
        · rintro ⟨m, hm, rfl, hk⟩
          cases List.sublist_nil.1 hm
          simp only [List.append_nil] at hk ⊢
          simp [hk]
    · rw [hl]
      constructor
      · intro hx; cases hx
      · rintro ⟨m, hne, hm, _⟩; exact absurd (List.sublist_nil.1 hm) hne
    · rw [genGroups, hl]
      refine ⟨?_, List.nodup_nil⟩
      split
      · exact List.nodup_nil
      · split <;> simp
  | succ n ih =>
    intro suffix hs pre
    have hloop : (∀ l, l ∈ genGroupsLoop min max pre suffix ↔ ∃ m, m ≠ [] ∧ m.Sublist suffix ∧ l = pre ++ m ∧ sizeOk min max l.length = true) ∧
        (suffix.Nodup → (genGroupsLoop min max pre suffix).Nodup) := by
      cases suffix with
      | nil =>
        have hl : genGroupsLoop min max pre ([] : List A) = [] := by rw [genGroupsLoop]
        rw [hl]
        refine ⟨fun l => ?_, fun _ => List.nodup_nil⟩
        constructor
        · intro hx; cases hx
        · rintro ⟨m, hne, hm, _⟩; exact absurd (List.sublist_nil.1 hm) hne
      | cons x xs =>
        rw [genGroupsLoop_cons]
        simp only [List.length_cons] at hs
        obtain ⟨g1, _, g3⟩ := ih xs (by omega) (pre ++ [x])
        obtain ⟨_, l2, l3⟩ := ih xs (by omega) pre
        refine ⟨fun l => ?_, fun hnd => ?_⟩
        · rw [List.mem_append, g1, l2]
          constructor
          · rintro (⟨m, hm, rfl, hk⟩ | ⟨m, hne, hm, rfl, hk⟩)
            · exact ⟨x :: m, by simp, hm.cons_cons x, by simp, hk⟩
            · exact ⟨m, hne, hm.cons x, rfl, hk⟩
          · rintro ⟨m, hne, hm, rfl, hk⟩
            cases hm with
            | cons _ hm => exact .inr ⟨m, hne, hm, rfl, hk⟩
            | cons_cons _ hm => rename_i m'; exact .inl ⟨m', hm, by simp, hk⟩
        · simp only [List.nodup_cons] at hnd
          rw [List.nodup_append]
          refine ⟨(g3 hnd.2).1, (l3 hnd.2).2, ?_⟩
          intro a ha b hb hab
          subst hab
          obtain ⟨m, _, rfl, _⟩ := (g1 _).1 ha
          obtain ⟨m', hne', hm', e, _⟩ := (l2 _).1 hb
          rw [List.append_assoc, List.append_cancel_left_eq] at e
          exact hnd.1 (hm'.subset (e ▸ (by simp)))
    refine ⟨fun l => ?_, hloop.1, fun hnd => ⟨?_, hloop.2 hnd⟩⟩
    · rw [genGroups]
      split
      · rename_i h
        constructor
        · intro hx; cases hx
        · rintro ⟨m, _, rfl, hk⟩
          rw [sizeOk_mono h.1 h.2 (m := (pre ++ m).length) (by simp)] at hk; cases hk
      · rw [List.mem_append, hloop.1]
        constructor
        · rintro (hx | ⟨m, _, hm, rfl, hk⟩)
          · split at hx
            · rename_i hk
              simp at hx; subst hx; exact ⟨[], by simp, by simp, hk⟩
            · simp at hx
          · exact ⟨m, hm, rfl, hk⟩
        · rintro ⟨m, hm, rfl, hk⟩
          cases m with
          | nil => simp only [List.append_nil] at hk ⊢; left; simp [hk]
          | cons a m => exact .inr ⟨a :: m, by simp, hm, rfl, hk⟩
    · rw [genGroups]
      split
      · exact List.nodup_nil
      · rw [List.nodup_append]
        refine ⟨by split <;> simp, hloop.2 hnd, ?_⟩
        intro a ha b hb hab
        subst hab
        obtain ⟨m, hne, _, e, _⟩ := (hloop.1 _).1 hb
        have : a = pre := by split at ha <;> simp at ha; exact ha
        rw [this] at e
        exact hne (by simpa using e)

theorem genPairsLoop_spec {min max : Int} {first : A} : ∀ (suffix : List A),
    (∀ l, l ∈ genPairsLoop min max first suffix ↔ ∃ m, m ≠ [] ∧ m.Sublist suffix ∧ l = first :: m ∧ sizeOk min max l.length = true) ∧
    (suffix.Nodup → (genPairsLoop min max first suffix).Nodup)
  | [] => by
    refine ⟨fun l => ?_, fun _ => List.nodup_nil⟩
    constructor
    · intro hx; cases hx
    · rintro ⟨m, hne, hm, _⟩; exact absurd (List.sublist_nil.1 hm) hne
  | x :: xs => by
    rw [genPairsLoop]
    obtain ⟨g1, _, g3⟩ := genGroups_spec (min := min) (max := max) xs.length xs (Nat.le_refl _) [first, x]
    obtain ⟨l2, l3⟩ := genPairsLoop_spec (min := min) (max := max) (first := first) xs
    refine ⟨fun l => ?_, fun hnd => ?_⟩
    · rw [List.mem_append, g1, l2]
      constructor
      · rintro (⟨m, hm, rfl, hk⟩ | ⟨m, hne, hm, rfl, hk⟩)
        · exact ⟨x :: m, by simp, hm.cons_cons x, by simp, hk⟩
        · exact ⟨m, hne, hm.cons x, rfl, hk⟩
      · rintro ⟨m, hne, hm, rfl, hk⟩
        cases hm with
        | cons _ hm => exact .inr ⟨m, hne, hm, rfl, hk⟩
        | cons_cons _ hm => rename_i m'; exact .inl ⟨m', hm, by simp, hk⟩
    · simp only [List.nodup_cons] at hnd
      rw [List.nodup_append]
      refine ⟨(g3 hnd.2).1, l3 hnd.2, ?_⟩
      intro a ha b hb hab
      subst hab
      obtain ⟨m, _, rfl, _⟩ := (g1 _).1 ha
      obtain ⟨m', hne', hm', e, _⟩ := (l2 _).1 hb
      simp at e
      exact hnd.1 (hm'.subset (e ▸ (by simp)))

theorem mem_genPairs {min max : Int} : ∀ {keys : List A} {l : List A},
    l ∈ genPairs min max keys ↔ l ≠ [] ∧ l.Sublist keys ∧ sizeOk min max l.length = true
  | [], l => by
    simp only [genPairs]
    constructor
    · intro hx; cases hx
    · rintro ⟨hne, hm, _⟩; exact absurd (List.sublist_nil.1 hm) hne
  | [k], l => by
    simp only [genPairs]
    have hsz : sizeOk min max 1 = !(decide (1 < min) || (decide (1 > max) && decide (max ≠ -1))) := by
      rw [Bool.eq_iff_iff]
      simp only [sizeOk, Bool.and_eq_true, Bool.or_eq_true, decide_eq_true_eq, Bool.not_eq_true', Bool.or_eq_false_iff, Bool.and_eq_false_iff,
        decide_eq_false_iff_not]
      omega
    constructor
    · intro hx
      split at hx
      · cases hx
      · rename_i h
        simp at hx; subst hx
        exact ⟨by simp, List.Sublist.refl _, by rw [List.length_singleton, hsz]; cases hb : (decide (1 < min) || (decide (1 > max) && decide (max ≠ -1))) with | false => rfl | true => exact absurd hb h⟩
    · rintro ⟨hne, hm, hk⟩
      cases hm with
      | cons _ hm => exact absurd (List.sublist_nil.1 hm) hne
      | cons_cons _ hm =>
        cases List.sublist_nil.1 hm
        rw [List.length_singleton, hsz] at hk
        rw [if_neg (by intro hb; rw [hb] at hk; cases hk)]; simp
  | k :: k2 :: ks, l => by
    simp only [genPairs]
    have hsz : sizeOk min max 1 = (decide (min ≤ 1) && (decide (max ≥ 1) || decide (max = -1))) := by
      rw [Bool.eq_iff_iff]
      simp only [sizeOk, Bool.and_eq_true, Bool.or_eq_true, decide_eq_true_eq]; omega
    rw [List.mem_append, List.mem_append, mem_genPairs, (genPairsLoop_spec (k2 :: ks)).1, ← hsz]
    constructor
    · rintro ((h | ⟨h1, h2, h3⟩) | ⟨m, hne, hm, rfl, hk⟩)
      · split at h
        · rename_i hk
          simp at h; subst h
          exact ⟨by simp, by simp, hk⟩
        · cases h
      · exact ⟨h1, h2.cons k, h3⟩
      · exact ⟨by simp, hm.cons_cons k, hk⟩
    · rintro ⟨hne, hm, hk⟩
      cases hm with
      | cons _ hm => exact .inl (.inr ⟨hne, hm, hk⟩)
      | cons_cons _ hm =>
        rename_i m
        cases m with
        | nil => exact .inl (.inl (by rw [List.length_singleton] at hk; rw [if_pos hk]; simp))
        | cons a m => exact .inr ⟨a :: m, by simp, hm, rfl, hk⟩

theorem nodup_genPairs {min max : Int} : ∀ {keys : List A}, keys.Nodup → (genPairs min max keys).Nodup
  | [], _ => by simp [genPairs]
  | [k], _ => by simp only [genPairs]; split <;> simp
  | k :: k2 :: ks, h => by
    simp only [genPairs]
    rw [List.nodup_cons] at h
    rw [List.append_assoc, List.nodup_append, List.nodup_append]
    refine ⟨by split <;> simp, ⟨nodup_genPairs h.2, (genPairsLoop_spec (k2 :: ks)).2 h.2, ?_⟩, ?_⟩
    · intro a ha b hb hab
      subst hab
      obtain ⟨_, hs, _⟩ := mem_genPairs.1 ha
      obtain ⟨m, _, _, rfl, _⟩ := ((genPairsLoop_spec (k2 :: ks)).1 _).1 hb
      exact h.1 (hs.subset (by simp))
    · intro a ha b hb hab
      subst hab
      have : a = [k] := by split at ha <;> simp at ha; exact ha
      subst this
      rcases List.mem_append.1 hb with hb | hb
      · obtain ⟨_, hs, _⟩ := mem_genPairs.1 hb
        exact h.1 (hs.subset (by simp))
      · obtain ⟨m, hne, _, e, _⟩ := ((genPairsLoop_spec (k2 :: ks)).1 _).1 hb
        simp at e; exact hne e
end

/-! ### The order -/

theorem lexLe_total : ∀ (a b : List GoString), (lexLe a b || lexLe b a) = true
  | [], _ => by simp [lexLe]
  | _ :: _, [] => by simp [lexLe]
  | a :: as, b :: bs => by
    simp only [lexLe]
    cases h1 : strLt a b
    · cases h2 : strLt b a
      · simpa [h1, h2] using lexLe_total as bs
      · simp
    · simp

theorem lexLe_trans : ∀ (a b c : List GoString), lexLe a b = true → lexLe b c = true → lexLe a c = true
  | [], _, _, _, _ => by simp [lexLe]
  | _ :: _, [], _, h, _ => by simp [lexLe] at h
  | _ :: _, _ :: _, [], _, h => by simp [lexLe] at h
  | a :: as, b :: bs, c :: cs, h1, h2 => by
    simp only [lexLe] at h1 h2 ⊢
    cases hab : strLt a b
    · cases hba : strLt b a
      · have := strLt_total hab hba; subst this
        cases hac : strLt a c
        · cases hca : strLt c a
          · simp only [hab, hac, hca, Bool.false_eq_true, if_false] at h1 h2 ⊢
            exact lexLe_trans as bs cs h1 h2
          · simp [hac, hca] at h2
        · simp
      · simp [hab, hba] at h1
    · cases hbc : strLt b c
      · cases hcb : strLt c b
        · have := strLt_total hbc hcb; subst this; simp [hab]
        · simp [hbc, hcb] at h2
      · simp [strLt_trans hab hbc]

theorem groupLe_total (a b : List GoString) : (groupLe a b || groupLe b a) = true := by
  simp only [groupLe]
  rcases Nat.lt_trichotomy a.length b.length with h | h | h
  · simp [h]
  · simpa [h] using lexLe_total _ _
  · simp [h]

theorem groupLe_trans (a b c : List GoString) (h1 : groupLe a b = true) (h2 : groupLe b c = true) : groupLe a c = true := by
  have l1 : a.length ≤ b.length := by
    unfold groupLe at h1; split at h1
    · omega
    · split at h1
      · omega
      · cases h1
  have l2 : b.length ≤ c.length := by
    unfold groupLe at h2; split at h2
    · omega
    · split at h2
      · omega
      · cases h2
  unfold groupLe
  split
  · rfl
  · rename_i hn
    have e1 : a.length = b.length := by omega
    have e2 : b.length = c.length := by omega
    have e3 : a.length = c.length := by omega
    rw [if_pos e3]
    unfold groupLe at h1 h2
    rw [if_neg (by omega), if_pos e1] at h1
    rw [if_neg (by omega), if_pos e2] at h2
    exact lexLe_trans _ _ _ h1 h2

theorem groupLe_length {a b : List GoString} (h : groupLe a b = true) : a.length ≤ b.length := by
  unfold groupLe at h; split at h
  · omega
  · split at h
    · omega
    · cases h

theorem ins_perm {A : Type} {le : A → A → Bool} {a : A} : ∀ {l : List A}, (stableInsert le a l).Perm (a :: l)
  | [] => List.Perm.refl _
  | b :: l => by
    unfold stableInsert; split
    · exact List.Perm.refl _
    · exact (List.Perm.cons b ins_perm).trans (List.Perm.swap a b l)

theorem stableSort_perm {A : Type} {le : A → A → Bool} : ∀ {l : List A}, (stableSort le l).Perm l
  | [] => List.Perm.refl _
  | a :: l => by unfold stableSort; exact ins_perm.trans (List.Perm.cons a stableSort_perm)

theorem ins_sorted {A : Type} {le : A → A → Bool} (ht : ∀ a b c, le a b = true → le b c = true → le a c = true)
    (hto : ∀ a b, (le a b || le b a) = true) {a : A} : ∀ {l : List A}, l.Pairwise (fun x y => le x y = true) →
    (stableInsert le a l).Pairwise (fun x y => le x y = true)
  | [], _ => by simp [stableInsert]
  | b :: l, h => by
    unfold stableInsert; split
    · rename_i hab
      refine List.pairwise_cons.2 ⟨?_, h⟩
      intro c hc
      rcases List.mem_cons.1 hc with rfl | hc
      · exact hab
      · exact ht _ _ _ hab ((List.pairwise_cons.1 h).1 c hc)
    · rename_i hab
      have hba : le b a = true := by have := hto a b; simp [hab] at this; exact this
      refine List.pairwise_cons.2 ⟨?_, ins_sorted ht hto (List.pairwise_cons.1 h).2⟩
      intro c hc
      rcases List.mem_cons.1 (ins_perm.mem_iff.1 hc) with rfl | hc
      · exact hba
      · exact (List.pairwise_cons.1 h).1 c hc

theorem stableSort_sorted {A : Type} {le : A → A → Bool} (ht : ∀ a b c, le a b = true → le b c = true → le a c = true)
    (hto : ∀ a b, (le a b || le b a) = true) : ∀ {l : List A}, (stableSort le l).Pairwise (fun x y => le x y = true)
  | [] => List.Pairwise.nil
  | a :: l => by unfold stableSort; exact ins_sorted ht hto (stableSort_sorted ht hto)

theorem sorted_groups (l : List (List GoString)) : (stableSort groupLe l).Pairwise (fun a b => groupLe a b = true) :=
  stableSort_sorted groupLe_trans groupLe_total

end Willow.Assoc
