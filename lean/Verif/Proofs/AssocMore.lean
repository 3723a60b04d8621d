import Verif.Proofs.AssocMatch
/-! Destroying the whole associated tree; the second evaluator of queries. -/
namespace Willow.Assoc
open KeyOps BTree Spec

variable {K V : Type} [LawfulKey K]

theorem destroyTree_spec {S : Type} (can : S → Item K V → S × Bool) : ∀ (order : List (Item K V)) (t : ATree K V) (s : S), Inv t →
    order.Nodup → (∀ i ∈ order, i ∈ t.items) →
    ∃ t', t.destroyTree can order s = some (t', (approved can order s).2) ∧ Inv t' ∧ t'.next = t.next ∧
      t'.items = t.items.filter (fun j => !((approved can order s).1.map (·.id)).contains j.id)
  | [], t, s, h, _, _ => ⟨t, rfl, h, rfl, by simp only [approved, List.map_nil, List.contains_nil, Bool.not_false]; exact (List.filter_eq_self.2 (fun _ _ => rfl)).symm⟩
  | i :: is, t, s, h, hnd, hin => by
    unfold ATree.destroyTree approved
    match hc : can s i with
    | (s', false) => exact ⟨t, rfl, h, rfl, by simp only [List.map_nil, List.contains_nil, Bool.not_false]; exact (List.filter_eq_self.2 (fun _ _ => rfl)).symm⟩
    | (s', true) =>
      obtain ⟨ix, e, hI⟩ := h.drop (hin i (by simp))
      simp only [e]
      simp only [List.nodup_cons] at hnd
      obtain ⟨t', e', hI', hn, hi'⟩ := destroyTree_spec can is _ s' hI hnd.2 (by
        intro j hj
        refine List.mem_filter.2 ⟨hin j (by simp [hj]), ?_⟩
        simp only [bne_iff_ne, ne_eq]
        intro heq
        have := h.item_eq (hin j (by simp [hj])) (hin i (by simp)) heq
        subst this; exact hnd.1 hj)
      refine ⟨t', e', hI', hn, ?_⟩
      rw [hi']
      simp only [List.filter_filter]
      apply List.filter_congr
      intro j _
      simp only [List.map_cons, List.contains_cons, Bool.not_or]
      rw [Bool.and_comm]; rfl

/-! ### MatchTags -/

mutual
theorem matchTags_holds {kvs : KVs K} : ∀ (q : Query K), everywhere ValidSel NotOnlyOrs q → NotOnlyOrs q →
    Query.matchTags kvs q = queryHolds (fun _ => true) kvs q
  | .mk sel or and nl, he, hn => by
    simp only [everywhere] at he
    obtain ⟨hs, ho, ha⟩ := he
    simp only [Query.matchTags, queryHolds, matchAll_holds and ha, matchAny_holds or ho]
    have h1 : (sel.isSome || !and.isEmpty || or.isEmpty) = true := by
      rcases hn with h | h | h
      · simp [h]
      · cases and <;> simp_all
      · simp [h]
    rw [h1, Bool.true_and]
    cases sel with
    | none => rfl
    | some s => simp [Option.all, matchKeyValues_holds (hs s rfl)]
theorem matchAll_holds {kvs : KVs K} : ∀ (qs : List (Query K)), everywhereL ValidSel NotOnlyOrs qs →
    Query.matchAll kvs qs = allHold (fun _ => true) kvs qs
  | [], _ => rfl
  | q :: qs, h => by
    simp only [everywhereL] at h
    simp only [Query.matchAll, allHold, matchTags_holds q h.2.1 h.1, matchAll_holds qs h.2.2]
theorem matchAny_holds {kvs : KVs K} : ∀ (qs : List (Query K)), everywhereL ValidSel NotOnlyOrs qs →
    Query.matchAny kvs qs = anyHolds (fun _ => true) kvs qs
  | [], _ => rfl
  | q :: qs, h => by
    simp only [everywhereL] at h
    simp only [Query.matchAny, anyHolds, matchTags_holds q h.2.1 h.1, matchAny_holds qs h.2.2]
end

mutual
theorem queryHolds_noIds {kvs : KVs K} {f : List Nat → Bool} (hf : f [] = true) : ∀ (q : Query K), everywhere (fun s => s.ids = []) (fun _ => True) q →
    queryHolds f kvs q = queryHolds (fun _ => true) kvs q
  | .mk sel or and nl, he => by
    simp only [everywhere] at he
    obtain ⟨hs, ho, ha⟩ := he
    simp only [queryHolds, allHold_noIds hf and ha, anyHolds_noIds hf or ho]
    cases sel with
    | none => rfl
    | some s => simp [Option.all, hs s rfl, hf]
theorem allHold_noIds {kvs : KVs K} {f : List Nat → Bool} (hf : f [] = true) : ∀ (qs : List (Query K)), everywhereL (fun s => s.ids = []) (fun _ => True) qs →
    allHold f kvs qs = allHold (fun _ => true) kvs qs
  | [], _ => rfl
  | q :: qs, h => by
    simp only [everywhereL] at h
    simp only [allHold, queryHolds_noIds hf q h.2.1, allHold_noIds hf qs h.2.2]
theorem anyHolds_noIds {kvs : KVs K} {f : List Nat → Bool} (hf : f [] = true) : ∀ (qs : List (Query K)), everywhereL (fun s => s.ids = []) (fun _ => True) qs →
    anyHolds f kvs qs = anyHolds (fun _ => true) kvs qs
  | [], _ => rfl
  | q :: qs, h => by
    simp only [everywhereL] at h
    simp only [anyHolds, queryHolds_noIds hf q h.2.1, anyHolds_noIds hf qs h.2.2]
end

mutual
theorem everywhere_imp {P P' : Selection K → Prop} {Q Q' : Query K → Prop} (hP : ∀ s, P s → P' s) (hQ : ∀ q, Q q → Q' q) :
    ∀ (q : Query K), everywhere P Q q → everywhere P' Q' q
  | .mk _ or and _, he => by
    simp only [everywhere] at he ⊢
    exact ⟨fun s hs => hP s (he.1 s hs), everywhereL_imp hP hQ or he.2.1, everywhereL_imp hP hQ and he.2.2⟩
theorem everywhereL_imp {P P' : Selection K → Prop} {Q Q' : Query K → Prop} (hP : ∀ s, P s → P' s) (hQ : ∀ q, Q q → Q' q) :
    ∀ (qs : List (Query K)), everywhereL P Q qs → everywhereL P' Q' qs
  | [], _ => trivial
  | q :: qs, h => by
    simp only [everywhereL] at h ⊢
    exact ⟨hQ q h.1, everywhere_imp hP hQ q h.2.1, everywhereL_imp hP hQ qs h.2.2⟩
end

end Willow.Assoc
