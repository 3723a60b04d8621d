import Verif.Proofs.BTreeWalkVisit
set_option linter.unusedSectionVars false
set_option linter.unusedSimpArgs false
/-! What a walk visits, and what it locks. -/
namespace Willow.BTreeWalk
open KeyOps BTree Spec LawfulKey BTreeConc

variable {K V : Type}
section
variable [LawfulKey K]

/-- The values and the items of the children are in order. -/
def Ord : List (K × V) → List (CNode K V) → Prop
  | [], cs => cs.drop 1 = []
  | kv :: kvs, cs => (∀ x ∈ allL (cs.take 1), lt x.1 kv.1 = true) ∧ (∀ x ∈ kvs, lt kv.1 x.1 = true) ∧
      (∀ x ∈ allL (cs.drop 1), lt kv.1 x.1 = true) ∧ Ord kvs (cs.drop 1)

mutual
/-- The same in the whole subtree. -/
def OrdT : CNode K V → Prop
  | .mk _ _ kvs cs => Ord kvs cs ∧ OrdL cs
/-- The same in some subtrees. -/
def OrdL : List (CNode K V) → Prop
  | [] => True
  | c :: cs => OrdT c ∧ OrdL cs
end

theorem ordL_iff {cs : List (CNode K V)} : OrdL cs ↔ ∀ c ∈ cs, OrdT c := by
  induction cs with
  | nil => simp [OrdL]
  | cons c cs ih => simp [OrdL, ih]

theorem sorted_app {a b : List (K × V)} (h : Sorted (a ++ b)) : Sorted a ∧ Sorted b ∧ ∀ x ∈ a, ∀ y ∈ b, lt x.1 y.1 = true := by
  unfold Sorted at *
  obtain ⟨h1, h2, h3⟩ := List.pairwise_append.1 h
  exact ⟨h1, h2, fun x hx y hy => h3 x hx y hy⟩

theorem ord_of_sorted : ∀ (kvs : List (K × V)) (cs : List (CNode K V)), (cs = [] ∨ cs.length = kvs.length + 1) → Sorted (BTreeConc.weave cs kvs) → Ord kvs cs
  | [], cs, hl, hs => by
    rcases hl with rfl | hl
    · rfl
    · simp only [Ord]; exact List.drop_eq_nil_of_le (by simp at hl; omega)
  | kv :: kvs, [], hl, hs => by
    simp only [BTreeConc.weave] at hs
    rw [sorted_cons] at hs
    exact ⟨by simp [allL], hs.1, by simp [allL], ord_of_sorted kvs [] (.inl rfl) (by simpa [BTreeConc.weave] using hs.2)⟩
  | kv :: kvs, [c], hl, hs => by simp at hl
  | kv :: kvs, c :: c1 :: cs, hl, hs => by
    simp only [BTreeConc.weave, BTreeConc.after] at hs
    obtain ⟨h1, h2, h3⟩ := sorted_app hs
    rw [sorted_cons] at h2
    obtain ⟨h4, h5⟩ := h2
    have h6 : Sorted (BTreeConc.weave (c1 :: cs) kvs) := by simpa [BTreeConc.weave] using h5
    have hm : ∀ x ∈ kvs ++ allL (c1 :: cs), lt kv.1 x.1 = true := by
      intro x hx
      have := (all_weave (c1 :: cs) kvs).mem_iff.1 hx
      exact h4 x (by simpa [BTreeConc.weave] using this)
    refine ⟨fun x hx => ?_, fun x hx => hm x (by simp [hx]), fun x hx => hm x (by simp at hx; simp [hx]), ord_of_sorted kvs (c1 :: cs) (.inr (by simp at hl ⊢; omega)) h6⟩
    simp [allL] at hx
    exact h3 x ((all_flat c).mem_iff.1 hx) kv (by simp)

mutual
theorem all_er : ∀ t : CNode K V, allN (er t) = allN t
  | .mk w rs kvs cs => by simp only [er_mk, allN]; rw [allL_map_er cs]
theorem allL_map_er : ∀ cs : List (CNode K V), allL (cs.map er) = allL cs
  | [] => rfl
  | c :: cs => by simp only [List.map_cons, allL]; rw [all_er c, allL_map_er cs]
end

theorem ordT_of_wf {n : Nat} : ∀ {h rt} {lo hi : Option K} {t : CNode K V}, WF n rt h lo hi (er t) → OrdT t
  | 0, rt, lo, hi, .mk w rs kvs cs, wf => by
    have hc := chain_sorted (wf_chain wf)
    rw [flat_er] at hc
    simp only [er_mk] at wf
    obtain ⟨h1, _⟩ := wf
    simp at h1
    subst h1
    exact ⟨ord_of_sorted _ _ (.inl rfl) hc, trivial⟩
  | h + 1, rt, lo, hi, .mk w rs kvs cs, wf => by
    have hc := chain_sorted (wf_chain wf)
    rw [flat_er] at hc
    simp only [er_mk] at wf
    obtain ⟨h1, _⟩ := wf
    have hl := forest_length h1
    refine ⟨ord_of_sorted _ _ (.inr (by simpa using hl)) hc, ordL_iff.2 fun c hc => ?_⟩
    obtain ⟨lo', hi', h2⟩ := forest_mem h1 (c := er c) (List.mem_map.2 ⟨c, hc, rfl⟩)
    exact ordT_of_wf h2

theorem nodup_of_sorted {l : List (K × V)} (h : Sorted l) : l.Nodup := by
  unfold Sorted at h
  refine List.Pairwise.imp ?_ h
  intro a b hab e
  subst e
  rw [LawfulKey.irrefl] at hab; cases hab

theorem nodup_of_wf {n h rt} {lo hi : Option K} {t : CNode K V} (wf : WF n rt h lo hi (er t)) : (allN t).Nodup := by
  have hc := chain_sorted (wf_chain wf)
  rw [flat_er] at hc
  exact (all_flat t).nodup_iff.2 (nodup_of_sorted hc)

/-! ### The loop over one node -/

theorem loop_sub (turn : K → Turn) (mk : Nat × Op K V) : ∀ (kvs : List (K × V)) (cs : List (CNode K V)), (walkLoop turn mk kvs cs).1.Sublist kvs
  | [], cs => by simp [walkLoop]
  | kv :: kvs, cs => by
    have ih := loop_sub turn mk kvs (cs.drop 1)
    simp only [walkLoop]
    cases turn kv.1 <;> simp only
    · exact ih.cons _
    · simp
    · exact ih.cons_cons _
    · exact ih.cons_cons _
    · simp

theorem behindL_lockFirst {m : Nat} {tag : Op K V} (ht : startsWriting tag = true) (cs : List (CNode K V)) :
    behindL m (lockFirst (m, tag) cs) = behindL m (cs.drop 1) := by
  cases cs with
  | nil => rfl
  | cons c cs => simp [lockFirst, behindL, behind_addOwn ht]

theorem loop_own {turn : K → Turn} {has : K → Prop} (ok : TurnOk turn has) {m : Nat} {tag : Op K V} (ht : startsWriting tag = true) :
    ∀ (kvs : List (K × V)) (cs : List (CNode K V)), Ord kvs cs → layL m cs = 0 →
      (∀ x ∈ (walkLoop turn (m, tag) kvs cs).1, has x.1) ∧
      (∀ x ∈ kvs, has x.1 → x ∈ (walkLoop turn (m, tag) kvs cs).1) ∧
      (∀ x ∈ behindL m (walkLoop turn (m, tag) kvs cs).2.1, ¬ has x.1) := by
  have hall : ∀ {cs : List (CNode K V)} {x}, x ∈ behindL m cs → x ∈ allL cs := by
    intro cs x hx
    obtain ⟨c, hc, hx⟩ := mem_behindL.1 hx
    exact mem_allL.2 ⟨c, hc, mem_all.2 (.inr hx)⟩
  have htk : ∀ {cs : List (CNode K V)} {x}, x ∈ behindL m ((cs.take 1).map (CNode.addReader · (m, tag))) → False := by
    intro cs x hx
    cases cs with
    | nil => cases hx
    | cons c cs => simp [behindL, behind_addOwn ht] at hx
  intro kvs
  induction kvs with
  | nil =>
    intro cs ho hl
    simp only [walkLoop, behindL_lockFirst ht]
    simp only [Ord] at ho
    simp [ho, behindL]
  | cons kv kvs ih =>
    intro cs ⟨o1, o2, o3, o4⟩ hl
    have hl1 : layL m (cs.drop 1) = 0 := by
      have := layL_append m (cs.take 1) (cs.drop 1)
      rw [take_drop1] at this; omega
    obtain ⟨i1, i2, i3⟩ := ih (cs.drop 1) o4 hl1
    simp only [walkLoop]
    cases htn : turn kv.1 <;> simp only
    · obtain ⟨h1, h2⟩ := ok.skip _ htn
      refine ⟨i1, fun x hx hh => ?_, fun x hx => ?_⟩
      · rcases List.mem_cons.1 hx with rfl | hx
        · exact absurd hh h1
        · exact i2 x hx hh
      · rw [behindL_append] at hx
        rcases List.mem_append.1 hx with hx | hx
        · exact h2 _ (o1 x (hall hx))
        · exact i3 x hx
    · obtain ⟨h1, h2⟩ := ok.stop _ htn
      refine ⟨by simp, fun x hx hh => ?_, fun x hx => ?_⟩
      · rcases List.mem_cons.1 hx with rfl | hx
        · exact absurd hh h1
        · exact absurd hh (h2 _ (o2 x hx))
      · rw [behindL_lockFirst ht] at hx
        exact h2 _ (o3 x (hall hx))
    · have h1 := ok.visitWithChild _ htn
      refine ⟨fun x hx => ?_, fun x hx hh => ?_, fun x hx => ?_⟩
      · rcases List.mem_cons.1 hx with rfl | hx
        · exact h1
        · exact i1 x hx
      · rcases List.mem_cons.1 hx with rfl | hx
        · simp
        · exact List.mem_cons_of_mem _ (i2 x hx hh)
      · rw [behindL_append] at hx
        rcases List.mem_append.1 hx with hx | hx
        · exact (htk hx).elim
        · exact i3 x hx
    · obtain ⟨h1, h2⟩ := ok.visit _ htn
      refine ⟨fun x hx => ?_, fun x hx hh => ?_, fun x hx => ?_⟩
      · rcases List.mem_cons.1 hx with rfl | hx
        · exact h1
        · exact i1 x hx
      · rcases List.mem_cons.1 hx with rfl | hx
        · simp
        · exact List.mem_cons_of_mem _ (i2 x hx hh)
      · rw [behindL_append] at hx
        rcases List.mem_append.1 hx with hx | hx
        · exact h2 _ (o1 x (hall hx))
        · exact i3 x hx
    · obtain ⟨h1, h2⟩ := ok.visitAndStop _ htn
      refine ⟨fun x hx => ?_, fun x hx hh => ?_, fun x hx => ?_⟩
      · rw [List.mem_singleton.1 hx]; exact h1
      · rcases List.mem_cons.1 hx with rfl | hx
        · simp
        · exact absurd hh (h2 _ (o2 x hx))
      · rw [behindL_lockFirst ht] at hx
        exact h2 _ (o3 x (hall hx))

/-! ### A step of the walk -/

theorem exactlyOnce_of_nodup {α : Type} {x : α} {l : List α} (h : l.Nodup) (hx : x ∈ l) : ExactlyOnce x l := by
  obtain ⟨a, b, rfl⟩ := List.append_of_mem hx
  rw [List.nodup_append] at h
  obtain ⟨h1, h2, h3⟩ := h
  rw [List.nodup_cons] at h2
  exact ⟨a, b, rfl, fun hm => h3 _ hm _ (by simp) rfl, h2.1⟩

/-- What the step of a walk does for the items on both sides. -/
structure Own (has : K → Prop) (m : Nat) (vis : List (K × V)) (t t' : CNode K V) : Prop where
  ahead : ∀ x ∈ ahead m t', x ∈ ahead m t ∧ x ∉ vis
  behind : ∀ x ∈ behind m t', (x ∈ behind m t ∧ x ∉ vis) ∨
    (x ∈ BTreeWalk.ahead m t ∧ (has x.1 → ExactlyOnce x vis) ∧ (¬ has x.1 → x ∉ vis))
  vis : ∀ x ∈ vis, has x.1 ∧ x ∈ BTreeWalk.ahead m t

theorem visit_own {turn : K → Turn} {has : K → Prop} (ok : TurnOk turn has) {m : Nat} {tag : Op K V} (ht : startsWriting tag = true) {t vis t'}
    (hv : Visit turn (m, tag) t vis t') : OrdT t → lay m t ≤ 1 → (allN t).Nodup → Own has m vis t t' := by
  induction hv with
  | here hf =>
    rename_i w ra rb kvs cs
    intro ho hl hn
    simp only [lay, marksN_append, marksN_cons, ht] at hl
    simp at hl
    have h0 : layL m cs = 0 := by omega
    have hr : marksN m (ra ++ rb) = 0 := by simp; omega
    have hr' : marksN m (ra ++ (m, tag) :: rb) ≠ 0 := by simp [marksN_cons, ht]
    obtain ⟨l1, l2, l3⟩ := loop_own ok ht kvs cs ho.1 h0
    have hsub := loop_sub turn (m, tag) kvs cs
    have ha : ahead m (.mk w (ra ++ (m, tag) :: rb) kvs cs) = kvs ++ allL cs := by simp only [ahead, if_neg hr']
    have ha' : ahead m (.mk w (ra ++ rb) kvs (walkLoop turn (m, tag) kvs cs).2.1) = aheadL m (walkLoop turn (m, tag) kvs cs).2.1 := by
      simp only [ahead, if_pos hr]
    have hb' : behind m (.mk w (ra ++ rb) kvs (walkLoop turn (m, tag) kvs cs).2.1) = kvs ++ behindL m (walkLoop turn (m, tag) kvs cs).2.1 := by
      simp only [behind, if_pos hr]
    simp only [allN] at hn
    rw [List.nodup_append] at hn
    obtain ⟨n1, n2, n3⟩ := hn
    have hperm := allL_perm m (walkLoop turn (m, tag) kvs cs).2.1
    rw [loop_all] at hperm
    have hin : ∀ x, x ∈ aheadL m (walkLoop turn (m, tag) kvs cs).2.1 ∨ x ∈ behindL m (walkLoop turn (m, tag) kvs cs).2.1 → x ∈ allL cs ∧ x ∉ (walkLoop turn (m, tag) kvs cs).1 := by
      intro x hx
      have h1 := hperm.mem_iff.1 (List.mem_append.2 hx)
      exact ⟨h1, fun h2 => n3 x (hsub.subset h2) x h1 rfl⟩
    constructor
    · rw [ha, ha']
      intro x hx
      have := hin x (.inl hx)
      exact ⟨List.mem_append.2 (.inr this.1), this.2⟩
    · rw [ha, hb']
      intro x hx
      right
      rcases List.mem_append.1 hx with hx | hx
      · exact ⟨List.mem_append.2 (.inl hx), fun hh => exactlyOnce_of_nodup (hsub.nodup n1) (l2 x hx hh), fun hh hv => hh (l1 x hv)⟩
      · have := hin x (.inr hx)
        exact ⟨List.mem_append.2 (.inr this.1), fun hh => absurd hh (l3 x hx), fun _ => this.2⟩
    · rw [ha]
      intro x hx
      exact ⟨l1 x hx, List.mem_append.2 (.inl (hsub.subset hx))⟩
  | child hs ih =>
    rename_i w rs kvs ca c cb vis c'
    intro ho hl hn
    have h1 := visit_lay ht hs
    simp only [lay, layL_append, layL] at hl
    have hr : marksN m rs = 0 := by omega
    have hoc : OrdT c := ordL_iff.1 ho.2 c (by simp)
    simp only [allN, allL_append, allL] at hn
    have hnc : (allN c).Nodup := by
      rw [List.nodup_append] at hn
      have := hn.2.1
      rw [List.nodup_append] at this
      have := this.2.1
      rw [List.nodup_append] at this
      exact this.1
    have hdis : ∀ x ∈ allN c, x ∉ kvs ∧ x ∉ allL ca ∧ x ∉ allL cb := by
      intro x hx
      rw [List.nodup_append] at hn
      obtain ⟨_, n2, n3⟩ := hn
      rw [List.nodup_append] at n2
      obtain ⟨_, n4, n5⟩ := n2
      rw [List.nodup_append] at n4
      exact ⟨fun h => n3 x h x (by simp [hx]) rfl, fun h => n5 x h x (by simp [hx]) rfl, fun h => n4.2.2 x hx x h rfl⟩
    obtain ⟨o1, o2, o3⟩ := ih hoc (by omega) hnc
    have hvc : ∀ x ∈ vis, x ∈ allN c := fun x hx => mem_all.2 (.inl (o3 x hx).2)
    have e1 : ahead m (.mk w rs kvs (ca ++ c :: cb)) = aheadL m ca ++ (ahead m c ++ aheadL m cb) := by
      simp only [ahead, if_pos hr, aheadL_append, aheadL]
    have e2 : ahead m (.mk w rs kvs (ca ++ c' :: cb)) = aheadL m ca ++ (ahead m c' ++ aheadL m cb) := by
      simp only [ahead, if_pos hr, aheadL_append, aheadL]
    have e3 : behind m (.mk w rs kvs (ca ++ c :: cb)) = kvs ++ (behindL m ca ++ (behind m c ++ behindL m cb)) := by
      simp only [behind, if_pos hr, behindL_append, behindL]
    have e4 : behind m (.mk w rs kvs (ca ++ c' :: cb)) = kvs ++ (behindL m ca ++ (behind m c' ++ behindL m cb)) := by
      simp only [behind, if_pos hr, behindL_append, behindL]
    have inA : ∀ {l : List (CNode K V)} {x}, x ∈ aheadL m l → x ∈ allL l := fun {l x} hx => (allL_perm m l).mem_iff.1 (by simp [hx])
    have inB : ∀ {l : List (CNode K V)} {x}, x ∈ behindL m l → x ∈ allL l := fun {l x} hx => (allL_perm m l).mem_iff.1 (by simp [hx])
    constructor
    · rw [e1, e2]
      intro x hx
      simp only [List.mem_append] at hx ⊢
      rcases hx with hx | hx | hx
      · exact ⟨.inl hx, fun hv => (hdis x (hvc x hv)).2.1 (inA hx)⟩
      · exact ⟨.inr (.inl (o1 x hx).1), (o1 x hx).2⟩
      · exact ⟨.inr (.inr hx), fun hv => (hdis x (hvc x hv)).2.2 (inA hx)⟩
    · rw [e1, e3, e4]
      intro x hx
      simp only [List.mem_append] at hx ⊢
      rcases hx with hx | hx | hx | hx
      · exact .inl ⟨.inl hx, fun hv => (hdis x (hvc x hv)).1 hx⟩
      · exact .inl ⟨.inr (.inl hx), fun hv => (hdis x (hvc x hv)).2.1 (inB hx)⟩
      · rcases o2 x hx with h | h
        · exact .inl ⟨.inr (.inr (.inl h.1)), h.2⟩
        · exact .inr ⟨.inr (.inl h.1), h.2⟩
      · exact .inl ⟨.inr (.inr (.inr hx)), fun hv => (hdis x (hvc x hv)).2.2 (inB hx)⟩
    · rw [e1]
      intro x hx
      exact ⟨(o3 x hx).1, by simp [(o3 x hx).2]⟩

end
end Willow.BTreeWalk
