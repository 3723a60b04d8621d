import Verif.Proofs.BTreeWalkRun
set_option linter.unusedSectionVars false
set_option linter.unusedSimpArgs false
/-! What the callback of a walk has got so far. -/
namespace Willow.BTreeWalk
open KeyOps BTree Spec LawfulKey BTreeConc

variable {K V : Type}

theorem once_left {α : Type} {x : α} {l v : List α} (h : ExactlyOnce x l) (hv : x ∉ v) : ExactlyOnce x (l ++ v) := by
  obtain ⟨a, b, rfl, h1, h2⟩ := h
  exact ⟨a, b ++ v, by simp, h1, by simp [h2, hv]⟩
theorem once_right {α : Type} {x : α} {l v : List α} (h : x ∉ l) (hv : ExactlyOnce x v) : ExactlyOnce x (l ++ v) := by
  obtain ⟨a, b, rfl, h1, h2⟩ := hv
  exact ⟨l ++ a, b, by simp, by simp [h, h1], h2⟩

section
variable [LawfulKey K]

theorem visit_own_state {n} {w : W K V} (c : CInv n w) {tag : Op K V} (ht : startsWriting tag = true) {x : Walk K V} {r vis r'} (hr : w.st.root = some r)
    (hv : Visit (turnOf x.range) (x.id, tag) r vis r') : Own x.range.has x.id vis r r' := by
  obtain ⟨h1, h2⟩ := ord_root c hr
  have h3 := c.lay x.id
  rw [hr] at h3
  exact visit_own (turnOf_ok x.range) ht hv h1 h3 h2

/-- What a step does to the walks. -/
theorem seen_step {n} {w w' : W K V} {ev} (st : WStep n w ev w') (c : CInv n w) :
    ∀ y' ∈ w'.walks, (y'.seen = [] ∧ ∀ y ∈ w.walks, y.id ≠ y'.id) ∨
      ∃ y ∈ w.walks, y.id = y'.id ∧ y.range = y'.range ∧ ∃ vis, y'.seen = y.seen ++ vis ∧ (∀ x ∈ vis, y.range.has x.1 ∧ w.stores x) ∧
        (vis = [] ∨ ∀ x, w'.stores x ↔ w.stores x) := by
  have keep : ∀ {ws : List (Walk K V)} {y'}, y' ∈ ws → ∃ y ∈ ws, y.id = y'.id ∧ y.range = y'.range ∧ ∃ vis, y'.seen = y.seen ++ vis ∧
      (∀ x ∈ vis, y.range.has x.1 ∧ w.stores x) ∧ (vis = [] ∨ ∀ x, w'.stores x ↔ w.stores x) :=
    fun {ws y'} h => ⟨y', h, rfl, rfl, [], by simp, by simp, .inl rfl⟩
  intro y' hy
  cases st with
  | other hs => exact .inr (keep hy)
  | begin id range tag ht hh hr hf hid =>
    rcases List.mem_cons.1 hy with rfl | hy
    · exact .inl ⟨rfl, hid⟩
    · exact .inr (keep hy)
  | beginEmpty id range hh hr hid =>
    rcases List.mem_cons.1 hy with rfl | hy
    · exact .inl ⟨rfl, hid⟩
    · exact .inr (keep hy)
  | visit tag ht hr hv =>
    rename_i s wa x wb r vis r'
    right
    have hst : ∀ z, W.stores z ⟨{ s with root := some r' }, wa ++ { x with seen := x.seen ++ vis } :: wb⟩ ↔ W.stores z ⟨s, wa ++ x :: wb⟩ := by
      intro z
      rw [stores_allO, stores_allO]
      simp only [hr, allO, visit_all hv]
    simp only [List.mem_append, List.mem_cons] at hy
    rcases hy with hy | rfl | hy
    · exact ⟨y', by simp [hy], rfl, rfl, [], by simp, by simp, .inl rfl⟩
    · refine ⟨x, by simp, rfl, rfl, vis, rfl, fun z hz => ?_, .inr hst⟩
      have := (visit_own_state c ht hr hv).vis z hz
      refine ⟨this.1, stores_allO.2 ?_⟩
      simp only [hr, allO]
      exact mem_all.2 (.inl this.2)
    · exact ⟨y', by simp [hy], rfl, rfl, [], by simp, by simp, .inl rfl⟩

/-- How the items on both sides of the walks change when the item stays in the tree. -/
theorem side_step {n} (hn2 : 2 ≤ n) {w w' : W K V} {ev} (st : WStep n w ev w') (c : CInv n w)
    {x : K × V} (h1 : w.stores x) :
    ∀ y' ∈ w'.walks, (y'.seen = [] ∧ x ∉ behindO y'.id w'.st.root) ∨
      ∃ y ∈ w.walks, y.id = y'.id ∧ y.range = y'.range ∧ ∃ vis, y'.seen = y.seen ++ vis ∧
        (x ∈ aheadO y'.id w'.st.root → x ∈ aheadO y.id w.st.root ∧ x ∉ vis) ∧
        (x ∈ behindO y'.id w'.st.root → (x ∈ behindO y.id w.st.root ∧ x ∉ vis) ∨
          (x ∈ aheadO y.id w.st.root ∧ (y.range.has x.1 → ExactlyOnce x vis) ∧ (¬ y.range.has x.1 → x ∉ vis))) := by
  intro y' hy
  rw [stores_allO] at h1
  cases st with
  | other hs =>
    have k := step_keep hn2 hs c.inv c.excl y'.id
    exact .inr ⟨y', hy, rfl, rfl, [], by simp, fun h => ⟨k.ahead x h h1, by simp⟩, fun h => .inl ⟨k.behind x h h1, by simp⟩⟩
  | begin id range tag ht hh hr hf hid =>
    rcases List.mem_cons.1 hy with rfl | hy
    · left
      refine ⟨rfl, ?_⟩
      simp only [behindO, behind_addOwn ht]; simp
    · right
      have hne : ((id, tag) : Nat × Op K V).1 ≠ y'.id := (hid y' hy).symm
      refine ⟨y', hy, rfl, rfl, [], by simp, ?_, ?_⟩
      · simp only [hr, aheadO, ahead_addOther hne]; simp
      · simp only [hr, behindO, behind_addOther hne]; intro h; exact .inl ⟨h, by simp⟩
  | beginEmpty id range hh hr hid => simp [hr, allO] at h1
  | visit tag ht hr hv =>
    rename_i s wa z wb r vis r'
    right
    have hids := c.ids
    have oth : ∀ y'' : Walk K V, z.id ≠ y''.id → y'' ∈ wa ++ z :: wb → ∃ y ∈ wa ++ z :: wb, y.id = y''.id ∧ y.range = y''.range ∧ ∃ vis, y''.seen = y.seen ++ vis ∧
        (x ∈ aheadO y''.id (some r') → x ∈ aheadO y.id s.root ∧ x ∉ vis) ∧
        (x ∈ behindO y''.id (some r') → (x ∈ behindO y.id s.root ∧ x ∉ vis) ∨
          (x ∈ aheadO y.id s.root ∧ (y.range.has x.1 → ExactlyOnce x vis) ∧ (¬ y.range.has x.1 → x ∉ vis))) := by
      intro y'' hne hm
      have ho := visit_other (m := y''.id) (mk := (z.id, tag)) hne hv
      refine ⟨y'', hm, rfl, rfl, [], by simp, ?_, ?_⟩
      · simp only [hr, aheadO, ho.1]; simp
      · simp only [hr, behindO, ho.2.1]; intro h; exact .inl ⟨h, by simp⟩
    simp only [List.pairwise_append, List.pairwise_cons] at hids
    simp only [List.mem_append, List.mem_cons] at hy
    rcases hy with hy | rfl | hy
    · exact oth y' (fun e => hids.2.2 y' hy z (by simp) e.symm) (by simp [hy])
    · have o := visit_own_state c ht hr hv
      refine ⟨z, by simp, rfl, rfl, vis, rfl, ?_, ?_⟩
      · simp only [hr, aheadO]; exact o.ahead x
      · simp only [hr, behindO, aheadO]; exact o.behind x
    · exact oth y' (hids.2.1.1 y' hy) (by simp [hy])

/-- The callback got the item as often as it should have so far. -/
def Good (x : K × V) (id : Nat) (w : W K V) : Prop := ∀ y ∈ w.walks, y.id = id →
  (x ∈ aheadO y.id w.st.root → x ∉ y.seen) ∧
  (x ∈ behindO y.id w.st.root → (y.range.has x.1 → ExactlyOnce x y.seen) ∧ (¬ y.range.has x.1 → x ∉ y.seen))

theorem good_step {n} (hn2 : 2 ≤ n) {w w' : W K V} {ev} (st : WStep n w ev w') (c : CInv n w)
    {x : K × V} {id} (h1 : w.stores x) (g : Good x id w) : Good x id w' := by
  intro y' hy hid
  rcases side_step hn2 st c h1 y' hy with ⟨a, b⟩ | ⟨y, k1, k2, k3, vis, k4, k5, k6⟩
  · rw [a]; exact ⟨fun _ => by simp, fun h => absurd h b⟩
  · obtain ⟨g1, g2⟩ := g y k1 (k2.trans hid)
    rw [k4, ← k3]
    refine ⟨fun h => ?_, fun h => ?_⟩
    · have := k5 h
      simp [g1 this.1, this.2]
    · rcases k6 h with ⟨q1, q2⟩ | ⟨q1, q2, q3⟩
      · exact ⟨fun hh => once_left ((g2 q1).1 hh) q2, fun hh => by simp [(g2 q1).2 hh, q2]⟩
      · exact ⟨fun hh => once_right (g1 q1) (q2 hh), fun hh => by simp [g1 q1, q3 hh]⟩

/-- The callback got the item at most once. -/
def Some1 (x : K × V) (id : Nat) (w : W K V) : Prop := ∀ y ∈ w.walks, y.id = id → x ∉ y.seen ∨ ExactlyOnce x y.seen
/-- The same, and it will not get it again. -/
def Most (x : K × V) (id : Nat) (w : W K V) : Prop := ∀ y ∈ w.walks, y.id = id →
  (x ∈ aheadO y.id w.st.root → x ∉ y.seen) ∧ (x ∉ y.seen ∨ ExactlyOnce x y.seen)
/-- The callback did not get the item. -/
def Unseen (x : K × V) (id : Nat) (w : W K V) : Prop := ∀ y ∈ w.walks, y.id = id → x ∉ y.seen

theorem most_step {n} (hn2 : 2 ≤ n) {w w' : W K V} {ev} (st : WStep n w ev w') (c : CInv n w)
    {x : K × V} {id} (h1 : w.stores x) (h2 : w'.stores x) (g : Most x id w) : Most x id w' := by
  intro y' hy hid
  rcases side_step hn2 st c h1 y' hy with ⟨a, b⟩ | ⟨y, k1, k2, k3, vis, k4, k5, k6⟩
  · rw [a]; exact ⟨fun _ => by simp, .inl (by simp)⟩
  · obtain ⟨g1, g2⟩ := g y k1 (k2.trans hid)
    rw [k4]
    refine ⟨fun h => ?_, ?_⟩
    · have := k5 h
      simp [g1 this.1, this.2]
    · rw [stores_allO, mem_allO (m := y'.id)] at h2
      rcases h2 with h | h
      · have := k5 h
        exact .inl (by simp [g1 this.1, this.2])
      · rcases k6 h with ⟨_, q2⟩ | ⟨q1, q2, q3⟩
        · rcases g2 with g2 | g2
          · exact .inl (by simp [g2, q2])
          · exact .inr (once_left g2 q2)
        · by_cases hh : y.range.has x.1
          · exact .inr (once_right (g1 q1) (q2 hh))
          · exact .inl (by simp [g1 q1, q3 hh])

theorem unseen_step {n} {w w' : W K V} {ev} (st : WStep n w ev w') (c : CInv n w)
    {x : K × V} {id} (h1 : ¬ w.stores x) (g : Unseen x id w) : Unseen x id w' := by
  intro y' hy hid
  rcases seen_step st c y' hy with ⟨a, _⟩ | ⟨y, k1, k2, _, vis, k4, k5, _⟩
  · simp [a]
  · rw [k4]
    have := g y k1 (k2.trans hid)
    simp [this]
    exact fun h => h1 (k5 x h).2

theorem some1_step {n} {w w' : W K V} {ev} (st : WStep n w ev w') (c : CInv n w)
    {x : K × V} {id} (h1 : ¬ w'.stores x) (g : Some1 x id w) : Some1 x id w' := by
  intro y' hy hid
  rcases seen_step st c y' hy with ⟨a, _⟩ | ⟨y, k1, k2, _, vis, k4, k5, k6⟩
  · simp [a]
  · rw [k4]
    have hv : x ∉ vis := by
      intro h
      rcases k6 with rfl | k6
      · cases h
      · exact h1 ((k6 x).2 (k5 x h).2)
    rcases g y k1 (k2.trans hid) with h | h
    · exact .inl (by simp [h, hv])
    · exact .inr (once_left h hv)

theorem range_run {n} (hn2 : 2 ≤ n) {P} {w : W K V} {evs} (h : WRun n P W.init evs w) :
    ∀ y ∈ w.walks, ∀ x ∈ y.seen, y.range.has x.1 := by
  generalize h0 : (W.init : W K V) = w0 at h
  induction h with
  | nil _ => subst h0; intro y hy; cases hy
  | step h hs hp ih =>
    subst h0
    have c := (wrun_sim hn2 h).1
    intro y' hy x hx
    rcases seen_step hs c y' hy with ⟨a, _⟩ | ⟨y, k1, _, k3, vis, k4, k5, _⟩
    · rw [a] at hx; cases hx
    · rw [k4] at hx
      rw [← k3]
      rcases List.mem_append.1 hx with hx | hx
      · exact ih y k1 x hx
      · exact (k5 x hx).1

theorem good_run {n} (hn2 : 2 ≤ n) {x : K × V} {id} {w0 w : W K V} {evs}
    (h : WRun n (W.stores x) w0 evs w) (c : CInv n w0) (g : Good x id w0) : Good x id w := by
  induction h with
  | nil _ => exact g
  | step h hs hp ih => exact good_step hn2 hs (cinv_run hn2 h c) (run_holds h) ih

theorem most_run {n} (hn2 : 2 ≤ n) {x : K × V} {id} {w0 w : W K V} {evs}
    (h : WRun n (W.stores x) w0 evs w) (c : CInv n w0) (g : Most x id w0) : Most x id w := by
  induction h with
  | nil _ => exact g
  | step h hs hp ih => exact most_step hn2 hs (cinv_run hn2 h c) (run_holds h) hp ih

theorem unseen_run {n} (hn2 : 2 ≤ n) {x : K × V} {id} {w0 w : W K V} {evs}
    (h : WRun n (fun w => ¬ w.stores x) w0 evs w) (c : CInv n w0) (g : Unseen x id w0) : Unseen x id w := by
  induction h with
  | nil _ => exact g
  | step h hs hp ih => exact unseen_step hs (cinv_run hn2 h c) (run_holds h) ih

theorem some1_run {n} (hn2 : 2 ≤ n) {x : K × V} {id} {w0 w : W K V} {evs}
    (h : WRun n (fun w => ¬ w.stores x) w0 evs w) (c : CInv n w0) (g : Some1 x id w0) : Some1 x id w := by
  induction h with
  | nil _ => exact g
  | step h hs hp ih => exact some1_step hs (cinv_run hn2 h c) hp ih

end
end Willow.BTreeWalk
