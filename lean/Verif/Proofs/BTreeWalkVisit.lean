import Verif.Proofs.BTreeWalk
set_option linter.unusedSectionVars false
set_option linter.unusedSimpArgs false
/-! What a walk does to one node. -/
namespace Willow.BTreeWalk
open KeyOps BTree Spec LawfulKey BTreeConc

variable {K V : Type}

theorem allL_append (a b : List (CNode K V)) : allL (a ++ b) = allL a ++ allL b := by
  induction a with
  | nil => rfl
  | cons c a ih => simp [allL, ih]
theorem aheadL_append (m) (a b : List (CNode K V)) : aheadL m (a ++ b) = aheadL m a ++ aheadL m b := by
  induction a with
  | nil => rfl
  | cons c a ih => simp [aheadL, ih]
theorem behindL_append (m) (a b : List (CNode K V)) : behindL m (a ++ b) = behindL m a ++ behindL m b := by
  induction a with
  | nil => rfl
  | cons c a ih => simp [behindL, ih]
theorem layL_append (m) (a b : List (CNode K V)) : layL m (a ++ b) = max (layL m a) (layL m b) := by
  induction a with
  | nil => simp [layL]
  | cons c a ih => simp only [List.cons_append, layL, ih]; omega

theorem all_addReader (t : CNode K V) (r) : allN (t.addReader r) = allN t := by cases t; simp [allN, CNode.addReader]
theorem marksN_other {m} {r : Nat × Op K V} (h : r.1 ≠ m) (rs) : marksN m (r :: rs) = marksN m rs := by simp [marksN_cons, h]
theorem ahead_addOther {m} {t : CNode K V} {r : Nat × Op K V} (h : r.1 ≠ m) : ahead m (t.addReader r) = ahead m t := by
  cases t; simp [ahead, CNode.addReader, marksN_other h]
theorem behind_addOther {m} {t : CNode K V} {r : Nat × Op K V} (h : r.1 ≠ m) : behind m (t.addReader r) = behind m t := by
  cases t; simp [behind, CNode.addReader, marksN_other h]
theorem lay_addOther {m} {t : CNode K V} {r : Nat × Op K V} (h : r.1 ≠ m) : lay m (t.addReader r) = lay m t := by
  cases t; simp [lay, CNode.addReader, marksN_other h]
theorem ahead_addOwn {m} {t : CNode K V} {tag : Op K V} (h : startsWriting tag = true) : ahead m (t.addReader (m, tag)) = allN t := by
  cases t; simp [ahead, CNode.addReader, marksN_cons, h, allN]
theorem behind_addOwn {m} {t : CNode K V} {tag : Op K V} (h : startsWriting tag = true) : behind m (t.addReader (m, tag)) = [] := by
  cases t; simp [behind, CNode.addReader, marksN_cons, h]
theorem lay_addOwn {m} {t : CNode K V} {tag : Op K V} (h : startsWriting tag = true) : lay m (t.addReader (m, tag)) = lay m t + 1 := by
  cases t; simp [lay, CNode.addReader, marksN_cons, h]; omega

mutual
/-- Without locks of the walk everything is behind it. -/
theorem behind_of_lay {m} : ∀ {t : CNode K V}, lay m t = 0 → behind m t = allN t ∧ ahead m t = []
  | .mk w rs kvs cs, h => by
    simp only [lay] at h
    have h1 : marksN m rs = 0 := by omega
    have h2 := behindL_of_lay (m := m) (cs := cs) (by omega)
    simp [behind, ahead, allN, h1, h2]
theorem behindL_of_lay {m} : ∀ {cs : List (CNode K V)}, layL m cs = 0 → behindL m cs = allL cs ∧ aheadL m cs = []
  | [], _ => ⟨rfl, rfl⟩
  | c :: cs, h => by
    simp only [layL] at h
    have h1 := behind_of_lay (m := m) (t := c) (by omega)
    have h2 := behindL_of_lay (m := m) (cs := cs) (by omega)
    simp [behindL, aheadL, allL, h1, h2]
end

/-! ### The loop -/

theorem take_drop1 {α : Type} (l : List α) : l.take 1 ++ l.drop 1 = l := List.take_append_drop 1 l

/-- `g` does not change when the walk locks some of the children. -/
theorem loop_same {α : Type} (g : List (CNode K V) → List α) (ga : ∀ a b, g (a ++ b) = g a ++ g b) (mk : Nat × Op K V)
    (gm : ∀ c : CNode K V, g [c.addReader mk] = g [c]) (turn : K → Turn) :
    ∀ (kvs : List (K × V)) (cs : List (CNode K V)), g (walkLoop turn mk kvs cs).2.1 = g cs := by
  have g1 : ∀ cs : List (CNode K V), g ((cs.take 1).map (CNode.addReader · mk)) = g (cs.take 1) := by
    intro cs
    cases cs with
    | nil => rfl
    | cons c cs => exact gm c
  have g2 : ∀ cs : List (CNode K V), g (lockFirst mk cs) = g cs := by
    intro cs
    simp only [lockFirst]
    rw [ga, g1, ← ga, take_drop1]
  intro kvs
  induction kvs with
  | nil => intro cs; exact g2 cs
  | cons kv kvs ih =>
    intro cs
    have hi := ih (cs.drop 1)
    simp only [walkLoop]
    cases turn kv.1 <;> simp only <;> first | exact g2 cs | skip
    · rw [ga, hi, ← ga, take_drop1]
    · rw [ga, g1, hi, ← ga, take_drop1]
    · rw [ga, hi, ← ga, take_drop1]

theorem loop_all (mk : Nat × Op K V) (turn : K → Turn) (kvs : List (K × V)) (cs) : allL (walkLoop turn mk kvs cs).2.1 = allL cs :=
  loop_same allL allL_append mk (fun c => by simp [allL, all_addReader]) turn kvs cs
theorem loop_aheadOther {m} {mk : Nat × Op K V} (h : mk.1 ≠ m) (turn : K → Turn) (kvs : List (K × V)) (cs) :
    aheadL m (walkLoop turn mk kvs cs).2.1 = aheadL m cs :=
  loop_same (aheadL m) (aheadL_append m) mk (fun c => by simp [aheadL, ahead_addOther h]) turn kvs cs
theorem loop_behindOther {m} {mk : Nat × Op K V} (h : mk.1 ≠ m) (turn : K → Turn) (kvs : List (K × V)) (cs) :
    behindL m (walkLoop turn mk kvs cs).2.1 = behindL m cs :=
  loop_same (behindL m) (behindL_append m) mk (fun c => by simp [behindL, behind_addOther h]) turn kvs cs
theorem loop_er {mk : Nat × Op K V} (h : startsWriting mk.2 = true) (turn : K → Turn) (kvs : List (K × V)) (cs) :
    (walkLoop turn mk kvs cs).2.1.map er = cs.map er :=
  loop_same (List.map er) (fun _ _ => List.map_append) mk (fun c => by simp [er_addWalk h]) turn kvs cs

/-- Every child after the loop is an old one, or an old one with the lock, which was free to take. -/
theorem loop_child (mk : Nat × Op K V) (turn : K → Turn) :
    ∀ (kvs : List (K × V)) (cs : List (CNode K V)), ∀ y ∈ (walkLoop turn mk kvs cs).2.1, y ∈ cs ∨ ∃ c ∈ cs, c ∈ (walkLoop turn mk kvs cs).2.2 ∧ y = c.addReader mk := by
  have d1 : ∀ {cs : List (CNode K V)} {y}, y ∈ cs.drop 1 → y ∈ cs := fun h => List.mem_of_mem_drop h
  have g2 : ∀ cs : List (CNode K V), ∀ y ∈ lockFirst mk cs, y ∈ cs ∨ ∃ c ∈ cs, c ∈ cs.take 1 ∧ y = c.addReader mk := by
    intro cs y hy
    simp only [lockFirst, List.mem_append, List.mem_map] at hy
    rcases hy with ⟨c, hc, rfl⟩ | hy
    · exact .inr ⟨c, List.mem_of_mem_take hc, hc, rfl⟩
    · exact .inl (d1 hy)
  intro kvs
  induction kvs with
  | nil => intro cs; exact g2 cs
  | cons kv kvs ih =>
    intro cs y
    have hi := ih (cs.drop 1) y
    simp only [walkLoop]
    cases turn kv.1 <;> simp only <;> first | exact g2 cs y | skip
    · intro hy
      rcases List.mem_append.1 hy with hy | hy
      · exact .inl (List.mem_of_mem_take hy)
      · rcases hi hy with h | ⟨c, h1, h2, h3⟩
        · exact .inl (d1 h)
        · exact .inr ⟨c, d1 h1, h2, h3⟩
    · intro hy
      rcases List.mem_append.1 hy with hy | hy
      · obtain ⟨c, hc, rfl⟩ := List.mem_map.1 hy
        exact .inr ⟨c, List.mem_of_mem_take hc, by simp [hc], rfl⟩
      · rcases hi hy with h | ⟨c, h1, h2, h3⟩
        · exact .inl (d1 h)
        · exact .inr ⟨c, d1 h1, List.mem_append.2 (.inr h2), h3⟩
    · intro hy
      rcases List.mem_append.1 hy with hy | hy
      · exact .inl (List.mem_of_mem_take hy)
      · rcases hi hy with h | ⟨c, h1, h2, h3⟩
        · exact .inl (d1 h)
        · exact .inr ⟨c, d1 h1, h2, h3⟩

theorem visit_er {turn : K → Turn} {mk : Nat × Op K V} (h : startsWriting mk.2 = true) {t vis t'} (hv : Visit turn mk t vis t') : er t' = er t := by
  induction hv with
  | here hf => simp only [er_mk, calls_append, calls_cons_walk h, loop_er h]
  | child hs ih => simp only [er_mk, List.map_append, List.map_cons, ih]

theorem visit_excl {turn : K → Turn} {mk : Nat × Op K V} {t vis t'} (hv : Visit turn mk t vis t') : Excl t → Excl t' := by
  induction hv with
  | here hf =>
    intro he
    obtain ⟨h1, h2⟩ := excl_mk.1 he
    refine excl_mk.2 ⟨fun h => by have := h1 h; simp at this, fun y hy => ?_⟩
    rcases loop_child mk turn _ _ y hy with h | ⟨c, g1, g2, rfl⟩
    · exact h2 y h
    · exact excl_addReader (hf c g2) (h2 c g1)
  | child hs ih =>
    intro he
    obtain ⟨h1, h2⟩ := excl_mk.1 he
    refine excl_mk.2 ⟨h1, fun y hy => ?_⟩
    simp at hy
    rcases hy with h | rfl | h
    · exact h2 y (by simp [h])
    · exact ih (h2 _ (by simp))
    · exact h2 y (by simp [h])

theorem visit_all {turn : K → Turn} {mk : Nat × Op K V} {t vis t'} (hv : Visit turn mk t vis t') : allN t' = allN t := by
  induction hv with
  | here hf => simp only [allN, loop_all]
  | child hs ih => simp only [allN, allL_append, allL, ih]

/-- A step of another walk. -/
theorem visit_other {turn : K → Turn} {mk : Nat × Op K V} {m} (hm : mk.1 ≠ m) {t vis t'} (hv : Visit turn mk t vis t') :
    ahead m t' = ahead m t ∧ behind m t' = behind m t ∧ lay m t' ≤ lay m t := by
  induction hv with
  | here hf =>
    have e := fun a b => (marksN_append m a (mk :: b)).trans (by rw [marksN_other hm, ← marksN_append])
    refine ⟨?_, ?_, ?_⟩
    · simp only [ahead, e, loop_aheadOther hm, loop_all]
    · simp only [behind, e, loop_behindOther hm]
    · simp only [lay, e]
      rename_i kvs0 cs
      have : layL m (walkLoop turn mk kvs0 cs).2.1 ≤ layL m cs := by
        rw [layL_le]
        intro y hy
        rcases loop_child mk turn _ _ y hy with h | ⟨c, g1, g2, rfl⟩
        · exact layL_mem h
        · rw [lay_addOther hm]; exact layL_mem g1
      exact Nat.add_le_add_left this _
  | child hs ih =>
    obtain ⟨i1, i2, i3⟩ := ih
    refine ⟨?_, ?_, ?_⟩
    · simp only [ahead, aheadL_append, aheadL, i1, allL_append, allL, visit_all hs]
    · simp only [behind, behindL_append, behindL, i2]
    · simp only [lay, layL_append, layL]; omega

/-- The walk that makes the step has a lock there. -/
theorem visit_lay {turn : K → Turn} {m : Nat} {tag : Op K V} (ht : startsWriting tag = true) {t vis t'} (hv : Visit turn (m, tag) t vis t') :
    1 ≤ lay m t := by
  induction hv with
  | here hf => simp only [lay, marksN_append, marksN_cons, ht]; simp; omega
  | child hs ih => simp only [lay, layL_append, layL]; omega

/-- After the step there is still at most one lock on every path. -/
theorem visit_lay1 {turn : K → Turn} {m : Nat} {tag : Op K V} (ht : startsWriting tag = true) {t vis t'} (hv : Visit turn (m, tag) t vis t') :
    lay m t ≤ 1 → lay m t' ≤ 1 := by
  induction hv with
  | here hf =>
    rename_i kvs0 cs
    intro h
    simp only [lay, marksN_append, marksN_cons, ht] at h ⊢
    simp at h
    have h0 : layL m cs = 0 := by omega
    have : layL m (walkLoop turn (m, tag) kvs0 cs).2.1 ≤ 1 := by
      rw [layL_le]
      intro y hy
      rcases loop_child (m, tag) turn _ _ y hy with h | ⟨c, g1, g2, rfl⟩
      · have := layL_mem (m := m) h; omega
      · rw [lay_addOwn ht]; have := layL_mem (m := m) g1; omega
    have e := this
    omega
  | child hs ih =>
    intro h
    have := visit_lay ht hs
    simp only [lay, layL_append, layL] at h ⊢
    omega

/-! ### Ranges -/
section
variable [LawfulKey K]

/-- The loop of the search fits the keys it asks for. -/
structure TurnOk (turn : K → Turn) (has : K → Prop) : Prop where
  skip : ∀ k, turn k = .skip → ¬ has k ∧ ∀ k', lt k' k = true → ¬ has k'
  stop : ∀ k, turn k = .stop → ¬ has k ∧ ∀ k', lt k k' = true → ¬ has k'
  visitWithChild : ∀ k, turn k = .visitWithChild → has k
  visit : ∀ k, turn k = .visit → has k ∧ ∀ k', lt k' k = true → ¬ has k'
  visitAndStop : ∀ k, turn k = .visitAndStop → has k ∧ ∀ k', lt k k' = true → ¬ has k'

theorem not_lt_of_lt {a b : K} (h : lt a b = true) : lt b a = false := asymm h

theorem turnOf_ok (r : Range K) : TurnOk (turnOf r) r.has := by
  have lt_trans_not : ∀ {a b c : K}, lt a b = true → lt c b = false → lt a c = true := by
    intro a b c h1 h2
    rcases weak c h1 with h | h
    · exact h
    · rw [h2] at h; cases h
  have lt_not_trans : ∀ {a b c : K}, lt b a = false → lt b c = true → lt a c = true := by
    intro a b c h1 h2
    rcases weak a h2 with h | h
    · rw [h1] at h; cases h
    · exact h
  cases r with
  | all lo hi =>
    simp only [turnOf]
    constructor
    all_goals
      intro k h
      simp only [turnIterate] at h
      repeat' split at h
      all_goals first | cases h | skip
    all_goals simp only [Range.has]
    · rename_i h1
      exact ⟨fun g => (by omega), fun k' hk g => (by have := lt_typ hk; omega)⟩
    · rename_i h1 h2
      exact ⟨fun g => (by omega), fun k' hk g => (by have := lt_typ hk; omega)⟩
    · exact ⟨by omega, by omega⟩
  | lessThan key lo =>
    simp only [turnOf]
    constructor
    all_goals
      intro k h
      simp only [turnLessThan] at h
      repeat' split at h
      all_goals first | cases h | skip
    all_goals simp only [Range.has]
    · exact ⟨fun g => (by omega), fun k' hk g => (by have := lt_typ hk; omega)⟩
    · rename_i h1 h2
      have := typ_lt h2
      exact ⟨fun g => (by rw [asymm this] at g; cases g.2), fun k' hk g => (by rw [asymm (LawfulKey.trans this hk)] at g; cases g.2)⟩
    · rename_i h1 h2 h3
      exact ⟨fun g => h3 g.2, fun k' hk g => h3 (LawfulKey.trans hk g.2)⟩
    · rename_i h1 h2 h3
      exact ⟨by omega, h3⟩
  | lessThanOrEqual key lo =>
    simp only [turnOf]
    constructor
    all_goals
      intro k h
      simp only [turnLessThanOrEqual] at h
      repeat' split at h
      all_goals first | cases h | skip
    all_goals simp only [Range.has]
    · exact ⟨fun g => (by omega), fun k' hk g => (by have := lt_typ hk; omega)⟩
    · rename_i h1 h2
      have := typ_lt h2
      exact ⟨fun g => (by rw [this] at g; cases g.2), fun k' hk g => (by rw [LawfulKey.trans this hk] at g; cases g.2)⟩
    · rename_i h1 h2 h3 h4
      have h4 : lt key k = true := by simpa using h4
      exact ⟨fun g => (by rw [h4] at g; cases g.2), fun k' hk g => (by rw [LawfulKey.trans h4 hk] at g; cases g.2)⟩
    · rename_i h1 h2 h3
      exact ⟨by omega, asymm h3⟩
    · rename_i h1 h2 h3 h4
      have h3 : lt k key = false := by simpa using h3
      have h4 : lt key k = false := by simpa using h4
      exact ⟨⟨by omega, h4⟩, fun k' hk g => (by rw [lt_not_trans h3 hk] at g; cases g.2)⟩
  | greaterThan key hi =>
    simp only [turnOf]
    constructor
    all_goals
      intro k h
      simp only [turnGreaterThan] at h
      repeat' split at h
      all_goals first | cases h | skip
    all_goals simp only [Range.has]
    · rename_i h1 h2
      exact ⟨fun g => (by rw [asymm h2] at g; cases g.2), fun k' hk g => (by rw [asymm (LawfulKey.trans hk h2)] at g; cases g.2)⟩
    · rename_i h1 h2 h3
      exact ⟨fun g => h3 g.2, fun k' hk g => h3 (LawfulKey.trans g.2 hk)⟩
    · exact ⟨fun g => (by omega), fun k' hk g => (by have := lt_typ hk; omega)⟩
    · rename_i h1 h2 h3
      exact ⟨by omega, h3⟩
  | greaterThanOrEqual key hi =>
    simp only [turnOf]
    constructor
    all_goals
      intro k h
      simp only [turnGreaterThanOrEqual] at h
      repeat' split at h
      all_goals first | cases h | skip
    all_goals simp only [Range.has]
    · rename_i h1 h2
      exact ⟨fun g => (by rw [h2] at g; cases g.2), fun k' hk g => (by rw [LawfulKey.trans hk h2] at g; cases g.2)⟩
    · exact ⟨fun g => (by omega), fun k' hk g => (by have := lt_typ hk; omega)⟩
    · rename_i h1 h2 h3
      exact ⟨by omega, asymm h3⟩
    · rename_i h1 h2 h3
      have h2 : lt k key = false := by simpa using h2
      have h3 : lt key k = false := by simpa using h3
      exact ⟨⟨by omega, h2⟩, fun k' hk g => (by rw [lt_trans_not hk h3] at g; cases g.2)⟩

end
end Willow.BTreeWalk
