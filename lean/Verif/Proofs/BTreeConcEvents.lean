import Verif.Proofs.BTreeConcFin
set_option linter.unusedSimpArgs false
/-
Consequences for the events: every call returns; at most one call creates an item.
-/
namespace Willow.BTreeConc
open KeyOps BTree Spec

variable {K V : Type}

section
variable [KeyOps K]

theorem countP_toList {ev : Option (Event K V)} {evs : List (Event K V)} {p} :
    (evs ++ ev.toList).countP p = evs.countP p + ev.toList.countP p := by simp

/-- Calls made = calls returned + calls under way. -/
theorem run_counts {evs} {a : AtomicMap K V} (h : AtomicMap.Run AtomicMap.init evs a) (id : Nat) :
    evs.countP (Event.isCall id) = evs.countP (Event.isRet id) + a.called.countP (fun c => c.1 == id) + a.answered.countP (fun c => c.1 == id) := by
  generalize h0 : (AtomicMap.init : AtomicMap K V) = a0 at h
  induction h with
  | nil => subst h0; simp [AtomicMap.init]
  | step h hs ih =>

    cases hs with
    | call id' op => simp [List.countP_cons, Event.isCall, Event.isRet] at *; omega
    | effect hc => simp [hc, List.countP_cons] at *; omega
    | ret hc => simp [hc, List.countP_cons, Event.isCall, Event.isRet] at *; omega
end

theorem nil_of_occ {α : Type} {l : List α} (h : ∀ x, occ x l = 0) : l = [] := by
  cases l with
  | nil => rfl
  | cons x l =>
    have := h x
    rw [occ_cons] at this; simp at this

section
variable [LawfulKey K]

/-- A step that is not a new call. -/
def Quiet (n : Nat) (s : St K V) (ev : Option (Event K V)) (s' : St K V) : Prop :=
  Step n s ev s' ∧ ∀ id op, ev ≠ some (.call id op)

theorem quiet_cases {n} {s s' : St K V} {ev} (h : Quiet n s ev s') :
    Step n s none s' ∨ ∃ id op out, Step n s (some (.ret id op out)) s' := by
  obtain ⟨h, hq⟩ := h
  cases ev with
  | none => exact .inl h
  | some e => cases e with
    | call id op => exact (hq id op rfl).elim
    | ret id op out => exact .inr ⟨id, op, out, h⟩

theorem stuck_returned {n} (hn : 2 ≤ n) {evs} {s : St K V} (hr : Run n St.init evs s) (hs : ∀ ev s', ¬ Quiet n s ev s') : AllReturned evs := by
  obtain ⟨inv, a, h1, h2⟩ := run_sim hn hr
  have h0 : stoks s = [] := by
    refine Classical.byContradiction fun hne => ?_
    rcases step_possible hn inv hne with ⟨s', h⟩ | ⟨id, op, out, s', h⟩
    · exact hs _ _ ⟨h, by simp⟩
    · exact hs _ _ ⟨h, by simp⟩
  have e1 : a.called = [] := nil_of_occ fun x => by rw [h2.called x.1 x.2, h0]; rfl
  have e2 : a.answered = [] := nil_of_occ fun x => by rw [h2.answered x.1 x.2.1 x.2.2, h0]; rfl
  intro id
  have := run_counts h1 id
  simpa [e1, e2] using this

theorem run_init_app {n} {s0 s s' : St K V} {evs evs'} (h : Run n s0 evs s) (h' : Run n s evs' s') : Run n s0 (evs ++ evs') s' := by
  induction h' with
  | nil => simpa using h
  | step _ hs ih => rw [← List.append_assoc]; exact ih.step hs

/-- From everywhere the calls can be completed. -/
theorem can_finish {n} (hn : 2 ≤ n) : ∀ (x y : Nat) {evs} {s : St K V}, Run n St.init evs s → mA s = x → mB s = y →
    ∃ evs' s', Run n s evs' s' ∧ (∀ ev ∈ evs', ∀ id op, ev ≠ .call id op) ∧ AllReturned (evs ++ evs') := by
  intro x
  induction x using Nat.strongRecOn with
  | ind x ihx =>
    intro y
    induction y using Nat.strongRecOn with
    | ind y ihy =>
      intro evs s hr ex ey
      by_cases hs : ∃ ev s', Quiet n s ev s'
      · obtain ⟨ev, s1, hq⟩ := hs
        have inv := (run_sim hn hr).1
        have hl : Less s1 s := by
          rcases quiet_cases hq with h | ⟨id, op, out, h⟩
          · exact tau_less hn h inv
          · exact ret_less h
        have hr1 := hr.step hq.1
        have go : ∃ evs' s', Run n s1 evs' s' ∧ (∀ ev ∈ evs', ∀ id op, ev ≠ .call id op) ∧ AllReturned ((evs ++ ev.toList) ++ evs') := by
          rcases hl with h | ⟨h1, h2⟩
          · exact ihx _ (by omega) _ hr1 rfl rfl
          · exact ihy _ (by omega) hr1 (by omega) rfl
        obtain ⟨evs', s', g1, g2, g3⟩ := go
        refine ⟨ev.toList ++ evs', s', run_init_app (by simpa using (Run.nil).step hq.1) g1, ?_, by rw [← List.append_assoc]; exact g3⟩
        intro e he id op
        rcases List.mem_append.1 he with h | h
        · have : ev = some e := by simpa using h
          subst this
          intro hc; subst hc; exact hq.2 id op rfl
        · exact g2 e h id op
      · refine ⟨[], s, .nil, by simp, ?_⟩
        rw [List.append_nil]
        exact stuck_returned hn hr (fun ev s' h => hs ⟨ev, s', h⟩)

/-! ### At most one creator -/

/-- The answer says that the call created the item of key `k`. -/
def madeIt (k : K) (x : Nat × Op K V × Out K V) : Bool := Event.created k (.ret x.1 x.2.1 x.2.2)

structure Once (k : K) (evs : List (Event K V)) (a : AtomicMap K V) : Prop where
  resp : ∀ x y, same x y = true → a.items x = a.items y
  nodel : ∀ c ∈ a.called, Event.deletes k (.call c.1 c.2) = false
  one : evs.countP (Event.created k) + a.answered.countP (madeIt k) ≤ 1
  gone : a.items k = none → evs.countP (Event.created k) + a.answered.countP (madeIt k) = 0

theorem same_trans' {a b c : K} (h1 : same a b = true) (h2 : same b c = true) : same a c = true := keq_trans h1 h2
theorem same_symm' {a b : K} (h1 : same a b = true) : same b a = true := keq_symm h1
theorem same_congr {a b c : K} (h : same b c = true) : same a b = same a c := by
  cases h1 : same a b <;> cases h2 : same a c
  · rfl
  · have := same_trans' h2 (same_symm' h); simp_all
  · have := same_trans' h1 h; simp_all
  · rfl

theorem once {k : K} {evs : List (Event K V)} {a : AtomicMap K V} (h : AtomicMap.Run AtomicMap.init evs a)
    (hd : ∀ ev ∈ evs, Event.deletes k ev = false) : Once k evs a := by
  generalize h0 : (AtomicMap.init : AtomicMap K V) = a0 at h
  induction h with
  | nil => subst h0; exact ⟨fun _ _ _ => rfl, by simp [AtomicMap.init], by simp [AtomicMap.init], by simp [AtomicMap.init]⟩
  | step h hs ih =>
    rename_i a1 _ _ evs1
    have ih := ih (fun ev he => hd ev (by simp [he]))
    obtain ⟨i1, i2, i3, i4⟩ := ih
    cases hs with
    | call id op =>
      refine ⟨i1, ?_, ?_, ?_⟩
      · intro c hc
        simp at hc
        rcases hc with rfl | hc
        · exact hd _ (by simp)
        · exact i2 c hc
      · simpa [Event.created] using i3
      · simpa [Event.created] using i4
    | ret hc =>
      rename_i xs id op out ys
      rw [hc] at i3 i4
      have e : Event.created k (.ret id op out) = madeIt k (id, op, out) := rfl
      refine ⟨i1, i2, ?_, ?_⟩
      · simp only [Option.toList_some, List.countP_append, List.countP_cons, List.countP_nil, e] at i3 ⊢; omega
      · intro hk
        have := i4 hk
        simp only [Option.toList_some, List.countP_append, List.countP_cons, List.countP_nil, e] at this ⊢; omega
    | effect hc =>
      rename_i xs id op ys
      have hno := i2 (id, op) (by rw [hc]; simp)
      have n2 : ∀ c ∈ xs ++ ys, Event.deletes k (.call c.1 c.2) = false := fun c hcm => i2 c (by rw [hc]; simp at hcm ⊢; grind)
      simp only [Option.toList_none, List.append_nil]
      cases op with
      | find k' => exact ⟨i1, n2, by simpa [List.countP_cons, madeIt, Event.created, mapStep] using i3, by simpa [List.countP_cons, madeIt, Event.created, mapStep] using i4⟩
      | delete k' can =>
        have hk' : same k k' = false := hno
        have hit : (mapStep a1.items (.delete k' can)).1 = a1.items ∨ (mapStep a1.items (.delete k' can)).1 = a1.items.del k' := by
          simp only [mapStep]; split <;> (try split) <;> simp
        have hm : madeIt k (id, Op.delete k' can, (mapStep a1.items (.delete k' can)).2) = false := rfl
        refine ⟨?_, n2, ?_, ?_⟩
        · rcases hit with h | h <;> rw [h]
          · exact i1
          · intro x y hxy
            simp only [Map.del, same_congr hxy, i1 x y hxy]
        · rw [List.countP_cons, hm]; simpa using i3
        · rw [List.countP_cons, hm]
          intro hk
          have : a1.items k = none := by
            rcases hit with h | h <;> rw [h] at hk
            · exact hk
            · have : same k' k = false := by cases hx : same k' k with
                | false => rfl
                | true => rw [same_symm' hx] at hk'; cases hk'
              simpa [Map.del, this] using hk
          simpa using i4 this
      | create k' v =>
        cases hm : a1.items k' with
        | some kv =>
          simp only [mapStep, hm]
          exact ⟨i1, n2, by simpa [List.countP_cons, madeIt, Event.created] using i3, by simpa [List.countP_cons, madeIt, Event.created] using i4⟩
        | none =>
          simp only [mapStep, hm]
          refine ⟨?_, n2, ?_, ?_⟩
          · intro x y hxy
            simp only [Map.put, same_congr hxy, i1 x y hxy]
          · cases hk : same k k' with
            | false => simpa [List.countP_cons, madeIt, Event.created, hk] using i3
            | true =>
              have := i4 (by rw [i1 _ _ hk]; exact hm)
              rw [List.countP_cons]
              split <;> omega
          · intro hk
            have hk' : same k' k = false := by
              cases hx : same k' k with
              | false => rfl
              | true => simp [Map.put, hx] at hk
            have hk2 : same k k' = false := by
              cases hx : same k k' with
              | false => rfl
              | true => rw [same_symm' hx] at hk'; cases hk'
            have := i4 (by simpa [Map.put, hk'] using hk)
            simpa [List.countP_cons, madeIt, Event.created, hk2] using this
      | createOrFind k' v =>
        cases hm : a1.items k' with
        | some kv =>
          simp only [mapStep, hm]
          exact ⟨i1, n2, by simpa [List.countP_cons, madeIt, Event.created] using i3, by simpa [List.countP_cons, madeIt, Event.created] using i4⟩
        | none =>
          simp only [mapStep, hm]
          refine ⟨?_, n2, ?_, ?_⟩
          · intro x y hxy
            simp only [Map.put, same_congr hxy, i1 x y hxy]
          · cases hk : same k k' with
            | false => simpa [List.countP_cons, madeIt, Event.created, hk] using i3
            | true =>
              have := i4 (by rw [i1 _ _ hk]; exact hm)
              rw [List.countP_cons]
              split <;> omega
          · intro hk
            have hk' : same k' k = false := by
              cases hx : same k' k with
              | false => rfl
              | true => simp [Map.put, hx] at hk
            have hk2 : same k k' = false := by
              cases hx : same k k' with
              | false => rfl
              | true => rw [same_symm' hx] at hk'; cases hk'
            have := i4 (by simpa [Map.put, hk'] using hk)
            simpa [List.countP_cons, madeIt, Event.created, hk2] using this
end
end Willow.BTreeConc
