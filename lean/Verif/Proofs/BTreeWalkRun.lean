import Verif.Proofs.BTreeWalkOwn
set_option linter.unusedSectionVars false
set_option linter.unusedSimpArgs false
/-! The tree with calls and walks. -/
namespace Willow.BTreeWalk
open KeyOps BTree Spec LawfulKey BTreeConc

variable {K V : Type}

mutual
theorem stores_iff {x : K × V} : ∀ {t : CNode K V}, storesNode x t ↔ x ∈ allN t
  | .mk w rs kvs cs => by simp only [storesNode, allN, List.mem_append]; rw [storesL_iff]
theorem storesL_iff {x : K × V} : ∀ {cs : List (CNode K V)}, storesList x cs ↔ x ∈ allL cs
  | [] => by simp [storesList, allL]
  | c :: cs => by simp only [storesList, allL, List.mem_append]; rw [stores_iff, storesL_iff]
end
mutual
theorem lay_of_not_holds {m : Nat} : ∀ {t : CNode K V}, ¬ holdsNode m t → lay m t = 0
  | .mk w rs kvs cs, h => by
    simp only [holdsNode, not_or, not_exists, not_and] at h
    have h1 : marksN m rs = 0 := by
      rw [marksN, List.countP_eq_zero]
      intro r hr
      have := h.1 r hr
      simp; exact fun e => by simpa using this e
    have h2 := layL_of_not_holds (m := m) h.2
    simp only [lay]; omega
theorem layL_of_not_holds {m : Nat} : ∀ {cs : List (CNode K V)}, ¬ holdsList m cs → layL m cs = 0
  | [], _ => rfl
  | c :: cs, h => by
    simp only [holdsList, not_or] at h
    have h1 := lay_of_not_holds (m := m) h.1
    have h2 := layL_of_not_holds (m := m) h.2
    simp only [layL]; omega
end

/-- The lists of a tree. -/
def allO : Option (CNode K V) → List (K × V)
  | none => []
  | some r => allN r
def aheadO (m : Nat) : Option (CNode K V) → List (K × V)
  | none => []
  | some r => ahead m r
def behindO (m : Nat) : Option (CNode K V) → List (K × V)
  | none => []
  | some r => behind m r
def layO (m : Nat) : Option (CNode K V) → Nat
  | none => 0
  | some r => lay m r
def ExclO : Option (CNode K V) → Prop
  | none => True
  | some r => Excl r

theorem mem_allO {m} {x : K × V} {o : Option (CNode K V)} : x ∈ allO o ↔ x ∈ aheadO m o ∨ x ∈ behindO m o := by
  cases o with
  | none => simp [allO, aheadO, behindO]
  | some r => exact mem_all
theorem stores_allO {x : K × V} {w : W K V} : w.stores x ↔ x ∈ allO w.st.root := by
  unfold W.stores
  cases w.st.root with
  | none => simp [allO]
  | some r => simp [allO, stores_iff]
theorem lay_of_over {w : W K V} {id} (h : w.over id) : layO id w.st.root = 0 := by
  unfold W.over at h
  cases hr : w.st.root with
  | none => rfl
  | some r => exact lay_of_not_holds (h r hr)
theorem behindO_of_lay {m} {o : Option (CNode K V)} (h : layO m o = 0) : aheadO m o = [] ∧ behindO m o = allO o := by
  cases o with
  | none => exact ⟨rfl, rfl⟩
  | some r => exact ⟨(behind_of_lay h).2, (behind_of_lay h).1⟩

/-- A step of the calls, seen from the walks. -/
structure KeepO (m : Nat) (o o' : Option (CNode K V)) : Prop where
  excl : ExclO o'
  lay : ∀ b, layO m o ≤ b → layO m o' ≤ b
  ahead : ∀ x ∈ aheadO m o', x ∈ allO o → x ∈ aheadO m o
  behind : ∀ x ∈ behindO m o', x ∈ allO o → x ∈ behindO m o

theorem keepO_refl {m} {o : Option (CNode K V)} (h : ExclO o) : KeepO m o o := ⟨h, fun _ h => h, fun _ h _ => h, fun _ h _ => h⟩
theorem keepO_of {m} {e : Eff K V} {r r' : CNode K V} (h : Keep m e r r') (ha : ∀ x, Adds e x → x ∉ allN r) : KeepO m (some r) (some r') :=
  ⟨h.excl, h.lay, fun x hx hi => (h.ahead x hx).elim id (fun h => absurd hi (ha x h)),
    fun x hx hi => (h.behind x hx).elim id (fun h => absurd hi (ha x h))⟩

section
variable [LawfulKey K]

theorem adds_new {e : Eff K V} {x} (h : Adds e x) {l l'} {lo hi : Option K} (he : Effect lo hi e.op e.outcome l l') : x ∉ l := by
  obtain ⟨h1, h2⟩ := h
  have hs : listStep l e.op = (l', createdOut e.op) := by
    rcases h2 with h2 | h2
    · rw [h2] at he; exact he.1
    · rw [h2] at he; exact he.1
  have hk : lookupL x.1 l = none := by
    cases hop : e.op with
    | create k v =>
      rw [hop] at h1 hs
      cases h1
      simp only [listStep, createdOut] at hs
      cases hl : lookupL k l with
      | none => rfl
      | some y => rw [hl] at hs; simp at hs
    | createOrFind k v =>
      rw [hop] at h1 hs
      cases h1
      simp only [listStep, createdOut] at hs
      cases hl : lookupL k l with
      | none => rfl
      | some y => rw [hl] at hs; simp at hs
    | find k => rw [hop] at h1; cases h1
    | delete k can => rw [hop] at h1; cases h1
  intro hx
  unfold lookupL at hk
  rw [List.find?_eq_none] at hk
  exact hk x hx (keq_refl _)

theorem writes_of_read {op : Op K V} (h : isRead op = true) : startsWriting op = false := by cases op <;> simp_all [isRead, startsWriting]

theorem flat_all {r : CNode K V} {x} : x ∈ BTreeConc.flat (er r) ↔ x ∈ allN r := by rw [flat_er]; exact (all_flat r).mem_iff.symm

theorem step_keep {n} (hn2 : 2 ≤ n) {s s' : St K V} {ev} (st : BTreeConc.Step n s ev s') (inv : Inv n (erS s)) (he : ExclO s.root) (m : Nat) :
    KeepO m s.root s'.root := by
  obtain ⟨htree, hlock, hexcl, hwait, hread⟩ := inv
  have hwf : ∀ r, s.root = some r → ∃ h, WF n true h none none (er r) := fun r hr => htree (er r) (by simp [erS, hr])
  cases st with
  | call id op => exact keepO_refl he
  | ret hf => exact keepO_refl he
  | lock hw hh hr => exact keepO_refl he
  | enterCreate hw hh hf =>
    rename_i id op item
    cases hr : s.root with
    | none =>
      simp only [hr, rootOrNew]
      refine ⟨?_, ?_, ?_, ?_⟩
      · show Excl (CNode.held _ _)
        simp [CNode.held, Excl, ExclL]
      · intro b; simp [layO, CNode.held, lay, layL]
      · intro x; simp [aheadO, CNode.held, ahead, aheadL]
      · intro x; simp [behindO, CNode.held, behind, behindL]
    | some r =>
      simp only [hr, rootOrNew] at hf ⊢
      rw [hr] at he
      exact keepO_of (e := ⟨0, op, false, none, .moved⟩) (keep_held he hf _) (fun x h => by obtain ⟨_, h | h⟩ := h <;> cases h)
  | enterDelete hh hr hf =>
    rename_i id k can r
    rw [hr] at he ⊢
    exact keepO_of (e := ⟨0, .delete k can, false, none, .moved⟩) (keep_held he hf _) (fun x h => by obtain ⟨_, h | h⟩ := h <;> cases h)
  | deleteEmpty hh hr => exact keepO_refl he
  | inner hh hr hc hl hid hop hs =>
    rename_i id op r h0 e r'
    rw [settle_root]
    rw [hr] at he ⊢
    refine keepO_of (cstep_keep hs he).1 fun x hx => ?_
    obtain ⟨h, wf⟩ := hwf r hr
    obtain ⟨hd, h1, h2⟩ := cstep_ok hn2 (cstep_er hs)
    have ok := h2 true h none none wf
    cases hsw : e.swap with
    | none =>
      have := (ok.plain hsw).2
      rw [← ok.op] at this
      exact fun hm => adds_new hx this (flat_all.2 hm)
    | some y =>
      obtain ⟨kv, _, ⟨k, can, hdel, _⟩, _⟩ := ok.swap y hsw
      obtain ⟨hnew, _⟩ := hx
      rw [ok.op, hdel] at hnew; cases hnew
  | node hr hs =>
    rename_i r e r'
    rw [settle_root]
    rw [hr] at he ⊢
    refine keepO_of (nstep_keep hs he) fun x hx => ?_
    obtain ⟨h, wf⟩ := hwf r hr
    have := (nstep_ok hn2 (nstep_er hs) _ _ _ _ wf).2.1
    exact fun hm => adds_new hx this (flat_all.2 hm)
  | grow hh hr hc hp =>
    rename_i id op r out kv l rt
    rw [hr] at he ⊢
    have k : Keep m (⟨0, op, false, none, .moved⟩ : Eff K V) (.mk none [] [] ([] ++ r :: [])) (.mk none [] [kv] [l, rt]) :=
      keep_split (w := none) (w' := none) (kvs := []) (ca := []) (cb := []) (by simpa using (show Excl r from he)) (excl_readers he hc) hp
    have e1 : ahead m (.mk none [] [] ([] ++ r :: [])) = ahead m r := by simp [ahead, aheadL]
    have e2 : behind m (.mk none [] [] ([] ++ r :: [])) = behind m r := by simp [behind, behindL]
    have e3 : lay m (.mk none [] [] ([] ++ r :: [])) = lay m r := by simp [lay, layL]
    refine ⟨k.excl, fun b h => k.lay b (by rw [e3]; exact h), fun x hx _ => ?_, fun x hx _ => ?_⟩
    · rcases k.ahead x hx with h | ⟨_, h | h⟩
      · rw [e1] at h; exact h
      · cases h
      · cases h
    · rcases k.behind x hx with h | ⟨_, h | h⟩
      · rw [e2] at h; exact h
      · cases h
      · cases h
  | shrink hh hr hc =>
    rename_i id op r out
    rw [hr] at he ⊢
    have hrd := excl_readers he hc
    show KeepO m (some r) (if r.count = 0 then r.children[0]? else some (r.held none))
    split
    · cases hch : r.children with
      | nil => exact ⟨trivial, (fun b _ => Nat.zero_le _), (fun x h => by cases h), (fun x h => by cases h)⟩
      | cons c cs =>
        have h1 := excl_children he c (by simp [hch])
        have ea := ahead_free (m := m) hrd
        have eb := behind_free (m := m) hrd
        have el := lay_free (m := m) hrd
        rw [hch] at ea eb el
        refine ⟨h1, fun b h => ?_, fun x hx _ => ?_, fun x hx _ => ?_⟩
        · simp only [layO, List.getElem?_cons_zero] at h ⊢
          rw [el] at h; simp only [layL] at h; omega
        · simp only [aheadO, List.getElem?_cons_zero] at hx ⊢
          rw [ea]; simp [aheadL, hx]
        · simp only [behindO, List.getElem?_cons_zero] at hx ⊢
          rw [eb]; simp [behindL, hx]
    · refine ⟨excl_held hrd he _, fun b h => ?_, fun x hx _ => ?_, fun x hx _ => ?_⟩
      · simp only [layO, lay_held] at h ⊢; exact h
      · simp only [aheadO, ahead_held] at hx ⊢; exact hx
      · simp only [behindO, behind_held] at hx ⊢; exact hx
  | rlock hw hh => exact keepO_refl he
  | renter hw hr' hf =>
    rename_i ra id op rb r
    have hsw := writes_of_read (hread (id, op) (by simp [erS, hw]))
    rw [hr'] at he ⊢
    refine ⟨excl_addReader hf he, fun b h => ?_, fun x hx _ => ?_, fun x hx _ => ?_⟩
    · simp only [layO, lay_addCall hsw] at h ⊢; exact h
    · simp only [aheadO, ahead_addCall hsw] at hx ⊢; exact hx
    · simp only [behindO, behind_addCall hsw] at hx ⊢; exact hx
  | findEmpty hw hr => exact keepO_refl he
  | againEmpty hw hr => exact keepO_refl he

/-! ### The invariant -/

/-- The invariant of the tree with calls and walks. -/
structure CInv (n : Nat) (w : W K V) : Prop where
  inv : Inv n (erS w.st)
  excl : ExclO w.st.root
  lay : ∀ m, layO m w.st.root ≤ 1
  fresh : ∀ m, (∀ x ∈ w.walks, x.id ≠ m) → layO m w.st.root = 0
  ids : w.walks.Pairwise (fun a b => a.id ≠ b.id)

theorem reading_calls {n} {s : St K V} (inv : Inv n (erS s)) : ∀ r ∈ s.readers, startsWriting r.2 = false :=
  fun r hr => writes_of_read (inv.reading r hr)

theorem erS_root_visit {s : St K V} {r r'} (hr : s.root = some r) (h : er r' = er r) : erS { s with root := some r' } = erS s := by
  simp [erS, hr, h]

theorem cinv_init {n : Nat} : CInv n (W.init : W K V) :=
  ⟨by simpa [W.init, erS, St.init] using inv_init, trivial, fun _ => Nat.zero_le _, fun _ _ => rfl, .nil⟩

/-- A step without walks is a step of the calls. -/
theorem wstep_er {n} {w w' : W K V} {ev} (st : WStep n w ev w') (inv : Inv n (erS w.st)) :
    (ev = none ∧ erS w'.st = erS w.st) ∨ BTreeConc.Step n (erS w.st) ev (erS w'.st) := by
  cases st with
  | other hs => exact .inr (step_er hs (reading_calls inv))
  | begin id range tag ht hh hr hf hid => exact .inl ⟨rfl, erS_root_visit hr (er_addWalk ht)⟩
  | beginEmpty id range hh hr hid => exact .inl ⟨rfl, rfl⟩
  | visit tag ht hr hv => exact .inl ⟨rfl, erS_root_visit hr (visit_er ht hv)⟩

theorem step_inv {n} (hn2 : 2 ≤ n) {s s' : St K V} {ev} (st : BTreeConc.Step n s ev s') (inv : Inv n s) : Inv n s' := by
  cases ev with
  | none => exact (tau_ok hn2 st inv).1
  | some e =>
    cases st with
    | call id op =>
      refine ⟨inv.tree, inv.lock, inv.excl, ?_, inv.reading⟩
      intro x hx; simp at hx
      rcases hx with rfl | hx
      · exact ⟨isCreate_of_read, isRead_of_not⟩
      · exact inv.waiting x hx
    | ret hf => exact ⟨inv.tree, inv.lock, inv.excl, inv.waiting, inv.reading⟩

theorem ord_root {n} {w : W K V} (c : CInv n w) {r} (hr : w.st.root = some r) : OrdT r ∧ (allN r).Nodup := by
  obtain ⟨h, wf⟩ := c.inv.tree (er r) (by simp [erS, hr])
  exact ⟨ordT_of_wf wf, nodup_of_wf wf⟩

theorem cinv_step {n} (hn2 : 2 ≤ n) {w w' : W K V} {ev} (st : WStep n w ev w') (c : CInv n w) :
    CInv n w' := by
  have hinv : Inv n (erS w'.st) := by
    rcases wstep_er st c.inv with ⟨_, h⟩ | h
    · rw [h]; exact c.inv
    · exact step_inv hn2 h c.inv
  refine ⟨hinv, ?_, ?_, ?_, ?_⟩
  · cases st with
    | other hs => exact (step_keep hn2 hs c.inv c.excl 0).excl
    | begin id range tag ht hh hr hf hid =>
      have := c.excl
      simp only [hr] at this
      exact excl_addReader hf this
    | beginEmpty id range hh hr hid => exact c.excl
    | visit tag ht hr hv =>
      have := c.excl
      simp only [hr] at this
      exact visit_excl hv this
  · intro m
    cases st with
    | other hs => exact (step_keep hn2 hs c.inv c.excl m).lay _ (c.lay m)
    | begin id range tag ht hh hr hf hid =>
      rename_i s ws r
      have h1 := c.lay m
      simp only [hr, layO] at h1 ⊢
      by_cases hm : id = m
      · subst hm
        have h2 := c.fresh id hid
        simp only [hr, layO] at h2
        rw [lay_addOwn ht, h2]; omega
      · rw [lay_addOther (r := (id, tag)) hm]; exact h1
    | beginEmpty id range hh hr hid => exact c.lay m
    | visit tag ht hr hv =>
      rename_i s wa x wb r vis r'
      have h1 := c.lay m
      simp only [hr, layO] at h1 ⊢
      by_cases hm : x.id = m
      · subst hm; exact visit_lay1 ht hv h1
      · have := (visit_other (m := m) (mk := (x.id, tag)) hm hv).2.2; omega
  · intro m hm
    cases st with
    | other hs => exact Nat.le_zero.1 ((step_keep hn2 hs c.inv c.excl m).lay 0 (Nat.le_of_eq (c.fresh m hm)))
    | begin id range tag ht hh hr hf hid =>
      rename_i s ws r
      have h1 := c.fresh m (fun x hx => hm x (by simp [hx]))
      have h2 : id ≠ m := hm ⟨id, range, []⟩ (by simp)
      simp only [hr, layO] at h1 ⊢
      rw [lay_addOther (r := (id, tag)) h2]; exact h1
    | beginEmpty id range hh hr hid => exact c.fresh m (fun x hx => hm x (by simp [hx]))
    | visit tag ht hr hv =>
      rename_i s wa x wb r vis r'
      have h2 : x.id ≠ m := hm { x with seen := x.seen ++ vis } (by simp)
      have h1 := c.fresh m (fun y hy => by
        simp at hy
        rcases hy with hy | rfl | hy
        · exact hm y (by simp [hy])
        · exact h2
        · exact hm y (by simp [hy]))
      simp only [hr, layO] at h1 ⊢
      have := (visit_other (m := m) (mk := (x.id, tag)) h2 hv).2.2; omega
  · cases st with
    | other hs => exact c.ids
    | begin id range tag ht hh hr hf hid => exact .cons (fun y hy => (hid y hy).symm) c.ids
    | beginEmpty id range hh hr hid => exact .cons (fun y hy => (hid y hy).symm) c.ids
    | visit tag ht hr hv =>
      have := c.ids
      simp only [List.pairwise_append, List.pairwise_cons] at this ⊢
      simpa using this

theorem cinv_run {n} (hn2 : 2 ≤ n) {P} {w0 w : W K V} {evs} (h : WRun n P w0 evs w)
    (c : CInv n w0) : CInv n w := by
  induction h with
  | nil _ => exact c
  | step h hs hp ih => exact cinv_step hn2 hs ih

theorem run_holds {n} {P} {w0 w : W K V} {evs} (h : WRun n P w0 evs w) : P w := by
  cases h with
  | nil h0 => exact h0
  | step _ _ hp => exact hp

/-- Runs with walks are runs of the atomic map. -/
theorem wrun_sim {n} (hn2 : 2 ≤ n) {P} {w : W K V} {evs} (h : WRun n P W.init evs w) :
    CInv n w ∧ ∃ a, AtomicMap.Run AtomicMap.init evs a ∧ Sim (erS w.st) a := by
  generalize h0 : (W.init : W K V) = w0 at h
  induction h with
  | nil _ => subst h0; exact ⟨cinv_init, _, .nil, by simpa [W.init, erS, St.init] using sim_init⟩
  | step h hs hp ih =>
    obtain ⟨c, a, ra, sim⟩ := ih
    refine ⟨cinv_step hn2 hs c, ?_⟩
    rcases wstep_er hs c.inv with ⟨rfl, h⟩ | h
    · refine ⟨a, by simpa using ra, by rw [h]; exact sim⟩
    · obtain ⟨_, a', h1, h2⟩ := step_sim hn2 h c.inv sim
      refine ⟨a', ?_, h2⟩
      rcases h1 with ⟨rfl, rfl⟩ | h1
      · simpa using ra
      · exact .step ra h1

end
end Willow.BTreeWalk
