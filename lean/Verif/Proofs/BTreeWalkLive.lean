import Verif.Proofs.BTreeWalkRun
import Verif.Proofs.BTreeConcEvents
set_option linter.unusedSectionVars false
set_option linter.unusedSimpArgs false
/-! Calls and walks together never wait for each other forever, and they all end. -/
namespace Willow.BTreeWalk
open KeyOps BTree Spec LawfulKey BTreeConc

variable {K V : Type}

theorem calls_of_marks {rs : List (Nat × Op K V)} (h : ∀ m, marksN m rs = 0) : calls rs = rs := by
  rw [calls, List.filter_eq_self]
  intro r hr
  have := h r.1
  rw [marksN, List.countP_eq_zero] at this
  have := this r hr
  simpa using this

mutual
theorem er_of_lay : ∀ {t : CNode K V}, (∀ m, lay m t = 0) → er t = t
  | .mk w rs kvs cs, h => by
    simp only [lay, Nat.add_eq_zero_iff] at h
    have h1 := calls_of_marks (fun m => (h m).1)
    have h2 := erL_of_lay (cs := cs) (fun m => (h m).2)
    simp [h1, h2]
theorem erL_of_lay : ∀ {cs : List (CNode K V)}, (∀ m, layL m cs = 0) → cs.map er = cs
  | [], _ => rfl
  | c :: cs, h => by
    have h1 := er_of_lay (t := c) (fun m => by have := h m; simp only [layL] at this; omega)
    have h2 := erL_of_lay (cs := cs) (fun m => by have := h m; simp only [layL] at this; omega)
    simp [h1, h2]
end

mutual
theorem not_holds_of_lay {m : Nat} : ∀ {t : CNode K V}, lay m t = 0 → ¬ holdsNode m t
  | .mk w rs kvs cs, h => by
    simp only [lay, Nat.add_eq_zero_iff] at h
    simp only [holdsNode, not_or, not_exists, not_and]
    refine ⟨fun r hr e => ?_, not_holdsL_of_lay h.2⟩
    have h1 := h.1
    rw [marksN, List.countP_eq_zero] at h1
    have := h1 r hr
    simpa [e] using this
theorem not_holdsL_of_lay {m : Nat} : ∀ {cs : List (CNode K V)}, layL m cs = 0 → ¬ holdsList m cs
  | [], _ => fun h => h
  | c :: cs, h => by
    simp only [layL] at h
    simp only [holdsList, not_or]
    exact ⟨not_holds_of_lay (by omega), not_holdsL_of_lay (by omega)⟩
end

theorem loop_locks_mem (mk : Nat × Op K V) (turn : K → Turn) :
    ∀ (kvs : List (K × V)) (cs : List (CNode K V)), ∀ y ∈ (walkLoop turn mk kvs cs).2.2, y ∈ cs := by
  intro kvs
  induction kvs with
  | nil => intro cs y hy; exact List.mem_of_mem_take hy
  | cons kv kvs ih =>
    intro cs y
    have hi := ih (cs.drop 1) y
    simp only [walkLoop]
    cases turn kv.1 <;> simp only
    · exact fun h => List.mem_of_mem_drop (hi h)
    · exact fun h => List.mem_of_mem_take h
    · intro h
      rcases List.mem_append.1 h with h | h
      · exact List.mem_of_mem_take h
      · exact List.mem_of_mem_drop (hi h)
    · exact fun h => List.mem_of_mem_drop (hi h)
    · exact fun h => List.mem_of_mem_take h

section
variable [LawfulKey K]

theorem wf_child {n rt h} {lo hi : Option K} {w : Option (Hold K V)} {rs kvs cs} (wf : WF n rt h lo hi (.mk w rs kvs cs)) {c} (hc : c ∈ cs) :
    ∃ h' lo' hi', WF n false h' lo' hi' c := by
  cases h with
  | zero => rw [wf.1] at hc; cases hc
  | succ h =>
    obtain ⟨lo', hi', hh⟩ := forest_mem wf.1 hc
    exact ⟨h, lo', hi', hh⟩

/-- Some walk that holds a node can go on, unless a call below can. -/
theorem walk_progress {n} (hn2 : 2 ≤ n) : ∀ (t : CNode K V) {rt h lo hi}, WF n rt h lo hi (er t) → Excl t → (∃ m, lay m t ≠ 0) →
    ∃ m op, startsWriting op = true ∧ lay m t ≠ 0 ∧
      ∀ turn : K → Turn, (∃ e t', NStep n t e t') ∨ ∃ vis t', Visit turn (m, op) t vis t' := by
  intro t
  induction t using CNode.rec (motive_2 := fun cs => ∀ c ∈ cs, ∀ {rt h lo hi}, WF n rt h lo hi (er c) → Excl c → (∃ m, lay m c ≠ 0) →
    ∃ m op, startsWriting op = true ∧ lay m c ≠ 0 ∧
      ∀ turn : K → Turn, (∃ e t', NStep n c e t') ∨ ∃ vis t', Visit turn (m, op) c vis t') with
  | nil => rename_i c hc _ _ _ _ _ _ _; cases hc
  | cons a l iha ihl =>
    rename_i c hc _ _ _ _ hwf hex hm
    rcases List.mem_cons.1 hc with rfl | hc
    · exact iha hwf hex hm
    · exact ihl c hc hwf hex hm
  | mk w rs kvs cs ih =>
    intro rt h lo hi wf he hm
    rw [er_mk] at wf
    rw [excl_mk] at he
    by_cases hb : ∃ c ∈ cs, ∃ m, lay m c ≠ 0
    · obtain ⟨c, hc, hl⟩ := hb
      obtain ⟨h', lo', hi', wfc⟩ := wf_child wf (List.mem_map_of_mem hc)
      obtain ⟨m, op, h1, h2, h3⟩ := ih c hc wfc (he.2 c hc) hl
      refine ⟨m, op, h1, ?_, fun turn => ?_⟩
      · have := layL_mem (m := m) hc
        simp only [lay]; omega
      · obtain ⟨ca, cb, rfl⟩ := List.append_of_mem hc
        rcases h3 turn with ⟨e, t', h⟩ | ⟨vis, t', h⟩
        · exact .inl ⟨e, _, .child h⟩
        · exact .inr ⟨vis, _, .child h⟩
    · have hb : ∀ c ∈ cs, ∀ m, lay m c = 0 := fun c hc m => Classical.byContradiction fun h => hb ⟨c, hc, m, h⟩
      obtain ⟨m, hm⟩ := hm
      have hl : layL m cs = 0 := Nat.le_zero.1 (layL_le.2 (fun c hc => Nat.le_of_eq (hb c hc m)))
      have hk : marksN m rs ≠ 0 := by simp only [lay, hl] at hm; omega
      rw [marksN] at hk
      obtain ⟨r, hr, hrm⟩ := List.countP_pos_iff.1 (Nat.pos_of_ne_zero hk)
      obtain ⟨i, op⟩ := r
      simp only [Bool.and_eq_true, beq_iff_eq] at hrm
      obtain ⟨rfl, hop⟩ := hrm
      refine ⟨i, op, hop, hm, fun turn => ?_⟩
      have hw : w = none := by
        cases w with
        | none => rfl
        | some hd => rw [he.1 rfl] at hr; cases hr
      subst hw
      obtain ⟨ra, rb, rfl⟩ := List.append_of_mem hr
      by_cases hf : ∀ c ∈ (walkLoop turn (i, op) kvs cs).2.2, c.hold = none
      · exact .inr ⟨_, _, .here hf⟩
      · left
        obtain ⟨c, hc⟩ := Classical.not_forall.1 hf
        obtain ⟨hc, hh⟩ := Classical.not_imp.1 hc
        have hc := loop_locks_mem _ _ _ _ _ hc
        obtain ⟨h', lo', hi', wfc⟩ := wf_child wf (List.mem_map_of_mem hc)
        have hul := wf_links wf (er c) (List.mem_map_of_mem hc)
        rw [er_of_lay (hb c hc)] at wfc hul
        cases hhd : c.hold with
        | none => exact absurd hhd hh
        | some hd =>
          have hcan := progress hn2 wfc (by simp) (held_toks wfc hhd)
          obtain ⟨ca, cb, rfl⟩ := List.append_of_mem hc
          rcases hcan with ⟨e, t', h⟩ | ⟨h, _⟩
          · exact ⟨e, _, .child h⟩
          · rw [hul] at h; cases h

/-- A step that neither makes a call nor begins a walk. -/
def QuietW (n : Nat) (w : W K V) (ev : Option (Event K V)) (w' : W K V) : Prop :=
  WStep n w ev w' ∧ (∀ id op, ev ≠ some (.call id op)) ∧ w'.walks.length = w.walks.length

theorem settle_step {n} {w : W K V} {r e r'} (hr : w.st.root = some r) (hs : NStep n r e r') : ∃ w', QuietW n w none w' ∧ Polite w.st w'.st := by
  obtain ⟨s, ws⟩ := w
  exact ⟨_, ⟨.other (.node hr hs), by simp, rfl⟩, by polite⟩

theorem walk_step {n} (hn2 : 2 ≤ n) {w : W K V} (c : CInv n w) (hm : ∃ m, layO m w.st.root ≠ 0) : ∃ w', QuietW n w none w' ∧ Polite w.st w'.st := by
  obtain ⟨m, hm⟩ := hm
  cases hr : w.st.root with
  | none => rw [hr] at hm; exact absurd rfl hm
  | some r =>
    rw [hr] at hm
    obtain ⟨h, wf⟩ := c.inv.tree (er r) (by simp [erS, hr])
    have he := c.excl
    rw [hr] at he
    obtain ⟨m, op, h1, h2, h3⟩ := walk_progress hn2 r wf he ⟨m, hm⟩
    have hx : ∃ x ∈ w.walks, x.id = m := by
      refine Classical.byContradiction fun hno => h2 ?_
      have := c.fresh m (fun x hx e => hno ⟨x, hx, e⟩)
      rwa [hr] at this
    obtain ⟨x, hx, rfl⟩ := hx
    obtain ⟨wa, wb, hws⟩ := List.append_of_mem hx
    rcases h3 (turnOf x.range) with ⟨e, t', h⟩ | ⟨vis, t', h⟩
    · exact settle_step hr h
    · obtain ⟨s, ws⟩ := w
      simp only at hws hr
      subst hws
      exact ⟨_, ⟨.visit op h1 hr h, by simp, by simp⟩, by polite⟩

theorem erS_of_lay {s : St K V} (h : ∀ m, layO m s.root = 0) : erS s = s := by
  obtain ⟨a, b, c, d, e⟩ := s
  cases d with
  | none => rfl
  | some r => simp only [erS, Option.map_some, er_of_lay (t := r) h]

theorem polite_possible {n} (hn2 : 2 ≤ n) {P} {w : W K V} {evs} (h : WRun n P W.init evs w)
    (hs : ∀ ev w', QuietW n w ev w' → ¬ Polite w.st w'.st) : AllReturned evs ∧ ∀ id, w.over id := by
  obtain ⟨c, a, h1, h2⟩ := wrun_sim hn2 h
  have hl : ∀ m, layO m w.st.root = 0 := by
    intro m
    refine Classical.byContradiction fun hm => ?_
    obtain ⟨w', hq, hp⟩ := walk_step hn2 c ⟨m, hm⟩
    exact hs _ _ hq hp
  have inv := c.inv
  rw [erS_of_lay hl] at inv h2
  refine ⟨?_, fun id r hr => ?_⟩
  · have h0 : stoks w.st = [] := by
      refine Classical.byContradiction fun hne => ?_
      rcases step_possible_polite hn2 inv hne with ⟨s', h, hp⟩ | ⟨id, op, out, s', h⟩
      · exact hs _ ⟨s', w.walks⟩ ⟨.other h, by simp, rfl⟩ hp
      · refine hs _ ⟨s', w.walks⟩ ⟨.other h, by simp, rfl⟩ ?_
        cases h
        polite
    have e1 : a.called = [] := nil_of_occ fun x => by rw [h2.called x.1 x.2, h0]; rfl
    have e2 : a.answered = [] := nil_of_occ fun x => by rw [h2.answered x.1 x.2.1 x.2.2, h0]; rfl
    intro id
    have := run_counts h1 id
    simpa [e1, e2] using this
  · refine not_holds_of_lay ?_
    have := hl id
    rwa [hr] at this

end

/-! ### The walks end -/

mutual
/-- The number of nodes of a subtree. -/
def sz : CNode K V → Nat
  | .mk _ _ _ cs => szL cs + 1
/-- The same for some subtrees. -/
def szL : List (CNode K V) → Nat
  | [] => 0
  | c :: cs => sz c + szL cs
end
/-- The number of walks among these shared locks. -/
def wn (rs : List (Nat × Op K V)) : Nat := rs.countP (fun r => startsWriting r.2)
mutual
/-- What is left to the walks. -/
def todo : CNode K V → Nat
  | .mk _ rs _ cs => wn rs * (szL cs + 1) + todoL cs
/-- The same for some subtrees. -/
def todoL : List (CNode K V) → Nat
  | [] => 0
  | c :: cs => todo c + todoL cs
end

theorem szL_append (a b : List (CNode K V)) : szL (a ++ b) = szL a + szL b := by
  induction a with
  | nil => simp [szL]
  | cons x a ih => simp [szL, ih]; omega
theorem todoL_append (a b : List (CNode K V)) : todoL (a ++ b) = todoL a + todoL b := by
  induction a with
  | nil => simp [todoL]
  | cons x a ih => simp [todoL, ih]; omega
theorem sz_addReader (t : CNode K V) (r) : sz (t.addReader r) = sz t := by cases t; simp [sz, CNode.addReader]
theorem todo_addReader (t : CNode K V) (r) : todo (t.addReader r) ≤ todo t + sz t := by
  obtain ⟨w, rs, kvs, cs⟩ := t
  simp only [todo, sz, CNode.addReader, wn, List.countP_cons, CNode.hold, CNode.readers, CNode.kvs, CNode.children]
  split
  · rw [Nat.add_mul]; omega
  · rw [Nat.add_zero]; omega
theorem take_todo (mk : Nat × Op K V) (cs : List (CNode K V)) :
    szL ((cs.take 1).map (CNode.addReader · mk)) = szL (cs.take 1) ∧
    todoL ((cs.take 1).map (CNode.addReader · mk)) ≤ todoL (cs.take 1) + szL (cs.take 1) := by
  cases cs with
  | nil => simp [szL, todoL]
  | cons c cs =>
    have h1 := sz_addReader c mk
    have h2 := todo_addReader c mk
    simp [szL, todoL]; omega
theorem split_todo (cs : List (CNode K V)) : szL cs = szL (cs.take 1) + szL (cs.drop 1) ∧ todoL cs = todoL (cs.take 1) + todoL (cs.drop 1) := by
  rw [← szL_append, ← todoL_append, List.take_append_drop]; exact ⟨rfl, rfl⟩

theorem loop_todo (mk : Nat × Op K V) (turn : K → Turn) : ∀ (kvs : List (K × V)) (cs : List (CNode K V)),
    szL (walkLoop turn mk kvs cs).2.1 = szL cs ∧ todoL (walkLoop turn mk kvs cs).2.1 ≤ todoL cs + szL cs := by
  have lf : ∀ cs : List (CNode K V), szL (lockFirst mk cs) = szL cs ∧ todoL (lockFirst mk cs) ≤ todoL cs + szL cs := by
    intro cs
    have h1 := take_todo mk cs
    have h2 := split_todo cs
    simp only [lockFirst, szL_append, todoL_append]; omega
  intro kvs
  induction kvs with
  | nil => intro cs; exact lf cs
  | cons kv kvs ih =>
    intro cs
    have hi := ih (cs.drop 1)
    have h1 := take_todo mk cs
    have h2 := split_todo cs
    simp only [walkLoop]
    cases turn kv.1 <;> simp only [szL_append, todoL_append] <;> first | exact lf cs | skip
    all_goals omega

theorem visit_todo {turn : K → Turn} {m : Nat} {op : Op K V} (ho : startsWriting op = true) {t vis t'} (hv : Visit turn (m, op) t vis t') :
    sz t' = sz t ∧ todo t' < todo t := by
  induction hv with
  | here hf =>
    rename_i w ra rb kvs cs
    have h := loop_todo (m, op) turn kvs cs
    simp only [sz, todo, wn, List.countP_append, List.countP_cons, ho, h.1, if_true]
    refine ⟨trivial, ?_⟩
    have e : (ra.countP (fun r => startsWriting r.2) + (rb.countP (fun r => startsWriting r.2) + 1)) * (szL cs + 1)
      = (ra.countP (fun r => startsWriting r.2) + rb.countP (fun r => startsWriting r.2)) * (szL cs + 1) + (szL cs + 1) := by
      rw [← Nat.add_assoc, Nat.add_mul, Nat.one_mul]
    omega
  | child hs ih =>
    obtain ⟨h1, h2⟩ := ih
    simp only [sz, todo, szL_append, todoL_append, szL, todoL, h1]
    exact ⟨trivial, by omega⟩

/-- The same for the whole tree. -/
def todoO : Option (CNode K V) → Nat
  | some r => todo r
  | none => 0

section
variable [LawfulKey K]

theorem quietW_less {n} (hn2 : 2 ≤ n) {w w' : W K V} {ev} (h : QuietW n w ev w') (c : CInv n w) :
    Less (erS w'.st) (erS w.st) ∨ (erS w'.st = erS w.st ∧ todoO w'.st.root < todoO w.st.root) := by
  obtain ⟨st, hq, hl⟩ := h
  cases st with
  | other hs =>
    left
    have hs' := step_er hs (reading_calls c.inv)
    rcases quiet_cases ⟨hs', hq⟩ with h | ⟨id, op, out, h⟩
    · exact tau_less hn2 h c.inv
    · exact ret_less h
  | begin id range op ho hh hr hf hid => simp at hl
  | beginEmpty id range hh hr hid => simp at hl
  | visit op ho hr hv =>
    right
    refine ⟨erS_root_visit hr (visit_er ho hv), ?_⟩
    simp only [hr, todoO]
    exact (visit_todo ho hv).2

theorem no_endlessW {n} (hn2 : 2 ≤ n) (f : Nat → W K V) (ev : Nat → Option (Event K V)) (h0 : CInv n (f 0))
    (hs : ∀ i, QuietW n (f i) (ev i) (f (i+1))) : False := by
  have hinv : ∀ i, CInv n (f i) := by
    intro i
    induction i with
    | zero => exact h0
    | succ i ih => exact cinv_step hn2 (hs i).1 ih
  have key : ∀ a b d i, mA (erS (f i).st) = a → mB (erS (f i).st) = b → todoO (f i).st.root = d → False := by
    intro a
    induction a using Nat.strongRecOn with
    | ind a iha =>
      intro b
      induction b using Nat.strongRecOn with
      | ind b ihb =>
        intro d
        induction d using Nat.strongRecOn with
        | ind d ihd =>
          intro i ea eb ed
          rcases quietW_less hn2 (hs i) (hinv i) with (h | ⟨h1, h2⟩) | ⟨h1, h2⟩
          · exact iha _ (by omega) _ _ (i+1) rfl rfl rfl
          · exact ihb _ (by omega) _ (i+1) (by omega) rfl rfl
          · exact ihd _ (by omega) (i+1) (by rw [h1]; exact ea) (by rw [h1]; exact eb) rfl
  exact key _ _ _ 0 rfl rfl rfl

end
end Willow.BTreeWalk
