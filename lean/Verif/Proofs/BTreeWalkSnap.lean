import Verif.Proofs.BTreeWalkCut
import Verif.Proofs.BTreeConcLive
set_option linter.unusedSectionVars false
set_option linter.unusedSimpArgs false
/-! A walk reports what was in the tree when it began. -/
namespace Willow.BTreeWalk
open KeyOps BTree Spec LawfulKey BTreeConc

variable {K V : Type}

section
variable [LawfulKey K]

theorem loop_ops (mk : Nat × Op K V) (turn : K → Turn) (kvs : List (K × V)) (cs) : opsL (walkLoop turn mk kvs cs).2.1 = opsL cs :=
  loop_same opsL opsL_append mk (fun c => by simp [opsL, ops_addReader]) turn kvs cs
theorem loop_opsOther {m} {mk : Nat × Op K V} (h : mk.1 ≠ m) (turn : K → Turn) (kvs : List (K × V)) (cs) :
    opsAL m (walkLoop turn mk kvs cs).2.1 = opsAL m cs :=
  loop_same (opsAL m) (opsAL_append m) mk (fun c => by simp [opsAL, opsA_addOther h]) turn kvs cs

theorem visit_ops {turn : K → Turn} {mk : Nat × Op K V} {t vis t'} (hv : Visit turn mk t vis t') : ops t' = ops t := by
  induction hv with
  | here hf => simp only [ops, loop_ops]
  | child hs ih => simp only [ops, opsL_append, opsL, ih]

theorem visit_opsOther {turn : K → Turn} {mk : Nat × Op K V} {m} (hm : mk.1 ≠ m) {t vis t'} (hv : Visit turn mk t vis t') : opsA m t' = opsA m t := by
  induction hv with
  | here hf =>
    have e := fun a b => (marksN_append m a (mk :: b)).trans (by rw [marksN_other hm, ← marksN_append])
    simp only [opsA, e, loop_opsOther hm, loop_ops]
  | child hs ih => simp only [opsA, opsAL_append, opsAL, ih, opsL_append, opsL, visit_ops hs]

theorem visit_opsOwn {turn : K → Turn} {m : Nat} {tag : Op K V} (ht : startsWriting tag = true) {t vis t'} (hv : Visit turn (m, tag) t vis t') :
    ∀ o ∈ opsA m t', o ∈ opsA m t := by
  induction hv with
  | here hf =>
    rename_i w ra rb kvs cs
    intro o ho
    have hne : ¬ marksN m (ra ++ (m, tag) :: rb) = 0 := by simp [marksN_append, marksN_cons, ht]
    simp only [opsA, if_neg hne]
    have := opsA_sub m _ o ho
    simpa only [ops, loop_ops] using this
  | child hs ih =>
    rename_i w rs kvs ca c cb vis c'
    intro o ho
    simp only [opsA] at ho ⊢
    split at ho
    · rename_i h; rw [if_pos h]
      simp only [opsAL_append, opsAL, List.mem_append] at ho ⊢
      exact ho.imp (fun h => h) (Or.imp (ih o) (fun h => h))
    · rename_i h; rw [if_neg h]
      simpa only [opsL_append, opsL, visit_ops hs] using ho

/-- No call about the key that has not had its effect yet is where the walk still has to go. -/
def NoOp (k : K) (id : Nat) (w : W K V) : Prop := ∀ o ∈ opsAO id w.st.root, keq k (opKey o) = false
/-- Somebody has begun this walk. -/
def Begun (id : Nat) (w : W K V) : Prop := ∃ y ∈ w.walks, y.id = id

/-- What a step does to a walk under way, as to a pair whose key no call in front of the walk is about. -/
structure Move (x : K × V) (id : Nat) (w w' : W K V) : Prop where
  begun : Begun id w'
  noop : NoOp x.1 id w'
  walk : ∀ y' ∈ w'.walks, y'.id = id → ∃ y ∈ w.walks, y.id = id ∧ y.range = y'.range ∧ ∃ vis, y'.seen = y.seen ++ vis ∧
    (x ∉ aheadO id w.st.root → x ∉ aheadO id w'.st.root ∧ x ∉ vis) ∧
    (x ∈ aheadO id w.st.root → (x ∈ aheadO id w'.st.root ∧ x ∉ vis) ∨
      (x ∉ aheadO id w'.st.root ∧ (y.range.has x.1 → ExactlyOnce x vis) ∧ (¬ y.range.has x.1 → x ∉ vis)))

theorem move_step {n} (hn2 : 2 ≤ n) {w w' : W K V} {ev} (st : WStep n w ev w') (c : CInv n w)
    {x : K × V} {id} (hb : Begun id w) (hk : NoOp x.1 id w) : Move x id w w' := by
  have keep : ∀ {w' : W K V}, w'.walks = w.walks → (∀ o ∈ opsAO id w'.st.root, o ∈ opsAO id w.st.root) →
      (x ∈ aheadO id w'.st.root ↔ x ∈ aheadO id w.st.root) → Move x id w w' := by
    intro w' h1 h2 h3
    refine ⟨by unfold Begun; rw [h1]; exact hb, fun o ho => hk o (h2 o ho), fun y hy e => ⟨y, by rw [← h1]; exact hy, e, rfl, [], by simp, ?_, ?_⟩⟩
    · intro h; exact ⟨fun h' => h (h3.1 h'), by simp⟩
    · intro h; exact .inl ⟨h3.2 h, by simp⟩
  cases st with
  | other hs => exact keep rfl (step_sub hs c.inv c.excl id) (step_side hn2 hs c.inv c.excl id hk)
  | begin i range tag ht hh hr hf hid =>
    rename_i s ws r
    have hne : i ≠ id := by obtain ⟨y, h1, h2⟩ := hb; rw [← h2]; exact (hid y h1).symm
    obtain ⟨y, hy1, hy2⟩ := hb
    have e1 : aheadO id (some (r.addReader (i, tag))) = aheadO id s.root := by simp only [hr, aheadO, ahead_addOther (r := (i, tag)) hne]
    have e2 : opsAO id (some (r.addReader (i, tag))) = opsAO id s.root := by simp only [hr, opsAO, opsA_addOther (r := (i, tag)) hne]
    refine ⟨⟨y, List.mem_cons_of_mem _ hy1, hy2⟩, fun o ho => hk o (by rw [← e2]; exact ho), fun y' hy' e => ?_⟩
    rcases List.mem_cons.1 hy' with rfl | hy'
    · exact absurd e hne
    · refine ⟨y', hy', e, rfl, [], by simp, fun h => ⟨fun h' => h (by rw [← e1]; exact h'), by simp⟩, fun h => .inl ⟨(by rw [← e1] at h; exact h), by simp⟩⟩
  | beginEmpty i range hh hr hid =>
    have hne : i ≠ id := by obtain ⟨y, h1, h2⟩ := hb; rw [← h2]; exact (hid y h1).symm
    obtain ⟨y, hy1, hy2⟩ := hb
    refine ⟨⟨y, List.mem_cons_of_mem _ hy1, hy2⟩, hk, fun y' hy' e => ?_⟩
    rcases List.mem_cons.1 hy' with rfl | hy'
    · exact absurd e hne
    · exact ⟨y', hy', e, rfl, [], by simp, fun h => ⟨h, by simp⟩, fun h => .inl ⟨h, by simp⟩⟩
  | visit tag ht hr hv =>
    rename_i s wa z wb r vis r'
    have hids := c.ids
    simp only [List.pairwise_append, List.pairwise_cons] at hids
    have hbeg : Begun id (⟨{ s with root := some r' }, wa ++ { z with seen := z.seen ++ vis } :: wb⟩ : W K V) := by
      obtain ⟨y, h1, h2⟩ := hb
      simp only [List.mem_append, List.mem_cons] at h1
      rcases h1 with h1 | rfl | h1
      · exact ⟨y, by simp [h1], h2⟩
      · exact ⟨_, List.mem_append_right _ (.head _), h2⟩
      · exact ⟨y, by simp [h1], h2⟩
    by_cases hz : z.id = id
    · have o := visit_own_state c ht hr hv
      rw [hz] at o hv
      refine ⟨hbeg, fun p hp => hk p ?_, fun y' hy' e => ?_⟩
      · simp only [hr, opsAO]; exact visit_opsOwn ht hv p hp
      · simp only [List.mem_append, List.mem_cons] at hy'
        rcases hy' with hy' | rfl | hy'
        · exact absurd (e.trans hz.symm) (hids.2.2 y' hy' z (by simp))
        · refine ⟨z, by simp, hz, rfl, vis, rfl, ?_, ?_⟩
          · simp only [hr, aheadO]
            exact fun h => ⟨fun h' => h (o.ahead x h').1, fun h' => h (o.vis x h').2⟩
          · simp only [hr, aheadO]
            intro h
            by_cases h' : x ∈ ahead id r'
            · exact .inl ⟨h', (o.ahead x h').2⟩
            · right
              refine ⟨h', ?_⟩
              have hall : x ∈ allN r' := by rw [visit_all hv]; exact mem_all.2 (.inl h)
              rcases mem_all (m := id).1 hall with h2 | h2
              · exact absurd h2 h'
              · rcases o.behind x h2 with ⟨q, _⟩ | ⟨_, q⟩
                · have hp := (all_perm id r).nodup_iff.2 (ord_root c hr).2
                  exact absurd rfl ((List.nodup_append.1 hp).2.2 x h x q)
                · exact q
        · exact absurd (hz.trans e.symm) (hids.2.1.1 y' hy')
    · have ho := visit_other (m := id) (mk := (z.id, tag)) hz hv
      have hp := visit_opsOther (m := id) (mk := (z.id, tag)) hz hv
      refine ⟨hbeg, fun p hp' => hk p ?_, fun y' hy' e => ?_⟩
      · simp only [opsAO, hp] at hp'; simp only [hr, opsAO]; exact hp'
      · have hm : y' ∈ wa ++ z :: wb := by
          simp only [List.mem_append, List.mem_cons] at hy' ⊢
          rcases hy' with hy' | rfl | hy'
          · exact .inl hy'
          · exact absurd e hz
          · exact .inr (.inr hy')
        refine ⟨y', hm, e, rfl, [], by simp, ?_, ?_⟩
        · simp only [hr, aheadO, ho.1]; exact fun h => ⟨h, by simp⟩
        · simp only [hr, aheadO, ho.1]; exact fun h => .inl ⟨h, by simp⟩

/-- A pair that was in the tree when the walk began. -/
structure In (x : K × V) (id : Nat) (w : W K V) : Prop where
  begun : Begun id w
  noop : NoOp x.1 id w
  todo : x ∈ aheadO id w.st.root → ∀ y ∈ w.walks, y.id = id → x ∉ y.seen
  done : x ∉ aheadO id w.st.root → ∀ y ∈ w.walks, y.id = id → (y.range.has x.1 → ExactlyOnce x y.seen) ∧ (¬ y.range.has x.1 → x ∉ y.seen)
/-- A pair that was not. -/
structure NotIn (x : K × V) (id : Nat) (w : W K V) : Prop where
  begun : Begun id w
  noop : NoOp x.1 id w
  ahead : x ∉ aheadO id w.st.root
  seen : ∀ y ∈ w.walks, y.id = id → x ∉ y.seen

theorem in_step {n} (hn2 : 2 ≤ n) {w w' : W K V} {ev} (st : WStep n w ev w') (c : CInv n w) {x : K × V} {id} (h : In x id w) : In x id w' := by
  have mv := move_step hn2 st c h.begun h.noop
  refine ⟨mv.begun, mv.noop, fun ha y' hy' e => ?_, fun ha y' hy' e => ?_⟩
  · obtain ⟨y, h1, h2, h3, vis, h4, h5, h6⟩ := mv.walk y' hy' e
    by_cases hx : x ∈ aheadO id w.st.root
    · rcases h6 hx with ⟨_, g⟩ | ⟨g, _⟩
      · rw [h4]; simp [h.todo hx y h1 h2, g]
      · exact absurd ha g
    · exact absurd ha (h5 hx).1
  · obtain ⟨y, h1, h2, h3, vis, h4, h5, h6⟩ := mv.walk y' hy' e
    rw [h4, ← h3]
    by_cases hx : x ∈ aheadO id w.st.root
    · have ht := h.todo hx y h1 h2
      rcases h6 hx with ⟨g, _⟩ | ⟨_, g1, g2⟩
      · exact absurd g ha
      · exact ⟨fun q => once_right ht (g1 q), fun q => by simp [ht, g2 q]⟩
    · obtain ⟨d1, d2⟩ := h.done hx y h1 h2
      have g := (h5 hx).2
      exact ⟨fun q => once_left (d1 q) g, fun q => by simp [d2 q, g]⟩

theorem notin_step {n} (hn2 : 2 ≤ n) {w w' : W K V} {ev} (st : WStep n w ev w') (c : CInv n w) {x : K × V} {id} (h : NotIn x id w) : NotIn x id w' := by
  have mv := move_step hn2 st c h.begun h.noop
  have hm : x ∉ aheadO id w'.st.root := by
    obtain ⟨y', hy', e⟩ := mv.begun
    obtain ⟨y, h1, h2, h3, vis, h4, h5, h6⟩ := mv.walk y' hy' e
    exact (h5 h.ahead).1
  refine ⟨mv.begun, mv.noop, hm, fun y' hy' e => ?_⟩
  obtain ⟨y, h1, h2, h3, vis, h4, h5, h6⟩ := mv.walk y' hy' e
  rw [h4]; simp [h.seen y h1 h2, (h5 h.ahead).2]

theorem in_run {n} (hn2 : 2 ≤ n) {P} {w0 w : W K V} {evs} (h : WRun n P w0 evs w) (c : CInv n w0) {x : K × V} {id} (g : In x id w0) : In x id w := by
  induction h with
  | nil _ => exact g
  | step h hs hp ih => exact in_step hn2 hs (cinv_run hn2 h c) ih
theorem notin_run {n} (hn2 : 2 ≤ n) {P} {w0 w : W K V} {evs} (h : WRun n P w0 evs w) (c : CInv n w0) {x : K × V} {id} (g : NotIn x id w0) : NotIn x id w := by
  induction h with
  | nil _ => exact g
  | step h hs hp ih => exact notin_step hn2 hs (cinv_run hn2 h c) ih

/-- The walk begins. -/
theorem begin_step {n} {w w' : W K V} {ev} (st : WStep n w ev w') {id} (hno : ∀ y ∈ w.walks, y.id ≠ id) (hb : Begun id w') {x : K × V}
    (hk : ∀ o ∈ opsO w.st.root, keq x.1 (opKey o) = false) : (w.stores x → In x id w') ∧ (¬ w.stores x → NotIn x id w') := by
  obtain ⟨y0, hy0, e0⟩ := hb
  rw [stores_allO]
  cases st with
  | other hs => exact absurd e0 (hno y0 hy0)
  | visit tag ht hr hv =>
    rename_i s wa z wb r vis r'
    exfalso
    simp only [List.mem_append, List.mem_cons] at hy0
    rcases hy0 with h | rfl | h
    · exact hno y0 (by simp [h]) e0
    · exact hno z (by simp) e0
    · exact hno y0 (by simp [h]) e0
  | begin i range tag ht hh hr hf hid =>
    rename_i s ws r
    have hi : i = id := by
      rcases List.mem_cons.1 hy0 with rfl | h
      · exact e0
      · exact absurd e0 (hno y0 h)
    subst hi
    have hs : ∀ y ∈ (⟨i, range, []⟩ :: ws : List (Walk K V)), y.id = i → y.seen = [] := by
      intro y hy e
      rcases List.mem_cons.1 hy with rfl | h
      · rfl
      · exact absurd e (hno y h)
    have e1 : aheadO i (some (r.addReader (i, tag))) = allO s.root := by simp only [hr, aheadO, allO, ahead_addOwn ht]
    have e2 : NoOp x.1 i (⟨{ s with root := some (r.addReader (i, tag)) }, ⟨i, range, []⟩ :: ws⟩ : W K V) := by
      intro o ho
      apply hk o
      simp only [opsAO, opsA_addOwn ht] at ho
      simp only [hr, opsO]; exact ho
    refine ⟨fun h => ⟨⟨y0, hy0, e0⟩, e2, fun _ y hy e => by rw [hs y hy e]; simp, fun h' => ?_⟩, fun h => ⟨⟨y0, hy0, e0⟩, e2, ?_, fun y hy e => by rw [hs y hy e]; simp⟩⟩
    · exact absurd (by rw [e1]; exact h) h'
    · show x ∉ aheadO i (some (r.addReader (i, tag)))
      rw [e1]; exact h
  | beginEmpty i range hh hr hid =>
    rename_i s ws
    refine ⟨fun h => by simp [hr, allO] at h, fun _ => ⟨⟨y0, hy0, e0⟩, by intro o ho; simp [hr, opsAO] at ho, by simp [hr, aheadO], fun y hy e => ?_⟩⟩
    rcases List.mem_cons.1 hy with rfl | h
    · simp
    · exact absurd e (hno y h)

/-! ### Calls that hold nodes are under way -/

theorem ops_er : ∀ t : CNode K V, ops (er t) = ops t
  | .mk w rs kvs cs => by
    simp only [er_mk, ops]
    congr 1
    have : ∀ cs' : List (CNode K V), (∀ c ∈ cs', ops (er c) = ops c) → opsL (cs'.map er) = opsL cs' := by
      intro cs'
      induction cs' with
      | nil => intro _; rfl
      | cons c cs' ih => intro h; simp only [List.map_cons, opsL]; rw [h c (by simp), ih (fun c hc => h c (by simp [hc]))]
    exact this cs (fun c hc => ops_er c)

theorem pend_tok {w : Option (Hold K V)} {o : Op K V} (h : o ∈ pend w) : ∃ k ∈ holdTok w, k.2.1 = o := by
  unfold pend at h
  split at h
  · simp at h; subst h; exact ⟨_, .head _, rfl⟩
  · simp at h; subst h; exact ⟨_, .head _, rfl⟩
  · cases h

theorem toksL_of {c : CNode K V} {cs : List (CNode K V)} (h : c ∈ cs) {k} (hk : k ∈ toks c) : k ∈ toksL cs := by
  obtain ⟨a, b, rfl⟩ := List.append_of_mem h
  simp [hk]

theorem ops_toks {n : Nat} : ∀ {h rt} {lo hi : Option K} {t : CNode K V}, WF n rt h lo hi t → ∀ o ∈ ops t, ∃ k ∈ toks t, k.2.1 = o
  | h, rt, lo, hi, .mk w rs kvs cs, wf => by
    intro o ho
    rcases ops_iff.1 ho with h1 | ⟨c, hc, h2⟩
    · obtain ⟨k, k1, k2⟩ := pend_tok h1
      exact ⟨k, by rw [toks_mk]; exact List.mem_append_left _ (List.mem_append_left _ k1), k2⟩
    · cases h with
      | zero => obtain ⟨hcs, _⟩ := wf; subst hcs; cases hc
      | succ h =>
        obtain ⟨lo', hi', wc⟩ := forest_mem wf.1 (c := c) hc
        obtain ⟨k, k1, k2⟩ := ops_toks wc o h2
        exact ⟨k, by rw [toks_mk]; exact List.mem_append_right _ (toksL_of (by simpa using hc) k1), k2⟩

theorem occ_mem {α : Type} {x : α} {l : List α} : 0 < occ x l ↔ x ∈ l := by
  rw [occ_pos]
  constructor
  · rintro ⟨a, b, rfl⟩; simp
  · exact List.append_of_mem

/-- The call about the key is under way in the map. -/
theorem ops_open {n} {s : St K V} {a : AtomicMap K V} (inv : Inv n (erS s)) (sim : Sim (erS s) a) {o : Op K V} (ho : o ∈ opsO s.root) :
    (∃ c ∈ a.called, c.2 = o) ∨ ∃ c ∈ a.answered, c.2.1 = o := by
  cases hr : s.root with
  | none => rw [hr] at ho; cases ho
  | some r =>
    rw [hr] at ho
    obtain ⟨h, wf⟩ := inv.tree (er r) (by simp [erS, hr])
    obtain ⟨⟨i, op, out⟩, k1, k2⟩ := ops_toks wf o (by rw [ops_er]; exact ho)
    have hs : (i, op, out) ∈ stoks (erS s) := by
      simp [stoks, rootToks, erS, hr, k1]
    subst k2
    have := occ_mem.2 hs
    cases out with
    | none => rw [← sim.called] at this; exact .inl ⟨_, occ_mem.1 this, rfl⟩
    | some u => rw [← sim.answered] at this; exact .inr ⟨_, occ_mem.1 this, rfl⟩

theorem keyOf_eq (op : Op K V) : keyOf op = opKey op := by cases op <;> rfl

/-- Calls about a key made = such calls returned + such calls under way. -/
theorem key_counts {evs} {a : AtomicMap K V} (h : AtomicMap.Run AtomicMap.init evs a) (k : K) :
    evs.countP (Event.callsKey k) = evs.countP (Event.retsKey k) + a.called.countP (fun c => same k (keyOf c.2)) +
      a.answered.countP (fun c => same k (keyOf c.2.1)) := by
  generalize h0 : (AtomicMap.init : AtomicMap K V) = a0 at h
  induction h with
  | nil => subst h0; simp [AtomicMap.init]
  | step h hs ih =>
    cases hs with
    | call id' op => cases hk : same k (keyOf op) <;> simp [List.countP_cons, Event.callsKey, Event.retsKey, hk] at * <;> omega
    | effect hc => simp [hc, List.countP_cons] at *; omega
    | ret hc => rename_i xs id op out ys; cases hk : same k (keyOf op) <;> simp [hc, List.countP_cons, Event.callsKey, Event.retsKey, hk] at * <;> omega

theorem nodup_of_once {α : Type} : ∀ {l : List α}, (∀ x ∈ l, ExactlyOnce x l) → l.Nodup
  | [], _ => .nil
  | x :: t, h => by
    have hx : x ∉ t := by
      obtain ⟨a, b, e, h1, h2⟩ := h x (by simp)
      cases a with
      | nil => simp at e; rw [e]; exact h2
      | cons z a => simp at e; exact absurd (by simp [e.1]) h1
    refine List.nodup_cons.2 ⟨hx, nodup_of_once fun z hz => ?_⟩
    obtain ⟨a, b, e, h1, h2⟩ := h z (by simp [hz])
    cases a with
    | nil => simp at e; exact absurd (e.1 ▸ hz) hx
    | cons z' a => simp at e h1; exact ⟨a, b, e.2, h1.2, h2⟩

/-- No call about the key is in the tree when all calls about it have returned. -/
theorem no_op {n} (hn2 : 2 ≤ n) {P} {w : W K V} {evs} (h : WRun n P W.init evs w) {k : K} (hk : KeyReturned k evs) :
    ∀ o ∈ opsO w.st.root, keq k (opKey o) = false := by
  obtain ⟨c, a, ra, sim⟩ := wrun_sim hn2 h
  have := key_counts ra k
  unfold KeyReturned at hk
  have z1 : a.called.countP (fun c => same k (keyOf c.2)) = 0 := by omega
  have z2 : a.answered.countP (fun c => same k (keyOf c.2.1)) = 0 := by omega
  rw [List.countP_eq_zero] at z1 z2
  intro o ho
  rcases ops_open c.inv sim ho with ⟨y, h1, rfl⟩ | ⟨y, h1, rfl⟩
  · have := z1 y h1
    rw [keyOf_eq] at this
    exact Bool.eq_false_iff.2 this
  · have := z2 y h1
    rw [keyOf_eq] at this
    exact Bool.eq_false_iff.2 this

/-- All calls have returned, so those about each key. -/
theorem key_of_all {n} (hn2 : 2 ≤ n) {P} {w : W K V} {evs} (h : WRun n P W.init evs w) (hr : AllReturned evs) (k : K) : KeyReturned k evs := by
  obtain ⟨c, a, ra, sim⟩ := wrun_sim hn2 h
  have e1 : a.called = [] := by
    cases hc : a.called with
    | nil => rfl
    | cons x xs => have := run_counts ra x.1; have := hr x.1; rw [hc] at *; simp [List.countP_cons] at *; omega
  have e2 : a.answered = [] := by
    cases hc : a.answered with
    | nil => rfl
    | cons x xs => have := run_counts ra x.1; have := hr x.1; rw [hc] at *; simp [List.countP_cons] at *; omega
  have := key_counts ra k
  rw [e1, e2] at this
  simpa [KeyReturned] using this

end
end Willow.BTreeWalk
