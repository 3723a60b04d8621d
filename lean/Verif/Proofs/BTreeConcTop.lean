import Verif.Proofs.BTreeConcTok
set_option linter.unusedSectionVars false
set_option linter.unusedSimpArgs false
/-! The whole tree: invariant and refinement of the atomic map. -/
namespace Willow.BTreeConc
open KeyOps BTree Spec LawfulKey

variable {K V : Type}

/-- All items of the tree, from left to right. -/
def itemsOf : Option (CNode K V) → List (K × V)
  | none => []
  | some r => flat r
def rootToks : Option (CNode K V) → List (Tok K V)
  | none => []
  | some r => toks r
theorem rootToks_some (r : CNode K V) : rootToks (some r) = toks r := rfl
theorem holdTok_down {id : Nat} {op : Op K V} {lk} : holdTok (some ⟨id, op, lk, .down⟩) = [(id, op, none)] := rfl
def waitTok (w : Nat × Op K V × Bool) : Tok K V := (w.1, w.2.1, none)
def doneTok (f : Nat × Op K V × Out K V) : Tok K V := (f.1, f.2.1, some f.2.2)
/-- All calls that have not returned. -/
def stoks (s : St K V) : List (Tok K V) :=
  s.waiting.map waitTok ++ holdTok s.hold ++ s.readers.map readTok ++ rootToks s.root ++ s.finished.map doneTok

/-- The tree's lock fits the root's. -/
def LockOk (hold : Option (Hold K V)) (root : Option (CNode K V)) : Prop :=
  match hold with
  | none => ∀ r, root = some r → r.linked = false
  | some hd => hd.linked = false ∧ ((hd.mark = .down ∧ (isCreate hd.op = true ∨ isDelete hd.op = true) ∧ ∀ r, root = some r → r.linked = false) ∨
      (hd.mark = .inChild ∧ ∃ r ch, root = some r ∧ r.hold = some ch ∧ ch.linked = true ∧ ch.id = hd.id ∧ ch.op = hd.op ∧ swapOf ch.mark = none))

section
variable [LawfulKey K]

/-- The invariant of the tree. -/
structure Inv (n : Nat) (s : St K V) : Prop where
  tree : ∀ r, s.root = some r → ∃ h, WF n true h none none r
  lock : LockOk s.hold s.root
  excl : s.hold.isSome = true → s.readers = []
  waiting : ∀ x ∈ s.waiting, (x.2.2 = true → isCreate x.2.1 = true ∨ isDelete x.2.1 = true) ∧ (x.2.2 = false → isRead x.2.1 = true)
  reading : ∀ r ∈ s.readers, isRead r.2 = true

/-- A step without an event: nothing changes for the atomic map, or one call takes effect. -/
def Shift (s s' : St K V) : Prop :=
  (itemsOf s'.root = itemsOf s.root ∧ ∀ x, occ x (stoks s') = occ x (stoks s)) ∨
  ∃ id op out, listStep (itemsOf s.root) op = (itemsOf s'.root, out) ∧
    ∀ x, occ x (stoks s') + occ x [(id, op, none)] = occ x (stoks s) + occ x [(id, op, some out)]

theorem shift_quiet {s s' : St K V} (h1 : itemsOf s'.root = itemsOf s.root) (h2 : ∀ x, occ x (stoks s') = occ x (stoks s)) : Shift s s' := .inl ⟨h1, h2⟩

theorem wf_root {n h} {lo hi : Option K} {t : CNode K V} (hn2 : 2 ≤ n) (wf : WF n false h lo hi t) : WF n true h lo hi t := by
  cases t with
  | mk w rs kvs cs =>
    have hl := wf_lbl wf
    refine wf_relabel wf ⟨hl.1, ?_⟩ (wf_links wf)
    have hs : ∀ c, SizeOk n false h c → SizeOk n true h c := fun c hc => ⟨hc.1, (fun hx => by cases hx), fun _ _ => by have := hc.2.1 rfl; omega⟩
    cases w with
    | none => exact hs _ hl.2
    | some hd =>
      obtain ⟨g1, g2, g3, g4⟩ := hl.2
      refine ⟨g1, ?_, g3, g4⟩
      cases hm : hd.mark <;> simp only [hm, MarkSize] at g2 ⊢ <;> first | exact hs _ g2 | skip
      · exact g2
      · simp at g2 ⊢; omega

/-- A step below the tree's lock. -/
theorem shift_settle {n h} {s : St K V} {hold root r} {e : Eff K V} {r'} (hr : s.root = some r) (hroot : root = some r')
    (ht : TokOk e (toks r) (toks r')) (he : Effect none none e.op e.outcome (flat r) (flat r')) (hh : holdTok hold = holdTok s.hold)
    (_ : WF n true h none none r) : Shift s (St.settle { s with hold := hold, root := root } e) := by
  subst hroot
  unfold St.settle
  simp only [TokOk, before1, after1] at ht
  cases ho : e.outcome with
  | moved =>
    simp only [ho, Effect, occ_nil, Nat.add_zero] at ht he
    refine shift_quiet (by simp [itemsOf, hr, he]) (fun x => ?_)
    have := ht x
    simp [stoks, hr, rootToks, hh]; omega
  | applied out =>
    simp only [ho, Effect] at ht he
    refine .inr ⟨e.id, e.op, out, by simp [itemsOf, hr, he.1], fun x => ?_⟩
    have := ht x
    simp [stoks, hr, rootToks, hh]; omega
  | left out =>
    simp only [ho, Effect, occ_nil, Nat.add_zero] at ht he
    refine shift_quiet (by simp [itemsOf, hr, he]) (fun x => ?_)
    have := ht x
    simp [stoks, hr, rootToks, hh, occ_cons, doneTok] at this ⊢; omega
  | answered out =>
    simp only [ho, Effect] at ht he
    refine .inr ⟨e.id, e.op, out, by simp [itemsOf, hr, he.1], fun x => ?_⟩
    have := ht x
    simp [stoks, hr, rootToks, hh, occ_cons, doneTok] at this ⊢; omega
  | again =>
    simp only [ho, Effect, occ_nil, Nat.add_zero] at ht he
    refine shift_quiet (by simp [itemsOf, hr, he]) (fun x => ?_)
    have := ht x
    simp [stoks, hr, rootToks, hh, occ_cons, waitTok] at this ⊢; omega

theorem settle_hold (s : St K V) (e : Eff K V) : (s.settle e).hold = s.hold := by unfold St.settle; cases e.outcome <;> rfl
theorem settle_root (s : St K V) (e : Eff K V) : (s.settle e).root = s.root := by unfold St.settle; cases e.outcome <;> rfl
theorem settle_readers (s : St K V) (e : Eff K V) : (s.settle e).readers = s.readers := by unfold St.settle; cases e.outcome <;> rfl

/-- Only the search of `CreateOrFind` starts again. -/
theorem nstep_again {n} {t : CNode K V} {e t'} (st : NStep n t e t') : e.outcome = .again → isCreate e.op = true := by
  have hc : ∀ {t : CNode K V} {e t'}, CStep n t e t' → e.outcome ≠ .again := by
    intro t e t' st
    induction st <;> simp_all
  induction st with
  | chain hh hl hs => intro h; exact absurd h (hc hs)
  | readHit hr hh => intro h; cases h
  | readMiss hh => intro h; cases h
  | readAgain hh => intro h; rfl
  | readDown hr hh hi' hf => intro h; cases h
  | child hs ih => exact ih

theorem cstep_not_again {n} {t : CNode K V} {e t'} (st : CStep n t e t') : e.outcome ≠ .again := by
  induction st <;> simp_all

theorem settle_waiting {s : St K V} {e : Eff K V} {x} (h : x ∈ (s.settle e).waiting) :
    x ∈ s.waiting ∨ (e.outcome = .again ∧ x = (e.id, e.op, true)) := by
  unfold St.settle at h
  cases ho : e.outcome <;> simp only [ho] at h <;> try exact .inl h
  simp at h
  rcases h with h | h
  · exact .inr ⟨rfl, h⟩
  · exact .inl h

theorem isCreate_of_read {op : Op K V} (h : startsWriting op = true) : isCreate op = true ∨ isDelete op = true := by
  cases op <;> simp_all [startsWriting, isCreate, isDelete]
theorem isRead_of_not {op : Op K V} (h : startsWriting op = false) : isRead op = true := by
  cases op <;> simp_all [startsWriting, isRead]

theorem wf_empty {n : Nat} : WF n true 0 none none (CNode.mk none [] [] [] : CNode K V) := by
  refine ⟨rfl, by simp [Chain], lbl_none ⟨by simp, (fun h => by cases h), (fun _ h => by simp at h)⟩, by simp [Links]⟩

/-- Entering the root. -/
theorem enter_ok {n h} {r : CNode K V} {id op} (wf : WF n true h none none r) (hf : r.Free)
    (hop : isCreate op = true ∨ isDelete op = true) :
    WF n true h none none (r.held (some ⟨id, op, !safe n op r.count, .down⟩)) ∧
    LockOk (treeHold n id op r.count) (some (r.held (some ⟨id, op, !safe n op r.count, .down⟩))) ∧
    holdTok (treeHold n id op r.count) = ([] : List (Tok K V)) := by
  refine ⟨wf_held wf hf rfl (by intro o; simp) ⟨by simp, by simp, hop⟩ ?_, ?_, ?_⟩
  · intro hx
    simp at hx
    exact ⟨hx, rfl⟩
  · unfold treeHold
    cases hs : safe n op r.count with
    | true => intro r' hr'; cases hr'; rw [held_linked]; rfl
    | false =>
      refine ⟨rfl, .inr ⟨rfl, _, _, rfl, held_hold, rfl, rfl, rfl, rfl⟩⟩
  · unfold treeHold; split <;> rfl

theorem free_of_unlinked_hold {hold : Option (Hold K V)} {root : Option (CNode K V)} (h : LockOk hold root) (hh : hold = none) {r} (hr : root = some r) :
    r.linked = false := by subst hh; exact h r hr

/-- Every step without an event keeps the invariant and refines the atomic map. -/
theorem tau_ok {n} (hn2 : 2 ≤ n) {s s' : St K V} (st : Step n s none s') (inv : Inv n s) : Inv n s' ∧ Shift s s' := by
  obtain ⟨htree, hlock, hexcl, hwait, hread⟩ := inv
  generalize hev : (none : Option (Event K V)) = ev at st
  cases st with
  | call => cases hev
  | ret => cases hev
  | lock hw hh hr =>
    rename_i wa id op wb
    refine ⟨⟨htree, ?_, fun _ => hr, ?_, hread⟩, shift_quiet rfl ?_⟩
    · refine ⟨rfl, .inl ⟨rfl, (hwait (id, op, true) (by rw [hw]; simp)).1 rfl, ?_⟩⟩
      intro r hr'
      exact free_of_unlinked_hold hlock hh hr'
    · intro x hx
      refine hwait x ?_
      rw [hw]; simp at hx ⊢; rcases hx with hx | hx <;> simp [hx]
    · intro x
      simp [stoks, hw, hh, hr, holdTok, occ_cons, waitTok]; omega
  | enterCreate hw hh hf =>
    rename_i id op item
    have hop : isCreate op = true ∨ isDelete op = true := .inl (isCreate_of_item hw).1
    obtain ⟨h, wf⟩ : ∃ h, WF n true h none none (rootOrNew s.root) := by
      cases hr : s.root with
      | none => exact ⟨0, wf_empty⟩
      | some r => exact htree r hr
    obtain ⟨g1, g2, g3⟩ := enter_ok (id := id) wf hf hop
    refine ⟨⟨?_, g2, fun _ => hexcl (by simp [hh]), hwait, hread⟩, shift_quiet ?_ ?_⟩
    · intro r' hr'; cases hr'; exact ⟨h, g1⟩
    · simp only [itemsOf, flat_held]
      cases s.root with
      | none => simp [rootOrNew]
      | some r => rfl
    · intro x
      have e1 : occ x (rootToks s.root) = occ x (toks (rootOrNew s.root)) := by
        cases s.root with
        | none => simp [rootToks, rootOrNew, holdTok]
        | some r => rfl
      simp only [stoks, hh, g3, rootToks_some, (toks_held hf _).1, e1, toks_of_free hf, occ_append, occ_cons, occ_nil, holdTok_down]; omega
  | enterDelete hh hr hf =>
    rename_i id k can r
    obtain ⟨h, wf⟩ := htree r hr
    obtain ⟨g1, g2, g3⟩ := enter_ok (id := id) (op := .delete k can) wf hf (.inr rfl)
    refine ⟨⟨?_, g2, fun _ => hexcl (by simp [hh]), hwait, hread⟩, shift_quiet ?_ ?_⟩
    · intro r' hr'; cases hr'; exact ⟨h, g1⟩
    · simp [itemsOf, flat_held, hr]
    · intro x
      simp only [stoks, hh, hr, g3, rootToks_some, (toks_held hf _).1, toks_of_free hf, occ_append, occ_cons, occ_nil, holdTok_down]; omega
  | deleteEmpty hh hr =>
    rename_i id k can
    refine ⟨⟨htree, ?_, fun hx => by simp at hx, hwait, hread⟩, .inr ⟨id, .delete k can, .delete none, ?_, ?_⟩⟩
    · intro r hr'; have := hr.symm.trans hr'; cases this
    · simp [itemsOf, hr, listStep, lookupL]
    · intro x
      simp [stoks, hh, holdTok, occ_cons, doneTok]; omega
  | inner hh hr hc hl hid hop hs =>
    rename_i id op r h0 e r'
    obtain ⟨h, wf⟩ := htree r hr
    obtain ⟨hd, h1, h2⟩ := cstep_ok hn2 hs
    rw [hc] at h1; injection h1 with h1; subst h1
    have ok := h2 true h none none wf
    rw [hh] at hlock
    obtain ⟨_, hlk⟩ := hlock
    rcases hlk with ⟨hx, _⟩ | ⟨_, r0, ch, q1, q2, q3, q4, q5, q6⟩
    · simp at hx
    · rw [hr] at q1; injection q1 with q1; subst q1
      rw [hc] at q2; injection q2 with q2; subst q2
      have hsw : e.swap = none := by
        cases hsw : e.swap with
        | none => rfl
        | some x => obtain ⟨kv, s1, _⟩ := ok.swap x hsw; rw [q6] at s1; cases s1
      obtain ⟨w', heff⟩ := ok.plain hsw
      rw [← ok.op] at heff
      refine ⟨⟨?_, ?_, ?_, ?_, ?_⟩, shift_settle hr rfl (cstep_toks hn2 hs _ _ _ _ wf) heff ?_ wf⟩
      · intro r2 hr2; rw [settle_root] at hr2; injection hr2 with hr2; subst hr2; exact ⟨h, w'⟩
      · rw [settle_hold, settle_root]
        cases hrel : e.rel with
        | true => intro r2 hr2; injection hr2 with hr2; subst hr2; simp [CNode.linked, ok.rel hrel]
        | false =>
          obtain ⟨m, k1, k2, _⟩ := ok.keep hrel
          show LockOk s.hold (some r')
          rw [hh]
          refine ⟨rfl, .inr ⟨rfl, r', _, rfl, k1, q3, q4, q5, ?_⟩⟩
          rw [k2, hsw]; simpa using q6
      · intro _; rw [settle_readers]; exact hexcl (by simp [hh])
      · intro x hx
        rcases settle_waiting hx with hx | ⟨hx, _⟩
        · exact hwait x hx
        · exact absurd hx (cstep_not_again hs)
      · rw [settle_readers]; exact hread
      · rw [hh]; split <;> rfl
  | node hr hs =>
    rename_i r e r'
    obtain ⟨h, wf⟩ := htree r hr
    obtain ⟨g1, g2, g3, g4⟩ := nstep_ok hn2 hs _ _ _ _ wf
    refine ⟨⟨?_, ?_, ?_, ?_, ?_⟩, shift_settle (hold := s.hold) hr rfl (nstep_toks hn2 hs _ _ _ _ wf) g2 rfl wf⟩
    · intro r2 hr2; rw [settle_root] at hr2; injection hr2 with hr2; subst hr2; exact ⟨h, g1⟩
    · rw [settle_hold, settle_root]
      show LockOk s.hold (some r')
      cases hh : s.hold with
      | none =>
        rw [hh] at hlock
        intro r2 hr2; injection hr2 with hr2; subst hr2; exact g4 (hlock r hr)
      | some hd =>
        rw [hh] at hlock
        refine ⟨hlock.1, ?_⟩
        rcases hlock.2 with ⟨a, b, c⟩ | ⟨a, r0, ch, q1, q2, q3, q4, q5, q6⟩
        · refine .inl ⟨a, b, ?_⟩
          intro r2 hr2; injection hr2 with hr2; subst hr2; exact g4 (c r hr)
        · rw [hr] at q1; injection q1 with q1; subst q1
          have := g3 (by rw [linked_of_hold q2]; exact q3)
          exact .inr ⟨a, r', ch, rfl, by rw [this.1]; exact q2, q3, q4, q5, q6⟩
    · intro hx; rw [settle_readers]; rw [settle_hold] at hx; exact hexcl hx
    · intro x hx
      rcases settle_waiting hx with hx | ⟨hag, rfl⟩
      · exact hwait x hx
      · exact ⟨fun _ => .inl (nstep_again hs hag), fun hy => by simp at hy⟩
    · rw [settle_readers]; exact hread
  | grow hh hr hc hp =>
    rename_i id op r out kv l rt
    obtain ⟨h, wf⟩ := htree r hr
    have htk := toks_of_held wf hc
    have hfe := flat_eq r
    obtain ⟨b, hcnt, hu⟩ : Body n h none none r.kvs r.children ∧ r.kvs.length = n + 1 ∧ ∀ g ∈ r.children, g.linked = false := by
      cases r with
      | mk w rs kvs cs =>
        simp at hc; subst hc
        rw [wf_iff] at wf
        exact ⟨wf.1, by have := wf.2.1.2.2.1; simpa [MarkSize] using this, links_unlinked wf.2.2 rfl⟩
    obtain ⟨wl, wr, hkv, hfl, hl0, hr0⟩ := split_spec (by omega) b hcnt hu hp
    have ht := toks_split b hcnt hp
    have hun : ∀ x ∈ [l, rt], x.linked = false := by
      intro x hx; simp at hx
      rcases hx with rfl | rfl
      · simp [CNode.linked, hl0]
      · simp [CNode.linked, hr0]
    refine ⟨⟨?_, ?_, fun hx => by simp at hx, hwait, hread⟩, shift_quiet ?_ ?_⟩
    · intro r2 hr2; injection hr2 with hr2; subst hr2
      refine ⟨h + 1, ⟨?_, ?_, lbl_none ⟨by simp; omega, (fun hx => by cases hx), fun _ _ => by simp⟩, hun⟩⟩
      · exact ⟨wl, wr, trivial⟩
      · intro x hx; simp at hx; subst hx; exact hkv
    · intro r2 hr2; injection hr2 with hr2; subst hr2; rfl
    · simp [itemsOf, hr, weave, after, hfe, hfl]
    · intro x
      have := ht x
      simp [stoks, hh, hr, rootToks, htk, holdTok, occ_cons, doneTok]; omega
  | shrink hh hr hc =>
    rename_i id op r out
    obtain ⟨h, wf⟩ := htree r hr
    have htk := toks_of_held wf hc
    obtain ⟨root', hroot'⟩ : ∃ x, (if r.count = 0 then r.children[0]? else some (r.held none)) = x := ⟨_, rfl⟩
    rw [hroot']
    cases r with
    | mk w rs kvs cs =>
    simp at hc; subst hc
    simp only [CNode.children_mk] at htk
    have hu := links_unlinked (wf_links wf) rfl
    obtain ⟨lr, l1, l2, l3, l4⟩ := wf_lbl wf
    have hb := (wf_iff.1 wf).1
    simp [MarkSize] at l2
    by_cases h0 : kvs.length = 0
    · have hk : kvs = [] := List.length_eq_zero_iff.1 h0
      subst hk
      have hroot' : cs[0]? = root' := (if_pos rfl).symm.trans hroot'
      subst hroot'
      cases h with
      | zero =>
        have := hb.1
        subst this
        refine ⟨⟨?_, ?_, fun hx => by simp at hx, hwait, hread⟩, shift_quiet ?_ ?_⟩
        · intro r2 hr2; simp at hr2
        · intro r2 hr2; simp at hr2
        · simp [itemsOf, hr]
        · intro x
          simp [stoks, hh, hr, rootToks, htk, holdTok, occ_cons, doneTok] at *
      | succ h =>
        have hlen := body_length hb
        cases cs with
        | nil => simp at hlen
        | cons c cs =>
          simp at hlen; subst hlen
          have wc : WF n true h none none c := wf_root hn2 hb.1.1
          refine ⟨⟨?_, ?_, fun hx => by simp at hx, hwait, hread⟩, shift_quiet ?_ ?_⟩
          · intro r2 hr2; simp at hr2; subst hr2; exact ⟨h, wc⟩
          · intro r2 hr2; simp at hr2; subst hr2; exact hu c (by simp)
          · simp [itemsOf, hr, weave, after]
          · intro x
            simp [stoks, hh, hr, rootToks, htk, holdTok, occ_cons, doneTok] at *; omega
    · have hroot' : some (CNode.mk none rs kvs cs) = root' := (if_neg h0).symm.trans hroot'
      subst hroot'
      subst l1
      refine ⟨⟨?_, ?_, fun hx => by simp at hx, hwait, hread⟩, shift_quiet ?_ ?_⟩
      · intro r2 hr2; injection hr2 with hr2; subst hr2
        refine ⟨h, wf_relabel wf (lbl_none ⟨by omega, (fun hx => by cases hx), fun _ _ => by omega⟩) hu⟩
      · intro r2 hr2; injection hr2 with hr2; subst hr2; rfl
      · simp [itemsOf, hr, CNode.held]
      · intro x
        simp [stoks, hh, hr, rootToks, htk, holdTok, occ_cons, doneTok, CNode.held] at *; omega
  | rlock hw hh =>
    rename_i wa id op wb
    refine ⟨⟨htree, hlock, ?_, ?_, ?_⟩, shift_quiet rfl ?_⟩
    · intro hx; simp [hh] at hx
    · intro x hx
      refine hwait x ?_
      rw [hw]; simp at hx ⊢; rcases hx with hx | hx <;> simp [hx]
    · intro r hr; simp at hr
      rcases hr with rfl | hr
      · exact (hwait (id, op, false) (by rw [hw]; simp)).2 rfl
      · exact hread r hr
    · intro x
      simp [stoks, hw, occ_cons, waitTok, readTok]; omega
  | renter hw hr hf =>
    rename_i ra id op rb r
    obtain ⟨h, wf⟩ := htree r hr
    have hrd := hread (id, op) (by rw [hw]; simp)
    refine ⟨⟨?_, ?_, ?_, hwait, ?_⟩, shift_quiet ?_ ?_⟩
    · intro r2 hr2; injection hr2 with hr2; subst hr2
      exact ⟨h, wf_addReader wf hf (by simp) (by simp) hrd⟩
    · show LockOk s.hold _
      have hn : s.hold = none := by
        cases hh : s.hold with
        | none => rfl
        | some hd => have := hexcl (by simp [hh]); rw [hw] at this; simp at this
      rw [hn]
      intro r2 hr2; injection hr2 with hr2; subst hr2; rw [linked_addReader]; simp [CNode.linked, hf]
    · intro hx
      have := hexcl hx
      rw [hw] at this; simp at this
    · intro x hx
      refine hread x ?_
      rw [hw]; simp at hx ⊢; rcases hx with hx | hx <;> simp [hx]
    · simp [itemsOf, hr, flat_addReader]
    · intro x
      simp [stoks, hw, hr, rootToks, toks_addReader, occ_cons]; omega
  | findEmpty hw hr =>
    rename_i ra id k rb
    refine ⟨⟨htree, hlock, ?_, hwait, ?_⟩, .inr ⟨id, .find k, .find none, ?_, ?_⟩⟩
    · intro hx
      have := hexcl hx
      rw [hw] at this; simp at this
    · intro x hx
      refine hread x ?_
      rw [hw]; simp at hx ⊢; rcases hx with hx | hx <;> simp [hx]
    · simp [itemsOf, hr, listStep, lookupL]
    · intro x
      simp [stoks, hw, occ_cons, doneTok, readTok]; omega
  | againEmpty hw hr =>
    rename_i ra id k v rb
    refine ⟨⟨htree, hlock, ?_, ?_, ?_⟩, shift_quiet rfl ?_⟩
    · intro hx
      have := hexcl hx
      rw [hw] at this; simp at this
    · intro x hx
      simp at hx
      rcases hx with rfl | hx
      · exact ⟨fun _ => .inl rfl, fun hy => by simp at hy⟩
      · exact hwait x hx
    · intro x hx
      refine hread x ?_
      rw [hw]; simp at hx ⊢; rcases hx with hx | hx <;> simp [hx]
    · intro x
      simp [stoks, hw, occ_cons, waitTok, readTok]; omega

/-! ### Refinement -/

/-- The atomic map has the same items and the same calls. -/
structure Sim (s : St K V) (a : AtomicMap K V) : Prop where
  items : a.items = mapOf (itemsOf s.root)
  called : ∀ id op, occ (id, op) a.called = occ (id, op, none) (stoks s)
  answered : ∀ id op out, occ (id, op, out) a.answered = occ (id, op, some out) (stoks s)

theorem occ_single {α : Type} {x y : α} (h : y ≠ x) : occ x [y] = 0 := by simp [occ_cons, h]

theorem sim_init : Sim (St.init : St K V) AtomicMap.init := by
  refine ⟨?_, ?_, ?_⟩
  · funext k; simp [AtomicMap.init, St.init, itemsOf, mapOf, lookupL]
  · intro id op; simp [AtomicMap.init, St.init, stoks, rootToks, holdTok]
  · intro id op out; simp [AtomicMap.init, St.init, stoks, rootToks, holdTok]

theorem sim_shift {s s' : St K V} {a : AtomicMap K V} (h : Shift s s') (sim : Sim s a) :
    Sim s' a ∨ ∃ a', AtomicMap.Step a none a' ∧ Sim s' a' := by
  rcases h with ⟨h1, h2⟩ | ⟨id, op, out, h1, h2⟩
  · exact .inl ⟨by rw [h1]; exact sim.items, fun i o => by rw [h2]; exact sim.called i o, fun i o u => by rw [h2]; exact sim.answered i o u⟩
  · right
    have h0 := h2 (id, op, none)
    rw [occ_single (x := (id, op, none)) (y := (id, op, some out)) (by simp)] at h0
    have hpos : 0 < occ (id, op) a.called := by rw [sim.called]; simp [occ_cons] at h0; omega
    obtain ⟨xs, ys, hx⟩ := occ_pos.1 hpos
    refine ⟨_, .effect hx, ?_⟩
    have hm : mapStep a.items op = (mapOf (itemsOf s'.root), out) := by rw [sim.items, mapStep_listStep, h1]
    refine ⟨by rw [hm], ?_, ?_⟩
    · intro i o
      have c1 := sim.called i o
      have c2 := h2 (i, o, none)
      rw [occ_single (x := (i, o, none)) (y := (id, op, some out)) (by simp)] at c2
      rw [hx] at c1
      simp only [occ_append, occ_cons] at c1 ⊢
      by_cases hq : (id, op) = (i, o)
      · injection hq with q1 q2; subst q1; subst q2; simp [occ_cons] at c1 c2 ⊢; omega
      · rw [if_neg hq] at c1
        have : (id, op, (none : Option (Out K V))) ≠ (i, o, none) := by
          intro e; injection e with e1 e2; injection e2 with e2 e3; exact hq (by rw [e1, e2])
        rw [occ_single this] at c2
        omega
    · intro i o u
      have c1 := sim.answered i o u
      have c2 := h2 (i, o, some u)
      rw [occ_single (x := (i, o, some u)) (y := (id, op, none)) (by simp)] at c2
      rw [hm]
      simp only [occ_cons]
      by_cases hq : (id, op, out) = (i, o, u)
      · injection hq with q1 q2; injection q2 with q2 q3; subst q1; subst q2; subst q3; simp [occ_cons] at c1 c2 ⊢; omega
      · rw [if_neg hq]
        have : (id, op, some out) ≠ (i, o, some u) := by
          intro e; injection e with e1 e2; injection e2 with e2 e3; injection e3 with e3; exact hq (by rw [e1, e2, e3])
        rw [occ_single this] at c2
        omega

theorem inv_init {n : Nat} : Inv n (St.init : St K V) := by
  refine ⟨?_, ?_, ?_, ?_, ?_⟩ <;> simp [St.init, LockOk]

/-- Every step keeps the invariant and is a step of the atomic map, or none. -/
theorem step_sim {n} (hn2 : 2 ≤ n) {s s' : St K V} {ev a} (st : Step n s ev s') (inv : Inv n s) (sim : Sim s a) :
    Inv n s' ∧ ∃ a', ((ev = none ∧ a' = a) ∨ AtomicMap.Step a ev a') ∧ Sim s' a' := by
  cases ev with
  | none =>
    obtain ⟨h1, h2⟩ := tau_ok hn2 st inv
    refine ⟨h1, ?_⟩
    rcases sim_shift h2 sim with h | ⟨a', h, h'⟩
    · exact ⟨a, .inl ⟨rfl, rfl⟩, h⟩
    · exact ⟨a', .inr h, h'⟩
  | some e =>
    cases st with
    | call id op =>
      refine ⟨⟨inv.tree, inv.lock, inv.excl, ?_, inv.reading⟩, _, .inr (.call id op), sim.items, ?_, ?_⟩
      · intro x hx; simp at hx
        rcases hx with rfl | hx
        · exact ⟨isCreate_of_read, isRead_of_not⟩
        · exact inv.waiting x hx
      · intro i o
        have := sim.called i o
        have e1 := occ_map (fun p : Nat × Op K V => (p.1, p.2, (none : Option (Out K V)))) (by rintro ⟨a, b⟩ ⟨c, d⟩; simp) (i, o) [(id, op)]
        simp only [stoks, occ_cons, occ_append, List.map_cons, List.map_nil, occ_nil, waitTok] at this e1 ⊢; omega
      · intro i o u
        have := sim.answered i o u
        simp [stoks, occ_cons, waitTok] at this ⊢; omega
    | ret hf =>
      rename_i fa id op out fb
      have hpos : 0 < occ (id, op, out) a.answered := by
        rw [sim.answered]; simp [stoks, hf, occ_cons, doneTok]; omega
      obtain ⟨xs, ys, hx⟩ := occ_pos.1 hpos
      refine ⟨⟨inv.tree, inv.lock, inv.excl, inv.waiting, inv.reading⟩, _, .inr (.ret hx), sim.items, ?_, ?_⟩
      · intro i o
        have := sim.called i o
        simp [stoks, hf, occ_cons, doneTok] at this ⊢; omega
      · intro i o u
        have := sim.answered i o u
        rw [hx] at this
        have e1 := occ_map (fun p : Nat × Op K V × Out K V => (p.1, p.2.1, some p.2.2)) (by rintro ⟨a, b, c⟩ ⟨d, e, f⟩; simp) (i, o, u) [(id, op, out)]
        simp only [stoks, hf, occ_cons, occ_append, List.map_cons, List.map_append, List.map_nil, occ_nil, doneTok] at this e1 ⊢; omega

theorem run_sim {n} (hn2 : 2 ≤ n) {evs} {s : St K V} (hr : Run n St.init evs s) :
    Inv n s ∧ ∃ a, AtomicMap.Run AtomicMap.init evs a ∧ Sim s a := by
  generalize h0 : (St.init : St K V) = s0 at hr
  induction hr with
  | nil => subst h0; exact ⟨inv_init, _, .nil, sim_init⟩
  | step h hs ih =>
    obtain ⟨inv, a, ra, sim⟩ := ih
    obtain ⟨inv', a', h1, h2⟩ := step_sim hn2 hs inv sim
    refine ⟨inv', a', ?_, h2⟩
    rcases h1 with ⟨rfl, rfl⟩ | h1
    · simpa using ra
    · exact .step ra h1

end

end Willow.BTreeConc
