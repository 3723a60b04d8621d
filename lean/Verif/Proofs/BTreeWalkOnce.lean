import Verif.Proofs.BTreeWalkSnap
set_option linter.unusedSectionVars false
set_option linter.unusedSimpArgs false
/-! A walk never reports a key twice. -/
namespace Willow.BTreeWalk
open KeyOps BTree Spec LawfulKey BTreeConc

variable {K V : Type}

theorem mem_before {x : K × V} : ∀ {ca : List (CNode K V)} {ka : List (K × V)}, ca.length = ka.length →
    (x ∈ ka ∨ ∃ d ∈ ca, x ∈ BTreeConc.flat d) → x ∈ BTreeConc.before ca ka
  | [], [], _, h => by simp at h
  | [], _ :: _, h, _ => by simp at h
  | _ :: _, [], h, _ => by simp at h
  | c :: ca, kv :: ka, hl, h => by
    have ih := mem_before (x := x) (ca := ca) (ka := ka) (by simpa using hl)
    simp only [BTreeConc.before, List.mem_append, List.mem_cons]
    rcases h with h | ⟨d, hd, h⟩
    · rcases List.mem_cons.1 h with rfl | h
      · exact .inr (.inl rfl)
      · exact .inr (.inr (ih (.inl h)))
    · rcases List.mem_cons.1 hd with rfl | hd
      · exact .inl h
      · exact .inr (.inr (ih (.inr ⟨d, hd, h⟩)))

theorem mem_after {x : K × V} : ∀ {ca : List (CNode K V)} {ka : List (K × V)}, ca.length = ka.length →
    (x ∈ ka ∨ ∃ d ∈ ca, x ∈ BTreeConc.flat d) → x ∈ BTreeConc.after ca ka
  | [], [], _, h => by simp at h
  | [], _ :: _, h, _ => by simp at h
  | _ :: _, [], h, _ => by simp at h
  | c :: ca, kv :: ka, hl, h => by
    have ih := mem_after (x := x) (ca := ca) (ka := ka) (by simpa using hl)
    simp only [BTreeConc.after, List.mem_append, List.mem_cons]
    rcases h with h | ⟨d, hd, h⟩
    · rcases List.mem_cons.1 h with rfl | h
      · exact .inl rfl
      · exact .inr (.inr (ih (.inl h)))
    · rcases List.mem_cons.1 hd with rfl | hd
      · exact .inr (.inl h)
      · exact .inr (.inr (ih (.inr ⟨d, hd, h⟩)))

section
variable [LawfulKey K]

/-- The key lies between the bounds. -/
def Btw (lo hi : Option K) (k : K) : Prop := Gap lo (some k) ∧ Gap (some k) hi

/-- A key that belongs into one child is not in the node and not in the other children. -/
theorem focus {n rt h} {lo hi : Option K} {w : Option (Hold K V)} {rs kvs ca c cb} (wf : BTreeConc.WF n rt (h + 1) lo hi (.mk w rs kvs (ca ++ c :: cb))) :
    ∃ lo' hi', BTreeConc.WF n false h lo' hi' c ∧ ∀ k, Btw lo' hi' k → Btw lo hi k ∧ (∀ x ∈ kvs, keq x.1 k = false) ∧
      (∀ d ∈ ca ++ cb, ∀ x ∈ BTreeConc.flat d, keq x.1 k = false) := by
  obtain ⟨ka, kb, rfl, h1, h2⟩ := forest_split wf.1
  obtain ⟨f1, f2, f3⟩ := (forest_focus h1.symm).1 wf.1
  refine ⟨_, _, f2, fun k hk => ?_⟩
  obtain ⟨b1, b2⟩ := before_lt (fun lo hi c hc => wf_chain hc) f1 hk.1
  obtain ⟨a1, a2⟩ := after_gt (fun lo hi c hc => wf_chain hc) f3 hk.2
  refine ⟨⟨b2, a2⟩, fun x hx => ?_, fun d hd x hx => ?_⟩
  · rcases List.mem_append.1 hx with hx | hx
    · exact not_keq_of_lt (b1 x (mem_before h1.symm (.inl hx)))
    · exact not_keq_of_gt (a1 x (mem_after h2.symm (.inl hx)))
  · rcases List.mem_append.1 hd with hd | hd
    · exact not_keq_of_lt (b1 x (mem_before h1.symm (.inr ⟨d, hd, hx⟩)))
    · exact not_keq_of_gt (a1 x (mem_after h2.symm (.inr ⟨d, hd, hx⟩)))

/-- The keys of the calls that hold nodes of a subtree belong there; the subtree may be the place of the item that replaces one further up. -/
theorem ops_btw {n} : ∀ {h rt} {lo hi : Option K} {t : CNode K V}, BTreeConc.WF n rt h lo hi t → ∀ o ∈ ops t,
    Btw lo hi (opKey o) ∨ ∃ hd kv, t.hold = some hd ∧ hd.linked = true ∧ hd.op = o ∧ swapOf hd.mark = some kv
  | h, rt, lo, hi, .mk w rs kvs cs, wf => by
    intro o ho
    have lb := wf_lbl wf
    have lk := wf_links wf
    rcases ops_iff.1 ho with h1 | ⟨c, hc, h2⟩
    · simp only [CNode.hold_mk] at h1 ⊢
      unfold pend at h1
      split at h1
      · simp at h1; subst h1
        exact .inl ⟨lb.2.2.2.1.1, lb.2.2.2.1.2.1⟩
      · simp at h1; subst h1
        right
        refine ⟨_, _, rfl, ?_, rfl, rfl⟩
        refine Classical.byContradiction fun hn => ?_
        have := (lb.2.2.2.2 (by simpa using hn)).2
        simp [swapOf] at this
      · cases h1
    · simp only [CNode.children_mk] at hc
      cases h with
      | zero => have := wf.1; subst this; cases hc
      | succ h =>
        obtain ⟨ca, cb, rfl⟩ := List.append_of_mem hc
        obtain ⟨lo', hi', wc, hf⟩ := focus wf
        rcases ops_btw wc o h2 with hb | ⟨hd, kv, g1, g2, g3, g4⟩
        · exact .inl (hf _ hb).1
        · have hcl : c.linked = true := by simp [CNode.linked, g1, g2]
          cases w with
          | none => have := lk c (by simp); rw [hcl] at this; cases this
          | some wd =>
            simp only [Links] at lk
            split at lk
            · obtain ⟨xa, x, xb, ch, e, k1, k2, k3, k4, k5, k6, k7⟩ := lk
              have hx : x = c := by
                have : c ∈ xa ++ x :: xb := by rw [← e]; simp
                simp only [List.mem_append, List.mem_cons] at this
                rcases this with h | h | h
                · have := k6 c h; rw [hcl] at this; cases this
                · exact h.symm
                · have := k7 c h; rw [hcl] at this; cases this
              subst hx
              rw [g1] at k1; cases k1
              have mo := lb.2.2.2.1
              have un := lb.2.2.2.2
              simp only [CNode.hold_mk]
              cases hm : wd.mark with
              | inChild => rw [hm] at k5; simp only [LinkOk] at k5; rw [g4] at k5; cases k5
              | swapped j => rw [hm] at k5; simp only [LinkOk] at k5; rw [g4] at k5; cases k5.1
              | inSwap kv' =>
                right
                refine ⟨wd, kv', rfl, ?_, by rw [← k4, g3], by rw [hm]; rfl⟩
                cases hw : wd.linked with
                | true => rfl
                | false => have := (un hw).2; rw [hm] at this; cases this
              | swapIn j =>
                left
                rw [hm] at mo
                obtain ⟨_, kv1, q1, q2, _⟩ := mo
                rw [← k4, g3] at q2
                have := chain_mem (wf_ks wf) (List.mem_of_getElem? q1)
                exact ⟨gap_keq_right this.1 q2, gap_keq_left this.2 q2⟩
              | _ => rw [hm] at k5; exact k5.elim
            · have := lk c (by simp); rw [hcl] at this; cases this

theorem er_hold_none {t : CNode K V} (h : t.hold = none) : (er t).hold = none := by rw [er_hold]; exact h

/-- The keys of the calls where the walk still has to go belong into the subtree. -/
theorem opsA_btw {n m} : ∀ {h rt} {lo hi : Option K} {t : CNode K V}, BTreeConc.WF n rt h lo hi (er t) → Excl t → ∀ o ∈ opsA m t, Btw lo hi (opKey o)
  | h, rt, lo, hi, .mk w rs kvs cs, wf, he => by
    intro o ho
    simp only [opsA] at ho
    split at ho
    · obtain ⟨c, hc, h2⟩ := mem_opsAL.1 ho
      rw [er_mk] at wf
      cases h with
      | zero => have := wf.1; simp at this; subst this; cases hc
      | succ h =>
        obtain ⟨ca, cb, rfl⟩ := List.append_of_mem hc
        simp only [List.map_append, List.map_cons] at wf
        obtain ⟨lo', hi', wc, hf⟩ := focus wf
        exact (hf _ (opsA_btw wc ((excl_mk.1 he).2 c (by simp)) o h2)).1
    · rename_i hne
      have hw : w = none := by
        cases w with
        | none => rfl
        | some x => have := (excl_mk.1 he).1 rfl; subst this; simp at hne
      rcases ops_btw wf o (by rw [ops_er]; simpa only [ops] using ho) with hb | ⟨hd, kv, g1, _⟩
      · exact hb
      · subst hw; simp at g1

theorem loop_vis (mk : Nat × Op K V) (turn : K → Turn) : ∀ (kvs : List (K × V)) (cs : List (CNode K V)), ∀ x ∈ (walkLoop turn mk kvs cs).1, x ∈ kvs
  | [], cs, x, h => by simp [walkLoop] at h
  | kv :: kvs, cs, x, h => by
    have ih := loop_vis mk turn kvs (cs.drop 1) x
    rw [List.drop_one] at ih
    simp only [walkLoop] at h
    cases ht : turn kv.1 <;> rw [ht] at h <;> simp at h <;> simp <;> grind

theorem visit_vis {turn : K → Turn} {mk : Nat × Op K V} {t vis t'} (hv : Visit turn mk t vis t') : ∀ x ∈ vis, x ∈ allN t := by
  induction hv with
  | here hf => intro x hx; simp only [allN, List.mem_append]; exact .inl (loop_vis _ _ _ _ x hx)
  | child hs ih => intro x hx; simp only [allN, allL_append, allL, List.mem_append]; exact .inr (.inr (.inl (ih x hx)))

/-- No call about a key the walk has just reported is where it still has to go. -/
theorem visit_noop {n} {turn : K → Turn} {m : Nat} {tag : Op K V} (ht : startsWriting tag = true) {t vis t'} (hv : Visit turn (m, tag) t vis t') :
    ∀ {h rt} {lo hi : Option K}, BTreeConc.WF n rt h lo hi (er t) → Excl t → lay m t ≤ 1 → ∀ x ∈ vis, ∀ o ∈ opsA m t', keq x.1 (opKey o) = false := by
  induction hv with
  | here hf =>
    rename_i w ra rb kvs cs
    intro h rt lo hi wf he hl x hx o ho
    have hxk := loop_vis _ _ _ _ x hx
    have hw : w = none := by
      cases w with
      | none => rfl
      | some y => have := (excl_mk.1 he).1 rfl; simp at this
    subst hw
    have hz : marksN m (ra ++ rb) = 0 := by
      simp only [lay, marksN_append, marksN_cons, ht] at hl
      rw [marksN_append]; simp at hl; omega
    simp only [opsA, if_pos hz] at ho
    have ho := opsAL_sub m _ o ho
    rw [loop_ops] at ho
    obtain ⟨c, hc, h2⟩ := mem_opsL.1 ho
    rw [er_mk] at wf
    cases h with
    | zero => have := wf.1; simp at this; subst this; cases hc
    | succ h =>
      have lk := wf_links wf
      obtain ⟨ca, cb, rfl⟩ := List.append_of_mem hc
      simp only [List.map_append, List.map_cons] at wf lk
      obtain ⟨lo', hi', wc, hf⟩ := focus wf
      rcases ops_btw wc o (by rw [ops_er]; exact h2) with hb | ⟨hd, kv, g1, g2, _⟩
      · exact (hf _ hb).2.1 x hxk
      · have := lk (er c) (by simp)
        simp [CNode.linked, g1, g2] at this
  | child hs ih =>
    rename_i w rs kvs ca c cb vis c'
    intro h rt lo hi wf he hl x hx o ho
    have h1 := visit_lay ht hs
    simp only [lay, layL_append, layL] at hl
    have hz : marksN m rs = 0 := by omega
    simp only [opsA, if_pos hz, opsAL_append, opsAL, List.mem_append] at ho
    rw [er_mk] at wf
    simp only [List.map_append, List.map_cons] at wf
    cases h with
    | zero => have := wf.1; simp at this
    | succ h =>
      have hch := (excl_mk.1 he).2
      have sib : ∀ da d db, ca ++ c :: cb = da ++ d :: db → c ∈ da ++ db → o ∈ opsA m d → keq x.1 (opKey o) = false := by
        intro da d db e hcm hod
        rw [← List.map_cons (f := er), ← List.map_append, e] at wf
        simp only [List.map_append, List.map_cons] at wf
        obtain ⟨lo', hi', wc, hf⟩ := focus wf
        have hb := opsA_btw wc (hch d (by rw [e]; simp)) o hod
        refine (hf _ hb).2.2 (er c) ?_ x (flat_all.2 (visit_vis hs x hx))
        rw [← List.map_append]; exact List.mem_map_of_mem hcm
      rcases ho with ho | ho | ho
      · obtain ⟨d, hd, hod⟩ := mem_opsAL.1 ho
        obtain ⟨da, db, rfl⟩ := List.append_of_mem hd
        exact sib da d (db ++ c :: cb) (by simp) (by simp) hod
      · obtain ⟨lo', hi', wc, hf⟩ := focus wf
        exact ih wc (hch c (by simp)) (by omega) x hx o ho
      · obtain ⟨d, hd, hod⟩ := mem_opsAL.1 ho
        obtain ⟨da, db, rfl⟩ := List.append_of_mem hd
        exact sib (ca ++ c :: da) d db (by simp) (by simp) hod

/-- The walk has got past the key of the pair, and no call can bring it to where the walk still has to go. -/
def Done (x : K × V) (id : Nat) (w : W K V) : Prop := NoOp x.1 id w ∧ ∀ z : K × V, keq z.1 x.1 = true → z ∉ aheadO id w.st.root

theorem noop_keq {k k' : K} {id} {w : W K V} (e : keq k' k = true) (h : NoOp k id w) : NoOp k' id w := by
  intro o ho
  cases hc : keq k' (opKey o) with
  | false => rfl
  | true => have := h o ho; rw [keq_trans (keq_symm e) hc] at this; cases this

theorem done_step {n} (hn2 : 2 ≤ n) {w w' : W K V} {ev} (st : WStep n w ev w') (c : CInv n w) {x : K × V} {id} (hb : Begun id w)
    (d : Done x id w) : Done x id w' := by
  refine ⟨(move_step hn2 st c hb d.1).noop, fun z hz => ?_⟩
  have mv := move_step hn2 st c hb (noop_keq hz d.1)
  obtain ⟨y', h1, h2⟩ := mv.begun
  obtain ⟨_, _, _, _, _, _, h, _⟩ := mv.walk y' h1 h2
  exact (h (d.2 z hz)).1

/-- Pairs of the tree with the same key are the same. -/
theorem same_pair {n} {w : W K V} (c : CInv n w) {r} (hr : w.st.root = some r) {x z : K × V} (hx : x ∈ allN r) (hz : z ∈ allN r)
    (h : keq z.1 x.1 = true) : z = x := by
  obtain ⟨h0, wf⟩ := c.inv.tree (er r) (by simp [erS, hr])
  have hs := chain_sorted (wf_chain wf)
  have e1 := lookupL_of_mem hs (flat_all.2 hz) h
  have e2 := lookupL_of_mem hs (flat_all.2 hx) (keq_refl x.1)
  rw [e1] at e2; injection e2

/-- What the walk has reported: each key once, and it will not come back to them. -/
def Uniq (id : Nat) (w : W K V) : Prop := ∀ y ∈ w.walks, y.id = id →
  (∀ x ∈ y.seen, Done x id w) ∧ y.seen.Pairwise (fun a b => keq a.1 b.1 = false)

theorem uniq_step {n} (hn2 : 2 ≤ n) {w w' : W K V} {ev} (st : WStep n w ev w') (c : CInv n w) {id} (u : Uniq id w) : Uniq id w' := by
  have old : ∀ y ∈ w.walks, y.id = id → (∀ x ∈ y.seen, Done x id w') ∧ y.seen.Pairwise (fun a b => keq a.1 b.1 = false) :=
    fun y hy e => ⟨fun x hx => done_step hn2 st c ⟨y, hy, e⟩ ((u y hy e).1 x hx), (u y hy e).2⟩
  intro y' hy' e
  have dn := fun (x : K × V) (hb : Begun id w) => done_step hn2 st c (x := x) hb
  cases st with
  | other hs => exact old y' hy' e
  | begin i range tag ht hh hr hf hid =>
    rcases List.mem_cons.1 hy' with rfl | hy'
    · exact ⟨by simp, .nil⟩
    · exact old y' hy' e
  | beginEmpty i range hh hr hid =>
    rcases List.mem_cons.1 hy' with rfl | hy'
    · exact ⟨by simp, .nil⟩
    · exact old y' hy' e
  | visit tag ht hr hv =>
    rename_i s wa z wb r vis r'
    simp only [List.mem_append, List.mem_cons] at hy'
    rcases hy' with hy' | rfl | hy'
    · exact old y' (by simp [hy']) e
    · have o := visit_own_state c ht hr hv
      have hz : z.id = id := e
      obtain ⟨q1, q2⟩ := old z (by simp) hz
      have hu := (u z (by simp) hz).1
      rw [hz] at o hv
      obtain ⟨h0, wf⟩ := c.inv.tree (er r) (by simp [erS, hr])
      have hex : Excl r := by have := c.excl; simpa only [hr, ExclO] using this
      have hlay : lay id r ≤ 1 := by have := c.lay id; simpa only [hr, layO] using this
      have hno := visit_noop ht hv wf hex hlay
      have hin : ∀ x ∈ vis, x ∈ allN r := fun x hx => mem_all.2 (.inl (o.vis x hx).2)
      refine ⟨fun x hx => ?_, ?_⟩
      · rcases List.mem_append.1 hx with hx | hx
        · exact q1 x hx
        · refine ⟨fun p hp => hno x hx p hp, fun a ha hah => ?_⟩
          obtain ⟨k1, k2⟩ := o.ahead a hah
          have := same_pair c hr (hin x hx) (mem_all.2 (.inl k1)) ha
          rw [this] at k2; exact k2 hx
      · show (z.seen ++ vis).Pairwise _
        rw [List.pairwise_append]
        refine ⟨q2, ?_, fun a ha b hb => ?_⟩
        · have hnd : vis.Nodup := by
            refine nodup_of_once fun x hx => ?_
            have hx' : x ∈ allN r' := by rw [visit_all hv]; exact hin x hx
            rcases mem_all (m := id).1 hx' with h2 | h2
            · exact absurd hx (o.ahead x h2).2
            · rcases o.behind x h2 with ⟨_, q⟩ | ⟨_, q, _⟩
              · exact absurd hx q
              · exact q (o.vis x hx).1
          refine List.Pairwise.imp_of_mem (fun {a b} ha hb hab => ?_) hnd
          cases hk : keq a.1 b.1 with
          | false => rfl
          | true => exact absurd (same_pair c hr (hin b hb) (hin a ha) hk) hab
        · cases hk : keq a.1 b.1 with
          | false => rfl
          | true =>
            refine absurd (o.vis b hb).2 ?_
            have := (hu a ha).2 b (keq_symm hk)
            simpa only [hr, aheadO] using this
    · exact old y' (by simp [hy']) e

theorem uniq_run {n} (hn2 : 2 ≤ n) {P} {w0 w : W K V} {evs} (h : WRun n P w0 evs w) (c : CInv n w0) {id} (u : Uniq id w0) : Uniq id w := by
  induction h with
  | nil _ => exact u
  | step h hs hp ih => exact uniq_step hn2 hs (cinv_run hn2 h c) ih

/-! ### A key that is in the tree all the time -/

theorem listStep_stay {l l' : List (K × V)} (hs : Sorted l) {op : Op K V} {out} (h : listStep l op = (l', out)) {x z : K × V} (hx : x ∈ l) (hz : z ∈ l')
    (e : keq z.1 x.1 = true) : z = x := by
  have old : z ∈ l → z = x := by
    intro hz
    have e1 := lookupL_of_mem hs hz e
    have e2 := lookupL_of_mem hs hx (keq_refl x.1)
    rw [e1] at e2; injection e2
  have ins : ∀ (k : K) (v : V), lookupL k l = none → z ∈ insertL k v l → z = x := by
    intro k v hl hz
    rcases mem_insertL.1 hz with rfl | hz
    · rw [lookupL_of_mem hs hx (keq_symm e)] at hl; cases hl
    · exact old hz
  have del : ∀ (k : K), z ∈ eraseL k l → z = x := fun k h => old (List.mem_filter.1 h).1
  cases op with
  | create k v =>
    simp only [listStep] at h
    split at h
    · cases h; exact old hz
    · cases h; rename_i hl; exact ins k v hl hz
  | createOrFind k v =>
    simp only [listStep] at h
    split at h
    · cases h; exact old hz
    · cases h; rename_i hl; exact ins k v hl hz
  | find k => cases h; exact old hz
  | delete k can =>
    simp only [listStep] at h
    split at h
    · split at h
      · cases h; exact del k hz
      · cases h; exact old hz
    · cases h; exact del k hz
    · cases h; exact old hz

theorem items_stay {n} (hn2 : 2 ≤ n) {s s' : St K V} {ev} (st : BTreeConc.Step n s ev s') (inv : Inv n s) :
    itemsOf s'.root = itemsOf s.root ∨ ∃ op out, listStep (itemsOf s.root) op = (itemsOf s'.root, out) := by
  cases ev with
  | none =>
    rcases (tau_ok hn2 st inv).2 with h | ⟨_, op, out, h, _⟩
    · exact .inl h.1
    · exact .inr ⟨op, out, h⟩
  | some e => cases st <;> exact .inl rfl

theorem stores_items {w : W K V} {x : K × V} : w.stores x ↔ x ∈ itemsOf (erS w.st).root := by
  rw [stores_allO, mem_allO_flat]; exact Iff.rfl

/-- A pair is not replaced by one with the same key in one step. -/
theorem stay_step {n} (hn2 : 2 ≤ n) {w w' : W K V} {ev} (st : WStep n w ev w') (c : CInv n w) {x z : K × V} (hx : w.stores x) (hz : w'.stores z)
    (e : keq z.1 x.1 = true) : z = x := by
  rw [stores_items] at hx hz
  have hs : Sorted (itemsOf (erS w.st).root) := by
    cases hroot : (erS w.st).root with
    | none => exact List.Pairwise.nil
    | some r =>
      obtain ⟨h, wf⟩ := c.inv.tree r hroot
      exact chain_sorted (wf_chain wf)
  have old : z ∈ itemsOf (erS w.st).root → z = x := by
    intro hz
    have e1 := lookupL_of_mem hs hz e
    have e2 := lookupL_of_mem hs hx (keq_refl x.1)
    rw [e1] at e2; injection e2
  rcases wstep_er st c.inv with ⟨_, h⟩ | h
  · rw [h] at hz; exact old hz
  · rcases items_stay hn2 h c.inv with h | ⟨op, out, h⟩
    · rw [h] at hz; exact old hz
    · exact listStep_stay hs h hx hz e

theorem key_run {n} (hn2 : 2 ≤ n) {k : K} {w0 w : W K V} {evs} (c : CInv n w0) (h : WRun n (fun w => ∃ x : K × V, keq x.1 k = true ∧ w.stores x) w0 evs w) :
    ∃ x : K × V, keq x.1 k = true ∧ WRun n (W.stores x) w0 evs w := by
  induction h with
  | nil h0 => obtain ⟨x, h1, h2⟩ := h0; exact ⟨x, h1, .nil h2⟩
  | step h hs hp ih =>
    obtain ⟨x, h1, h2⟩ := ih
    obtain ⟨z, h3, h4⟩ := hp
    have := stay_step hn2 hs (cinv_run hn2 h c) (run_holds h2) h4 (keq_trans h3 (keq_symm h1))
    subst this
    exact ⟨z, h1, .step h2 hs h4⟩

theorem lt_congr {a b c : K} (e : keq a b = true) : (lt a c = lt b c) ∧ (lt c a = lt c b) := by
  constructor
  · rw [Bool.eq_iff_iff]; exact ⟨lt_of_keq_lt (keq_symm e), lt_of_keq_lt e⟩
  · rw [Bool.eq_iff_iff]; exact ⟨fun h => lt_of_lt_keq h e, fun h => lt_of_lt_keq h (keq_symm e)⟩

theorem has_keq {r : Range K} {a b : K} (e : keq a b = true) : r.has a ↔ r.has b := by
  have ht := keq_typ e
  cases r <;> simp only [Range.has, ht, (lt_congr e).1, (lt_congr e).2]

theorem same_keq (a b : K) : Spec.same a b = keq a b := rfl

/-- In one state there is at most one pair of a key. -/
theorem stores_one {n} {w : W K V} (c : CInv n w) {x z : K × V} (hx : w.stores x) (hz : w.stores z) (e : keq z.1 x.1 = true) : z = x := by
  rw [stores_allO] at hx hz
  cases hr : w.st.root with
  | none => rw [hr] at hx; cases hx
  | some r => rw [hr] at hx hz; exact same_pair c hr hx hz e

/-- A predicate holds in all states of a run, or it does not hold in one of them. -/
theorem run_or {n} {P} {w0 w : W K V} {evs} (h : WRun n (fun _ => True) w0 evs w) :
    WRun n P w0 evs w ∨ ∃ w1 e1 e2, WRun n (fun _ => True) w0 e1 w1 ∧ WRun n (fun _ => True) w1 e2 w ∧ ¬ P w1 := by
  induction h with
  | nil _ =>
    by_cases h : P w0
    · exact .inl (.nil h)
    · exact .inr ⟨w0, [], [], .nil trivial, .nil trivial, h⟩
  | step h hs hp ih =>
    rename_i w w' ev evs
    rcases ih with ih | ⟨w1, e1, e2, h1, h2, h3⟩
    · by_cases hP : P w'
      · exact .inl (ih.step hs hP)
      · exact .inr ⟨w', _, [], h.step hs trivial, .nil trivial, hP⟩
    · exact .inr ⟨w1, e1, _, h1, h2.step hs trivial, h3⟩

end
end Willow.BTreeWalk
