import Verif.Proofs.BTreeConcStep
set_option linter.unusedSectionVars false
set_option linter.unusedSimpArgs false
/-! Splitting full nodes, rotating and merging small ones, with other calls in the subtrees. -/
namespace Willow.BTreeConc
open KeyOps BTree Spec LawfulKey

variable {K V : Type} [LawfulKey K]

theorem linked_of_hold {c : CNode K V} {h : Hold K V} (hc : c.hold = some h) : c.linked = h.linked := by
  simp [CNode.linked, hc]
theorem unlinked_of_free {c : CNode K V} (hc : c.Free) : c.linked = false := by
  simp [CNode.linked, hc.1]

/-- The child that belongs to the call is the only one. -/
theorem links_at {n} {hd : Hold K V} {kvs : List (K × V)} {ca : List (CNode K V)} {c cb} (h : Links n (some hd) kvs (ca ++ c :: cb))
    (hl : c.linked = true) :
    hd.mark.waits = true ∧ (∃ ch, c.hold = some ch ∧ ch.linked = true ∧ ch.id = hd.id ∧ ch.op = hd.op ∧
      LinkOk n hd.mark kvs ca.length ch.mark c.count) ∧ (∀ x ∈ ca, x.linked = false) ∧ (∀ x ∈ cb, x.linked = false) := by
  simp only [Links] at h
  split at h
  · rename_i hw
    obtain ⟨ca', c', cb', ch, e, g1, g2, g3, g4, g5, g6, g7⟩ := h
    refine ⟨hw, ?_⟩
    rcases List.append_eq_append_iff.1 e with ⟨a, e1, e2⟩ | ⟨a, e1, e2⟩
    · cases a with
      | nil =>
        simp at e1 e2
        obtain ⟨rfl, rfl⟩ := e2
        subst e1
        exact ⟨⟨ch, g1, g2, g3, g4, g5⟩, g6, g7⟩
      | cons y a =>
        simp at e2
        obtain ⟨rfl, rfl⟩ := e2
        have := g6 c (by rw [e1]; simp)
        rw [hl] at this; cases this
    · cases a with
      | nil =>
        simp at e1 e2
        obtain ⟨rfl, rfl⟩ := e2
        subst e1
        exact ⟨⟨ch, g1, g2, g3, g4, g5⟩, g6, g7⟩
      | cons y a =>
        simp at e2
        obtain ⟨rfl, rfl⟩ := e2
        have := g7 c (by simp)
        rw [hl] at this; cases this
  · have := h c (by simp)
    rw [hl] at this; cases this

theorem wf_done {n h} {lo hi : Option K} {c : CNode K V} (w : WF n false h lo hi c) {id op lk out} :
    (c.hold = some ⟨id, op, lk, .under out⟩ → Body n h lo hi c.kvs c.children ∧ c.count + 1 = n / 2 ∧
      (∀ g ∈ c.children, g.linked = false) ∧ isDelete op = true) ∧
    (c.hold = some ⟨id, op, lk, .over out⟩ → Body n h lo hi c.kvs c.children ∧ c.count = n + 1 ∧
      (∀ g ∈ c.children, g.linked = false) ∧ isCreate op = true) := by
  cases c with
  | mk w' rs kvs cs =>
    simp only [CNode.hold_mk, CNode.kvs_mk, CNode.children_mk, CNode.count_mk]
    rw [wf_iff] at w
    refine ⟨fun e => ?_, fun e => ?_⟩
    · subst e
      exact ⟨w.1, by have := w.2.1.2.2.1; simpa [MarkSize] using this, links_unlinked w.2.2 rfl, w.2.1.2.2.2.1⟩
    · subst e
      exact ⟨w.1, by have := w.2.1.2.2.1; simpa [MarkSize] using this, links_unlinked w.2.2 rfl, w.2.1.2.2.2.1⟩

/-! ### Splitting -/

theorem not_any_of_next {lo hi : Option K} {a b : List (K × V)} {kv y : K × V} (h : Chain lo hi (a ++ kv :: y :: b)) : typ kv.1 ≠ DataType.any := by
  rw [chain_append] at h
  have := h.2.1
  simp at this
  exact any_top this

theorem split_spec {n h} {lo hi : Option K} {kvs : List (K × V)} {cs : List (CNode K V)} (hn : 1 ≤ n) (b : Body n h lo hi kvs cs)
    (hl : kvs.length = n + 1) (hu : ∀ g ∈ cs, g.linked = false) {kv l r} (hp : splitHalves n kvs cs = some (kv, l, r)) :
    WF n false h lo (some kv.1) l ∧ WF n false h (some kv.1) hi r ∧ typ kv.1 ≠ DataType.any ∧
      weave cs kvs = flat l ++ kv :: flat r ∧ l.hold = none ∧ r.hold = none := by
  simp only [splitHalves, max_eq] at hp
  split at hp
  · rename_i kv' hk
    injection hp with hp
    injection hp with e1 hp
    injection hp with e2 e3
    subst e1
    have hlt : n / 2 < kvs.length := by omega
    have hk' : kvs[n/2] = kv' := by rw [List.getElem?_eq_getElem hlt] at hk; exact Option.some.inj hk
    have ek : kvs = kvs.take (n/2) ++ kv' :: kvs.drop (n/2+1) := by
      rw [← hk', ← List.drop_eq_getElem_cons hlt, List.take_append_drop]
    have ec : cs = cs.take (n/2+1) ++ cs.drop (n/2+1) := (List.take_append_drop _ _).symm
    have et : kvs.take (n+1) = kvs := List.take_of_length_le (by omega)
    have etc : cs.take (n+2) = cs := by
      refine List.take_of_length_le ?_
      cases h with
      | zero => simp [b.1]
      | succ h => have := body_length b; omega
    rw [et, etc] at e3
    have hb : Body n h lo hi (kvs.take (n/2) ++ kv' :: kvs.drop (n/2+1)) (cs.take (n/2+1) ++ cs.drop (n/2+1)) := by
      rw [← ek, ← ec]; exact b
    obtain ⟨b1, b2⟩ := body_cut hb (by
      intro hh
      cases h with
      | zero => omega
      | succ h => have := body_length b; simp; omega)
    have hna : typ kv'.1 ≠ DataType.any := by
      have hks := body_ks b
      rw [ek] at hks
      cases hd : kvs.drop (n/2+1) with
      | nil => have : (kvs.drop (n/2+1)).length = 0 := by rw [hd]; rfl
               simp at this; omega
      | cons y ys => rw [hd] at hks; exact not_any_of_next hks
    refine ⟨?_, ?_, hna, ?_, by rw [← e2]; rfl, by rw [← e3]; rfl⟩
    · rw [← e2, wf_iff]
      refine ⟨b1, lbl_none ?_, fun g hg => hu g (List.mem_of_mem_take hg)⟩
      refine ⟨by simp; omega, fun _ => by simp; omega, fun hx => by cases hx⟩
    · rw [← e3, wf_iff]
      refine ⟨b2, lbl_none ?_, fun g hg => hu g (List.mem_of_mem_drop hg)⟩
      refine ⟨by simp; omega, fun _ => by simp; omega, fun hx => by cases hx⟩
    · rw [← e2, ← e3, flat_mk, flat_mk, ← weave_join b1 b2, ← ek, ← ec]
  · cases hp

theorem insertHalves_spec {lo hi : Option K} {ka kb : List (K × V)} {ca cb : List (CNode K V)} {c l r : CNode K V} {kv : K × V}
    (hl : ca.length = ka.length) (hks : Chain lo hi (ka ++ kb)) (h1 : Gap (loAfter lo ka) (some kv.1)) (h2 : Gap (some kv.1) (hiBefore kb hi))
    (hna : ∀ x ∈ ka ++ kb, typ x.1 ≠ DataType.any) (hkv : typ kv.1 ≠ DataType.any) :
    insertHalves (ka ++ kb) (ca ++ c :: cb) kv l r = (ka ++ kv :: kb, ca ++ l :: r :: cb) := by
  have g1 : ∀ x ∈ ka, lt x.1 kv.1 = true := by
    intro x hx
    cases hd : ka.reverse with
    | nil => simp at hd; subst hd; simp at hx
    | cons y ys =>
      have e : ka = ys.reverse ++ [y] := by rw [← List.reverse_reverse ka, hd]; simp
      subst e
      simp at h1
      simp at hx
      rcases hx with hx | rfl
      · have : Chain lo hi (ys.reverse ++ y :: kb) := by simpa using hks
        rw [chain_append] at this
        have := (chain_mem this.1 (x := x) (by simpa using hx)).2
        simp at this
        exact trans this h1
      · exact h1
  have hi' : (ka ++ kb).findIdx (fun x => less kv.1 x.1) = ka.length := by
    refine findIdx_split ?_ ?_
    · intro x hx
      rw [less_eq hkv (hna x (by simp [hx]))]
      exact asymm (g1 x hx)
    · rintro x l rfl
      rw [less_eq hkv (hna x (by simp))]
      simpa using h2
  simp only [insertHalves, hi']
  have : ca ++ c :: cb = (ca ++ [c]) ++ cb := by simp
  rw [List.take_left, List.drop_left, ← hl, List.take_left, this,
    show ca.length + 1 = (ca ++ [c]).length by simp, List.drop_left]

theorem step_split {n rt h} {lo hi : Option K} {id : Nat} {op : Op K V} {lk rs} {kvs : List (K × V)} {ca : List (CNode K V)} {c cb out kv l r}
    (hn2 : 2 ≤ n) (wf : WF n rt h lo hi (.mk (some ⟨id, op, lk, .inChild⟩) rs kvs (ca ++ c :: cb)))
    (hc : c.hold = some ⟨id, op, true, .over out⟩) (hp : splitHalves n c.kvs c.children = some (kv, l, r)) :
    let ks' := (insertHalves kvs (ca ++ c :: cb) kv l r).1
    let cs' := (insertHalves kvs (ca ++ c :: cb) kv l r).2
    (¬ ks'.length > maxValues n → StepOk n rt h lo hi ⟨id, op, lk, .inChild⟩ (.mk (some ⟨id, op, lk, .inChild⟩) rs kvs (ca ++ c :: cb))
      ⟨id, op, true, none, .left out⟩ (.mk none rs ks' cs')) ∧
    (ks'.length > maxValues n → StepOk n rt h lo hi ⟨id, op, lk, .inChild⟩ (.mk (some ⟨id, op, lk, .inChild⟩) rs kvs (ca ++ c :: cb))
      ⟨id, op, false, none, .moved⟩ (.mk (some ⟨id, op, lk, .over out⟩) rs ks' cs')) := by
  cases h with
  | zero => simp [WF] at wf
  | succ h =>
    have hks := wf_ks wf
    obtain ⟨ka, kb, rfl, e1, e2⟩ := forest_split wf.1
    obtain ⟨f, na, ⟨lr, l1, l2, l3, l4⟩, lk'⟩ := wf
    rw [forest_focus e1.symm] at f
    obtain ⟨_, ⟨ch, hc', _⟩, u1, u2⟩ := links_at lk' (by rw [linked_of_hold hc])
    obtain ⟨b, hcnt, hu, hcr⟩ := (wf_done f.2.1).2 hc
    obtain ⟨wl, wr, hkv, hfl, hl0, hr0⟩ := split_spec (by omega) b hcnt hu hp
    rw [insertHalves_spec e1.symm hks (wf_gap wl) (wf_gap wr) na hkv]
    intro ks' cs'
    have hF : Forest (WF n false h) lo hi (ka ++ kv :: kb) (ca ++ l :: r :: cb) :=
      (forest_focus e1.symm).2 ⟨f.1, wl, wr, f.2.2⟩
    have hna' : ∀ x ∈ ka ++ kv :: kb, typ x.1 ≠ DataType.any := by
      intro x hx; simp at hx
      rcases hx with hx | rfl | hx
      · exact na x (by simp [hx])
      · exact hkv
      · exact na x (by simp [hx])
    have hunl : ∀ x ∈ ca ++ l :: r :: cb, x.linked = false := by
      intro x hx; simp at hx
      rcases hx with hx | rfl | rfl | hx
      · exact u1 x hx
      · simp [CNode.linked, hl0]
      · simp [CNode.linked, hr0]
      · exact u2 x hx
    have hflat : weave (ca ++ l :: r :: cb) (ka ++ kv :: kb) = weave (ca ++ c :: cb) (ka ++ kb) := by
      rw [weave_focus e1.symm, weave_focus e1.symm]
      congr 1
      have : flat c = flat l ++ kv :: flat r := by
        rw [← hfl]; cases c; simp
      rw [this]; simp [after]
    have hsz : SizeOk n rt (h+1) (ka ++ kb).length := l2
    simp at hsz
    subst l1
    refine ⟨fun hx => ?_, fun hx => ?_⟩
    · refine stepOk_rel rfl ⟨hF, hna', lbl_none ?_, hunl⟩ ?_
      · rw [max_eq] at hx
        simp [ks'] at hx ⊢
        exact ⟨by omega, fun hr => by have := hsz.2.1 hr; omega, fun _ _ => by omega⟩
      · simp only [Effect, flat_mk]; exact hflat
    · rw [max_eq] at hx
      simp [ks'] at hx
      refine stepOk_keep (m := .over out) rfl rfl (by simp [ks']; omega) ⟨hF, hna', ⟨by simp, rfl, ?_, hcr, ?_⟩, ?_⟩ ?_
      · simp only [MarkSize]; have := hsz.1; simp [ks']; omega
      · intro hx'
        have := (l4 hx').1
        rw [safe_create hcr] at this
        simp at this; omega
      · simpa [Links, Mark.waits, cs'] using hunl
      · simp only [Effect, flat_mk]; exact hflat

/-! ### Two neighbours -/

theorem wf_pair {n rt h} {lo hi : Option K} {w rs} {ka kb : List (K × V)} {kv} {ca cb : List (CNode K V)} {b c}
    (wf : WF n rt h lo hi (.mk w rs (ka ++ kv :: kb) (ca ++ b :: c :: cb))) (hl : ca.length = ka.length) :
    ∃ h', h = h' + 1 ∧ Pre (WF n false h') lo ka ca ∧ WF n false h' (loAfter lo ka) (some kv.1) b ∧
      WF n false h' (some kv.1) (hiBefore kb hi) c ∧ Post (WF n false h') hi kb cb ∧
      (∀ x ∈ ka ++ kv :: kb, typ x.1 ≠ DataType.any) := by
  cases h with
  | zero => simp [WF] at wf
  | succ h =>
    have f := wf.1
    rw [forest_focus hl] at f
    exact ⟨h, rfl, f.1, f.2.1, f.2.2.1, f.2.2.2, wf.2.1⟩

/-- What a frame that rebalances a child knows. -/
theorem rebalance_frame {n rt h} {lo hi : Option K} {id : Nat} {op : Op K V} {lk mk rs} {kvs : List (K × V)} {ca : List (CNode K V)} {c cb out}
    (wf : WF n rt h lo hi (.mk (some ⟨id, op, lk, mk⟩) rs kvs (ca ++ c :: cb))) (hc : c.hold = some ⟨id, op, true, .under out⟩) :
    rs = [] ∧ SizeOk n rt h kvs.length ∧ swapOf mk = none ∧ (lk = false → safe n op kvs.length = true) ∧
      (∀ x ∈ ca, x.linked = false) ∧ (∀ x ∈ cb, x.linked = false) := by
  have lk' := wf_links wf
  obtain ⟨lr, l1, l2, l3, l4⟩ := wf_lbl wf
  obtain ⟨hw, ⟨ch, hc', _, _, _, hlo⟩, u1, u2⟩ := links_at lk' (by rw [linked_of_hold hc])
  rw [hc] at hc'; injection hc' with hc'; subst hc'
  refine ⟨l1, ?_, ?_, fun hx => (l4 hx).1, u1, u2⟩
  · refine sizeOk_of_mark l2 ?_
    intro o; refine ⟨?_, ?_⟩ <;> rintro rfl <;> simp [Mark.waits] at hw
  · cases mk <;> simp [LinkOk, swapOf, Mark.waits] at hlo hw ⊢

theorem flat_eq (c : CNode K V) : flat c = weave c.children c.kvs := by cases c; simp

theorem step_rotateLeft {n rt h} {lo hi : Option K} {id : Nat} {op : Op K V} {lk mk rs} {ka kb : List (K × V)} {kv} {ca : List (CNode K V)} {c d cb out rkv rkvs}
    (wf : WF n rt h lo hi (.mk (some ⟨id, op, lk, mk⟩) rs (ka ++ kv :: kb) (ca ++ c :: d :: cb)))
    (hc : c.hold = some ⟨id, op, true, .under out⟩) (hi' : ca.length = ka.length) (hd : d.Free)
    (hs : d.count > minValues n) (hk : d.kvs = rkv :: rkvs) :
    StepOk n rt h lo hi ⟨id, op, lk, mk⟩ (.mk (some ⟨id, op, lk, mk⟩) rs (ka ++ kv :: kb) (ca ++ c :: d :: cb)) ⟨id, op, true, none, .left out⟩
        (.mk none rs (ka ++ rkv :: kb)
          (ca ++ .mk none [] (c.kvs ++ [kv]) (c.children ++ d.children.take 1) :: .mk none [] rkvs (d.children.drop 1) :: cb)) := by
  obtain ⟨r1, r2, r3, r4, r5, r6⟩ := rebalance_frame wf hc
  obtain ⟨h', rfl, p1, p2, p3, p4, na⟩ := wf_pair wf hi'
  obtain ⟨bc, cc, uc, _⟩ := (wf_done p2).1 hc
  obtain ⟨ed, bd, sd, ud⟩ := wf_free p3 hd
  have hcnt : d.count = rkvs.length + 1 := by simp [CNode.count, hk]
  rw [min_eq] at hs
  have bd' : Body n h' (some kv.1) (hiBefore kb hi) ([] ++ rkv :: rkvs) (d.children.take 1 ++ d.children.drop 1) := by
    rw [List.take_append_drop, List.nil_append, ← hk]; exact bd
  obtain ⟨b1, b2⟩ := body_cut bd' (by
    intro hh
    cases h' with
    | zero => omega
    | succ h' => have := body_length bd; simp; omega)
  have bj := body_join bc b1 (fun _ => na kv (by simp))
  have hcl : c.kvs.length + 1 = n / 2 := cc
  have hrk : typ rkv.1 ≠ DataType.any := by
    have hks := body_ks bd
    rw [hk] at hks
    cases rkvs with
    | nil => simp at hcnt; omega
    | cons y ys => exact not_any_of_next (a := []) hks
  have wc : WF n false h' (loAfter lo ka) (some rkv.1) (.mk none [] (c.kvs ++ [kv]) (c.children ++ d.children.take 1)) := by
    rw [wf_iff]
    refine ⟨bj, lbl_none ⟨?_, ?_, ?_⟩, ?_⟩
    · simp; omega
    · intro _; simp; omega
    · intro hx; cases hx
    · intro g hg
      simp only [List.mem_append] at hg
      rcases hg with hg | hg
      · exact uc g hg
      · exact ud g (List.mem_of_mem_take hg)
  have wd : WF n false h' (some rkv.1) (hiBefore kb hi) (.mk none [] rkvs (d.children.drop 1)) := by
    rw [wf_iff]
    refine ⟨b2, lbl_none ⟨?_, ?_, ?_⟩, ?_⟩
    · have := sd.1; omega
    · intro _; omega
    · intro hx; cases hx
    · intro g hg; exact ud g (List.mem_of_mem_drop hg)
  subst r1
  refine stepOk_rel rfl ?_ ?_
  · rw [wf_iff]
    refine ⟨⟨(forest_focus hi').2 ⟨p1, wc, wd, p4⟩, ?_⟩, lbl_none (by simpa using r2), ?_⟩
    · intro x hx; simp at hx
      rcases hx with hx | rfl | hx
      · exact na x (by simp [hx])
      · exact hrk
      · exact na x (by simp [hx])
    · intro x hx; simp at hx
      rcases hx with hx | rfl | rfl | hx
      · exact r5 x hx
      · rfl
      · rfl
      · exact r6 x (by simp [hx])
  · simp only [Effect, flat_mk]
    rw [weave_focus hi', weave_focus hi']
    simp only [after, flat_mk]
    have e1 := weave_join (kv := kv) bc b1
    have e2 := weave_join (kv := rkv) b1 b2
    rw [List.take_append_drop, List.nil_append, ← hk, ← flat_eq] at e2
    rw [e1, e2, flat_eq c]
    simp

theorem step_rotateRight {n rt h} {lo hi : Option K} {id : Nat} {op : Op K V} {lk mk rs} {ka kb : List (K × V)} {kv} {ca : List (CNode K V)} {b c cb out lkv}
    (wf : WF n rt h lo hi (.mk (some ⟨id, op, lk, mk⟩) rs (ka ++ kv :: kb) (ca ++ b :: c :: cb)))
    (hc : c.hold = some ⟨id, op, true, .under out⟩) (hi' : ca.length = ka.length) (hb : b.Free)
    (hs : b.count > minValues n) (hk : b.kvs.getLast? = some lkv) :
    StepOk n rt h lo hi ⟨id, op, lk, mk⟩ (.mk (some ⟨id, op, lk, mk⟩) rs (ka ++ kv :: kb) (ca ++ b :: c :: cb)) ⟨id, op, true, none, .left out⟩
        (.mk none rs (ka ++ lkv :: kb)
          (ca ++ .mk none [] b.kvs.dropLast b.children.dropLast ::
            .mk none [] (kv :: c.kvs) (b.children.getLast?.toList ++ c.children) :: cb)) := by
  have wf' : WF n rt h lo hi (.mk (some ⟨id, op, lk, mk⟩) rs (ka ++ kv :: kb) ((ca ++ [b]) ++ c :: cb)) := by simpa using wf
  obtain ⟨r1, r2, r3, r4, r5, r6⟩ := rebalance_frame wf' hc
  obtain ⟨h', rfl, p1, p2, p3, p4, na⟩ := wf_pair wf hi'
  obtain ⟨bc, cc, uc, _⟩ := (wf_done p3).1 hc
  obtain ⟨eb, bb, sb, ub⟩ := wf_free p2 hb
  rw [min_eq] at hs
  obtain ⟨lks, ek⟩ : ∃ lks, b.kvs = lks ++ [lkv] := List.getLast?_eq_some_iff.1 hk
  have hcnt : b.count = lks.length + 1 := by simp [CNode.count, ek]
  have ecs : b.children = b.children.dropLast ++ b.children.getLast?.toList := by
    cases hx : b.children.getLast? with
    | none => simp at hx; simp [hx]
    | some g =>
      obtain ⟨gs, hgs⟩ := List.getLast?_eq_some_iff.1 hx
      rw [hgs]; simp
  have bb' : Body n h' (loAfter lo ka) (some kv.1) (lks ++ lkv :: []) (b.children.dropLast ++ b.children.getLast?.toList) := by
    rw [← ecs, ← ek]; exact bb
  obtain ⟨b1, b2⟩ := body_cut bb' (by
    intro hh
    cases h' with
    | zero => omega
    | succ h' =>
      have h1 := body_length bb
      rw [ek] at h1
      simp at h1 ⊢; omega)
  have bj := body_join b2 bc (fun _ => na kv (by simp))
  rw [List.nil_append] at bj
  have hcl : c.kvs.length + 1 = n / 2 := cc
  have hrk : typ lkv.1 ≠ DataType.any := by
    have hks := body_ks bb
    rw [ek, chain_append] at hks
    have := hks.2
    simp [Chain] at this
    exact any_top this
  have wb : WF n false h' (loAfter lo ka) (some lkv.1) (.mk none [] lks b.children.dropLast) := by
    rw [wf_iff]
    refine ⟨b1, lbl_none ⟨?_, ?_, ?_⟩, ?_⟩
    · have := sb.1; omega
    · intro _; omega
    · intro hx; cases hx
    · intro g hg; exact ub g (List.dropLast_subset _ hg)
  have wc : WF n false h' (some lkv.1) (hiBefore kb hi) (.mk none [] (kv :: c.kvs) (b.children.getLast?.toList ++ c.children)) := by
    rw [wf_iff]
    refine ⟨bj, lbl_none ⟨?_, ?_, ?_⟩, ?_⟩
    · simp; omega
    · intro _; simp; omega
    · intro hx; cases hx
    · intro g hg
      simp only [List.mem_append] at hg
      rcases hg with hg | hg
      · refine ub g ?_
        rw [ecs]; simp only [List.mem_append]; exact .inr hg
      · exact uc g hg
  have edl : b.kvs.dropLast = lks := by rw [ek]; simp
  rw [edl]
  subst r1
  refine stepOk_rel rfl ?_ ?_
  · rw [wf_iff]
    refine ⟨⟨(forest_focus hi').2 ⟨p1, wb, wc, p4⟩, ?_⟩, lbl_none (by simpa using r2), ?_⟩
    · intro x hx; simp at hx
      rcases hx with hx | rfl | hx
      · exact na x (by simp [hx])
      · exact hrk
      · exact na x (by simp [hx])
    · intro x hx; simp at hx
      rcases hx with hx | rfl | rfl | hx
      · exact r5 x (by simp [hx])
      · rfl
      · rfl
      · exact r6 x hx
  · simp only [Effect, flat_mk]
    rw [weave_focus hi', weave_focus hi']
    simp only [after, flat_mk]
    have e1 := weave_join (kv := lkv) b1 b2
    have e2 := weave_join (kv := kv) b2 bc
    rw [← ecs, ← ek, ← flat_eq] at e1
    rw [List.nil_append] at e2
    rw [e1, e2, flat_eq c]
    simp

theorem step_merge {n rt h} {lo hi : Option K} {id : Nat} {op : Op K V} {lk mk rs} {ka kb : List (K × V)} {kv} {ca : List (CNode K V)} {b c cb out}
    (hn2 : 2 ≤ n) (wf : WF n rt h lo hi (.mk (some ⟨id, op, lk, mk⟩) rs (ka ++ kv :: kb) (ca ++ b :: c :: cb)))
    (hc : (c.hold = some ⟨id, op, true, .under out⟩ ∧ b.Free ∧ ¬ b.count > minValues n) ∨
      (b.hold = some ⟨id, op, true, .under out⟩ ∧ c.Free ∧ ¬ c.count > minValues n)) (hi' : ca.length = ka.length) :
    let t := CNode.mk none [] (b.kvs ++ kv :: c.kvs) (b.children ++ c.children)
    (¬ (ka ++ kb).length < minValues n →
      StepOk n rt h lo hi ⟨id, op, lk, mk⟩ (.mk (some ⟨id, op, lk, mk⟩) rs (ka ++ kv :: kb) (ca ++ b :: c :: cb)) ⟨id, op, true, none, .left out⟩
        (.mk none rs (ka ++ kb) (ca ++ t :: cb))) ∧
    ((ka ++ kb).length < minValues n →
      StepOk n rt h lo hi ⟨id, op, lk, mk⟩ (.mk (some ⟨id, op, lk, mk⟩) rs (ka ++ kv :: kb) (ca ++ b :: c :: cb)) ⟨id, op, false, none, .moved⟩
        (.mk (some ⟨id, op, lk, .under out⟩) rs (ka ++ kb) (ca ++ t :: cb))) := by
  have wf' : WF n rt h lo hi (.mk (some ⟨id, op, lk, mk⟩) rs (ka ++ kv :: kb) ((ca ++ [b]) ++ c :: cb)) := by simpa using wf
  obtain ⟨h', rfl, p1, p2, p3, p4, na⟩ := wf_pair wf hi'
  rw [min_eq] at *
  obtain ⟨⟨r1, r2, r3, r4, r5, r6⟩, hdel, bb, bc, cc1, cc2, ub, uc⟩ :
      (rs = [] ∧ SizeOk n rt (h'+1) (ka ++ kv :: kb).length ∧ swapOf mk = none ∧ (lk = false → safe n op (ka ++ kv :: kb).length = true) ∧
        (∀ x ∈ ca, x.linked = false) ∧ (∀ x ∈ cb, x.linked = false)) ∧ isDelete op = true ∧
      Body n h' (loAfter lo ka) (some kv.1) b.kvs b.children ∧ Body n h' (some kv.1) (hiBefore kb hi) c.kvs c.children ∧
      b.kvs.length + c.kvs.length + 1 ≤ n ∧ n / 2 ≤ b.kvs.length + c.kvs.length + 1 ∧
      (∀ g ∈ b.children, g.linked = false) ∧ (∀ g ∈ c.children, g.linked = false) := by
    rcases hc with ⟨hc, hb, hs⟩ | ⟨hb, hc, hs⟩
    · obtain ⟨r1, r2, r3, r4, r5, r6⟩ := rebalance_frame wf' hc
      obtain ⟨bc, cc, uc, hdel⟩ := (wf_done p3).1 hc
      obtain ⟨eb, bb, sb, ub⟩ := wf_free p2 hb
      simp only [CNode.count] at cc hs sb
      have := sb.2.1 rfl
      refine ⟨⟨r1, r2, r3, r4, fun x hx => r5 x (by simp [hx]), r6⟩, hdel, bb, bc, by omega, by omega, ub, uc⟩
    · obtain ⟨r1, r2, r3, r4, r5, r6⟩ := rebalance_frame wf hb
      obtain ⟨bb, cb', ub, hdel⟩ := (wf_done p2).1 hb
      obtain ⟨ec, bc, sc, uc⟩ := wf_free p3 hc
      simp only [CNode.count] at cb' hs sc
      have := sc.2.1 rfl
      refine ⟨⟨r1, r2, r3, r4, r5, fun x hx => r6 x (by simp [hx])⟩, hdel, bb, bc, by omega, by omega, ub, uc⟩
  intro t
  have wt : WF n false h' (loAfter lo ka) (hiBefore kb hi) t := by
    rw [wf_iff]
    refine ⟨body_join bb bc (fun _ => na kv (by simp)), lbl_none ⟨?_, ?_, ?_⟩, ?_⟩
    · simp; omega
    · intro _; simp; omega
    · intro hx; cases hx
    · intro g hg
      simp only [List.mem_append] at hg
      rcases hg with hg | hg
      · exact ub g hg
      · exact uc g hg
  have hF : Forest (WF n false h') lo hi (ka ++ kb) (ca ++ t :: cb) := (forest_focus hi').2 ⟨p1, wt, p4⟩
  have hna' : ∀ x ∈ ka ++ kb, typ x.1 ≠ DataType.any := by
    intro x hx; simp at hx
    rcases hx with hx | hx <;> exact na x (by simp [hx])
  have hunl : ∀ x ∈ ca ++ t :: cb, x.linked = false := by
    intro x hx; simp at hx
    rcases hx with hx | rfl | hx
    · exact r5 x hx
    · rfl
    · exact r6 x hx
  have hflat : weave (ca ++ t :: cb) (ka ++ kb) = weave (ca ++ b :: c :: cb) (ka ++ kv :: kb) := by
    rw [weave_focus hi', weave_focus hi']
    simp only [after, t, flat_mk]
    rw [weave_join bb bc, flat_eq b, flat_eq c]
    simp
  have r2' := r2
  simp only [SizeOk, List.length_append, List.length_cons] at r2'
  subst r1
  refine ⟨fun hx => ?_, fun hx => ?_⟩
  · refine stepOk_rel rfl ⟨hF, hna', lbl_none ?_, hunl⟩ ?_
    · simp at hx ⊢
      exact ⟨by omega, fun hr => by omega, fun _ _ => by omega⟩
    · simp only [Effect, flat_mk]; exact hflat
  · simp at hx
    refine stepOk_keep (m := .under out) rfl (by rw [r3]; rfl) (by simp; omega) ⟨hF, hna', ⟨by simp, rfl, ?_, hdel, ?_⟩, ?_⟩ ?_
    · simp only [MarkSize]
      cases rt with
      | true => simpa using hx
      | false => have := r2'.2.1 rfl; simp; omega
    · intro hx'
      have := r4 hx'
      rw [safe_delete hdel] at this
      simp at this; omega
    · simpa [Links, Mark.waits] using hunl
    · simp only [Effect, flat_mk]; exact hflat

end Willow.BTreeConc
