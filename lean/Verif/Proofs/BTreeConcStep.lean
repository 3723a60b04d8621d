import Verif.Proofs.BTreeConcNode
set_option linter.unusedSectionVars false
set_option linter.unusedSimpArgs false
/-! Every step of a call keeps the invariant of the subtree and does to its items what it should. -/
namespace Willow.BTreeConc
open KeyOps BTree Spec LawfulKey

variable {K V : Type} [LawfulKey K]

/-! ### Lists -/

theorem gap_loAfter {lo : Option K} {ka : List (K × V)} {k : K} (h : Gap lo (some k)) (hl : AllLt ka k) :
    Gap (loAfter lo ka) (some k) := by
  induction ka generalizing lo with
  | nil => exact h
  | cons a l ih => exact ih (by simpa using hl a (by simp)) (fun x hx => hl x (by simp [hx]))
theorem gap_hiBefore {hi : Option K} {kb : List (K × V)} {k : K} (h : Gap (some k) hi)
    (hl : ∀ kv ks, kb = kv :: ks → lt k kv.1 = true) : Gap (some k) (hiBefore kb hi) := by
  cases kb with
  | nil => exact h
  | cons a l => simpa using hl a l rfl

theorem chain_skip {lo hi : Option K} {a b : List (K × V)} {kv : K × V} (h : Chain lo hi (a ++ kv :: b)) : Chain lo hi (a ++ b) := by
  induction a generalizing lo with
  | nil => exact chain_lo h.2 (fun k hk => gap_trans h.1 hk)
  | cons x a ih => exact ⟨h.1, ih h.2⟩

theorem chain_insertL {lo hi : Option K} {l : List (K × V)} {k : K} {v : V} (h : Chain lo hi l) (h1 : Gap lo (some k)) (h2 : Gap (some k) hi)
    (hn : lookupL k l = none) : Chain lo hi (insertL k v l) := by
  refine chain_of_sorted (chain_gap h) (sorted_insertL (chain_sorted h) hn) ?_
  intro x hx
  rcases mem_insertL.1 hx with rfl | hx
  · exact ⟨h1, h2⟩
  · exact chain_mem h hx

theorem insertL_length (k : K) (v : V) (l : List (K × V)) : (insertL k v l).length = l.length + 1 := by
  simpa using (insertL_perm k v l).length_eq

theorem mem_after {kv : K × V} : ∀ {cs : List (CNode K V)} {ks : List (K × V)}, kv ∈ ks → kv ∈ after cs ks
  | [], ks, h => by simpa [after] using h
  | c :: cs, [], h => by simp at h
  | c :: cs, k :: ks, h => by
    simp only [after, List.mem_cons, List.mem_append] at h ⊢
    rcases h with h | h
    · exact .inl h
    · exact .inr (.inr (mem_after h))
theorem mem_weave {kv : K × V} {cs : List (CNode K V)} {ks : List (K × V)} (h : kv ∈ ks) : kv ∈ weave cs ks := by
  cases cs with
  | nil => simpa using h
  | cons c cs => simp only [weave, List.mem_append]; exact .inr (mem_after h)

theorem length_after : ∀ {cs : List (CNode K V)} {ks : List (K × V)}, ks.length ≤ (after cs ks).length
  | [], ks => by simp [after]
  | c :: cs, [] => by simp
  | c :: cs, k :: ks => by
    have := @length_after cs ks
    simp only [after, List.length_cons, List.length_append]; omega
theorem length_weave {cs : List (CNode K V)} {ks : List (K × V)} : ks.length ≤ (weave cs ks).length := by
  cases cs with
  | nil => simp
  | cons c cs => have := length_after (cs := cs) (ks := ks); simp only [weave, List.length_append]; omega

theorem erase_mid {l : List (K × V)} {L R : List (K × V)} {kv : K × V} {k : K} (e : l = L ++ kv :: R) (hs : Sorted l)
    (hk : keq kv.1 k = true) : lookupL k l = some kv ∧ eraseL k l = L ++ R := by
  subst e
  refine ⟨lookupL_of_mem hs (by simp) hk, ?_⟩
  rw [sorted_append, sorted_cons] at hs
  have h1 : AllLt L k := fun x hx => lt_of_lt_keq (hs.2.2 x hx kv (by simp)) hk
  have h2 : AllGt R k := fun x hx => lt_of_keq_lt (keq_symm hk) (hs.2.1.1 x hx)
  have : kv :: R = [kv] ++ R := rfl
  rw [eraseL_append, eraseL_lt h1, this, eraseL_append, eraseL_gt h2]
  simp [eraseL, hk]

theorem delete_effect {l L R : List (K × V)} {kv : K × V} {k : K} {can} (e : l = L ++ kv :: R) (hs : Sorted l)
    (hk : keq kv.1 k = true) (ha : answer can kv = true) : listStep l (.delete k can) = (L ++ R, askedOut can kv) := by
  obtain ⟨h1, h2⟩ := erase_mid e hs hk
  simp only [listStep, h1, h2, askedOut]
  cases can with
  | none => rfl
  | some f => simp only [answer] at ha; simp [ha]

theorem refuse_effect {l : List (K × V)} {kv : K × V} {k : K} {can} (hl : lookupL k l = some kv) (ha : answer can kv = false) :
    listStep l (.delete k can) = (l, askedOut can kv) := by
  simp only [listStep, hl, askedOut]
  cases can with
  | none => simp [answer] at ha
  | some f => simp only [answer] at ha; simp [ha]

/-! ### What a step guarantees -/

/-- What one step of the call holding `t` guarantees. -/
structure StepOk (n : Nat) (rt : Bool) (h : Nat) (lo hi : Option K) (hd : Hold K V) (t : CNode K V) (e : Eff K V) (t' : CNode K V) : Prop where
  id : e.id = hd.id
  op : e.op = hd.op
  rel : e.rel = true → t'.hold = none
  keep : e.rel = false → ∃ m, t'.hold = some { hd with mark := m } ∧
    swapOf m = (if e.swap.isNone then swapOf hd.mark else none) ∧ (n / 2 + 1 ≤ t.count → n / 2 + 1 ≤ t'.count)
  plain : e.swap = none → WF n rt h lo hi t' ∧ Effect lo hi hd.op e.outcome (flat t) (flat t')
  swap : ∀ x, e.swap = some x → ∃ kv, swapOf hd.mark = some kv ∧
    (∃ k can, hd.op = .delete k can ∧ (e.outcome = .applied (askedOut can kv) ∨ e.outcome = .answered (askedOut can kv))) ∧
    (lo = some kv.1 → WF n rt h (some x.1) hi t' ∧ flat t = x :: flat t') ∧
    (hi = some kv.1 → WF n rt h lo (some x.1) t' ∧ flat t = flat t' ++ [x])

/-- A step that ends with the node unlocked and no item handed up. -/
theorem stepOk_rel {n rt h} {lo hi : Option K} {hd : Hold K V} {t t' : CNode K V} {o} (h1 : t'.hold = none) (h2 : WF n rt h lo hi t')
    (h3 : Effect lo hi hd.op o (flat t) (flat t')) : StepOk n rt h lo hi hd t ⟨hd.id, hd.op, true, none, o⟩ t' :=
  ⟨rfl, rfl, fun _ => h1, (fun h => by cases h), fun _ => ⟨h2, h3⟩, (fun x hx => by cases hx)⟩

/-- A step that keeps the node locked and hands no item up. -/
theorem stepOk_keep {n rt h} {lo hi : Option K} {hd : Hold K V} {t t' : CNode K V} {o m} (h1 : t'.hold = some { hd with mark := m })
    (hsw : swapOf m = swapOf hd.mark) (hcount : n / 2 + 1 ≤ t.count → n / 2 + 1 ≤ t'.count) (h2 : WF n rt h lo hi t')
    (h3 : Effect lo hi hd.op o (flat t) (flat t')) : StepOk n rt h lo hi hd t ⟨hd.id, hd.op, false, none, o⟩ t' :=
  ⟨rfl, rfl, (fun h => by cases h), fun _ => ⟨m, h1, (by simpa using hsw), hcount⟩, fun _ => ⟨h2, h3⟩, (fun x hx => by cases hx)⟩

theorem sizeOk_of_mark {n rt h c} {m : Mark K V} (hs : MarkSize n rt h c m) (h1 : ∀ out, m ≠ .over out ∧ m ≠ .under out) : SizeOk n rt h c := by
  cases m <;> simp only [MarkSize] at hs <;> first | exact hs | skip
  · exact absurd rfl (h1 _).1
  · exact absurd rfl (h1 _).2

theorem lookup_in_node {n rt h} {lo hi : Option K} {w rs} {kvs : List (K × V)} {cs} (wf : WF n rt h lo hi (.mk w rs kvs cs)) {k : K} {kv}
    (hh : hit k kvs = some kv) : lookupL k (weave cs kvs) = some kv := by
  obtain ⟨ks1, ks2, rfl, _, _, h4⟩ := hit_some hh
  have := chain_sorted (wf_chain wf)
  rw [flat_mk] at this
  exact lookupL_of_mem this (mem_weave (by simp)) h4

/-! ### Locking a child -/

theorem scan_gaps {lo hi : Option K} {ka kb : List (K × V)} {k : K} (hh : hit k (ka ++ kb) = none) (hl : ka.length = scan k (ka ++ kb))
    (h1 : Gap lo (some k)) (h2 : Gap (some k) hi) : Gap (loAfter lo ka) (some k) ∧ Gap (some k) (hiBefore kb hi) := by
  obtain ⟨ks1, ks2, e, g2, g3, g4⟩ := hit_none hh
  have : ka = ks1 ∧ kb = ks2 := List.append_inj e (by omega)
  obtain ⟨rfl, rfl⟩ := this
  exact ⟨gap_loAfter h1 g3, gap_hiBefore h2 g4⟩

theorem weave_same {ca cb : List (CNode K V)} {c c' : CNode K V} {ks ka kb : List (K × V)} (e : ks = ka ++ kb) (hl : ca.length = ka.length)
    (h : flat c' = flat c) : weave (ca ++ c' :: cb) ks = weave (ca ++ c :: cb) ks := by
  subst e; rw [weave_focus hl, weave_focus hl, h]

theorem held_linked {c : CNode K V} {h : Hold K V} : (c.held (some h)).linked = h.linked := by cases c; rfl
theorem held_hold {c : CNode K V} {h : Option (Hold K V)} : (c.held h).hold = h := by cases c; rfl
theorem held_count {c : CNode K V} {h : Option (Hold K V)} : (c.held h).count = c.count := by cases c; rfl
theorem held_kvs {c : CNode K V} {h : Option (Hold K V)} : (c.held h).kvs = c.kvs := by cases c; rfl
theorem held_children {c : CNode K V} {h : Option (Hold K V)} : (c.held h).children = c.children := by cases c; rfl

theorem step_descend {n rt h} {lo hi : Option K} {id : Nat} {op : Op K V} {lk rs} {kvs : List (K × V)} {ca : List (CNode K V)} {c cb}
    (wf : WF n rt h lo hi (.mk (some ⟨id, op, lk, .down⟩) rs kvs (ca ++ c :: cb)))
    (hh : hit (opKey op) kvs = none) (hi' : ca.length = scan (opKey op) kvs) (hf : c.Free) (s : Bool) (hs : safe n op c.count = s) :
    StepOk n rt h lo hi ⟨id, op, lk, .down⟩ (.mk (some ⟨id, op, lk, .down⟩) rs kvs (ca ++ c :: cb)) ⟨id, op, s, none, .moved⟩
      (.mk (if s then none else some ⟨id, op, lk, .inChild⟩) rs kvs (ca ++ c.held (some ⟨id, op, !s, .down⟩) :: cb)) := by
  cases h with
  | zero => simp [WF] at wf
  | succ h =>
    obtain ⟨ka, kb, rfl, e1, e2⟩ := forest_split wf.1
    obtain ⟨f, na, ⟨lr, l1, l2, l3, l4⟩, lk'⟩ := wf
    have hun := links_unlinked lk' rfl
    rw [forest_focus e1.symm] at f
    obtain ⟨g1, g2⟩ := scan_gaps hh (by omega) l3.1 l3.2.1
    have wc := wf_held (hd := ⟨id, op, !s, .down⟩) f.2.1 hf rfl (by intro out; simp) ⟨g1, g2, l3.2.2⟩ (by
      intro hx; simp at hx; subst hx; exact ⟨hs, rfl⟩)
    have hF := (forest_focus (P := WF n false h) (lo := lo) (hi := hi) (kb := kb) (cb := cb) e1.symm).2 ⟨f.1, wc, f.2.2⟩
    subst l1
    cases s with
    | true =>
      refine stepOk_rel rfl ?_ ?_
      · refine ⟨hF, na, lbl_none l2, ?_⟩
        intro x hx
        simp at hx
        rcases hx with hx | rfl | hx
        · exact hun x (by simp [hx])
        · rw [held_linked]
        · exact hun x (by simp [hx])
      · simp only [Effect, flat_mk]
        exact (weave_same rfl e1.symm (flat_held _ _))
    | false =>
      refine stepOk_keep (m := .inChild) rfl rfl (by simp) ?_ ?_
      · refine ⟨hF, na, ⟨by simp, rfl, l2, l3.2.2, fun hx => ⟨(l4 hx).1, rfl⟩⟩, ?_⟩
        simp only [Links, Mark.waits, if_true]
        refine ⟨ca, _, cb, ⟨id, op, true, .down⟩, rfl, held_hold, rfl, rfl, rfl, rfl, ?_, ?_⟩
        · intro x hx; exact hun x (by simp [hx])
        · intro x hx; exact hun x (by simp [hx])
      · simp only [Effect, flat_mk]
        exact (weave_same rfl e1.symm (flat_held _ _))

/-! ### Leaves -/

theorem step_insert {n rt h} {lo hi : Option K} {id : Nat} {op : Op K V} {lk rs} {kvs : List (K × V)} {item}
    (wf : WF n rt h lo hi (.mk (some ⟨id, op, lk, .down⟩) rs kvs [])) (hw : newItem op = some item) (hh : hit (opKey op) kvs = none) :
    let kvs' := leafInsert item.1 (some item.2) kvs
    (¬ kvs'.length > maxValues n → StepOk n rt h lo hi ⟨id, op, lk, .down⟩ (.mk (some ⟨id, op, lk, .down⟩) rs kvs [])
      ⟨id, op, true, none, .answered (createdOut op)⟩ (.mk none rs kvs' [])) ∧
    (kvs'.length > maxValues n → StepOk n rt h lo hi ⟨id, op, lk, .down⟩ (.mk (some ⟨id, op, lk, .down⟩) rs kvs [])
      ⟨id, op, false, none, .applied (createdOut op)⟩ (.mk (some ⟨id, op, lk, .over (createdOut op)⟩) rs kvs' [])) := by
  have h0 := body_leaf (wf_iff.1 wf).1
  subst h0
  obtain ⟨_, ch, ⟨lr, l1, l2, l3, l4⟩, _⟩ := wf
  obtain ⟨i1, i2, i3⟩ := isCreate_of_item hw
  have hs := chain_sorted ch
  have hln := lookup_leaf_none hs hh
  rw [← i3] at hh hln
  intro kvs'
  have e : kvs' = insertL item.1 item.2 kvs := leafInsert_some hs hh
  have hch : Chain lo hi kvs' := by
    rw [e]; refine chain_insertL ch ?_ ?_ hln
    · rw [i3]; exact l3.1
    · rw [i3]; exact l3.2.1
  have hlen : kvs'.length = kvs.length + 1 := by rw [e, insertL_length]
  have heff : listStep kvs op = (kvs', createdOut op) := by
    cases op <;> simp [newItem] at hw <;> subst hw <;> simp only [listStep, hln, e, createdOut]
  have hsz : SizeOk n rt 0 kvs.length := l2
  subst l1
  refine ⟨fun hn => ?_, fun hn => ?_⟩
  · refine stepOk_rel rfl ⟨rfl, hch, lbl_none ?_, by simp [Links]⟩ ?_
    · rw [max_eq] at hn
      exact ⟨by omega, fun hr => by have := hsz.2.1 hr; omega, fun _ hx => by omega⟩
    · simp only [Effect, flat_mk, weave_nil]; exact ⟨heff, l3.1, l3.2.1⟩
  · have hfull : kvs.length = n := by rw [max_eq] at hn; have := hsz.1; omega
    refine stepOk_keep (m := .over _) rfl rfl (by simp; omega) ⟨rfl, hch, ⟨by simp, rfl, ?_, i1, ?_⟩, by simp [Links, Mark.waits]⟩ ?_
    · simp only [MarkSize]; omega
    · intro hx
      have := (l4 hx).1
      rw [safe_create i1] at this
      omega
    · simp only [Effect, flat_mk, weave_nil]; exact ⟨heff, l3.1, l3.2.1⟩

theorem step_remove {n rt h} {lo hi : Option K} {id : Nat} {k : K} {can : Option (K × V → Bool)} {lk rs} {kvs : List (K × V)} {kv}
    (wf : WF n rt h lo hi (.mk (some ⟨id, .delete k can, lk, .down⟩) rs kvs [])) (hh : hit k kvs = some kv) (ha : answer can kv = true) :
    let kvs' := kvs.eraseIdx (scan k kvs)
    (¬ kvs'.length < minValues n → StepOk n rt h lo hi ⟨id, .delete k can, lk, .down⟩ (.mk (some ⟨id, .delete k can, lk, .down⟩) rs kvs [])
      ⟨id, .delete k can, true, none, .answered (askedOut can kv)⟩ (.mk none rs kvs' [])) ∧
    (kvs'.length < minValues n → StepOk n rt h lo hi ⟨id, .delete k can, lk, .down⟩ (.mk (some ⟨id, .delete k can, lk, .down⟩) rs kvs [])
      ⟨id, .delete k can, false, none, .applied (askedOut can kv)⟩ (.mk (some ⟨id, .delete k can, lk, .under (askedOut can kv)⟩) rs kvs' [])) := by
  have h0 := body_leaf (wf_iff.1 wf).1
  subst h0
  obtain ⟨_, ch, ⟨lr, l1, l2, l3, l4⟩, _⟩ := wf
  have hs := chain_sorted ch
  obtain ⟨ks1, ks2, e, e2, _, e4⟩ := hit_some hh
  intro kvs'
  have ek : kvs' = ks1 ++ ks2 := by
    show kvs.eraseIdx (scan k kvs) = _
    rw [← e2, e]; rw [List.eraseIdx_append_of_length_le (Nat.le_refl _)]; simp
  have hch : Chain lo hi kvs' := by rw [ek]; rw [e] at ch; exact chain_skip ch
  have hlen : kvs'.length + 1 = kvs.length := by rw [ek, e]; simp; omega
  have heff : listStep kvs (.delete k can) = (kvs', askedOut can kv) := by rw [ek]; exact delete_effect e hs e4 ha
  have hsz : SizeOk n rt 0 kvs.length := l2
  subst l1
  refine ⟨fun hn => ?_, fun hn => ?_⟩
  · rw [min_eq] at hn
    refine stepOk_rel rfl ⟨rfl, hch, lbl_none ?_, by simp [Links]⟩ ?_
    · exact ⟨by have := hsz.1; omega, fun hr => by omega, fun _ hx => by omega⟩
    · simp only [Effect, flat_mk, weave_nil]; exact ⟨heff, l3.1, l3.2.1⟩
  · rw [min_eq] at hn
    refine stepOk_keep (m := .under _) rfl rfl (by simp; omega) ⟨rfl, hch, ⟨by simp, rfl, ?_, rfl, ?_⟩, by simp [Links, Mark.waits]⟩ ?_
    · simp only [MarkSize]
      cases rt with
      | true => simpa using hn
      | false => have := hsz.2.1 rfl; simp; omega
    · intro hx
      have := (l4 hx).1
      rw [safe_delete rfl] at this
      omega
    · simp only [Effect, flat_mk, weave_nil]; exact ⟨heff, l3.1, l3.2.1⟩

theorem not_swap_unlinked {n rt h} {lo hi : Option K} {hd : Hold K V} {rs} {kvs : List (K × V)} {cs kv}
    (wf : WF n rt h lo hi (.mk (some hd) rs kvs cs)) (hs : swapOf hd.mark = some kv) : hd.linked = true := by
  have := (wf_lbl wf).2.2.2.2
  cases hl : hd.linked with
  | true => rfl
  | false => rw [(this hl).2] at hs; cases hs

/-- The first item of a leaf is not smaller than the deleted one exactly when the leaf lies to the right of it. -/
theorem swap_side {lo hi : Option K} {kvs : List (K × V)} {first : K × V} {kv : K × V} (ch : Chain lo hi kvs) (hm : first ∈ kvs) :
    (lo = some kv.1 → less first.1 kv.1 = false) ∧ (hi = some kv.1 → typ kv.1 ≠ DataType.any → less first.1 kv.1 = true) := by
  have hb := chain_mem ch hm
  refine ⟨fun e => ?_, fun e hk => ?_⟩
  · rw [e] at hb
    have h1 := hb.1
    simp at h1
    by_cases ha : typ first.1 = DataType.any
    · exact less_any (.inl ha)
    · rw [less_eq ha (any_top h1)]; exact asymm h1
  · rw [e] at hb
    have h1 := hb.2
    simp at h1
    rw [less_eq (any_top h1) hk]; exact h1

/-! ### Answers without a change -/

theorem step_same {n rt h} {lo hi : Option K} {id : Nat} {op : Op K V} {lk rs} {kvs : List (K × V)} {cs} {out}
    (wf : WF n rt h lo hi (.mk (some ⟨id, op, lk, .down⟩) rs kvs cs)) (he : listStep (weave cs kvs) op = (weave cs kvs, out)) :
    StepOk n rt h lo hi ⟨id, op, lk, .down⟩ (.mk (some ⟨id, op, lk, .down⟩) rs kvs cs) ⟨id, op, true, none, .answered out⟩
      (.mk none rs kvs cs) := by
  obtain ⟨lr, l1, l2, l3, l4⟩ := wf_lbl wf
  have hun := links_unlinked (wf_links wf) rfl
  refine stepOk_rel rfl (wf_relabel wf ⟨lr, l2⟩ hun) ?_
  simp only [Effect, flat_mk]; exact ⟨he, l3.1, l3.2.1⟩

theorem step_found {n rt h} {lo hi : Option K} {id : Nat} {op : Op K V} {lk rs} {kvs : List (K × V)} {cs} {kv item}
    (wf : WF n rt h lo hi (.mk (some ⟨id, op, lk, .down⟩) rs kvs cs)) (hw : newItem op = some item) (hh : hit (opKey op) kvs = some kv) :
    StepOk n rt h lo hi ⟨id, op, lk, .down⟩ (.mk (some ⟨id, op, lk, .down⟩) rs kvs cs) ⟨id, op, true, none, .answered (foundOut op kv)⟩
      (.mk none rs kvs cs) := by
  refine step_same wf ?_
  have := lookup_in_node wf hh
  cases op <;> simp [newItem] at hw <;> simp only [opKey] at this <;> simp only [listStep, this, foundOut]

theorem step_missing {n rt h} {lo hi : Option K} {id : Nat} {k : K} {can : Option (K × V → Bool)} {lk rs} {kvs : List (K × V)}
    (wf : WF n rt h lo hi (.mk (some ⟨id, .delete k can, lk, .down⟩) rs kvs [])) (hh : hit k kvs = none) :
    StepOk n rt h lo hi ⟨id, .delete k can, lk, .down⟩ (.mk (some ⟨id, .delete k can, lk, .down⟩) rs kvs [])
      ⟨id, .delete k can, true, none, .answered (.delete none)⟩ (.mk none rs kvs []) := by
  refine step_same wf ?_
  have := lookup_leaf_none (chain_sorted (wf_ks wf)) hh
  simp only [weave_nil, listStep, this]

theorem step_refused {n rt h} {lo hi : Option K} {id : Nat} {k : K} {can : Option (K × V → Bool)} {lk rs} {kvs : List (K × V)} {cs kv}
    (wf : WF n rt h lo hi (.mk (some ⟨id, .delete k can, lk, .down⟩) rs kvs cs)) (hh : hit k kvs = some kv) (hr : answer can kv = false) :
    StepOk n rt h lo hi ⟨id, .delete k can, lk, .down⟩ (.mk (some ⟨id, .delete k can, lk, .down⟩) rs kvs cs)
      ⟨id, .delete k can, true, none, .answered (askedOut can kv)⟩ (.mk none rs kvs cs) :=
  step_same wf (refuse_effect (lookup_in_node wf hh) hr)

/-! ### Locking the leaf whose item replaces the deleted one -/

theorem step_swapIn {n rt h} {lo hi : Option K} {id : Nat} {k : K} {can : Option (K × V → Bool)} {lk rs} {kvs : List (K × V)}
    {ca : List (CNode K V)} {c cb kv}
    (wf : WF n rt h lo hi (.mk (some ⟨id, .delete k can, lk, .down⟩) rs kvs (ca ++ c :: cb)))
    (hh : hit k kvs = some kv) (hr : answer can kv = true) (hf : c.Free)
    (hi' : ca.length = scan k kvs ∨ ca.length = scan k kvs + 1 ∧ n / 2 + 1 ≤ c.count) :
    StepOk n rt h lo hi ⟨id, .delete k can, lk, .down⟩ (.mk (some ⟨id, .delete k can, lk, .down⟩) rs kvs (ca ++ c :: cb))
      ⟨id, .delete k can, false, none, .moved⟩
      (.mk (some ⟨id, .delete k can, lk, .swapIn (scan k kvs)⟩) rs kvs (ca ++ c.held (some ⟨id, .delete k can, true, .swapDown kv⟩) :: cb)) := by
  cases h with
  | zero => simp [WF] at wf
  | succ h =>
    obtain ⟨ka, kb, e0, e1, e2⟩ := forest_split wf.1
    obtain ⟨f, na, ⟨lr, l1, l2, l3, l4⟩, lk'⟩ := wf
    have hun := links_unlinked lk' rfl
    obtain ⟨ks1, ks2, h1, h2, h3, h4⟩ := hit_some hh
    have hget : kvs[scan k kvs]? = some kv := by rw [← h2]; rw [h1]; simp
    rw [e0, forest_focus e1.symm] at f
    have hside : loAfter lo ka = some kv.1 ∨ hiBefore kb hi = some kv.1 := by
      rw [h1] at e0
      rcases hi' with hx | ⟨hx, _⟩
      · have : ks1 = ka ∧ kv :: ks2 = kb := List.append_inj e0 (by omega)
        obtain ⟨rfl, rfl⟩ := this
        exact .inr rfl
      · have : (ks1 ++ [kv]) ++ ks2 = ka ++ kb := by rw [← e0]; simp
        have : ks1 ++ [kv] = ka ∧ ks2 = kb := List.append_inj this (by simp; omega)
        obtain ⟨rfl, rfl⟩ := this
        left; simp
    have hna := na kv (List.mem_of_getElem? hget)
    have wc := wf_held (hd := ⟨id, .delete k can, true, .swapDown kv⟩) f.2.1 hf rfl (by intro out; simp) ⟨hside, rfl, hna⟩ (by
      intro hx; simp at hx)
    have hF := (forest_focus (P := WF n false h) (lo := lo) (hi := hi) (kb := kb) (cb := cb) e1.symm).2 ⟨f.1, wc, f.2.2⟩
    rw [← e0] at hF
    subst l1
    refine stepOk_keep (m := .swapIn (scan k kvs)) rfl rfl (by simp) ?_ ?_
    · refine ⟨hF, na, ⟨by simp, rfl, l2, ⟨rfl, kv, hget, h4, hr⟩, fun hx => ⟨(l4 hx).1, rfl⟩⟩, ?_⟩
      simp only [Links, Mark.waits, if_true]
      refine ⟨ca, _, cb, ⟨id, .delete k can, true, .swapDown kv⟩, rfl, held_hold, rfl, rfl, rfl, ⟨⟨kv, hget, rfl⟩, ?_⟩, ?_, ?_⟩
      · rw [held_count]; exact hi'
      · intro x hx; exact hun x (by simp [hx])
      · intro x hx; exact hun x (by simp [hx])
    · simp only [Effect, flat_mk]
      exact weave_same e0 e1.symm (flat_held _ _)

theorem step_swapOn {n rt h} {lo hi : Option K} {id : Nat} {op : Op K V} {lk rs} {kvs : List (K × V)}
    {ca : List (CNode K V)} {c cb kv}
    (wf : WF n rt h lo hi (.mk (some ⟨id, op, lk, .swapDown kv⟩) rs kvs (ca ++ c :: cb))) (hf : c.Free)
    (hside : (ca = [] ∧ lo = some kv.1) ∨ (cb = [] ∧ hi = some kv.1)) :
    StepOk n rt h lo hi ⟨id, op, lk, .swapDown kv⟩ (.mk (some ⟨id, op, lk, .swapDown kv⟩) rs kvs (ca ++ c :: cb))
      ⟨id, op, false, none, .moved⟩
      (.mk (some ⟨id, op, lk, .inSwap kv⟩) rs kvs (ca ++ c.held (some ⟨id, op, true, .swapDown kv⟩) :: cb)) := by
  cases h with
  | zero => simp [WF] at wf
  | succ h =>
    obtain ⟨ka, kb, rfl, e1, e2⟩ := forest_split wf.1
    obtain ⟨f, na, ⟨lr, l1, l2, l3, l4⟩, lk'⟩ := wf
    have hun := links_unlinked lk' rfl
    rw [forest_focus e1.symm] at f
    have hs' : loAfter lo ka = some kv.1 ∨ hiBefore kb hi = some kv.1 := by
      rcases hside with ⟨rfl, hx⟩ | ⟨rfl, hx⟩
      · left; have := List.length_eq_zero_iff.1 e1; subst this; exact hx
      · right; have := List.length_eq_zero_iff.1 e2; subst this; exact hx
    have wc := wf_held (hd := ⟨id, op, true, .swapDown kv⟩) f.2.1 hf rfl (by intro out; simp) ⟨hs', l3.2⟩ (by
      intro hx; simp at hx)
    have hF := (forest_focus (P := WF n false h) (lo := lo) (hi := hi) (kb := kb) (cb := cb) e1.symm).2 ⟨f.1, wc, f.2.2⟩
    subst l1
    refine stepOk_keep (m := .inSwap kv) rfl rfl (by simp) ?_ ?_
    · refine ⟨hF, na, ⟨by simp, rfl, l2, l3, fun hx => ?_⟩, ?_⟩
      · have := (l4 hx).2; simp [swapOf] at this
      · simp only [Links, Mark.waits, if_true]
        refine ⟨ca, _, cb, ⟨id, op, true, .swapDown kv⟩, rfl, held_hold, rfl, rfl, rfl, rfl, ?_, ?_⟩
        · intro x hx; exact hun x (by simp [hx])
        · intro x hx; exact hun x (by simp [hx])
    · simp only [Effect, flat_mk]
      exact weave_same rfl e1.symm (flat_held _ _)

/-! ### Taking the item from the leaf -/

theorem step_take {n rt h} {lo hi : Option K} {id : Nat} {k : K} {can : Option (K × V → Bool)} {lk rs} {kvs kvs' : List (K × V)} {kv x}
    (wf : WF n rt h lo hi (.mk (some ⟨id, .delete k can, lk, .swapDown kv⟩) rs kvs []))
    (hside : (kvs = x :: kvs' ∧ hi ≠ some kv.1) ∨ (kvs = kvs' ++ [x] ∧ lo ≠ some kv.1)) :
    (¬ kvs'.length < minValues n → StepOk n rt h lo hi ⟨id, .delete k can, lk, .swapDown kv⟩ (.mk (some ⟨id, .delete k can, lk, .swapDown kv⟩) rs kvs [])
      ⟨id, .delete k can, true, some x, .answered (askedOut can kv)⟩ (.mk none rs kvs' [])) ∧
    (kvs'.length < minValues n → StepOk n rt h lo hi ⟨id, .delete k can, lk, .swapDown kv⟩ (.mk (some ⟨id, .delete k can, lk, .swapDown kv⟩) rs kvs [])
      ⟨id, .delete k can, false, some x, .applied (askedOut can kv)⟩ (.mk (some ⟨id, .delete k can, lk, .under (askedOut can kv)⟩) rs kvs' [])) := by
  have h0 := body_leaf (wf_iff.1 wf).1
  subst h0
  obtain ⟨_, ch, ⟨lr, l1, l2, l3, l4⟩, _⟩ := wf
  have hsz : SizeOk n rt 0 kvs.length := l2
  have hlen : kvs'.length + 1 = kvs.length := by rcases hside with ⟨rfl, _⟩ | ⟨rfl, _⟩ <;> simp
  have key : ∀ w, Lbl n rt 0 lo hi w [] kvs' → (∀ lo hi, Lbl n rt 0 lo hi w [] kvs') → Links n w kvs' [] →
      (lo = some kv.1 → WF n rt 0 (some x.1) hi (.mk w [] kvs' []) ∧ kvs = x :: kvs') ∧
      (hi = some kv.1 → WF n rt 0 lo (some x.1) (.mk w [] kvs' []) ∧ kvs = kvs' ++ [x]) := by
    intro w hl hl' hk
    refine ⟨fun e => ?_, fun e => ?_⟩
    · rcases hside with ⟨rfl, _⟩ | ⟨_, g⟩
      · exact ⟨⟨rfl, ch.2, hl' _ _, hk⟩, rfl⟩
      · exact absurd e g
    · rcases hside with ⟨_, g⟩ | ⟨rfl, _⟩
      · exact absurd e g
      · exact ⟨⟨rfl, (chain_append.1 ch).1, hl' _ _, hk⟩, rfl⟩
  subst l1
  refine ⟨fun hn => ?_, fun hn => ?_⟩
  · rw [min_eq] at hn
    have hl : ∀ lo hi : Option K, Lbl n rt 0 lo hi none [] kvs' := fun lo hi =>
      lbl_none ⟨by have := hsz.1; omega, fun hr => by omega, fun _ hx => by omega⟩
    have hk := key none (hl _ _) hl (by simp [Links])
    refine ⟨rfl, rfl, fun _ => rfl, (fun hx => by cases hx), (fun hx => by cases hx), fun y hy => ?_⟩
    cases hy
    exact ⟨kv, rfl, ⟨k, can, rfl, .inr rfl⟩, by simpa using hk.1, by simpa using hk.2⟩
  · rw [min_eq] at hn
    have hl : ∀ lo hi : Option K, Lbl n rt 0 lo hi (some ⟨id, .delete k can, lk, .under (askedOut can kv)⟩) [] kvs' := by
      intro lo hi
      refine ⟨by simp, rfl, ?_, rfl, ?_⟩
      · simp only [MarkSize]
        cases rt with
        | true => simpa using hn
        | false => have := hsz.2.1 rfl; simp; omega
      · intro hx
        have := (l4 hx).2; simp [swapOf] at this
    have hk := key _ (hl _ _) hl (by simp [Links, Mark.waits])
    refine ⟨rfl, rfl, (fun hx => by cases hx), fun _ => ⟨.under (askedOut can kv), rfl, rfl, ?_⟩, (fun hx => by cases hx), fun y hy => ?_⟩
    · intro hx; simp at hx; omega
    · cases hy
      exact ⟨kv, rfl, ⟨k, can, rfl, .inl rfl⟩, by simpa using hk.1, by simpa using hk.2⟩

end Willow.BTreeConc
