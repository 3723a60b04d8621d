import Verif.Proofs.BTreeConcBase
set_option linter.unusedSectionVars false
set_option linter.unusedSimpArgs false
/-! Local lemmas: cutting and joining nodes, changing bounds, effects on ordered lists. -/
namespace Willow.BTreeConc
open KeyOps BTree Spec LawfulKey

variable {K V : Type} [LawfulKey K]

@[simp] theorem CNode.hold_mk (w : Option (Hold K V)) (r k c) : (CNode.mk w r k c).hold = w := rfl
@[simp] theorem CNode.readers_mk (w : Option (Hold K V)) (r k c) : (CNode.mk w r k c).readers = r := rfl
@[simp] theorem CNode.kvs_mk (w : Option (Hold K V)) (r k c) : (CNode.mk w r k c).kvs = k := rfl
@[simp] theorem CNode.children_mk (w : Option (Hold K V)) (r k c) : (CNode.mk w r k c).children = c := rfl
@[simp] theorem CNode.count_mk (w : Option (Hold K V)) (r k c) : (CNode.mk w r k c).count = k.length := rfl
@[simp] theorem CNode.linked_mk_none (r : List (Nat × Op K V)) (k c) : (CNode.mk none r k c).linked = false := rfl
@[simp] theorem CNode.linked_mk_some (h : Hold K V) (r k c) : (CNode.mk (some h) r k c).linked = h.linked := rfl
@[simp] theorem flat_mk (w : Option (Hold K V)) (r k c) : flat (CNode.mk w r k c) = weave c k := by simp [flat]
@[simp] theorem weave_nil (k : List (K × V)) : weave [] k = k := by simp [weave]
theorem flat_held (t : CNode K V) (w) : flat (t.held w) = flat t := by cases t; simp [CNode.held]
theorem flat_addReader (t : CNode K V) (w) : flat (t.addReader w) = flat t := by cases t; simp [CNode.addReader]

/-! ### Bodies -/

/-- The values and children of a node. -/
def Body (n : Nat) (h : Nat) (lo hi : Option K) (kvs : List (K × V)) (cs : List (CNode K V)) : Prop :=
  match h with
  | 0 => cs = [] ∧ Chain lo hi kvs
  | h + 1 => Forest (WF n false h) lo hi kvs cs ∧ (∀ kv ∈ kvs, typ kv.1 ≠ DataType.any)

theorem wf_iff {n root h lo hi} {w : Option (Hold K V)} {rs kvs cs} :
    WF n root h lo hi (.mk w rs kvs cs) ↔ Body n h lo hi kvs cs ∧ Lbl n root h lo hi w rs kvs ∧ Links n w kvs cs := by
  cases h with
  | zero => simp [WF, Body, and_assoc]
  | succ h => simp [WF, Body, and_assoc]

theorem body_ks {n h} {lo hi : Option K} {kvs : List (K × V)} {cs} (b : Body n h lo hi kvs cs) : Chain lo hi kvs := by
  cases h with
  | zero => exact b.2
  | succ h => exact forest_ks (P := WF n false h) (fun lo hi c hc => wf_gap hc) b.1

theorem body_length {n h} {lo hi : Option K} {kvs : List (K × V)} {cs} (b : Body n (h+1) lo hi kvs cs) : cs.length = kvs.length + 1 :=
  forest_length b.1

theorem body_leaf {n h} {lo hi : Option K} {kvs : List (K × V)} (b : Body n h lo hi kvs []) : h = 0 := by
  cases h with
  | zero => rfl
  | succ h => exact b.1.elim

theorem snoc_of_length {α : Type} {l : List α} {n : Nat} (h : l.length = n + 1) : ∃ l' x, l = l' ++ [x] := by
  have hne : l ≠ [] := by rintro rfl; simp at h
  exact ⟨l.dropLast, l.getLast hne, (List.dropLast_concat_getLast hne).symm⟩

theorem forest_cut {C : Type} {P : Option K → Option K → C → Prop} {lo hi : Option K} {ka kb : List (K × V)} {kv : K × V} {ca cb : List C}
    (hl : ca.length = ka.length + 1) :
    Forest P lo hi (ka ++ kv :: kb) (ca ++ cb) ↔ Forest P lo (some kv.1) ka ca ∧ Forest P (some kv.1) hi kb cb := by
  obtain ⟨ca', c, rfl⟩ : ∃ ca' c, ca = ca' ++ [c] := snoc_of_length hl
  have hl' : ca'.length = ka.length := by simpa using hl
  have e1 := forest_focus (P := P) (lo := lo) (hi := some kv.1) (kb := []) (cb := []) (c := c) hl'
  rw [List.append_nil] at e1
  rw [e1, List.append_assoc]
  cases cb with
  | nil =>
    simp only [Forest, and_false, iff_false, List.append_nil, List.singleton_append]
    intro h; have := forest_length h; simp at this; omega
  | cons d cb =>
    rw [List.singleton_append, forest_focus hl']
    simp only [Post, hiBefore_cons, hiBefore_nil, Forest]
    constructor
    · rintro ⟨h1, h2, h3, h4⟩; exact ⟨⟨h1, h2, trivial⟩, h3, h4⟩
    · rintro ⟨⟨h1, h2, _⟩, h3, h4⟩; exact ⟨h1, h2, h3, h4⟩

theorem body_cut {n h} {lo hi : Option K} {ka kb : List (K × V)} {kv : K × V} {ca cb : List (CNode K V)}
    (b : Body n h lo hi (ka ++ kv :: kb) (ca ++ cb)) (hl : 0 < h → ca.length = ka.length + 1) :
    Body n h lo (some kv.1) ka ca ∧ Body n h (some kv.1) hi kb cb := by
  cases h with
  | zero =>
    have b2 := chain_append.1 b.2
    have := b.1
    simp at this
    exact ⟨⟨this.1, b2.1⟩, this.2, b2.2⟩
  | succ h =>
    have := (forest_cut (hl (by omega))).1 b.1
    exact ⟨⟨this.1, fun x hx => b.2 x (by simp [hx])⟩, this.2, fun x hx => b.2 x (by simp [hx])⟩

theorem body_join {n h} {lo hi : Option K} {ka kb : List (K × V)} {kv : K × V} {ca cb : List (CNode K V)}
    (b1 : Body n h lo (some kv.1) ka ca) (b2 : Body n h (some kv.1) hi kb cb) (hk : 0 < h → typ kv.1 ≠ DataType.any) :
    Body n h lo hi (ka ++ kv :: kb) (ca ++ cb) := by
  cases h with
  | zero => exact ⟨by simp [b1.1, b2.1], chain_append.2 ⟨b1.2, b2.2⟩⟩
  | succ h =>
    refine ⟨(forest_cut (forest_length b1.1)).2 ⟨b1.1, b2.1⟩, ?_⟩
    intro x hx
    simp at hx
    rcases hx with hx | rfl | hx
    · exact b1.2 x hx
    · exact hk (by omega)
    · exact b2.2 x hx

theorem weave_join {n h} {lo hi lo' hi' : Option K} {ka kb : List (K × V)} {kv : K × V} {ca cb : List (CNode K V)}
    (b1 : Body n h lo lo' ka ca) (b2 : Body n h hi' hi kb cb) : weave (ca ++ cb) (ka ++ kv :: kb) = weave ca ka ++ kv :: weave cb kb := by
  cases h with
  | zero => simp [b1.1, b2.1]
  | succ h =>
    have h1 := body_length b1
    have h2 := body_length b2
    obtain ⟨ca', c, rfl⟩ : ∃ ca' c, ca = ca' ++ [c] := snoc_of_length h1
    have e1 : ca'.length = ka.length := by simpa using h1
    cases cb with
    | nil => simp at h2
    | cons d cb =>
      have : weave (ca' ++ [c]) ka = before ca' ka ++ (flat c ++ after [] []) := by
        have := weave_focus (c := c) (cb := []) (kb := []) e1
        rwa [List.append_nil] at this
      rw [this, List.append_assoc, List.singleton_append, weave_focus e1]
      simp [after, weave]

/-- A single child as a body. -/
theorem body_single {n h} {lo hi : Option K} {c : CNode K V} (w : WF n false h lo hi c) : Body n (h+1) lo hi [] [c] := by
  refine ⟨⟨by simpa using w, trivial⟩, by simp⟩

/-! ### Labels -/

theorem min_eq (n : Nat) : minValues n = n / 2 := minValues_eq n
theorem max_eq (n : Nat) : maxValues n = n := rfl

theorem safe_delete {n : Nat} {op : Op K V} {c : Nat} (h : isDelete op = true) : safe n op c = true ↔ n / 2 + 1 ≤ c := by
  cases op <;> simp_all [isDelete, safe, min_eq]
theorem safe_create {n : Nat} {op : Op K V} {c : Nat} (h : isCreate op = true) : safe n op c = true ↔ c + 1 ≤ n := by
  cases op <;> simp_all [isCreate, safe, max_eq] <;> exact decide_eq_true_iff
theorem isCreate_of_item {op : Op K V} {item} (h : newItem op = some item) :
    isCreate op = true ∧ isDelete op = false ∧ item.1 = opKey op := by
  cases op <;> simp_all [newItem, isCreate, isDelete, opKey]
  all_goals (rw [← h])
theorem not_create_and_delete {op : Op K V} (h : isCreate op = true) : isDelete op = false := by
  cases op <;> simp_all [isCreate, isDelete]

theorem lbl_none {n root h} {lo hi : Option K} {kvs : List (K × V)} (hs : SizeOk n root h kvs.length) :
    Lbl n root h lo hi none [] kvs := ⟨by simp, hs⟩

theorem wf_free {n root h lo hi} {c : CNode K V} (w : WF n root h lo hi c) (hf : c.Free) :
    c = .mk none [] c.kvs c.children ∧ Body n h lo hi c.kvs c.children ∧ SizeOk n root h c.count ∧ ∀ g ∈ c.children, g.linked = false := by
  cases c with
  | mk w' rs kvs cs =>
    obtain ⟨h1, h2⟩ := hf
    simp at h1 h2
    subst h1; subst h2
    rw [wf_iff] at w
    exact ⟨rfl, w.1, w.2.1.2, w.2.2⟩

/-- Taking the lock of a free node. -/
theorem wf_held {n root h lo hi} {c : CNode K V} (w : WF n root h lo hi c) (hf : c.Free) {hd : Hold K V}
    (hw : hd.mark.waits = false) (hz : ∀ out, hd.mark ≠ .over out ∧ hd.mark ≠ .under out)
    (hm : MarkOk lo hi c.kvs hd.op hd.mark) (hs : hd.linked = false → safe n hd.op c.count = true ∧ swapOf hd.mark = none) :
    WF n root h lo hi (c.held (some hd)) := by
  obtain ⟨e, b, s, l⟩ := wf_free w hf
  rw [e]
  simp only [CNode.held, CNode.readers_mk, CNode.kvs_mk, CNode.children_mk]
  rw [wf_iff]
  refine ⟨b, ⟨by simp, rfl, ?_, hm, hs⟩, ?_⟩
  · cases hmk : hd.mark <;> simp only [MarkSize] <;> first | exact s | skip
    · exact absurd hmk (hz _).1
    · exact absurd hmk (hz _).2
  · simp only [Links, hw]
    simpa using l

theorem links_unlinked {n} {hd : Hold K V} {kvs cs} (h : Links n (some hd) kvs cs) (hw : hd.mark.waits = false) :
    ∀ c ∈ cs, c.linked = false := by
  simp only [Links, hw] at h; simpa using h

theorem links_swap {n} {w : Option (Hold K V)} {kvs cs} (h : Links n w kvs cs) {z : CNode K V} (hz : z ∈ cs) {hd kv}
    (h1 : z.hold = some hd) (h2 : hd.linked = true) (h3 : swapOf hd.mark = some kv) :
    ∃ p, w = some p ∧ (p.mark = .inSwap kv ∨ ∃ j, p.mark = .swapIn j ∧ kvs[j]? = some kv) := by
  have hzl : z.linked = true := by simp [CNode.linked, h1, h2]
  cases w with
  | none => have := h z hz; simp [hzl] at this
  | some p =>
    refine ⟨p, rfl, ?_⟩
    simp only [Links] at h
    split at h
    · obtain ⟨ca, c, cb, ch, rfl, g1, g2, g3, g4, g5, g6, g7⟩ := h
      have : z = c := by
        simp at hz
        rcases hz with hz | hz | hz
        · have := g6 z hz; simp [hzl] at this
        · exact hz
        · have := g7 z hz; simp [hzl] at this
      subst this
      rw [h1] at g1; injection g1 with g1; subst g1
      cases hm : p.mark <;> simp only [hm, LinkOk] at g5 <;> simp_all
    · have := h z hz; simp [hzl] at this

/-- A larger upper bound. -/
theorem wf_widenHi {n : Nat} {a b : K} (hab : lt a b = true) : ∀ {h root} {lo : Option K} {t : CNode K V},
    WF n root h lo (some a) t → (∀ hd kv, t.hold = some hd → swapOf hd.mark = some kv → lo = some kv.1) → WF n root h lo (some b) t
  | h, root, lo, .mk w rs kvs cs, wf, hsw => by
    have hks := wf_ks wf
    have hlbl := wf_lbl wf
    have hlnk := wf_links wf
    have hgap : ∀ k : Option K, Gap k (some a) → Gap k (some b) := fun k hk => gap_right hk hab
    have hl' : Lbl n root h lo (some b) w rs kvs := by
      refine ⟨fun r hr => ⟨(hlbl.1 r hr).1, hgap _ (hlbl.1 r hr).2.1, (hlbl.1 r hr).2.2⟩, ?_⟩
      cases w with
      | none => exact hlbl.2
      | some hd =>
        obtain ⟨g1, g2, g3, g4⟩ := hlbl.2
        refine ⟨g1, g2, ?_, g4⟩
        cases hm : hd.mark <;> simp only [hm, MarkOk] at g3 ⊢ <;> try exact g3
        · exact ⟨g3.1, hgap _ g3.2.1, g3.2.2⟩
        · exact ⟨.inl (hsw hd _ rfl (by simp [hm, swapOf])), g3.2⟩
        · exact ⟨.inl (hsw hd _ rfl (by simp [hm, swapOf])), g3.2⟩
    cases h with
    | zero => exact ⟨wf.1, chain_hi wf.2.1 hgap, hl', hlnk⟩
    | succ h =>
      refine ⟨?_, wf.2.1, hl', hlnk⟩
      have hz : ∀ z ∈ cs, ∀ hd kv, z.hold = some hd → hd.linked = true → swapOf hd.mark = some kv → kv.1 ≠ a := by
        intro z hz hd kv h1 h2 h3 e
        obtain ⟨p, rfl, hp⟩ := links_swap hlnk hz h1 h2 h3
        rcases hp with hp | ⟨j, hp, hj⟩
        · have hlo := hsw p kv rfl (by simp [hp, swapOf])
          have := chain_gap hks
          rw [hlo, e] at this
          simp [irrefl] at this
        · have := (chain_mem hks (List.mem_of_getElem? hj)).2
          rw [e] at this; simp [irrefl] at this
      have key : ∀ lo' z, z ∈ cs → WF n false h lo' (some a) z → WF n false h lo' (some b) z := by
        intro lo' z hzc wz
        refine wf_widenHi hab wz ?_
        intro hd kv h1 h3
        cases z with
        | mk zw zr zk zc =>
          simp at h1; subst h1
          have hl := (wf_lbl wz).2
          simp only at hl
          cases hlk : hd.linked with
          | false => have := (hl.2.2.2 hlk).2; rw [h3] at this; cases this
          | true =>
            have hne := hz _ hzc hd kv rfl hlk h3
            have g3 := hl.2.2.1
            cases hm : hd.mark <;> simp only [hm, swapOf] at h3 <;> try cases h3
            · simp only [hm, MarkOk] at g3
              rcases g3.1 with g | g
              · exact g
              · injection g with g; exact absurd g.symm hne
            · simp only [hm, MarkOk] at g3
              rcases g3.1 with g | g
              · exact g
              · injection g with g; exact absurd g.symm hne
      have post : ∀ (ks : List (K × V)) (cs' : List (CNode K V)), (∀ z ∈ cs', z ∈ cs) → Post (WF n false h) (some a) ks cs' →
          Post (WF n false h) (some b) ks cs' := by
        intro ks
        induction ks with
        | nil => intro cs' _ hp; cases cs' with
          | nil => trivial
          | cons => exact hp.elim
        | cons x l ih => intro cs' hm hp; cases cs' with
          | nil => exact hp.elim
          | cons c cs' =>
            refine ⟨?_, ih cs' (fun z hz => hm z (by simp [hz])) hp.2⟩
            cases l with
            | nil => exact key _ _ (hm c (by simp)) hp.1
            | cons => exact hp.1
      have hf := wf.1
      cases cs with
      | nil => exact hf.elim
      | cons c cs =>
        refine ⟨?_, post _ _ (fun z hz => by simp [hz]) hf.2⟩
        cases kvs with
        | nil => exact key _ _ (by simp) hf.1
        | cons => exact hf.1

/-- A smaller lower bound. -/
theorem wf_widenLo {n : Nat} {a b : K} (hab : lt b a = true) : ∀ {h root} {hi : Option K} {t : CNode K V},
    WF n root h (some a) hi t → (∀ hd kv, t.hold = some hd → swapOf hd.mark = some kv → hi = some kv.1) → WF n root h (some b) hi t
  | h, root, hi, .mk w rs kvs cs, wf, hsw => by
    have hks := wf_ks wf
    have hlbl := wf_lbl wf
    have hlnk := wf_links wf
    have hgap : ∀ k : Option K, Gap (some a) k → Gap (some b) k := fun k hk => gap_left hk hab
    have hl' : Lbl n root h (some b) hi w rs kvs := by
      refine ⟨fun r hr => ⟨hgap _ (hlbl.1 r hr).1, (hlbl.1 r hr).2.1, (hlbl.1 r hr).2.2⟩, ?_⟩
      cases w with
      | none => exact hlbl.2
      | some hd =>
        obtain ⟨g1, g2, g3, g4⟩ := hlbl.2
        refine ⟨g1, g2, ?_, g4⟩
        cases hm : hd.mark <;> simp only [hm, MarkOk] at g3 ⊢ <;> try exact g3
        · exact ⟨hgap _ g3.1, g3.2.1, g3.2.2⟩
        · exact ⟨.inr (hsw hd _ rfl (by simp [hm, swapOf])), g3.2⟩
        · exact ⟨.inr (hsw hd _ rfl (by simp [hm, swapOf])), g3.2⟩
    cases h with
    | zero => exact ⟨wf.1, chain_lo wf.2.1 hgap, hl', hlnk⟩
    | succ h =>
      refine ⟨?_, wf.2.1, hl', hlnk⟩
      have hz : ∀ z ∈ cs, ∀ hd kv, z.hold = some hd → hd.linked = true → swapOf hd.mark = some kv → kv.1 ≠ a := by
        intro z hz hd kv h1 h2 h3 e
        obtain ⟨p, rfl, hp⟩ := links_swap hlnk hz h1 h2 h3
        rcases hp with hp | ⟨j, hp, hj⟩
        · have hlo := hsw p kv rfl (by simp [hp, swapOf])
          have := chain_gap hks
          rw [hlo, e] at this
          simp [irrefl] at this
        · have := (chain_mem hks (List.mem_of_getElem? hj)).1
          rw [e] at this; simp [irrefl] at this
      have key : ∀ hi' z, z ∈ cs → WF n false h (some a) hi' z → WF n false h (some b) hi' z := by
        intro hi' z hzc wz
        refine wf_widenLo hab wz ?_
        intro hd kv h1 h3
        cases z with
        | mk zw zr zk zc =>
          simp at h1; subst h1
          have hl := (wf_lbl wz).2
          simp only at hl
          cases hlk : hd.linked with
          | false => have := (hl.2.2.2 hlk).2; rw [h3] at this; cases this
          | true =>
            have hne := hz _ hzc hd kv rfl hlk h3
            have g3 := hl.2.2.1
            cases hm : hd.mark <;> simp only [hm, swapOf] at h3 <;> try cases h3
            · simp only [hm, MarkOk] at g3
              rcases g3.1 with g | g
              · injection g with g; exact absurd g.symm hne
              · exact g
            · simp only [hm, MarkOk] at g3
              rcases g3.1 with g | g
              · injection g with g; exact absurd g.symm hne
              · exact g
      have hf := wf.1
      cases cs with
      | nil => exact hf.elim
      | cons c cs => exact ⟨key _ _ (by simp) hf.1, hf.2⟩

/-! ### Effects on the ordered list of items -/

/-- One operation on a sorted list of items. -/
def listStep (l : List (K × V)) : Op K V → List (K × V) × Out K V
  | .create k v => match lookupL k l with
    | some _ => (l, .create false)
    | none => (insertL k v l, .create true)
  | .createOrFind k v => match lookupL k l with
    | some kv => (l, .createOrFind (some kv.2))
    | none => (insertL k v l, .createOrFind none)
  | .find k => (l, .find ((lookupL k l).map (·.2)))
  | .delete k can => match lookupL k l, can with
    | some kv, some f => if f kv then (eraseL k l, .delete (some kv)) else (l, .delete (some kv))
    | some _, none => (eraseL k l, .delete none)
    | none, _ => (l, .delete none)

theorem mapStep_listStep (l : List (K × V)) (op : Op K V) :
    mapStep (mapOf l) op = (mapOf (listStep l op).1, (listStep l op).2) := by
  cases op with
  | create k v =>
    simp only [mapStep, listStep, mapOf]
    cases h : lookupL k l with
    | none => simp only; rw [← mapOf_insertL h]
    | some kv => rfl
  | createOrFind k v =>
    simp only [mapStep, listStep, mapOf]
    cases h : lookupL k l with
    | none => simp only; rw [← mapOf_insertL h]
    | some kv => rfl
  | find k => rfl
  | delete k can =>
    simp only [mapStep, listStep, mapOf]
    cases h : lookupL k l with
    | none => rfl
    | some kv =>
      cases can with
      | none => simp only; rw [mapOf_eraseL]
      | some f =>
        simp only
        split
        · rw [mapOf_eraseL]
        · rfl

theorem listStep_mid {L M R : List (K × V)} {op : Op K V} (hL : AllLt L (opKey op)) (hR : AllGt R (opKey op)) :
    listStep (L ++ M ++ R) op = (L ++ (listStep M op).1 ++ R, (listStep M op).2) := by
  cases op with
  | create k v =>
    simp only [listStep, opKey] at *
    rw [lookupL_mid hL hR, insertL_mid hL hR]
    cases lookupL k M <;> rfl
  | createOrFind k v =>
    simp only [listStep, opKey] at *
    rw [lookupL_mid hL hR, insertL_mid hL hR]
    cases lookupL k M <;> rfl
  | find k =>
    simp only [listStep, opKey] at *
    rw [lookupL_mid hL hR]
  | delete k can =>
    simp only [listStep, opKey] at *
    rw [lookupL_mid hL hR, eraseL_mid hL hR]
    cases lookupL k M with
    | none => rfl
    | some kv => cases can with
      | none => rfl
      | some f => simp only; split <;> rfl

/-- What a step does to the items of a subtree. -/
def Effect (lo hi : Option K) (op : Op K V) (o : Outcome K V) (l l' : List (K × V)) : Prop :=
  match o with
  | .applied out => listStep l op = (l', out) ∧ Gap lo (some (opKey op)) ∧ Gap (some (opKey op)) hi
  | .answered out => listStep l op = (l', out) ∧ Gap lo (some (opKey op)) ∧ Gap (some (opKey op)) hi
  | _ => l' = l

end Willow.BTreeConc
