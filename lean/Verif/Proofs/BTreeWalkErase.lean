import Verif.Model.BTreeWalk
import Verif.Proofs.BTreeConcTop
set_option linter.unusedSectionVars false
set_option linter.unusedSimpArgs false
/-! Walks do not disturb the calls: without the locks of the walks, a run of the tree is a run of the calls alone. -/
namespace Willow.BTreeWalk
open KeyOps BTree Spec LawfulKey BTreeConc

variable {K V : Type}

/-- The shared locks of calls. -/
def calls (rs : List (Nat × Op K V)) : List (Nat × Op K V) := rs.filter (fun r => !startsWriting r.2)

/-- The subtree without the locks of walks. -/
def er : CNode K V → CNode K V
  | .mk w rs kvs cs => .mk w (calls rs) kvs (cs.map er)

@[simp] theorem er_mk (w : Option (Hold K V)) (rs kvs cs) : er (.mk w rs kvs cs) = .mk w (calls rs) kvs (cs.map er) := by simp [er]
@[simp] theorem calls_nil : calls ([] : List (Nat × Op K V)) = [] := rfl
@[simp] theorem calls_append (a b : List (Nat × Op K V)) : calls (a ++ b) = calls a ++ calls b := by simp [calls]
theorem calls_cons_call {r : Nat × Op K V} (h : startsWriting r.2 = false) (rs) : calls (r :: rs) = r :: calls rs := by simp [calls, h]
theorem calls_cons_walk {r : Nat × Op K V} (h : startsWriting r.2 = true) (rs) : calls (r :: rs) = calls rs := by simp [calls, h]

@[simp] theorem er_hold (t : CNode K V) : (er t).hold = t.hold := by cases t; simp
@[simp] theorem er_kvs (t : CNode K V) : (er t).kvs = t.kvs := by cases t; simp
@[simp] theorem er_count (t : CNode K V) : (er t).count = t.count := by cases t; simp [CNode.count]
@[simp] theorem er_children (t : CNode K V) : (er t).children = t.children.map er := by cases t; simp
theorem er_free {t : CNode K V} (h : t.Free) : (er t).Free := by
  cases t with
  | mk w rs kvs cs =>
    obtain ⟨h1, h2⟩ := h
    simp at h1 h2
    subst h1 h2
    exact ⟨by simp, by simp⟩
theorem er_held {t : CNode K V} (w) : er (t.held w) = (er t).held w := by cases t; simp [CNode.held]
theorem er_addCall {t : CNode K V} {r : Nat × Op K V} (h : startsWriting r.2 = false) : er (t.addReader r) = (er t).addReader r := by
  cases t; simp [CNode.addReader, calls_cons_call h]
theorem er_addWalk {t : CNode K V} {r : Nat × Op K V} (h : startsWriting r.2 = true) : er (t.addReader r) = er t := by
  cases t; simp [CNode.addReader, calls_cons_walk h]

mutual
theorem flat_er : ∀ t : CNode K V, BTreeConc.flat (er t) = BTreeConc.flat t
  | .mk w rs kvs cs => by simp only [er_mk, BTreeConc.flat]; exact weave_er cs kvs
theorem weave_er : ∀ (cs : List (CNode K V)) (kvs : List (K × V)), BTreeConc.weave (cs.map er) kvs = BTreeConc.weave cs kvs
  | [], kvs => rfl
  | c :: cs, kvs => by simp only [List.map_cons, BTreeConc.weave]; rw [flat_er c, after_er cs kvs]
theorem after_er : ∀ (cs : List (CNode K V)) (kvs : List (K × V)), BTreeConc.after (cs.map er) kvs = BTreeConc.after cs kvs
  | [], kvs => rfl
  | c :: cs, [] => by simp only [List.map_cons, BTreeConc.after]; rw [flat_er c, after_er cs []]
  | c :: cs, kv :: kvs => by simp only [List.map_cons, BTreeConc.after]; rw [flat_er c, after_er cs kvs]
end

theorem er_split {n : Nat} {kvs : List (K × V)} {cs : List (CNode K V)} {kv l r} (h : splitHalves n kvs cs = some (kv, l, r)) :
    splitHalves n kvs (cs.map er) = some (kv, er l, er r) := by
  simp only [splitHalves] at h ⊢
  cases hx : kvs[maxValues n / 2]? with
  | none => rw [hx] at h; cases h
  | some x =>
    rw [hx] at h
    simp at h
    obtain ⟨rfl, rfl, rfl⟩ := h
    simp [List.map_take, List.map_drop]

section
variable [KeyOps K]

theorem er_insert1 (kvs : List (K × V)) (cs : List (CNode K V)) (kv l r) :
    (insertHalves kvs (cs.map er) kv (er l) (er r)).1 = (insertHalves kvs cs kv l r).1 := rfl
theorem er_insert2 (kvs : List (K × V)) (cs : List (CNode K V)) (kv l r) :
    (insertHalves kvs (cs.map er) kv (er l) (er r)).2 = (insertHalves kvs cs kv l r).2.map er := by
  simp [insertHalves, List.map_take, List.map_drop]

end

section
variable [LawfulKey K]

theorem forall_er {l : List (CNode K V)} (h : ∀ x ∈ l, x.Free) : ∀ x ∈ l.map er, x.Free := by
  intro x hx
  obtain ⟨y, hy, rfl⟩ := List.mem_map.1 hx
  exact er_free (h y hy)

/-- A step of a call that holds a chain. -/
theorem cstep_er {n} {t : CNode K V} {e t'} (st : CStep n t e t') : CStep n (er t) e (er t') := by
  induction st with
  | descend hh hi hf hs =>
    simp only [er_mk, List.map_append, List.map_cons, er_held]
    exact .descend hh (by simpa using hi) (er_free hf) (by simpa using hs)
  | descendRelease hh hi hf hs =>
    simp only [er_mk, List.map_append, List.map_cons, er_held]
    exact .descendRelease hh (by simpa using hi) (er_free hf) (by simpa using hs)
  | found hw hh => simp only [er_mk]; exact .found hw hh
  | insert hw hh hn => simp only [er_mk, List.map_nil]; exact .insert hw hh hn
  | insertOver hw hh hn => simp only [er_mk, List.map_nil]; exact .insertOver hw hh hn
  | split hc hf hp hn =>
    simp only [er_mk]
    rw [← er_insert2, ← er_insert1 (cs := _ ++ _ :: _)]
    simp only [List.map_append, List.map_cons]
    exact .split (by simpa using hc) (forall_er hf) (by rw [er_kvs, er_children]; exact er_split hp) hn
  | splitOver hc hf hp hn =>
    simp only [er_mk]
    rw [← er_insert2, ← er_insert1 (cs := _ ++ _ :: _)]
    simp only [List.map_append, List.map_cons]
    exact .splitOver (by simpa using hc) (forall_er hf) (by rw [er_kvs, er_children]; exact er_split hp) hn
  | missing hh => simp only [er_mk, List.map_nil]; exact .missing hh
  | refused hh hr => simp only [er_mk]; exact .refused hh hr
  | removeLeaf hh hr hu => simp only [er_mk, List.map_nil]; exact .removeLeaf hh hr hu
  | removeLeafUnder hh hr hu => simp only [er_mk, List.map_nil]; exact .removeLeafUnder hh hr hu
  | swapRight hh hr hi hc hd hm =>
    simp only [er_mk, List.map_append, List.map_cons, er_held]
    exact .swapRight hh hr (by simpa using hi) (er_free hc) (er_free hd) (by simpa using hm)
  | swapLeft hh hr hi hc hd hm =>
    simp only [er_mk, List.map_append, List.map_cons, er_held]
    exact .swapLeft hh hr (by simpa using hi) (er_free hc) (er_free hd) (by simpa using hm)
  | swapFirst hk hl hf =>
    simp only [er_mk, List.map_append, List.map_cons, er_held]
    exact .swapFirst hk hl (er_free hf)
  | swapLast hk hl hf =>
    simp only [er_mk, List.map_append, List.map_cons, List.map_nil, er_held]
    exact .swapLast hk hl (er_free hf)
  | takeFirst hl hu => simp only [er_mk, List.map_nil]; exact .takeFirst hl hu
  | takeFirstUnder hl hu => simp only [er_mk, List.map_nil]; exact .takeFirstUnder hl hu
  | takeLast h1 hl hu => simp only [er_mk, List.map_nil]; exact .takeLast h1 hl hu
  | takeLastUnder h1 hl hu => simp only [er_mk, List.map_nil]; exact .takeLastUnder h1 hl hu
  | rotateLeft hm hc hi hx hl hd hg hs hk =>
    rename_i id op lk mk rs ka kv kb ca c d cb out rkv rkvs
    have := CStep.rotateLeft (n := n) (id := id) (op := op) (lk := lk) (mk := mk) (rs := calls rs) (ka := ka) (kv := kv) (kb := kb)
      (ca := ca.map er) (c := er c) (d := er d) (cb := cb.map er) (out := out) (rkv := rkv) (rkvs := rkvs) hm (by simpa using hc) (by simpa using hi) (by simpa using hx)
      (fun b ca' hb => by
        rcases List.eq_nil_or_concat ca with h0 | ⟨ys, y, h0⟩
        · subst h0; simp at hb
        · rw [List.concat_eq_append] at h0
          subst h0
          simp at hb
          rw [← hb.2]
          exact er_free (hl y ys rfl))
      (er_free hd)
      (fun g gs hgs => by
        cases h0 : d.children with
        | nil => simp [h0] at hgs
        | cons y ys =>
          simp [h0] at hgs
          rw [← hgs.1]
          exact er_free (hg y ys h0))
      (by simpa using hs) (by simpa using hk)
    simpa [List.map_take, List.map_drop] using this
  | rotateRight hm hc hi hx hb hd hs hk =>
    rename_i id op lk mk rs ka kv kb ca b c cb out lkv
    have := CStep.rotateRight (n := n) (id := id) (op := op) (lk := lk) (mk := mk) (rs := calls rs) (ka := ka) (kv := kv) (kb := kb)
      (ca := ca.map er) (b := er b) (c := er c) (cb := cb.map er) (out := out) (lkv := lkv) hm (by simpa using hc) (by simpa using hi) (by simpa using hx)
      (er_free hb)
      (fun d cb' hcb => by
        cases h0 : cb with
        | nil => simp [h0] at hcb
        | cons y ys =>
          simp [h0] at hcb
          rw [← hcb.1]
          have := hd y ys h0
          exact ⟨er_free this.1, by simpa using this.2⟩)
      (by simpa using hs) (by simpa using hk)
    have e1 : (b.children.map er).dropLast = b.children.dropLast.map er := by simp [List.dropLast_eq_take, List.map_take]
    have e2 : (b.children.map er).getLast?.toList = b.children.getLast?.toList.map er := by
      rw [List.getLast?_map]; cases b.children.getLast? <;> rfl
    rw [er_kvs, er_kvs, er_children, er_children, e1, e2] at this
    simpa only [er_mk, List.map_append, List.map_cons, calls_nil] using this
  | mergeLeft hm hc hi hx hb hd hg hs hs' hu =>
    rename_i id op lk mk rs ka kv kb ca b c cb out
    have := CStep.mergeLeft (n := n) (id := id) (op := op) (lk := lk) (mk := mk) (rs := calls rs) (ka := ka) (kv := kv) (kb := kb)
      (ca := ca.map er) (b := er b) (c := er c) (cb := cb.map er) (out := out) hm (by simpa using hc) (by simpa using hi) (by simpa using hx)
      (er_free hb) (forall_er hd) (by simpa using forall_er hg) (by simpa using hs)
      (fun d cb' hcb => by
        cases h0 : cb with
        | nil => simp [h0] at hcb
        | cons y ys =>
          simp [h0] at hcb
          rw [← hcb.1]
          have := hs' y ys h0
          simpa using this)
      (by simpa using hu)
    simpa using this
  | mergeLeftUnder hm hc hi hx hb hd hg hs hs' hu =>
    rename_i id op lk mk rs ka kv kb ca b c cb out
    have := CStep.mergeLeftUnder (n := n) (id := id) (op := op) (lk := lk) (mk := mk) (rs := calls rs) (ka := ka) (kv := kv) (kb := kb)
      (ca := ca.map er) (b := er b) (c := er c) (cb := cb.map er) (out := out) hm (by simpa using hc) (by simpa using hi) (by simpa using hx)
      (er_free hb) (forall_er hd) (by simpa using forall_er hg) (by simpa using hs)
      (fun d cb' hcb => by
        cases h0 : cb with
        | nil => simp [h0] at hcb
        | cons y ys =>
          simp [h0] at hcb
          rw [← hcb.1]
          have := hs' y ys h0
          simpa using this)
      (by simpa using hu)
    simpa using this
  | mergeRight hm hc hx hd hr hg hs hu =>
    rename_i id op lk mk rs kv kb c d cb out
    have := CStep.mergeRight (n := n) (id := id) (op := op) (lk := lk) (mk := mk) (rs := calls rs) (kv := kv) (kb := kb)
      (c := er c) (d := er d) (cb := cb.map er) (out := out) hm (by simpa using hc) hx
      (er_free hd) (forall_er hr) (by simpa using forall_er hg) (by simpa using hs) hu
    simpa using this
  | mergeRightUnder hm hc hx hd hr hg hs hu =>
    rename_i id op lk mk rs kv kb c d cb out
    have := CStep.mergeRightUnder (n := n) (id := id) (op := op) (lk := lk) (mk := mk) (rs := calls rs) (kv := kv) (kb := kb)
      (c := er c) (d := er d) (cb := cb.map er) (out := out) hm (by simpa using hc) hx
      (er_free hd) (forall_er hr) (by simpa using forall_er hg) (by simpa using hs) hu
    simpa using this
  | inner hm hc hl hid hop hs ih =>
    simp only [er_mk, List.map_append, List.map_cons]
    exact .inner hm (by simpa using hc) hl hid hop ih

/-- A step of any call in a subtree. -/
theorem nstep_er {n} {t : CNode K V} {e t'} (st : NStep n t e t') : NStep n (er t) e (er t') := by
  induction st with
  | chain hh hl hs => exact .chain (by simpa using hh) hl (cstep_er hs)
  | readHit hr hh => simp only [er_mk, calls_append]; rw [calls_cons_call (by simpa using hr)]; exact .readHit hr hh
  | readMiss hh => simp only [er_mk, calls_append, List.map_nil, calls_cons_call (r := (_, Op.find _)) rfl]; exact .readMiss hh
  | readAgain hh => simp only [er_mk, calls_append, List.map_nil, calls_cons_call (r := (_, Op.createOrFind _ _)) rfl]; exact .readAgain hh
  | readDown hr hh hi hf =>
    simp only [er_mk, calls_append, List.map_append, List.map_cons]
    rw [calls_cons_call (by simpa using hr), er_addCall (by simpa using hr)]
    exact .readDown hr hh (by simpa using hi) (by simpa using hf)
  | child hs ih => simp only [er_mk, List.map_append, List.map_cons]; exact .child ih

/-- The state without the locks of walks. -/
def erS (s : St K V) : St K V := { s with root := s.root.map er }

theorem erS_settle (s : St K V) (e : Eff K V) : erS (s.settle e) = (erS s).settle e := by
  unfold St.settle; cases e.outcome <;> rfl

theorem step_er {n} {s s' : St K V} {ev} (st : BTreeConc.Step n s ev s')
    (hr : ∀ r ∈ s.readers, startsWriting r.2 = false) : BTreeConc.Step n (erS s) ev (erS s') := by
  cases st with
  | call id op => exact .call id op
  | ret hf => exact .ret hf
  | lock hw hh hr => exact .lock hw hh hr
  | enterCreate hw hh hf =>
    rename_i id op item
    have e1 : rootOrNew (s.root.map er) = er (rootOrNew s.root) := by cases s.root <;> simp [rootOrNew]
    have := Step.enterCreate (n := n) (s := erS s) hw hh (by show (rootOrNew (s.root.map er)).Free; rw [e1]; exact er_free hf)
    simp only [erS] at this ⊢
    rw [e1, er_count, ← er_held] at this
    exact this
  | enterDelete hh hr hf =>
    rename_i id k can r
    have := Step.enterDelete (n := n) (s := erS s) (r := er r) hh (by simp [erS, hr]) (er_free hf)
    simp only [erS] at this ⊢
    rw [er_count, ← er_held] at this
    exact this
  | deleteEmpty hh hr => exact .deleteEmpty hh (by simp [erS, hr])
  | inner hh hr hc hl hid hop hs =>
    rename_i id op r h e r'
    rw [erS_settle]
    exact .inner (r := er r) hh (by simp [erS, hr]) (by simpa using hc) hl hid hop (cstep_er hs)
  | node hr hs =>
    rename_i r e r'
    rw [erS_settle]
    exact .node (r := er r) (by simp [erS, hr]) (nstep_er hs)
  | grow hh hr hc hp =>
    rename_i id op r out kv l rt
    have := Step.grow (n := n) (s := erS s) (r := er r) (kv := kv) (l := er l) (rt := er rt) hh (by simp [erS, hr]) (by simpa using hc)
      (by rw [er_kvs, er_children]; exact er_split hp)
    simpa [erS] using this
  | shrink hh hr hc =>
    rename_i id op r out
    have := Step.shrink (n := n) (s := erS s) (r := er r) hh (by simp [erS, hr]) (by simpa using hc)
    simp only [erS] at this ⊢
    have e1 : (if (er r).count = 0 then (er r).children[0]? else some ((er r).held none)) =
        Option.map er (if r.count = 0 then r.children[0]? else some (r.held none)) := by
      rw [er_count, er_children, ← er_held]
      split <;> simp
    rw [e1] at this
    exact this
  | rlock hw hh => exact .rlock hw hh
  | renter hw hr' hf =>
    rename_i ra id op rb r
    have hsw := hr (id, op) (by rw [hw]; simp)
    have := Step.renter (n := n) (s := erS s) (r := er r) hw (by simp [erS, hr']) (by simpa using hf)
    rw [← er_addCall hsw] at this
    exact this
  | findEmpty hw hr => exact .findEmpty hw (by simp [erS, hr])
  | againEmpty hw hr => exact .againEmpty hw (by simp [erS, hr])

end
end Willow.BTreeWalk
