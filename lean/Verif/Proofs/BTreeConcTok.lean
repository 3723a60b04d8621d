import Verif.Proofs.BTreeConcInner
set_option linter.unusedSectionVars false
set_option linter.unusedSimpArgs false
/-! Steps anywhere in a subtree, and where the calls under way are. -/
namespace Willow.BTreeConc
open KeyOps BTree Spec LawfulKey

/-! ### Counting -/

open Classical in
/-- How often `x` occurs. -/
noncomputable def occ {α : Type} (x : α) : List α → Nat
  | [] => 0
  | y :: l => (if y = x then 1 else 0) + occ x l

@[simp] theorem occ_nil {α : Type} (x : α) : occ x [] = 0 := rfl
open Classical in
theorem occ_cons {α : Type} (x y : α) (l : List α) : occ x (y :: l) = (if y = x then 1 else 0) + occ x l := rfl
@[simp] theorem occ_append {α : Type} (x : α) (a b : List α) : occ x (a ++ b) = occ x a + occ x b := by
  induction a with
  | nil => simp
  | cons y a ih => simp only [List.cons_append, occ_cons, ih]; omega
theorem occ_pos {α : Type} {x : α} {l : List α} : 0 < occ x l ↔ ∃ a b, l = a ++ x :: b := by
  constructor
  · intro h
    induction l with
    | nil => simp at h
    | cons y l ih =>
      rw [occ_cons] at h
      by_cases hy : y = x
      · subst hy; exact ⟨[], l, rfl⟩
      · rw [if_neg hy] at h
        obtain ⟨a, b, rfl⟩ := ih (by omega)
        exact ⟨y :: a, b, rfl⟩
  · rintro ⟨a, b, rfl⟩
    simp [occ_cons]; omega
theorem occ_map {α β : Type} (f : α → β) (hf : ∀ a b, f a = f b → a = b) (x : α) (l : List α) : occ (f x) (l.map f) = occ x l := by
  induction l with
  | nil => rfl
  | cons y l ih =>
    simp only [List.map_cons, occ_cons, ih]
    congr 1
    by_cases h : y = x
    · simp [h]
    · rw [if_neg h, if_neg (fun e => h (hf _ _ e))]
theorem occ_map_zero {α β : Type} (f : α → β) (x : β) (l : List α) (hf : ∀ a ∈ l, f a ≠ x) : occ x (l.map f) = 0 := by
  induction l with
  | nil => rfl
  | cons y l ih =>
    simp only [List.map_cons, occ_cons]
    rw [if_neg (hf y (by simp)), ih (fun a ha => hf a (by simp [ha]))]

variable {K V : Type}

/-- A call under way: whether it has had its effect, and with which answer. -/
abbrev Tok (K V : Type) := Nat × Op K V × Option (Out K V)

/-- The call whose innermost frame is on this node. -/
def holdTok : Option (Hold K V) → List (Tok K V)
  | some ⟨id, op, _, .down⟩ => [(id, op, none)]
  | some ⟨id, op, _, .swapDown _⟩ => [(id, op, none)]
  | some ⟨id, op, _, .over out⟩ => [(id, op, some out)]
  | some ⟨id, op, _, .under out⟩ => [(id, op, some out)]
  | _ => []
theorem holdTok_none : holdTok (none : Option (Hold K V)) = [] := rfl
theorem holdTok_under {id : Nat} {op : Op K V} {lk out} : holdTok (some ⟨id, op, lk, .under out⟩) = [(id, op, some out)] := rfl
theorem holdTok_over {id : Nat} {op : Op K V} {lk out} : holdTok (some ⟨id, op, lk, .over out⟩) = [(id, op, some out)] := rfl
/-- A call that searches. -/
def readTok (r : Nat × Op K V) : Tok K V := (r.1, r.2, none)

mutual
/-- The calls under way in a subtree. -/
def toks : CNode K V → List (Tok K V)
  | .mk w rs _ cs => holdTok w ++ rs.map readTok ++ toksL cs
def toksL : List (CNode K V) → List (Tok K V)
  | [] => []
  | c :: cs => toks c ++ toksL cs
end

@[simp] theorem toks_mk (w : Option (Hold K V)) (rs kvs cs) : toks (.mk w rs kvs cs) = holdTok w ++ rs.map readTok ++ toksL cs := by simp [toks]
@[simp] theorem toksL_nil : toksL ([] : List (CNode K V)) = [] := by simp [toksL]
@[simp] theorem toksL_cons (c : CNode K V) (cs) : toksL (c :: cs) = toks c ++ toksL cs := by simp [toksL]
@[simp] theorem toksL_append (a b : List (CNode K V)) : toksL (a ++ b) = toksL a ++ toksL b := by
  induction a with
  | nil => simp
  | cons c a ih => simp [ih]

theorem holdTok_waits {id : Nat} {op : Op K V} {lk} {m : Mark K V} (h : m.waits = true) : holdTok (some ⟨id, op, lk, m⟩) = [] := by
  cases m <;> simp [Mark.waits] at h <;> rfl
theorem nextMark_waits {m : Mark K V} (h : m.waits = true) (x) : (nextMark m x).waits = true := by
  cases x with
  | none => exact h
  | some x => cases m <;> simp [Mark.waits] at h <;> rfl

theorem toks_held {c : CNode K V} (hf : c.Free) (h : Option (Hold K V)) : toks (c.held h) = holdTok h ++ toksL c.children ∧ toks c = toksL c.children := by
  cases c with
  | mk w rs kvs cs =>
    obtain ⟨h1, h2⟩ := hf
    simp at h1 h2; subst h1; subst h2
    simp [CNode.held, holdTok]
theorem toks_addReader (c : CNode K V) (r : Nat × Op K V) (x) : occ x (toks (c.addReader r)) = occ x (toks c) + occ x [readTok r] := by
  cases c with
  | mk w rs kvs cs => simp [CNode.addReader, occ_cons]; omega

/-- What the step says about its own call, before and after. -/
def before1 (e : Eff K V) : List (Tok K V) :=
  match e.outcome with
  | .moved => []
  | .applied _ => [(e.id, e.op, none)]
  | .left out => [(e.id, e.op, some out)]
  | .answered _ => [(e.id, e.op, none)]
  | .again => [(e.id, e.op, none)]
def after1 (e : Eff K V) : List (Tok K V) :=
  match e.outcome with
  | .applied out => [(e.id, e.op, some out)]
  | _ => []

/-- The calls in a subtree before and after a step. -/
def TokOk (e : Eff K V) (a b : List (Tok K V)) : Prop :=
  ∀ x, occ x a + occ x (after1 e) = occ x b + occ x (before1 e)

section
variable [LawfulKey K]

theorem reader_free {n rt h} {lo hi : Option K} {w : Option (Hold K V)} {ra r rb kvs cs}
    (wf : WF n rt h lo hi (.mk w (ra ++ r :: rb) kvs cs)) :
    w = none ∧ SizeOk n rt h kvs.length ∧ Gap lo (some (opKey r.2)) ∧ Gap (some (opKey r.2)) hi ∧ isRead r.2 = true ∧
      Lbl n rt h lo hi none (ra ++ rb) kvs ∧ (∀ c ∈ cs, c.linked = false) := by
  obtain ⟨lr, l⟩ := wf_lbl wf
  have hl := wf_links wf
  cases w with
  | some hd => simp at l
  | none =>
    obtain ⟨g1, g2, g3⟩ := lr r (by simp)
    refine ⟨rfl, l, g1, g2, g3, ⟨fun r hr => lr r ?_, l⟩, hl⟩
    simp at hr ⊢; rcases hr with hr | hr <;> simp [hr]

theorem wf_addReader {n rt h} {lo hi : Option K} {c : CNode K V} {r : Nat × Op K V} (wf : WF n rt h lo hi c) (hf : c.hold = none)
    (h1 : Gap lo (some (opKey r.2))) (h2 : Gap (some (opKey r.2)) hi) (h3 : isRead r.2 = true) : WF n rt h lo hi (c.addReader r) := by
  cases c with
  | mk w rs kvs cs =>
    simp at hf; subst hf
    obtain ⟨lr, l⟩ := wf_lbl wf
    refine wf_relabel wf ⟨?_, l⟩ (wf_links wf)
    intro r' hr'
    simp at hr'
    rcases hr' with rfl | hr'
    · exact ⟨h1, h2, h3⟩
    · exact lr r' hr'

theorem linked_addReader {c : CNode K V} {r} : (c.addReader r).linked = c.linked := by cases c; rfl

/-- Every step anywhere in a subtree keeps its invariant and has the right effect. -/
theorem nstep_ok {n} (hn2 : 2 ≤ n) {t : CNode K V} {e t'} (st : NStep n t e t') : ∀ rt h lo hi, WF n rt h lo hi t →
    WF n rt h lo hi t' ∧ Effect lo hi e.op e.outcome (flat t) (flat t') ∧ (t.linked = true → t'.hold = t.hold ∧ t'.count = t.count) ∧
      (t.linked = false → t'.linked = false) := by
  induction st with
  | chain hh hl hs =>
    rename_i t hd e t'
    intro rt h lo hi wf
    obtain ⟨hd', h1, h2⟩ := cstep_ok hn2 hs
    rw [hh] at h1; injection h1 with h1; subst h1
    have ok := h2 rt h lo hi wf
    have hsw : e.swap = none := by
      cases hsw : e.swap with
      | none => rfl
      | some x =>
        obtain ⟨kv, s1, _⟩ := ok.swap x hsw
        cases t with
        | mk w rs kvs cs =>
          simp at hh; subst hh
          have := not_swap_unlinked wf s1
          rw [hl] at this; cases this
    obtain ⟨g1, g2⟩ := ok.plain hsw
    rw [← ok.op] at g2
    refine ⟨g1, g2, ?_, ?_⟩
    · intro hx; rw [linked_of_hold hh, hl] at hx; cases hx
    · intro _
      cases hr : e.rel with
      | true => simp [CNode.linked, ok.rel hr]
      | false => obtain ⟨m, k1, _⟩ := ok.keep hr; rw [linked_of_hold k1]; exact hl
  | readHit hr hh =>
    rename_i w ra id op rb kvs cs kv
    intro rt h lo hi wf
    obtain ⟨rfl, r2, r3, r4, r5, r6, r7⟩ := reader_free wf
    refine ⟨wf_relabel wf r6 r7, ⟨?_, r3, r4⟩, (fun hx => by simp at hx), fun _ => rfl⟩
    have := lookup_in_node wf hh
    simp only [flat_mk]
    cases op <;> simp only [isRead] at r5 <;> simp only [opKey] at this <;> simp_all [listStep, this, foundOut]
  | readMiss hh =>
    rename_i w ra id k rb kvs
    intro rt h lo hi wf
    obtain ⟨rfl, r2, r3, r4, r5, r6, r7⟩ := reader_free wf
    refine ⟨wf_relabel wf r6 r7, ⟨?_, r3, r4⟩, (fun hx => by simp at hx), fun _ => rfl⟩
    have := lookup_leaf_none (chain_sorted (wf_ks wf)) hh
    simp [flat_mk, listStep, this]
  | readAgain hh =>
    intro rt h lo hi wf
    obtain ⟨rfl, r2, r3, r4, r5, r6, r7⟩ := reader_free wf
    refine ⟨wf_relabel wf r6 r7, ?_, (fun hx => by simp at hx), fun _ => rfl⟩
    simp [Effect, flat_mk]
  | readDown hr hh hi' hf =>
    rename_i w ra id op rb kvs ca c cb
    intro rt h lo hi wf
    obtain ⟨rfl, r2, r3, r4, r5, r6, r7⟩ := reader_free wf
    cases h with
    | zero => simp [WF] at wf
    | succ h =>
      obtain ⟨ka, kb, rfl, e1, e2⟩ := forest_split wf.1
      have f := wf.1
      rw [forest_focus e1.symm] at f
      obtain ⟨g1, g2⟩ := scan_gaps hh (by omega) r3 r4
      have wc := wf_addReader (r := (id, op)) f.2.1 hf g1 g2 r5
      refine ⟨⟨(forest_focus e1.symm).2 ⟨f.1, wc, f.2.2⟩, wf.2.1, r6, ?_⟩, ?_, (fun hx => by simp at hx), fun _ => rfl⟩
      · intro x hx; simp at hx
        rcases hx with hx | rfl | hx
        · exact r7 x (by simp [hx])
        · rw [linked_addReader]; exact r7 c (by simp)
        · exact r7 x (by simp [hx])
      · simp only [Effect, flat_mk]
        exact weave_same rfl e1.symm (flat_addReader _ _)
  | child hs ih =>
    rename_i w rs kvs ca c cb e c'
    intro rt h lo hi wf
    cases h with
    | zero => simp [WF] at wf
    | succ h =>
      obtain ⟨ka, kb, rfl, e1, e2⟩ := forest_split wf.1
      have f := wf.1
      rw [forest_focus e1.symm] at f
      obtain ⟨i1, i2, i3, i4⟩ := ih _ _ _ _ f.2.1
      refine ⟨⟨(forest_focus e1.symm).2 ⟨f.1, i1, f.2.2⟩, wf.2.1, wf.2.2.1, ?_⟩, ?_, fun _ => ⟨rfl, rfl⟩, fun h => h⟩
      · have hlk := wf.2.2.2
        cases hcl : c.linked with
        | false =>
          have hc' := i4 hcl
          cases w with
          | none =>
            intro x hx; simp at hx
            rcases hx with hx | rfl | hx
            · exact hlk x (by simp [hx])
            · exact hc'
            · exact hlk x (by simp [hx])
          | some hd =>
            simp only [Links] at hlk ⊢
            split at hlk
            · rename_i hw
              refine (if_pos hw).mpr ?_
              obtain ⟨ca', z, cb', ch, q1, q2, q3, q4, q5, q6, q7, q8⟩ := hlk
              have hz : z.linked = true := by rw [linked_of_hold q2]; exact q3
              rcases List.append_eq_append_iff.1 q1 with ⟨a, b1, b2⟩ | ⟨a, b1, b2⟩
              · cases a with
                | nil =>
                  simp at b1 b2
                  rw [b2.1] at hcl; rw [hcl] at hz; cases hz
                | cons y a =>
                  simp at b2
                  obtain ⟨rfl, b2⟩ := b2
                  refine ⟨ca ++ c' :: a, z, cb', ch, by rw [b2]; simp, q2, q3, q4, q5, ?_, ?_, q8⟩
                  · rw [b1] at q6; simpa using q6
                  · intro x hx
                    simp at hx
                    rcases hx with hx | rfl | hx
                    · exact q7 x (by rw [b1]; simp [hx])
                    · exact hc'
                    · exact q7 x (by rw [b1]; simp [hx])
              · cases a with
                | nil =>
                  simp at b1 b2
                  rw [← b2.1] at hcl; rw [hcl] at hz; cases hz
                | cons y a =>
                  simp at b2
                  obtain ⟨rfl, b2⟩ := b2
                  refine ⟨ca', z, a ++ c' :: cb, ch, by rw [b1]; simp, q2, q3, q4, q5, q6, q7, ?_⟩
                  intro x hx
                  simp at hx
                  rcases hx with hx | rfl | hx
                  · exact q8 x (by rw [b2]; simp [hx])
                  · exact hc'
                  · exact q8 x (by rw [b2]; simp [hx])
            · rename_i hw
              refine (if_neg hw).mpr ?_
              intro x hx; simp at hx
              rcases hx with hx | rfl | hx
              · exact hlk x (by simp [hx])
              · exact hc'
              · exact hlk x (by simp [hx])
        | true =>
          obtain ⟨k1, k2⟩ := i3 hcl
          cases w with
          | none => have := hlk c (by simp); rw [hcl] at this; cases this
          | some hd =>
            obtain ⟨hw, ⟨ch, q2, q3, q4, q5, q6⟩, u1, u2⟩ := links_at hlk hcl
            simp only [Links]
            refine (if_pos hw).mpr ?_
            exact ⟨ca, c', cb, ch, rfl, by rw [k1]; exact q2, q3, q4, q5, by rw [k2]; exact q6, u1, u2⟩
      · exact effect_lift e1.symm f.1 f.2.2 i2

/-! ### Where the calls are -/

theorem toks_of_held {n rt h} {lo hi : Option K} {c : CNode K V} {hd} (wf : WF n rt h lo hi c) (hc : c.hold = some hd) :
    toks c = holdTok (some hd) ++ toksL c.children := by
  cases c with
  | mk w rs kvs cs =>
    simp at hc; subst hc
    have := (wf_lbl wf).2.1
    subst this
    simp
theorem toks_of_free {c : CNode K V} (hc : c.Free) : toks c = toksL c.children := (toks_held hc none).2

theorem toksL_take_drop (cs : List (CNode K V)) (i : Nat) (x) : occ x (toksL (cs.take i)) + occ x (toksL (cs.drop i)) = occ x (toksL cs) := by
  rw [← occ_append, ← toksL_append, List.take_append_drop]

theorem toks_split {n h} {lo hi : Option K} {kvs : List (K × V)} {cs : List (CNode K V)} (b : Body n h lo hi kvs cs)
    (hl : kvs.length = n + 1) {kv l r} (hp : splitHalves n kvs cs = some (kv, l, r)) (x) :
    occ x (toks l) + occ x (toks r) = occ x (toksL cs) := by
  simp only [splitHalves, max_eq] at hp
  split at hp
  · injection hp with hp
    injection hp with e1 hp
    injection hp with e2 e3
    have etc : cs.take (n+2) = cs := by
      refine List.take_of_length_le ?_
      cases h with
      | zero => simp [b.1]
      | succ h => have := body_length b; omega
    rw [etc] at e3
    rw [← e2, ← e3]
    simp only [toks_mk, holdTok, List.map_nil, List.nil_append]
    exact toksL_take_drop _ _ _
  · cases hp

theorem cstep_toks {n} (hn2 : 2 ≤ n) {t : CNode K V} {e t'} (st : CStep n t e t') : ∀ rt h lo hi, WF n rt h lo hi t →
    TokOk e (toks t) (toks t') := by
  induction st with
  | descend hh hi hf hs =>
    intro rt h lo hi wf x
    simp [before1, after1, occ_cons, holdTok, (toks_held hf _).1, toks_of_free hf]; omega
  | descendRelease hh hi hf hs =>
    intro rt h lo hi wf x
    simp [before1, after1, occ_cons, holdTok, (toks_held hf _).1, toks_of_free hf]; omega
  | found hw hh => intro rt h lo hi wf x; simp [before1, after1, occ_cons, holdTok]; omega
  | insert hw hh hn => intro rt h lo hi wf x; simp [before1, after1, occ_cons, holdTok]; omega
  | insertOver hw hh hn => intro rt h lo hi wf x; simp [before1, after1, occ_cons, holdTok]; omega
  | missing hh => intro rt h lo hi wf x; simp [before1, after1, occ_cons, holdTok]; omega
  | refused hh hr => intro rt h lo hi wf x; simp [before1, after1, occ_cons, holdTok]; omega
  | removeLeaf hh hr hu => intro rt h lo hi wf x; simp [before1, after1, occ_cons, holdTok]; omega
  | removeLeafUnder hh hr hu => intro rt h lo hi wf x; simp [before1, after1, occ_cons, holdTok]; omega
  | swapRight hh hr hi hc hd hm =>
    intro rt h lo hi wf x
    simp [before1, after1, occ_cons, holdTok, (toks_held hd _).1, toks_of_free hd]; omega
  | swapLeft hh hr hi hc hd hm =>
    intro rt h lo hi wf x
    simp [before1, after1, occ_cons, holdTok, (toks_held hc _).1, toks_of_free hc]; omega
  | swapFirst hk hl hf =>
    intro rt h lo hi wf x
    simp [before1, after1, occ_cons, holdTok, (toks_held hf _).1, toks_of_free hf]; omega
  | swapLast hk hl hf =>
    intro rt h lo hi wf x
    simp [before1, after1, occ_cons, holdTok, (toks_held hf _).1, toks_of_free hf]; omega
  | takeFirst hl hu => intro rt h lo hi wf x; simp [before1, after1, occ_cons, holdTok]; omega
  | takeFirstUnder hl hu => intro rt h lo hi wf x; simp [before1, after1, occ_cons, holdTok]; omega
  | takeLast h1 hl hu => intro rt h lo hi wf x; simp [before1, after1, occ_cons, holdTok]; omega
  | takeLastUnder h1 hl hu => intro rt h lo hi wf x; simp [before1, after1, occ_cons, holdTok]; omega
  | split hc hf hp hn =>
    rename_i id op lk rs kvs ca c cb out kv l r
    intro rt h lo hi wf x
    cases h with
    | zero => simp [WF] at wf
    | succ h =>
      have hks := wf_ks wf
      obtain ⟨ka, kb, rfl, e1, e2⟩ := forest_split wf.1
      obtain ⟨f, na, _, lk'⟩ := wf
      rw [forest_focus e1.symm] at f
      obtain ⟨b, hcnt, hu, hcr⟩ := (wf_done f.2.1).2 hc
      obtain ⟨wl, wr, hkv, hfl, hl0, hr0⟩ := split_spec (by omega) b hcnt hu hp
      rw [insertHalves_spec e1.symm hks (wf_gap wl) (wf_gap wr) na hkv]
      have := toks_split b hcnt hp x
      simp [before1, after1, occ_cons, holdTok, toks_of_held f.2.1 hc]; omega
  | splitOver hc hf hp hn =>
    rename_i id op lk rs kvs ca c cb out kv l r
    intro rt h lo hi wf x
    cases h with
    | zero => simp [WF] at wf
    | succ h =>
      have hks := wf_ks wf
      obtain ⟨ka, kb, rfl, e1, e2⟩ := forest_split wf.1
      obtain ⟨f, na, _, lk'⟩ := wf
      rw [forest_focus e1.symm] at f
      obtain ⟨b, hcnt, hu, hcr⟩ := (wf_done f.2.1).2 hc
      obtain ⟨wl, wr, hkv, hfl, hl0, hr0⟩ := split_spec (by omega) b hcnt hu hp
      rw [insertHalves_spec e1.symm hks (wf_gap wl) (wf_gap wr) na hkv]
      have := toks_split b hcnt hp x
      simp [before1, after1, occ_cons, holdTok, toks_of_held f.2.1 hc]; omega
  | rotateLeft hm hc hi hx hl hd hg hs hk =>
    rename_i id op lk mk rs ka kv kb ca c d cb out rkv rkvs
    intro rt h lo hi' wf x
    obtain ⟨h', rfl, p1, p2, p3, p4, na⟩ := wf_pair wf hi
    have := toksL_take_drop d.children 1 x
    simp only [before1, after1, toks_mk, toksL_append, toksL_cons, holdTok_waits hm, toks_of_held p2 hc, toks_of_free hd, occ_append, holdTok_none, holdTok_under, List.map_nil, occ_nil]; omega
  | rotateRight hm hc hi hx hb hd hs hk =>
    rename_i id op lk mk rs ka kv kb ca b c cb out lkv
    intro rt h lo hi' wf x
    obtain ⟨h', rfl, p1, p2, p3, p4, na⟩ := wf_pair wf hi
    have ecs : b.children = b.children.dropLast ++ b.children.getLast?.toList := by
      cases hx : b.children.getLast? with
      | none => simp at hx; simp [hx]
      | some g =>
        obtain ⟨gs, hgs⟩ := List.getLast?_eq_some_iff.1 hx
        rw [hgs]; simp
    have := congrArg (fun l => occ x (toksL l)) ecs
    simp only [toksL_append, occ_append] at this
    simp only [before1, after1, toks_mk, toksL_append, toksL_cons, holdTok_waits hm, toks_of_held p3 hc, toks_of_free hb, occ_append, holdTok_none, holdTok_under, List.map_nil, occ_nil]; omega
  | mergeLeft hm hc hi hx hb hd hg hs hs' hu =>
    intro rt h lo hi' wf x
    obtain ⟨h', rfl, p1, p2, p3, p4, na⟩ := wf_pair wf hi
    simp only [before1, after1, toks_mk, toksL_append, toksL_cons, holdTok_waits hm, toks_of_held p3 hc, toks_of_free hb, occ_append, holdTok_none, holdTok_under, List.map_nil, occ_nil]; omega
  | mergeLeftUnder hm hc hi hx hb hd hg hs hs' hu =>
    intro rt h lo hi' wf x
    obtain ⟨h', rfl, p1, p2, p3, p4, na⟩ := wf_pair wf hi
    simp only [before1, after1, toks_mk, toksL_append, toksL_cons, holdTok_waits hm, toks_of_held p3 hc, toks_of_free hb, occ_append, holdTok_none, holdTok_under, List.map_nil, occ_nil]; omega
  | mergeRight hm hc hx hd hr hg hs hu =>
    intro rt h lo hi' wf x
    obtain ⟨h', rfl, p1, p2, p3, p4, na⟩ := wf_pair (ka := []) (ca := []) wf rfl
    simp only [before1, after1, toks_mk, toksL_append, toksL_cons, holdTok_waits hm, toks_of_held p2 hc, toks_of_free hd, occ_append, holdTok_none, holdTok_under, List.map_nil, occ_nil]; omega
  | mergeRightUnder hm hc hx hd hr hg hs hu =>
    intro rt h lo hi' wf x
    obtain ⟨h', rfl, p1, p2, p3, p4, na⟩ := wf_pair (ka := []) (ca := []) wf rfl
    simp only [before1, after1, toks_mk, toksL_append, toksL_cons, holdTok_waits hm, toks_of_held p2 hc, toks_of_free hd, occ_append, holdTok_none, holdTok_under, List.map_nil, occ_nil]; omega
  | inner hm hc hl hid hop hs ih =>
    rename_i id op lk m rs kvs ca c cb h0 e c'
    intro rt h lo hi' wf x
    cases h with
    | zero => simp [WF] at wf
    | succ h =>
      obtain ⟨lo', hi'', wc⟩ := forest_mem wf.1 (c := c) (by simp)
      have hi := ih _ _ _ _ wc x
      have e1 : before1 { e with swap := nextSwap m e.swap } = before1 e := rfl
      have e2 : after1 { e with swap := nextSwap m e.swap } = after1 e := rfl
      have e3 : holdTok (if e.rel = true then none else some ⟨id, op, lk, nextMark m e.swap⟩) = [] := by
        split
        · rfl
        · exact holdTok_waits (nextMark_waits hm _)
      rw [e1, e2]
      simp only [toks_mk, toksL_append, toksL_cons, holdTok_waits hm, e3, occ_append]
      omega

theorem nstep_toks {n} (hn2 : 2 ≤ n) {t : CNode K V} {e t'} (st : NStep n t e t') : ∀ rt h lo hi, WF n rt h lo hi t →
    TokOk e (toks t) (toks t') := by
  induction st with
  | chain hh hl hs => exact cstep_toks hn2 hs
  | readHit hr hh => intro rt h lo hi wf x; simp [before1, after1, readTok, occ_cons]; omega
  | readMiss hh => intro rt h lo hi wf x; simp [before1, after1, readTok, occ_cons]; omega
  | readAgain hh => intro rt h lo hi wf x; simp [before1, after1, readTok, occ_cons]; omega
  | readDown hr hh hi' hf =>
    intro rt h lo hi wf x; simp [before1, after1, occ_cons, toks_addReader]; omega
  | child hs ih =>
    rename_i w rs kvs ca c cb e c'
    intro rt h lo hi' wf x
    cases h with
    | zero => simp [WF] at wf
    | succ h =>
      obtain ⟨lo', hi'', wc⟩ := forest_mem wf.1 (c := c) (by simp)
      have hi := ih _ _ _ _ wc x
      simp only [toks_mk, toksL_append, toksL_cons, occ_append]
      omega
end

end Willow.BTreeConc
