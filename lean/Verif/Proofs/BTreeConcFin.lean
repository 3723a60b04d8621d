import Verif.Proofs.BTreeConcLive
set_option linter.unusedSectionVars false
set_option linter.unusedSimpArgs false
/-! Termination: the calls under way cannot go on for ever without returning. -/
namespace Willow.BTreeConc
open KeyOps BTree Spec LawfulKey

variable {K V : Type}

/-- Weights of a frame, depending on the height of its node. -/
structure Wt where
  p : Nat → Nat
  d : Nat → Nat
  r : Nat → Nat

def holdW (w : Wt) (h : Nat) : Option (Hold K V) → Nat
  | some ⟨_, _, _, .down⟩ => w.p h
  | some ⟨_, _, _, .swapDown _⟩ => w.p h
  | some ⟨_, _, _, .over _⟩ => w.d h
  | some ⟨_, _, _, .under _⟩ => w.d h
  | _ => 0

theorem holdW_none {w : Wt} {h} : holdW w h (none : Option (Hold K V)) = 0 := rfl
theorem holdW_under {w : Wt} {h} {id : Nat} {op : Op K V} {lk out} : holdW w h (some ⟨id, op, lk, .under out⟩) = w.d h := rfl
theorem holdW_over {w : Wt} {h} {id : Nat} {op : Op K V} {lk out} : holdW w h (some ⟨id, op, lk, .over out⟩) = w.d h := rfl
theorem holdW_down {w : Wt} {h} {id : Nat} {op : Op K V} {lk} : holdW w h (some ⟨id, op, lk, .down⟩) = w.p h := rfl
theorem holdW_swap {w : Wt} {h} {id : Nat} {op : Op K V} {lk kv} : holdW w h (some ⟨id, op, lk, .swapDown kv⟩) = w.p h := rfl
theorem holdW_waits {w : Wt} {h} {id : Nat} {op : Op K V} {lk m} (hm : Mark.waits m = true) : holdW w h (some ⟨id, op, lk, m⟩) = 0 := by
  cases m <;> simp [Mark.waits] at hm <;> rfl

/-- The weight of a list of searches. -/
def readW (w : Wt) (h : Nat) : List (Nat × Op K V) → Nat
  | [] => 0
  | _ :: l => w.r h + readW w h l
theorem readW_append (w : Wt) (h : Nat) (a b : List (Nat × Op K V)) : readW w h (a ++ b) = readW w h a + readW w h b := by
  induction a with
  | nil => simp [readW]
  | cons x a ih => simp [readW, ih]; omega
theorem readW_cons (w : Wt) (h : Nat) (a : Nat × Op K V) (b : List (Nat × Op K V)) : readW w h (a :: b) = w.r h + readW w h b := rfl
theorem readW_nil (w : Wt) (h : Nat) : readW w h ([] : List (Nat × Op K V)) = 0 := rfl

mutual
/-- The weight of a subtree of height `h`. -/
def msr (w : Wt) (h : Nat) : CNode K V → Nat
  | .mk hd rs _ cs => holdW w h hd + readW w h rs + msrL w (h - 1) cs
def msrL (w : Wt) (h : Nat) : List (CNode K V) → Nat
  | [] => 0
  | c :: cs => msr w h c + msrL w h cs
end

theorem msr_mk {w : Wt} {h} (hd : Option (Hold K V)) (rs kvs cs) : msr w h (.mk hd rs kvs cs) = holdW w h hd + readW w h rs + msrL w (h-1) cs := by simp [msr]
theorem msrL_nil {w : Wt} {h} : msrL w h ([] : List (CNode K V)) = 0 := by simp [msrL]
theorem msrL_cons {w : Wt} {h} (c : CNode K V) (cs) : msrL w h (c :: cs) = msr w h c + msrL w h cs := by simp [msrL]
theorem msrL_append {w : Wt} {h} (a b : List (CNode K V)) : msrL w h (a ++ b) = msrL w h a + msrL w h b := by
  induction a with
  | nil => simp [msrL_nil]
  | cons c a ih => simp [msrL_cons, ih]; omega

theorem msr_free {w : Wt} {h} {c : CNode K V} (hf : c.Free) (hd : Option (Hold K V)) :
    msr w h (c.held hd) = holdW w h hd + msr w h c := by
  cases c with
  | mk cw rs kvs cs =>
    obtain ⟨h1, h2⟩ := hf
    simp at h1 h2; subst h1; subst h2
    simp [CNode.held, msr_mk, holdW_none]; omega
theorem msr_free' {w : Wt} {h} {c : CNode K V} (hf : c.Free) : msr w h c = msrL w (h-1) c.children := by
  cases c with
  | mk cw rs kvs cs =>
    obtain ⟨h1, h2⟩ := hf
    simp at h1 h2; subst h1; subst h2
    simp [msr_mk, holdW_none, readW]
theorem msr_addReader {w : Wt} {h} (c : CNode K V) (r) : msr w h (c.addReader r) = msr w h c + w.r h := by
  cases c with
  | mk cw rs kvs cs => simp [CNode.addReader, msr_mk, readW_cons]; omega

/-- How a step of an exclusive call changes the weight `a` of a subtree of height `h`. -/
def Drop (w : Wt) (h : Nat) (o : Outcome K V) (a b : Nat) : Prop :=
  match o with
  | .moved => ∃ i, i + 1 ≤ h ∧ (b + w.p (i+1) = a + w.p i ∨ b + w.d i = a + w.d (i+1) ∨ b + w.r (i+1) = a + w.r i)
  | .applied _ => ∃ i, i ≤ h ∧ b + w.p i = a + w.d i
  | .left _ => ∃ i, i ≤ h ∧ b + w.d i = a
  | .answered _ => ∃ i, i ≤ h ∧ (b + w.p i = a ∨ b + w.r i = a)
  | .again => ∃ i, i ≤ h ∧ b + w.r i = a

theorem drop_lift {w : Wt} {h h'} {o : Outcome K V} {a b a' b' x : Nat} (hd : Drop w h o a b) (hh : h ≤ h') (ha : a' = a + x) (hb : b' = b + x) :
    Drop w h' o a' b' := by
  subst ha; subst hb
  cases o with
  | moved => obtain ⟨i, h1, h2⟩ := hd; exact ⟨i, by omega, by omega⟩
  | applied => obtain ⟨i, h1, h2⟩ := hd; exact ⟨i, by omega, by omega⟩
  | left => obtain ⟨i, h1, h2⟩ := hd; exact ⟨i, by omega, by omega⟩
  | answered => obtain ⟨i, h1, h2⟩ := hd; exact ⟨i, by omega, by omega⟩
  | again => obtain ⟨i, h1, h2⟩ := hd; exact ⟨i, by omega, by omega⟩

section
variable [LawfulKey K]

theorem msr_held {w : Wt} {n rt h h'} {lo hi : Option K} {c : CNode K V} {hd} (wf : WF n rt h lo hi c) (hc : c.hold = some hd) :
    msr w h' c = holdW w h' (some hd) + msrL w (h' - 1) c.children := by
  cases c with
  | mk cw rs kvs cs =>
    simp at hc; subst hc
    have := (wf_lbl wf).2.1
    subst this
    simp [msr_mk, readW]

theorem msrL_take_drop {w : Wt} {h} (cs : List (CNode K V)) (i : Nat) : msrL w h (cs.take i) + msrL w h (cs.drop i) = msrL w h cs := by
  rw [← msrL_append, List.take_append_drop]

theorem msr_split {w : Wt} {n h h'} {lo hi : Option K} {kvs : List (K × V)} {cs : List (CNode K V)} (b : Body n h lo hi kvs cs)
    (hl : kvs.length = n + 1) {kv l r} (hp : splitHalves n kvs cs = some (kv, l, r)) :
    msr w h' l + msr w h' r = msrL w (h' - 1) cs := by
  simp only [splitHalves, max_eq] at hp
  split at hp
  · injection hp with hp
    injection hp with e1 hp
    injection hp with e2 e3
    have etc : cs.take (n+2) = cs := by
      refine List.take_of_length_le ?_
      cases h with
      | zero => simp [b.1]
      | succ h => have := body_length b; omega
    rw [etc] at e3
    rw [← e2, ← e3]
    simp only [msr_mk, holdW_none, readW_nil, Nat.zero_add]
    exact msrL_take_drop _ _
  · cases hp

theorem height_pos {n rt h} {lo hi : Option K} {w : Option (Hold K V)} {rs kvs ca c cb} (wf : WF n rt h lo hi (.mk w rs kvs (ca ++ c :: cb))) :
    ∃ h', h = h' + 1 := by
  cases h with
  | zero => simp [WF] at wf
  | succ h => exact ⟨h, rfl⟩

theorem cstep_drop {n} (hn2 : 2 ≤ n) (w : Wt) {t : CNode K V} {e t'} (st : CStep n t e t') : ∀ rt h lo hi, WF n rt h lo hi t →
    Drop w h e.outcome (msr w h t) (msr w h t') := by
  induction st with
  | descend hh hi hf hs =>
    intro rt h lo hi wf
    obtain ⟨h, rfl⟩ := height_pos wf
    refine ⟨h, Nat.le_refl _, .inl ?_⟩
    simp only [msr_mk, msrL_append, msrL_cons, msr_free hf, holdW_down, holdW_waits (m := Mark.inChild) rfl, Nat.add_sub_cancel]; omega
  | descendRelease hh hi hf hs =>
    intro rt h lo hi wf
    obtain ⟨h, rfl⟩ := height_pos wf
    refine ⟨h, Nat.le_refl _, .inl ?_⟩
    simp only [msr_mk, msrL_append, msrL_cons, msr_free hf, holdW_down, holdW_none, Nat.add_sub_cancel]; omega
  | found hw hh =>
    intro rt h lo hi wf; refine ⟨h, Nat.le_refl _, .inl ?_⟩
    simp only [msr_mk, holdW_down, holdW_none]; omega
  | insert hw hh hn =>
    intro rt h lo hi wf; refine ⟨h, Nat.le_refl _, .inl ?_⟩
    simp only [msr_mk, holdW_down, holdW_none]; omega
  | insertOver hw hh hn =>
    intro rt h lo hi wf; refine ⟨h, Nat.le_refl _, ?_⟩
    simp only [msr_mk, holdW_down, holdW_over]; omega
  | missing hh =>
    intro rt h lo hi wf; refine ⟨h, Nat.le_refl _, .inl ?_⟩
    simp only [msr_mk, holdW_down, holdW_none]; omega
  | refused hh hr =>
    intro rt h lo hi wf; refine ⟨h, Nat.le_refl _, .inl ?_⟩
    simp only [msr_mk, holdW_down, holdW_none]; omega
  | removeLeaf hh hr hu =>
    intro rt h lo hi wf; refine ⟨h, Nat.le_refl _, .inl ?_⟩
    simp only [msr_mk, holdW_down, holdW_none]; omega
  | removeLeafUnder hh hr hu =>
    intro rt h lo hi wf; refine ⟨h, Nat.le_refl _, ?_⟩
    simp only [msr_mk, holdW_down, holdW_under]; omega
  | swapRight hh hr hi hc hd hm =>
    intro rt h lo hi wf
    obtain ⟨h, rfl⟩ := height_pos wf
    refine ⟨h, Nat.le_refl _, .inl ?_⟩
    simp only [msr_mk, msrL_append, msrL_cons, msr_free hd, holdW_down, holdW_swap, holdW_waits (m := Mark.swapIn _) rfl, Nat.add_sub_cancel]; omega
  | swapLeft hh hr hi hc hd hm =>
    intro rt h lo hi wf
    obtain ⟨h, rfl⟩ := height_pos wf
    refine ⟨h, Nat.le_refl _, .inl ?_⟩
    simp only [msr_mk, msrL_append, msrL_cons, msr_free hc, holdW_down, holdW_swap, holdW_waits (m := Mark.swapIn _) rfl, Nat.add_sub_cancel]; omega
  | swapFirst hk hl hf =>
    intro rt h lo hi wf
    obtain ⟨h, rfl⟩ := height_pos (ca := []) wf
    refine ⟨h, Nat.le_refl _, .inl ?_⟩
    simp only [msr_mk, msrL_append, msrL_cons, msr_free hf, holdW_swap, holdW_waits (m := Mark.inSwap _) rfl, Nat.add_sub_cancel]; omega
  | swapLast hk hl hf =>
    intro rt h lo hi wf
    obtain ⟨h, rfl⟩ := height_pos wf
    refine ⟨h, Nat.le_refl _, .inl ?_⟩
    simp only [msr_mk, msrL_append, msrL_cons, msr_free hf, holdW_swap, holdW_waits (m := Mark.inSwap _) rfl, Nat.add_sub_cancel]; omega
  | takeFirst hl hu =>
    intro rt h lo hi wf; refine ⟨h, Nat.le_refl _, .inl ?_⟩
    simp only [msr_mk, holdW_swap, holdW_none]; omega
  | takeFirstUnder hl hu =>
    intro rt h lo hi wf; refine ⟨h, Nat.le_refl _, ?_⟩
    simp only [msr_mk, holdW_swap, holdW_under]; omega
  | takeLast h1 hl hu =>
    intro rt h lo hi wf; refine ⟨h, Nat.le_refl _, .inl ?_⟩
    simp only [msr_mk, holdW_swap, holdW_none]; omega
  | takeLastUnder h1 hl hu =>
    intro rt h lo hi wf; refine ⟨h, Nat.le_refl _, ?_⟩
    simp only [msr_mk, holdW_swap, holdW_under]; omega
  | split hc hf hp hn =>
    rename_i id op lk rs kvs ca c cb out kv l r
    intro rt h lo hi wf
    obtain ⟨h, rfl⟩ := height_pos wf
    have hks := wf_ks wf
    obtain ⟨ka, kb, rfl, e1, e2⟩ := forest_split wf.1
    obtain ⟨f, na, _, lk'⟩ := wf
    rw [forest_focus e1.symm] at f
    obtain ⟨b, hcnt, hu, hcr⟩ := (wf_done f.2.1).2 hc
    obtain ⟨wl, wr, hkv, hfl, hl0, hr0⟩ := split_spec (by omega) b hcnt hu hp
    rw [insertHalves_spec e1.symm hks (wf_gap wl) (wf_gap wr) na hkv]
    have := msr_split (w := w) (h' := h) b hcnt hp
    refine ⟨h, by omega, ?_⟩
    simp only [msr_mk, msrL_append, msrL_cons, msr_held f.2.1 hc, holdW_none, holdW_over, holdW_waits (m := Mark.inChild) rfl, Nat.add_sub_cancel]; omega
  | splitOver hc hf hp hn =>
    rename_i id op lk rs kvs ca c cb out kv l r
    intro rt h lo hi wf
    obtain ⟨h, rfl⟩ := height_pos wf
    have hks := wf_ks wf
    obtain ⟨ka, kb, rfl, e1, e2⟩ := forest_split wf.1
    obtain ⟨f, na, _, lk'⟩ := wf
    rw [forest_focus e1.symm] at f
    obtain ⟨b, hcnt, hu, hcr⟩ := (wf_done f.2.1).2 hc
    obtain ⟨wl, wr, hkv, hfl, hl0, hr0⟩ := split_spec (by omega) b hcnt hu hp
    rw [insertHalves_spec e1.symm hks (wf_gap wl) (wf_gap wr) na hkv]
    have := msr_split (w := w) (h' := h) b hcnt hp
    refine ⟨h, Nat.le_refl _, .inr (.inl ?_)⟩
    simp only [msr_mk, msrL_append, msrL_cons, msr_held f.2.1 hc, holdW_none, holdW_over, holdW_waits (m := Mark.inChild) rfl, Nat.add_sub_cancel]; omega
  | rotateLeft hm hc hi hx hl hd hg hs hk =>
    rename_i id op lk mk rs ka kv kb ca c d cb out rkv rkvs
    intro rt h lo hi' wf
    obtain ⟨h, rfl, p1, p2, p3, p4, na⟩ := wf_pair wf hi
    have := msrL_take_drop (w := w) (h := h - 1) d.children 1
    refine ⟨h, by omega, ?_⟩
    simp only [msr_mk, msrL_append, msrL_cons, msr_held p2 hc, msr_free' hd, holdW_none, holdW_under, holdW_waits hm, readW_nil, Nat.add_sub_cancel]; omega
  | rotateRight hm hc hi hx hb hd hs hk =>
    rename_i id op lk mk rs ka kv kb ca b c cb out lkv
    intro rt h lo hi' wf
    obtain ⟨h, rfl, p1, p2, p3, p4, na⟩ := wf_pair wf hi
    have ecs : b.children = b.children.dropLast ++ b.children.getLast?.toList := by
      cases hx : b.children.getLast? with
      | none => simp at hx; simp [hx]
      | some g =>
        obtain ⟨gs, hgs⟩ := List.getLast?_eq_some_iff.1 hx
        rw [hgs]; simp
    have := congrArg (fun l => msrL w (h-1) l) ecs
    simp only [msrL_append] at this
    refine ⟨h, by omega, ?_⟩
    simp only [msr_mk, msrL_append, msrL_cons, msr_held p3 hc, msr_free' hb, holdW_none, holdW_under, holdW_waits hm, readW_nil, Nat.add_sub_cancel]; omega
  | mergeLeft hm hc hi hx hb hd hg hs hs' hu =>
    intro rt h lo hi' wf
    obtain ⟨h, rfl, p1, p2, p3, p4, na⟩ := wf_pair wf hi
    refine ⟨h, by omega, ?_⟩
    simp only [msr_mk, msrL_append, msrL_cons, msr_held p3 hc, msr_free' hb, holdW_none, holdW_under, holdW_waits hm, readW_nil, Nat.add_sub_cancel]; omega
  | mergeLeftUnder hm hc hi hx hb hd hg hs hs' hu =>
    intro rt h lo hi' wf
    obtain ⟨h, rfl, p1, p2, p3, p4, na⟩ := wf_pair wf hi
    refine ⟨h, Nat.le_refl _, .inr (.inl ?_)⟩
    simp only [msr_mk, msrL_append, msrL_cons, msr_held p3 hc, msr_free' hb, holdW_none, holdW_under, holdW_waits hm, readW_nil, Nat.add_sub_cancel]; omega
  | mergeRight hm hc hx hd hr hg hs hu =>
    intro rt h lo hi' wf
    obtain ⟨h, rfl, p1, p2, p3, p4, na⟩ := wf_pair (ka := []) (ca := []) wf rfl
    refine ⟨h, by omega, ?_⟩
    simp only [msr_mk, msrL_append, msrL_cons, msr_held p2 hc, msr_free' hd, holdW_none, holdW_under, holdW_waits hm, readW_nil, Nat.add_sub_cancel]; omega
  | mergeRightUnder hm hc hx hd hr hg hs hu =>
    intro rt h lo hi' wf
    obtain ⟨h, rfl, p1, p2, p3, p4, na⟩ := wf_pair (ka := []) (ca := []) wf rfl
    refine ⟨h, Nat.le_refl _, .inr (.inl ?_)⟩
    simp only [msr_mk, msrL_append, msrL_cons, msr_held p2 hc, msr_free' hd, holdW_none, holdW_under, holdW_waits hm, readW_nil, Nat.add_sub_cancel]; omega
  | inner hm hc hl hid hop hs ih =>
    rename_i id op lk m rs kvs ca c cb h0 e c'
    intro rt h lo hi' wf
    obtain ⟨h, rfl⟩ := height_pos wf
    obtain ⟨lo', hi'', wc⟩ := forest_mem wf.1 (c := c) (by simp)
    have hd := ih _ _ _ _ wc
    have e3 : holdW w (h+1) (if e.rel = true then none else some ⟨id, op, lk, nextMark m e.swap⟩) = 0 := by
      split
      · rfl
      · exact holdW_waits (nextMark_waits hm _)
    refine drop_lift (x := readW w (h+1) rs + msrL w h ca + msrL w h cb) hd (by omega) ?_ ?_
    · simp only [msr_mk, msrL_append, msrL_cons, holdW_waits hm, Nat.add_sub_cancel]; omega
    · simp only [msr_mk, msrL_append, msrL_cons, e3, Nat.add_sub_cancel]; omega

theorem nstep_drop {n} (hn2 : 2 ≤ n) (w : Wt) {t : CNode K V} {e t'} (st : NStep n t e t') : ∀ rt h lo hi, WF n rt h lo hi t →
    Drop w h e.outcome (msr w h t) (msr w h t') := by
  induction st with
  | chain hh hl hs => exact cstep_drop hn2 w hs
  | readHit hr hh =>
    intro rt h lo hi wf; refine ⟨h, Nat.le_refl _, .inr ?_⟩
    simp only [msr_mk, readW_append, readW_cons]; omega
  | readMiss hh =>
    intro rt h lo hi wf; refine ⟨h, Nat.le_refl _, .inr ?_⟩
    simp only [msr_mk, readW_append, readW_cons]; omega
  | readAgain hh =>
    intro rt h lo hi wf; refine ⟨h, Nat.le_refl _, ?_⟩
    simp only [msr_mk, readW_append, readW_cons]; omega
  | readDown hr hh hi' hf =>
    intro rt h lo hi wf
    obtain ⟨h, rfl⟩ := height_pos wf
    refine ⟨h, Nat.le_refl _, .inr (.inr ?_)⟩
    simp only [msr_mk, readW_append, readW_cons, msrL_append, msrL_cons, msr_addReader, Nat.add_sub_cancel]; omega
  | child hs ih =>
    rename_i cw rs kvs ca c cb e c'
    intro rt h lo hi' wf
    obtain ⟨h, rfl⟩ := height_pos wf
    obtain ⟨lo', hi'', wc⟩ := forest_mem wf.1 (c := c) (by simp)
    have hd := ih _ _ _ _ wc
    refine drop_lift (x := holdW w (h+1) cw + readW w (h+1) rs + msrL w h ca + msrL w h cb) hd (by omega) ?_ ?_
    · simp only [msr_mk, msrL_append, msrL_cons, Nat.add_sub_cancel]; omega
    · simp only [msr_mk, msrL_append, msrL_cons, Nat.add_sub_cancel]; omega
end

/-! ### The whole tree -/

/-- The height of a tree. -/
def ht : CNode K V → Nat
  | .mk _ _ _ [] => 0
  | .mk _ _ _ (c :: _) => ht c + 1

theorem wf_ht [LawfulKey K] {n : Nat} : ∀ {h rt} {lo hi : Option K} {t : CNode K V}, WF n rt h lo hi t → ht t = h
  | 0, rt, lo, hi, .mk w rs kvs cs, wf => by
    have := wf.1
    subst this; simp [ht]
  | h + 1, rt, lo, hi, .mk w rs kvs [], wf => wf.1.elim
  | h + 1, rt, lo, hi, .mk w rs kvs (c :: cs), wf => by
    have := wf_ht wf.1.1
    simp [ht, this]

/-- The number of steps down from the tree's lock. -/
def top : Option (CNode K V) → Nat
  | none => 1
  | some r => ht r + 1

/-- How far the calls are: 4 for a search, 3 for another call, 2 after its effect, 1 when it only has to return. -/
def wtA : Wt := ⟨fun _ => 3, fun _ => 2, fun _ => 4⟩
/-- How far the calls are from the leaf, or from the root after their effect. -/
def wtB (H : Nat) : Wt := ⟨fun i => i, fun i => H - i, fun i => i⟩

def rootW (w : Wt) : Option (CNode K V) → Nat
  | none => 0
  | some r => msr w (ht r) r

theorem top_some (r : CNode K V) : top (some r) = ht r + 1 := rfl
theorem rootW_some (w : Wt) (r : CNode K V) : rootW w (some r) = msr w (ht r) r := rfl

/-- The weight of the calls that wait for the tree's lock. -/
def waitW (x y : Nat) : List (Nat × Op K V × Bool) → Nat
  | [] => 0
  | (_, _, true) :: l => x + waitW x y l
  | (_, _, false) :: l => y + waitW x y l
theorem waitW_append (x y : Nat) (a b : List (Nat × Op K V × Bool)) : waitW x y (a ++ b) = waitW x y a + waitW x y b := by
  induction a with
  | nil => simp [waitW]
  | cons z a ih =>
    obtain ⟨_, _, b'⟩ := z
    cases b' <;> simp [waitW, ih] <;> omega
theorem waitW_true (x y : Nat) (i : Nat) (op : Op K V) (l) : waitW x y ((i, op, true) :: l) = x + waitW x y l := rfl
theorem waitW_false (x y : Nat) (i : Nat) (op : Op K V) (l) : waitW x y ((i, op, false) :: l) = y + waitW x y l := rfl

/-- First measure: what the calls still have to do. -/
def mA (s : St K V) : Nat :=
  waitW 3 4 s.waiting + holdW wtA 0 s.hold + readW wtA 0 s.readers + rootW wtA s.root + s.finished.length
/-- Second measure: where they are. -/
def mB (s : St K V) : Nat :=
  waitW (top s.root + 2) (top s.root + 2) s.waiting + holdW (wtB (top s.root)) (top s.root + 1) s.hold +
    readW (wtB (top s.root)) (top s.root + 1) s.readers + rootW (wtB (top s.root)) s.root

section
variable [LawfulKey K]

theorem settle_mA (s : St K V) (e : Eff K V) : mA (s.settle e) = mA s + (match e.outcome with
    | .moved => 0 | .applied _ => 0 | .left _ => 1 | .answered _ => 1 | .again => 3) := by
  unfold St.settle
  cases e.outcome <;> simp [mA, waitW_true] <;> omega

theorem settle_mB {s : St K V} {e : Eff K V} (h : e.outcome = .moved) : mB (s.settle e) = mB s := by
  unfold St.settle; rw [h]

/-- The two measures together. -/
def Less (s' s : St K V) : Prop := mA s' < mA s ∨ (mA s' = mA s ∧ mB s' < mB s)

theorem less_settle {n h} {s : St K V} {hold r} {e : Eff K V} {r'} (hr : s.root = some r) (wf : WF n true h none none r) (wf' : WF n true h none none r')
    (hd : ∀ w, Drop w h e.outcome (msr w h r) (msr w h r')) (hh : ∀ w i, holdW w i hold = holdW w i s.hold) :
    Less (St.settle { s with hold := hold, root := some r' } e) s := by
  have h1 := wf_ht wf
  have h2 := wf_ht wf'
  have dA := hd wtA
  have dB := hd (wtB (h+1))
  have eA : mA s = waitW 3 4 s.waiting + holdW wtA 0 s.hold + readW wtA 0 s.readers + msr wtA h r + s.finished.length := by
    simp [mA, rootW, hr, h1]
  have eA' : mA { s with hold := hold, root := some r' } = waitW 3 4 s.waiting + holdW wtA 0 s.hold + readW wtA 0 s.readers + msr wtA h r' + s.finished.length := by
    simp [mA, rootW, h2, hh]
  have a1 : ∀ i, wtA.p i = 3 := fun _ => rfl
  have a2 : ∀ i, wtA.d i = 2 := fun _ => rfl
  have a3 : ∀ i, wtA.r i = 4 := fun _ => rfl
  unfold Less
  rw [settle_mA, eA, eA']
  cases ho : e.outcome with
  | moved =>
    rw [settle_mB ho]
    rw [ho] at dA dB
    obtain ⟨i, i1, i2⟩ := dA
    obtain ⟨j, j1, j2⟩ := dB
    simp only [a1, a2, a3] at i2
    right
    refine ⟨by simp only; omega, ?_⟩
    have eB : mB s = (waitW (h+3) (h+3) s.waiting + holdW (wtB (h+1)) (h+2) s.hold + readW (wtB (h+1)) (h+2) s.readers) + msr (wtB (h+1)) h r := by
      simp [mB, rootW, hr, h1, top]
    have eB' : mB { s with hold := hold, root := some r' } = (waitW (h+3) (h+3) s.waiting + holdW (wtB (h+1)) (h+2) s.hold + readW (wtB (h+1)) (h+2) s.readers) + msr (wtB (h+1)) h r' := by
      simp [mB, rootW, h2, hh, top]
    rw [eB, eB']
    generalize waitW (h+3) (h+3) s.waiting + holdW (wtB (h+1)) (h+2) s.hold + readW (wtB (h+1)) (h+2) s.readers = W
    clear eB eB' eA eA'
    have f1 : ∀ i, (wtB (h+1)).p i = i := fun _ => rfl
    have f2 : ∀ i, (wtB (h+1)).d i = h + 1 - i := fun _ => rfl
    have f3 : ∀ i, (wtB (h+1)).r i = i := fun _ => rfl
    simp only [f1, f2, f3] at j2
    omega
  | applied out =>
    rw [ho] at dA
    obtain ⟨i, i1, i2⟩ := dA
    simp only [a1, a2, a3] at i2
    left; simp only; omega
  | left out =>
    rw [ho] at dA
    obtain ⟨i, i1, i2⟩ := dA
    simp only [a1, a2, a3] at i2
    left; simp only; omega
  | answered out =>
    rw [ho] at dA
    obtain ⟨i, i1, i2⟩ := dA
    simp only [a1, a2, a3] at i2
    left; simp only; omega
  | again =>
    rw [ho] at dA
    obtain ⟨i, i1, i2⟩ := dA
    simp only [a1, a2, a3] at i2
    left; simp only; omega

theorem holdW_inChild {w : Wt} {h} {id : Nat} {op : Op K V} {lk} : holdW w h (some ⟨id, op, lk, .inChild⟩) = 0 := rfl
theorem holdW_treeHold {w : Wt} {h n c} {id : Nat} {op : Op K V} : holdW w h (treeHold n id op c) = 0 := by
  unfold treeHold; split <;> rfl

theorem tau_less {n} (hn2 : 2 ≤ n) {s s' : St K V} (st : Step n s none s') (inv : Inv n s) : Less s' s := by
  obtain ⟨htree, hlock, hexcl, hwait, hread⟩ := inv
  generalize hev : (none : Option (Event K V)) = ev at st
  cases st with
  | call => cases hev
  | ret => cases hev
  | lock hw hh hr =>
    right
    simp only [mA, mB, hw, hh, hr, holdW_none, holdW_down, waitW_append, waitW_true]
    simp only [wtA, wtB]
    constructor <;> omega
  | enterCreate hw hh hf =>
    rename_i id op item
    obtain ⟨h, wf⟩ : ∃ h, WF n true h none none (rootOrNew s.root) := by
      cases hr : s.root with
      | none => exact ⟨0, wf_empty⟩
      | some r => exact htree r hr
    have hop : isCreate op = true ∨ isDelete op = true := .inl (isCreate_of_item hw).1
    obtain ⟨g1, _, _⟩ := enter_ok (id := id) wf hf hop
    have e1 := wf_ht wf
    have e2 := wf_ht g1
    have et : top s.root = h + 1 := by
      cases hr : s.root with
      | none => rw [hr] at e1; simp [rootOrNew, ht] at e1; simp [top, ← e1]
      | some r => rw [hr] at e1; simp [rootOrNew] at e1; simp [top, e1]
    have em : ∀ w, rootW w s.root = msr w h (rootOrNew s.root) := by
      intro w
      cases hr : s.root with
      | none => simp [rootW, rootOrNew, msr_mk, holdW_none, readW_nil, msrL_nil]
      | some r => rw [hr] at e1; simp only [rootOrNew] at e1 ⊢; simp [rootW, e1]
    right
    simp only [mA, mB, hh, em, et, top_some, e2, holdW_treeHold, holdW_down, rootW_some, msr_free hf]
    simp only [wtA, wtB]
    constructor <;> omega
  | enterDelete hh hr hf =>
    rename_i id k can r
    obtain ⟨h, wf⟩ := htree r hr
    obtain ⟨g1, _, _⟩ := enter_ok (id := id) (op := .delete k can) wf hf (.inr rfl)
    have e1 := wf_ht wf
    have e2 := wf_ht g1
    right
    simp only [mA, mB, hh, hr, top, e1, e2, holdW_treeHold, holdW_down, rootW, msr_free hf]
    simp only [wtA, wtB]
    constructor <;> omega
  | deleteEmpty hh hr =>
    left
    simp only [mA, hh, holdW_none, holdW_down, List.length_cons]
    simp only [wtA]
    omega
  | inner hh hr hc hl hid hop hs =>
    rename_i id op r h0 e r'
    obtain ⟨h, wf⟩ := htree r hr
    obtain ⟨hd, h1, h2⟩ := cstep_ok hn2 hs
    rw [hc] at h1; injection h1 with h1; subst h1
    have ok := h2 true h none none wf
    rw [hh] at hlock
    obtain ⟨_, hlk⟩ := hlock
    rcases hlk with ⟨hx, _⟩ | ⟨_, r0, ch, q1, q2, q3, q4, q5, q6⟩
    · simp at hx
    · rw [hr] at q1; injection q1 with q1; subst q1
      rw [hc] at q2; injection q2 with q2; subst q2
      have hsw : e.swap = none := by
        cases hsw : e.swap with
        | none => rfl
        | some x => obtain ⟨kv, s1, _⟩ := ok.swap x hsw; rw [q6] at s1; cases s1
      refine less_settle hr wf (ok.plain hsw).1 (fun w => cstep_drop hn2 w hs _ _ _ _ wf) (fun w i => ?_)
      rw [hh]; split <;> rfl
  | node hr hs =>
    rename_i r e r'
    obtain ⟨h, wf⟩ := htree r hr
    exact less_settle hr wf (nstep_ok hn2 hs _ _ _ _ wf).1 (fun w => nstep_drop hn2 w hs _ _ _ _ wf) (fun w i => rfl)
  | grow hh hr hc hp =>
    rename_i id op r out kv l rt
    obtain ⟨h, wf⟩ := htree r hr
    have e1 := wf_ht wf
    have em := msr_held (w := wtA) (h' := h) wf hc
    obtain ⟨b, hcnt, hu⟩ : Body n h none none r.kvs r.children ∧ r.kvs.length = n + 1 ∧ ∀ g ∈ r.children, g.linked = false := by
      cases r with
      | mk w rs kvs cs =>
        simp at hc; subst hc
        rw [wf_iff] at wf
        exact ⟨wf.1, by have := wf.2.1.2.2.1; simpa [MarkSize] using this, links_unlinked wf.2.2 rfl⟩
    obtain ⟨wl, wr, _⟩ := split_spec (by omega) b hcnt hu hp
    have e2 := wf_ht wl
    have es := msr_split (w := wtA) (h' := h) b hcnt hp
    left
    simp only [mA, hh, hr, rootW, ht, e1, e2, em, msr_mk, msrL_cons, msrL_nil, readW_nil, holdW_none, holdW_over, holdW_inChild, List.length_cons, Nat.add_sub_cancel]
    simp only [wtA] at *
    omega
  | shrink hh hr hc =>
    rename_i id op r out
    obtain ⟨h, wf⟩ := htree r hr
    have e1 := wf_ht wf
    have em := msr_held (w := wtA) (h' := h) wf hc
    obtain ⟨root', hroot'⟩ : ∃ x, (if r.count = 0 then r.children[0]? else some (r.held none)) = x := ⟨_, rfl⟩
    rw [hroot']
    have key : rootW wtA root' ≤ msrL wtA (h-1) r.children := by
      cases r with
      | mk w rs kvs cs =>
      simp at hc; subst hc
      have hb := (wf_iff.1 wf).1
      obtain ⟨_, l1, _⟩ := (wf_lbl wf)
      subst l1
      by_cases h0 : kvs.length = 0
      · have hroot' : cs[0]? = root' := (if_pos h0).symm.trans hroot'
        subst hroot'
        cases h with
        | zero => have := hb.1; subst this; simp [rootW]
        | succ h =>
          cases cs with
          | nil => exact hb.1.elim
          | cons c cs =>
            have := wf_ht hb.1.1
            simp [rootW, msrL_cons, this]
      · have hroot' : some (CNode.mk none [] kvs cs) = root' := (if_neg h0).symm.trans hroot'
        subst hroot'
        have : ht (CNode.mk none [] kvs cs) = ht (CNode.mk (some ⟨id, op, true, .under out⟩) [] kvs cs) := by cases cs <;> simp [ht]
        simp [rootW, this, e1, msr_mk, holdW_none, readW_nil]
    left
    simp only [mA, hh, hr, rootW_some, e1, em, holdW_none, holdW_under, holdW_inChild, List.length_cons]
    simp only [wtA] at *
    omega
  | rlock hw hh =>
    right
    simp only [mA, mB, hw, hh, readW_cons, waitW_append, waitW_false]
    simp only [wtA, wtB]
    constructor <;> omega
  | renter hw hr hf =>
    rename_i ra id op rb r
    obtain ⟨h, wf⟩ := htree r hr
    have hrd := hread (id, op) (by rw [hw]; simp)
    have e1 := wf_ht wf
    have e2 := wf_ht (wf_addReader (r := (id, op)) wf hf (by simp) (by simp) hrd)
    right
    simp only [mA, mB, hw, hr, top, rootW, e1, e2, readW_cons, readW_append, msr_addReader]
    simp only [wtA, wtB]
    constructor <;> omega
  | findEmpty hw hr =>
    left
    simp only [mA, hw, readW_append, readW_cons, List.length_cons]
    simp only [wtA]
    omega
  | againEmpty hw hr =>
    left
    simp only [mA, hw, readW_append, readW_cons, waitW_true]
    simp only [wtA]
    omega

theorem ret_less {n} {s s' : St K V} {id op out} (st : Step n s (some (.ret id op out)) s') : Less s' s := by
  cases st with
  | ret hf =>
    left
    simp only [mA, hf, List.length_append, List.length_cons]; omega

theorem ret_inv {n} {s s' : St K V} {id op out} (st : Step n s (some (.ret id op out)) s') (ih : Inv n s) : Inv n s' := by
  cases st with
  | ret hf => exact ⟨ih.tree, ih.lock, ih.excl, ih.waiting, ih.reading⟩

theorem no_endless {n} (hn2 : 2 ≤ n) (f : Nat → St K V) (h0 : Inv n (f 0))
    (hs : ∀ i, Step n (f i) none (f (i+1)) ∨ ∃ id op out, Step n (f i) (some (.ret id op out)) (f (i+1))) : False := by
  have hinv : ∀ i, Inv n (f i) := by
    intro i
    induction i with
    | zero => exact h0
    | succ i ih =>
      rcases hs i with h | ⟨id, op, out, h⟩
      · exact (tau_ok hn2 h ih).1
      · exact ret_inv h ih
  have hless : ∀ i, Less (f (i+1)) (f i) := by
    intro i
    rcases hs i with h | ⟨id, op, out, h⟩
    · exact tau_less hn2 h (hinv i)
    · exact ret_less h
  have key : ∀ a b i, mA (f i) = a → mB (f i) = b → False := by
    intro a
    induction a using Nat.strongRecOn with
    | ind a iha =>
      intro b
      induction b using Nat.strongRecOn with
      | ind b ihb =>
        intro i ea eb
        rcases hless i with h | ⟨h1, h2⟩
        · exact iha _ (by omega) _ (i+1) rfl rfl
        · exact ihb _ (by omega) (i+1) (by omega) rfl
  exact key _ _ 0 rfl rfl
end

end Willow.BTreeConc
