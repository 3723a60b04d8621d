import Verif.Proofs.BTreeWalkInv
import Verif.Proofs.BTreeConcEvents
set_option linter.unusedSectionVars false
set_option linter.unusedSimpArgs false
/-! No call gets into the part of the tree that a walk has ahead of it. -/
namespace Willow.BTreeWalk
open KeyOps BTree Spec LawfulKey BTreeConc

variable {K V : Type}

/-- What the call that holds the node is about to do: it is at the end of its chain of locks and has not had its effect yet. -/
def pend : Option (Hold K V) → List (Op K V)
  | some ⟨_, op, _, .down⟩ => [op]
  | some ⟨_, op, _, .swapDown _⟩ => [op]
  | _ => []
@[simp] theorem pend_none : pend (none : Option (Hold K V)) = [] := rfl
theorem pend_waits {id : Nat} {op : Op K V} {lk m} (h : m.waits = true) : pend (some ⟨id, op, lk, m⟩) = [] := by
  cases m <;> first | rfl | (simp [Mark.waits] at h)
theorem waits_next {m : Mark K V} (h : m.waits = true) (s) : (nextMark m s).waits = true := by
  cases s <;> cases m <;> first | rfl | (simp [Mark.waits] at h)

mutual
/-- What the calls that hold nodes of a subtree exclusively are about to do. -/
def ops : CNode K V → List (Op K V)
  | .mk w _ _ cs => pend w ++ opsL cs
/-- The same for some subtrees. -/
def opsL : List (CNode K V) → List (Op K V)
  | [] => []
  | c :: cs => ops c ++ opsL cs
end
mutual
/-- What the calls that hold nodes exclusively do, where the walk still has to go. -/
def opsA (m : Nat) : CNode K V → List (Op K V)
  | .mk w rs _ cs => if marksN m rs = 0 then opsAL m cs else pend w ++ opsL cs
/-- The same for some subtrees. -/
def opsAL (m : Nat) : List (CNode K V) → List (Op K V)
  | [] => []
  | c :: cs => opsA m c ++ opsAL m cs
end

theorem mem_opsL {x : Op K V} {cs : List (CNode K V)} : x ∈ opsL cs ↔ ∃ c ∈ cs, x ∈ ops c := by
  induction cs with
  | nil => simp [opsL]
  | cons c cs ih => simp [opsL, ih]
theorem mem_opsAL {m} {x : Op K V} {cs : List (CNode K V)} : x ∈ opsAL m cs ↔ ∃ c ∈ cs, x ∈ opsA m c := by
  induction cs with
  | nil => simp [opsAL]
  | cons c cs ih => simp [opsAL, ih]
theorem opsL_append (a b : List (CNode K V)) : opsL (a ++ b) = opsL a ++ opsL b := by
  induction a with
  | nil => rfl
  | cons c a ih => simp [opsL, ih]
theorem opsAL_append (m) (a b : List (CNode K V)) : opsAL m (a ++ b) = opsAL m a ++ opsAL m b := by
  induction a with
  | nil => rfl
  | cons c a ih => simp [opsAL, ih]

theorem ops_iff {o : Op K V} {t : CNode K V} : o ∈ ops t ↔ o ∈ pend t.hold ∨ ∃ c ∈ t.children, o ∈ ops c := by
  cases t with
  | mk w rs kvs cs => simp [ops, mem_opsL]
theorem opsA_free {m} {t : CNode K V} (h : t.readers = []) : opsA m t = opsAL m t.children := by cases t; simp at h; simp [opsA, h]

mutual
theorem opsA_sub (m : Nat) : ∀ (t : CNode K V) (o), o ∈ opsA m t → o ∈ ops t
  | .mk w rs kvs cs, o, h => by
    simp only [opsA] at h
    simp only [ops]
    split at h
    · exact List.mem_append_right _ (opsAL_sub m cs o h)
    · exact h
theorem opsAL_sub (m : Nat) : ∀ (cs : List (CNode K V)) (o), o ∈ opsAL m cs → o ∈ opsL cs
  | [], o, h => h
  | c :: cs, o, h => by
    simp only [opsAL, List.mem_append] at h
    simp only [opsL, List.mem_append]
    exact h.imp (opsA_sub m c o) (opsAL_sub m cs o)
end

/-- The step brings no call into the subtree, and none to where the walk still has to go. -/
structure Sub (m : Nat) (t t' : CNode K V) : Prop where
  all : ∀ o ∈ ops t', o ∈ ops t
  ahead : ∀ o ∈ opsA m t', o ∈ opsA m t

/-- A child after a step of the call: an old one, or one made of old ones nobody shared, held by the call or by nobody. -/
def FromC (p : List (Op K V)) (cs : List (CNode K V)) (c' : CNode K V) : Prop :=
  c' ∈ cs ∨ (c'.readers = [] ∧ (∀ o ∈ pend c'.hold, o ∈ p) ∧ ∀ g ∈ c'.children, ∃ c ∈ cs, c.readers = [] ∧ g ∈ c.children)

theorem sub_from {m : Nat} {w w' : Option (Hold K V)} {kvs kvs' cs cs'} (hw : ∀ o ∈ pend w', o ∈ pend w)
    (hc : ∀ c' ∈ cs', FromC (pend w) cs c') : Sub m (.mk w [] kvs cs) (.mk w' [] kvs' cs') := by
  constructor
  · intro o ho
    rw [ops_iff] at ho ⊢
    rcases ho with h1 | ⟨c', h1, h2⟩
    · exact .inl (hw o h1)
    · rcases hc c' h1 with h | ⟨_, g2, g3⟩
      · exact .inr ⟨c', h, h2⟩
      · rcases ops_iff.1 h2 with k1 | ⟨g, k1, k2⟩
        · exact .inl (g2 o k1)
        · obtain ⟨c, q1, _, q3⟩ := g3 g k1
          exact .inr ⟨c, q1, ops_iff.2 (.inr ⟨g, q3, k2⟩)⟩
  · intro o
    simp only [opsA, marksN_nil, if_pos, mem_opsAL]
    rintro ⟨c', h1, h2⟩
    rcases hc c' h1 with h | ⟨g1, _, g3⟩
    · exact ⟨c', h, h2⟩
    · rw [opsA_free g1, mem_opsAL] at h2
      obtain ⟨g, k1, k2⟩ := h2
      obtain ⟨c, q1, q2, q3⟩ := g3 g k1
      exact ⟨c, q1, by rw [opsA_free q2, mem_opsAL]; exact ⟨g, q3, k2⟩⟩

theorem from_held {p : List (Op K V)} {cs : List (CNode K V)} {c : CNode K V} {h : Hold K V} (hc : c ∈ cs) (hf : c.Free) (ho : ∀ o ∈ pend (some h), o ∈ p) :
    FromC p cs (c.held (some h)) := by
  refine .inr ⟨by cases c; simpa [CNode.held] using hf.2, ?_, fun g hg => ⟨c, hc, hf.2, by cases c; simpa [CNode.held] using hg⟩⟩
  cases c; exact ho

theorem from_none {p : List (Op K V)} {cs : List (CNode K V)} {kvs gs} (hg : ∀ g ∈ gs, ∃ c ∈ cs, c.readers = [] ∧ g ∈ c.children) :
    FromC p cs (.mk none [] kvs gs) := .inr ⟨rfl, (fun h hh => by cases hh), hg⟩

section
variable [KeyOps K]

theorem sub_split {n m} {w w' : Option (Hold K V)} {kvs ca c cb kv l r} (hw : ∀ o ∈ pend w', o ∈ pend w)
    (hr : c.readers = []) (hp : splitHalves n c.kvs c.children = some (kv, l, r)) :
    Sub m (.mk w [] kvs (ca ++ c :: cb))
      (.mk w' [] (insertHalves kvs (ca ++ c :: cb) kv l r).1 (insertHalves kvs (ca ++ c :: cb) kv l r).2) := by
  obtain ⟨_, k1, c1, k2, c2, rfl, rfl, _, _, g3, g4⟩ := split_sub hp
  obtain ⟨_, i2⟩ := insert_sub (kvs := kvs) (cs := ca ++ c :: cb) (kv := kv) (l := CNode.mk none [] k1 c1) (r := CNode.mk none [] k2 c2)
  refine sub_from hw fun c' hc => ?_
  rcases i2 c' hc with h | rfl | rfl
  · exact .inl h
  · exact from_none fun g hg => ⟨c, by simp, hr, g3 g hg⟩
  · exact from_none fun g hg => ⟨c, by simp, hr, g4 g hg⟩

theorem cstep_op {n} {t : CNode K V} {e t'} (st : CStep n t e t') : (∃ out, e.outcome = .applied out ∨ e.outcome = .answered out) → e.op ∈ ops t := by
  induction st with
  | inner hm hc hl hid hop hs ih =>
    intro ho
    exact ops_iff.2 (.inr ⟨_, by simp, ih ho⟩)
  | _ =>
    intro ho
    first
      | exact ops_iff.2 (.inl (.head _))
      | (obtain ⟨out, ho | ho⟩ := ho <;> cases ho)

theorem cstep_sub {n m} {t : CNode K V} {e t'} (st : CStep n t e t') : Excl t → Sub m t t' := by
  induction st with
  | inner hm hc hl hid hop hs ih =>
    rename_i id op lk mk rs kvs ca c cb h e c'
    intro he
    have hr := (excl_mk.1 he).1 rfl
    subst hr
    obtain ⟨i1, i2⟩ := ih ((excl_mk.1 he).2 _ (by simp))
    constructor
    · intro o ho
      simp only [ops, opsL_append, opsL, List.mem_append] at ho ⊢
      rcases ho with ho | ho | ho | ho
      · exfalso
        revert ho
        cases e.rel <;> simp [pend_waits (waits_next hm _)]
      · exact .inr (.inl ho)
      · exact .inr (.inr (.inl (i1 o ho)))
      · exact .inr (.inr (.inr ho))
    · intro o ho
      simp only [opsA, marksN_nil, if_pos, opsAL_append, opsAL, List.mem_append] at ho ⊢
      exact ho.imp (fun h => h) (Or.imp (i2 o) (fun h => h))
  | split hc hf hp hn =>
    intro he
    have hr := (excl_mk.1 he).1 rfl
    subst hr
    exact sub_split (fun o ho => by cases ho) (excl_readers ((excl_mk.1 he).2 _ (by simp)) hc) hp
  | splitOver hc hf hp hn =>
    intro he
    have hr := (excl_mk.1 he).1 rfl
    subst hr
    exact sub_split (fun o ho => by cases ho) (excl_readers ((excl_mk.1 he).2 _ (by simp)) hc) hp
  | swapRight hh hr hi hc hd hm =>
    intro he
    have hr := (excl_mk.1 he).1 rfl
    have hch := (excl_mk.1 he).2
    subst hr
    refine sub_from (fun o ho => by cases ho) fun c' hc' => ?_
    simp only [List.mem_append, List.mem_cons] at hc'
    rcases hc' with h | h | rfl | h
    · exact .inl (by simp [h])
    · exact .inl (by simp [h])
    · exact from_held (by simp) hd (fun o ho => ho)
    · exact .inl (by simp [h])
  | swapLeft hh hr hi hc hd hm =>
    intro he
    have hr := (excl_mk.1 he).1 rfl
    have hch := (excl_mk.1 he).2
    subst hr
    refine sub_from (fun o ho => by cases ho) fun c' hc' => ?_
    simp only [List.mem_append, List.mem_cons] at hc'
    rcases hc' with h | rfl | h | h
    · exact .inl (by simp [h])
    · exact from_held (by simp) hc (fun o ho => ho)
    · exact .inl (by simp [h])
    · exact .inl (by simp [h])
  | swapFirst hk hl hf =>
    intro he
    have hr := (excl_mk.1 he).1 rfl
    have hch := (excl_mk.1 he).2
    subst hr
    refine sub_from (fun o ho => by cases ho) fun c' hc' => ?_
    rcases List.mem_cons.1 hc' with rfl | h
    · exact from_held (by simp) hf (fun o ho => ho)
    · exact .inl (by simp [h])
  | swapLast hk hl hf =>
    intro he
    have hr := (excl_mk.1 he).1 rfl
    have hch := (excl_mk.1 he).2
    subst hr
    refine sub_from (fun o ho => by cases ho) fun c' hc' => ?_
    simp only [List.mem_append, List.mem_cons, List.not_mem_nil, or_false] at hc'
    rcases hc' with h | rfl
    · exact .inl (by simp [h])
    · exact from_held (by simp) hf (fun o ho => ho)
  | rotateLeft hm hc hi hx hl hd hg hs hk =>
    intro he
    have hr := (excl_mk.1 he).1 rfl
    have hch := (excl_mk.1 he).2
    subst hr
    refine sub_from (fun o ho => by cases ho) fun c' hc' => ?_
    have hcr := excl_readers (hch _ (by simp)) hc
    simp only [List.mem_append, List.mem_cons] at hc'
    rcases hc' with h | rfl | rfl | h
    · exact .inl (by simp [h])
    · refine from_none fun g hg => ?_
      rcases List.mem_append.1 hg with hg | hg
      · exact ⟨_, by simp, hcr, hg⟩
      · exact ⟨_, by simp, hd.2, List.mem_of_mem_take hg⟩
    · exact from_none fun g hg => ⟨_, by simp, hd.2, List.mem_of_mem_drop hg⟩
    · exact .inl (by simp [h])
  | rotateRight hm hc hi hx hb hd hs hk =>
    intro he
    have hr := (excl_mk.1 he).1 rfl
    have hch := (excl_mk.1 he).2
    subst hr
    refine sub_from (fun o ho => by cases ho) fun c' hc' => ?_
    have hcr := excl_readers (hch _ (by simp)) hc
    simp only [List.mem_append, List.mem_cons] at hc'
    rcases hc' with h | rfl | rfl | h
    · exact .inl (by simp [h])
    · exact from_none fun g hg => ⟨_, by simp, hb.2, List.dropLast_subset _ hg⟩
    · refine from_none fun g hg => ?_
      rcases List.mem_append.1 hg with hg | hg
      · exact ⟨_, by simp, hb.2, List.mem_of_getLast? (by simpa using hg)⟩
      · exact ⟨_, by simp, hcr, hg⟩
    · exact .inl (by simp [h])
  | mergeLeft hm hc hi hx hb hd hg hs hs' hu =>
    intro he
    have hr := (excl_mk.1 he).1 rfl
    have hch := (excl_mk.1 he).2
    subst hr
    refine sub_from (fun o ho => by cases ho) fun c' hc' => ?_
    have hcr := excl_readers (hch _ (by simp)) hc
    simp only [List.mem_append, List.mem_cons] at hc'
    rcases hc' with h | rfl | h
    · exact .inl (by simp [h])
    · refine from_none fun g hg => ?_
      rcases List.mem_append.1 hg with hg | hg
      · exact ⟨_, by simp, hb.2, hg⟩
      · exact ⟨_, by simp, hcr, hg⟩
    · exact .inl (by simp [h])
  | mergeLeftUnder hm hc hi hx hb hd hg hs hs' hu =>
    intro he
    have hr := (excl_mk.1 he).1 rfl
    have hch := (excl_mk.1 he).2
    subst hr
    refine sub_from (fun o ho => by cases ho) fun c' hc' => ?_
    have hcr := excl_readers (hch _ (by simp)) hc
    simp only [List.mem_append, List.mem_cons] at hc'
    rcases hc' with h | rfl | h
    · exact .inl (by simp [h])
    · refine from_none fun g hg => ?_
      rcases List.mem_append.1 hg with hg | hg
      · exact ⟨_, by simp, hb.2, hg⟩
      · exact ⟨_, by simp, hcr, hg⟩
    · exact .inl (by simp [h])
  | mergeRight hm hc hx hd hr hg hs hu =>
    intro he
    have hr := (excl_mk.1 he).1 rfl
    have hch := (excl_mk.1 he).2
    subst hr
    refine sub_from (fun o ho => by cases ho) fun c' hc' => ?_
    have hcr := excl_readers (hch _ (by simp)) hc
    simp only [List.mem_cons] at hc'
    rcases hc' with rfl | h
    · refine from_none fun g hg => ?_
      rcases List.mem_append.1 hg with hg | hg
      · exact ⟨_, by simp, hcr, hg⟩
      · exact ⟨_, by simp, hd.2, hg⟩
    · exact .inl (by simp [h])
  | mergeRightUnder hm hc hx hd hr hg hs hu =>
    intro he
    have hr := (excl_mk.1 he).1 rfl
    have hch := (excl_mk.1 he).2
    subst hr
    refine sub_from (fun o ho => by cases ho) fun c' hc' => ?_
    have hcr := excl_readers (hch _ (by simp)) hc
    simp only [List.mem_cons] at hc'
    rcases hc' with rfl | h
    · refine from_none fun g hg => ?_
      rcases List.mem_append.1 hg with hg | hg
      · exact ⟨_, by simp, hcr, hg⟩
      · exact ⟨_, by simp, hd.2, hg⟩
    · exact .inl (by simp [h])
  | descend hh hi hf hs =>
    intro he
    have hr := (excl_mk.1 he).1 rfl
    have hch := (excl_mk.1 he).2
    subst hr
    refine sub_from (fun o ho => by cases ho) fun c' hc' => ?_
    simp only [List.mem_append, List.mem_cons] at hc'
    rcases hc' with h | rfl | h
    · exact .inl (by simp [h])
    · exact from_held (by simp) hf (fun o ho => ho)
    · exact .inl (by simp [h])
  | descendRelease hh hi hf hs =>
    intro he
    have hr := (excl_mk.1 he).1 rfl
    have hch := (excl_mk.1 he).2
    subst hr
    refine sub_from (fun o ho => by cases ho) fun c' hc' => ?_
    simp only [List.mem_append, List.mem_cons] at hc'
    rcases hc' with h | rfl | h
    · exact .inl (by simp [h])
    · exact from_held (by simp) hf (fun o ho => ho)
    · exact .inl (by simp [h])
  | _ =>
    intro he
    have hr := (excl_mk.1 he).1 rfl
    have hch := (excl_mk.1 he).2
    subst hr
    refine sub_from (fun o ho => by cases ho) fun c' hc' => ?_
    exact .inl hc'

/-- What takes effect on the list of items takes effect behind the walk. -/
theorem cstep_ahead {n m} {t : CNode K V} {e t'} (st : CStep n t e t') :
    Excl t → (∃ out, e.outcome = .applied out ∨ e.outcome = .answered out) → ahead m t' = ahead m t := by
  induction st with
  | inner hm hc hl hid hop hs ih =>
    intro he ho
    have hr := (excl_mk.1 he).1 rfl
    subst hr
    have := ih ((excl_mk.1 he).2 _ (by simp)) ho
    simp only [ahead, marksN_nil, if_pos, aheadL_append, aheadL, this]
  | _ =>
    intro he ho
    have hr := (excl_mk.1 he).1 rfl
    subst hr
    first
      | rfl
      | (obtain ⟨out, ho | ho⟩ := ho <;> cases ho)

/-- The call takes no item away and adds none, or it holds a node below this one. -/
theorem nstep_ops {n} {t : CNode K V} {e t'} (st : NStep n t e t') (ho : ∃ out, e.outcome = .applied out ∨ e.outcome = .answered out) :
    e.op ∈ ops t ∨ allN t' = allN t := by
  induction st with
  | chain hh hl hs => exact .inl (cstep_op hs ho)
  | readHit hr hh => exact .inr rfl
  | readMiss hh => exact .inr rfl
  | readAgain hh => exact .inr rfl
  | readDown hr hh hi hf => right; simp [allN, allL_append, allL, all_addReader]
  | child hs ih =>
    rcases ih ho with h | h
    · exact .inl (ops_iff.2 (.inr ⟨_, by simp, h⟩))
    · right; simp [allN, allL_append, allL, h]

theorem marksN_drop {m id} {op : Op K V} {a b} (h : startsWriting op = false) : marksN m (a ++ (id, op) :: b) = marksN m (a ++ b) := by
  simp [marksN_cons, h]

theorem nstep_ahead {n m} {t : CNode K V} {e t'} (st : NStep n t e t') :
    Excl t → (∃ out, e.outcome = .applied out ∨ e.outcome = .answered out) → e.op ∈ opsA m t ∨ ahead m t' = ahead m t := by
  induction st with
  | chain hh hl hs => exact fun he ho => .inr (cstep_ahead hs he ho)
  | readHit hr hh => intro _ _; right; simp only [ahead, marksN_drop hr]
  | readMiss hh => intro _ _; right; simp only [ahead, marksN_drop (op := .find _) rfl]
  | readAgain hh => intro _ ho; obtain ⟨out, ho | ho⟩ := ho <;> cases ho
  | readDown hr hh hi hf => intro _ ho; obtain ⟨out, ho | ho⟩ := ho <;> cases ho
  | child hs ih =>
    rename_i w rs kvs ca c cb e c'
    intro he ho
    have hc := (excl_mk.1 he).2 c (by simp)
    by_cases hm : marksN m rs = 0
    · rcases ih hc ho with h | h
      · left; simp only [opsA, if_pos hm, mem_opsAL]; exact ⟨c, by simp, h⟩
      · right; simp only [ahead, if_pos hm, aheadL_append, aheadL, h]
    · rcases nstep_ops hs ho with h | h
      · left; simp only [opsA, if_neg hm, List.mem_append, mem_opsL]; exact .inr ⟨c, by simp, h⟩
      · right; simp only [ahead, if_neg hm, allL_append, allL, h]

theorem ops_addReader {t : CNode K V} {r : Nat × Op K V} : ops (t.addReader r) = ops t := by cases t; simp [ops, CNode.addReader]
theorem opsA_addCall {m} {t : CNode K V} {r : Nat × Op K V} (h : startsWriting r.2 = false) : opsA m (t.addReader r) = opsA m t := by
  cases t; simp [opsA, CNode.addReader, marksN_call h]
theorem opsA_addOther {m} {t : CNode K V} {r : Nat × Op K V} (h : r.1 ≠ m) : opsA m (t.addReader r) = opsA m t := by
  cases t; simp [opsA, CNode.addReader, marksN_other h]
theorem opsA_addOwn {m} {t : CNode K V} {tag : Op K V} (h : startsWriting tag = true) : opsA m (t.addReader (m, tag)) = ops t := by
  cases t; simp [opsA, ops, CNode.addReader, marksN_cons, h]

theorem nstep_sub {n m} {t : CNode K V} {e t'} (st : NStep n t e t') : Excl t → Sub m t t' := by
  induction st with
  | chain hh hl hs => exact cstep_sub hs
  | readHit hr hh => intro _; exact ⟨fun o h => h, fun o h => by simpa only [opsA, marksN_drop hr] using h⟩
  | readMiss hh => intro _; exact ⟨fun o h => h, fun o h => by simpa only [opsA, marksN_drop (op := .find _) rfl] using h⟩
  | readAgain hh => intro _; exact ⟨fun o h => h, fun o h => by simpa only [opsA, marksN_drop (op := .createOrFind _ _) rfl] using h⟩
  | readDown hr hh hi hf =>
    intro _
    refine ⟨fun o h => ?_, fun o h => ?_⟩
    · simpa only [ops, opsL_append, opsL, ops_addReader] using h
    · have e := fun (c : CNode K V) i => opsA_addCall (m := m) (t := c) (r := (i, _)) hr
      simpa only [opsA, marksN_drop hr, opsAL_append, opsAL, e, opsL_append, opsL, ops_addReader] using h
  | child hs ih =>
    rename_i w rs kvs ca c cb e c'
    intro he
    obtain ⟨i1, i2⟩ := ih ((excl_mk.1 he).2 c (by simp))
    have h1 : ∀ o ∈ pend w ++ opsL (ca ++ c' :: cb), o ∈ pend w ++ opsL (ca ++ c :: cb) := by
      intro o ho
      simp only [opsL_append, opsL, List.mem_append] at ho ⊢
      exact ho.imp (fun h => h) (Or.imp (fun h => h) (Or.imp (i1 o) (fun h => h)))
    refine ⟨fun o ho => ?_, fun o ho => ?_⟩
    · simp only [ops] at ho ⊢; exact h1 o ho
    · simp only [opsA] at ho ⊢
      by_cases hm : marksN m rs = 0
      · rw [if_pos hm] at ho ⊢
        simp only [opsAL_append, opsAL, List.mem_append] at ho ⊢
        exact ho.imp (fun h => h) (Or.imp (i2 o) (fun h => h))
      · rw [if_neg hm] at ho ⊢; exact h1 o ho

end

/-- The same of the whole tree. -/
def opsO : Option (CNode K V) → List (Op K V)
  | none => []
  | some r => ops r
/-- The same of the whole tree. -/
def opsAO (m : Nat) : Option (CNode K V) → List (Op K V)
  | none => []
  | some r => opsA m r

section
variable [LawfulKey K]

theorem ops_held_free {t : CNode K V} {m} (hf : t.Free) (h) : opsA m (t.held h) = opsA m t := by
  cases t; have := hf.2; simp at this; subst this; simp [opsA, CNode.held]

/-- Nobody gets to where the walk still has to go. -/
theorem step_sub {n} {s s' : St K V} {ev} (st : BTreeConc.Step n s ev s') (inv : Inv n (erS s)) (he : ExclO s.root) (m : Nat) :
    ∀ o ∈ opsAO m s'.root, o ∈ opsAO m s.root := by
  have hread := inv.reading
  cases st with
  | enterCreate hw hh hf =>
    intro o
    cases hr : s.root with
    | none => simp [hr, rootOrNew, opsAO, CNode.held, opsA, opsAL]
    | some r =>
      simp only [hr, rootOrNew, opsAO] at hf ⊢
      rw [ops_held_free hf]; exact id
  | enterDelete hh hr hf => intro o; simp only [hr, opsAO, ops_held_free hf]; exact id
  | inner hh hr hc hl hid hop hs =>
    rw [settle_root]
    rw [hr] at he ⊢
    exact (cstep_sub hs he).ahead
  | node hr hs =>
    rw [settle_root]
    rw [hr] at he ⊢
    exact (nstep_sub hs he).ahead
  | grow hh hr hc hp =>
    rename_i id op r out kv l rt
    rw [hr] at he ⊢
    have k := sub_split (m := m) (w := none) (w' := none) (kvs := []) (ca := []) (cb := []) (fun h hh => by cases hh) (excl_readers he hc) hp
    intro o ho
    have := k.ahead o ho
    simpa [opsA, opsAL, opsAO] using this
  | shrink hh hr hc =>
    rename_i id op r out
    rw [hr] at he ⊢
    have hrd := excl_readers he hc
    show ∀ o ∈ opsAO m (if r.count = 0 then r.children[0]? else some (r.held none)), _
    intro o ho
    split at ho
    · cases hch : r.children with
      | nil => rw [hch] at ho; cases ho
      | cons c cs =>
        rw [hch] at ho
        simp only [opsAO, List.getElem?_cons_zero] at ho ⊢
        rw [opsA_free hrd, hch]; simp [opsAL, ho]
    · simp only [opsAO] at ho ⊢
      rw [opsA_free (by cases r; simpa [CNode.held] using hrd)] at ho
      rw [opsA_free hrd]
      cases r; simpa [CNode.held] using ho
  | renter hw hr' hf =>
    rename_i ra id op rb r
    have hsw := writes_of_read (hread (id, op) (by simp [erS, hw]))
    intro o
    simp only [hr', opsAO, opsA_addCall hsw]; exact fun h => h
  | _ => exact fun o h => h

theorem listStep_other {l l' : List (K × V)} {op : Op K V} {out} {x : K × V} (h : listStep l op = (l', out)) (hk : keq x.1 (opKey op) = false) :
    x ∈ l' ↔ x ∈ l := by
  have hi : ∀ (k : K) (v : V), keq x.1 k = false → (x ∈ insertL k v l ↔ x ∈ l) := by
    intro k v h
    rw [mem_insertL]
    refine ⟨fun h' => h'.resolve_left fun e => ?_, .inr⟩
    rw [e, keq_refl] at h; cases h
  have hd : ∀ (k : K), keq x.1 k = false → (x ∈ eraseL k l ↔ x ∈ l) := by
    intro k h
    simp [eraseL, h]
  cases op with
  | create k v =>
    simp only [listStep, opKey] at h hk
    split at h <;> cases h
    · rfl
    · exact hi k v hk
  | createOrFind k v =>
    simp only [listStep, opKey] at h hk
    split at h <;> cases h
    · rfl
    · exact hi k v hk
  | find k => cases h; rfl
  | delete k can =>
    simp only [listStep, opKey] at h hk
    split at h
    · split at h <;> cases h
      · exact hd k hk
      · rfl
    · cases h; exact hd k hk
    · cases h; rfl

/-- A pair that is in the tree before and after the step, or neither, stays where it is. -/
theorem same_side {m} {o o' : Option (CNode K V)} (k : KeepO m o o') (hn : (allO o).Nodup) {x : K × V} (h : x ∈ allO o' ↔ x ∈ allO o) :
    x ∈ aheadO m o' ↔ x ∈ aheadO m o := by
  constructor
  · exact fun hx => k.ahead x hx (h.1 (mem_allO.2 (.inl hx)))
  · intro hx
    have ha : x ∈ allO o := mem_allO.2 (.inl hx)
    rcases mem_allO.1 (h.2 ha) with h' | h'
    · exact h'
    · have hb := k.behind x h' ha
      cases o with
      | none => cases hx
      | some r =>
        have hp := (all_perm m r).nodup_iff.2 hn
        exact absurd rfl ((List.nodup_append.1 hp).2.2 x hx x hb)

theorem mem_allO_flat {o : Option (CNode K V)} {x : K × V} : x ∈ allO o ↔ x ∈ itemsOf (o.map er) := by
  cases o with
  | none => exact Iff.rfl
  | some r => exact flat_all.symm

/-- A step that only changes the nodes of the tree keeps the items; here: the two that replace the root. -/
theorem grow_items {n} (hn2 : 2 ≤ n) {s : St K V} (inv : Inv n s) {id : Nat} {op : Op K V} {r out kv l rt} (hr : s.root = some r)
    (hc : r.hold = some ⟨id, op, true, .over out⟩) (hp : splitHalves n r.kvs r.children = some (kv, l, rt)) :
    itemsOf (some (.mk none [] [kv] [l, rt])) = itemsOf s.root := by
  obtain ⟨h, wf⟩ := inv.tree r hr
  have hfe := flat_eq r
  obtain ⟨b, hcnt, hu⟩ : Body n h none none r.kvs r.children ∧ r.kvs.length = n + 1 ∧ ∀ g ∈ r.children, g.linked = false := by
    cases r with
    | mk w rs kvs cs =>
      simp at hc; subst hc
      rw [wf_iff] at wf
      exact ⟨wf.1, by have := wf.2.1.2.2.1; simpa [MarkSize] using this, links_unlinked wf.2.2 rfl⟩
  obtain ⟨wl, wr, hkv, hfl, hl0, hr0⟩ := split_spec (by omega) b hcnt hu hp
  simp [itemsOf, hr, BTreeConc.weave, BTreeConc.after, hfe, hfl]

theorem shrink_items {n} {s : St K V} (inv : Inv n s) {id : Nat} {op : Op K V} {r out} (hr : s.root = some r)
    (hc : r.hold = some ⟨id, op, true, .under out⟩) :
    itemsOf (if r.count = 0 then r.children[0]? else some (r.held none)) = itemsOf s.root := by
  obtain ⟨h, wf⟩ := inv.tree r hr
  cases r with
  | mk w rs kvs cs =>
    have hb := (wf_iff.1 wf).1
    by_cases h0 : kvs.length = 0
    · have hk : kvs = [] := List.length_eq_zero_iff.1 h0
      subst hk
      rw [if_pos (show (CNode.mk w rs [] cs).count = 0 from rfl), hr]
      cases h with
      | zero =>
        have := hb.1
        simp only [CNode.children_mk] at *
        subst this
        simp [itemsOf]
      | succ h =>
        have hlen := body_length hb
        cases cs with
        | nil => simp at hlen
        | cons c cs =>
          simp at hlen; subst hlen
          simp [itemsOf, BTreeConc.weave, BTreeConc.after]
    · have : ¬ (CNode.mk w rs kvs cs).count = 0 := h0
      rw [if_neg this, hr]
      simp [itemsOf, CNode.held]

/-- Calls about other keys change nothing about the pair where the walk still has to go, and no call about its key is there. -/
theorem step_side {n} (hn2 : 2 ≤ n) {s s' : St K V} {ev} (st : BTreeConc.Step n s ev s') (inv : Inv n (erS s)) (he : ExclO s.root) (m : Nat)
    {x : K × V} (hk : ∀ o ∈ opsAO m s.root, keq x.1 (opKey o) = false) : x ∈ aheadO m s'.root ↔ x ∈ aheadO m s.root := by
  have k := step_keep hn2 st inv he m
  have hwf : ∀ r, s.root = some r → ∃ h, WF n true h none none (er r) := fun r hr => inv.tree (er r) (by simp [erS, hr])
  have hn : (allO s.root).Nodup := by
    cases hr : s.root with
    | none => exact List.nodup_nil
    | some r => obtain ⟨h, wf⟩ := hwf r hr; exact nodup_of_wf wf
  have same := fun h => same_side k hn (x := x) h
  cases st with
  | call id op => rfl
  | ret hf => rfl
  | lock hw hh hr => rfl
  | enterCreate hw hh hf =>
    refine same ?_
    cases hr : s.root with
    | none => simp [hr, rootOrNew, allO, CNode.held, allN, allL]
    | some r => simp only [hr, rootOrNew, allO]; cases r; simp [CNode.held, allN]
  | enterDelete hh hr hf =>
    refine same ?_
    rename_i r
    simp only [hr, allO]; cases r; simp [CNode.held, allN]
  | deleteEmpty hh hr => rfl
  | inner hh hr hc hl hid hop hs =>
    rename_i id op r h0 e r'
    rw [settle_root] at *
    by_cases ho : ∃ out, e.outcome = .applied out ∨ e.outcome = .answered out
    · rw [hr] at he ⊢
      simp only [aheadO]
      rw [cstep_ahead hs he ho]
    · refine same ?_
      obtain ⟨h, wf⟩ := hwf r hr
      obtain ⟨hd, h1, h2⟩ := cstep_ok hn2 (cstep_er hs)
      have ok := h2 true h none none wf
      cases hsw : e.swap with
      | none =>
        have := (ok.plain hsw).2
        rw [mem_allO_flat, mem_allO_flat, hr]
        simp only [Option.map_some, itemsOf]
        cases hoc : e.outcome <;> simp only [hoc, Effect] at this <;> first | (rw [this]; done) | (simp [hoc] at ho; done)
      | some y =>
        obtain ⟨kv, _, ⟨k, can, hdel, h3⟩, _⟩ := ok.swap y hsw
        exact absurd ⟨_, h3⟩ ho
  | node hr hs =>
    rename_i r e r'
    rw [settle_root] at *
    obtain ⟨h, wf⟩ := hwf r hr
    have heff := (nstep_ok hn2 (nstep_er hs) _ _ _ _ wf).2.1
    by_cases ho : ∃ out, e.outcome = .applied out ∨ e.outcome = .answered out
    · rw [hr] at he hk
      rcases nstep_ahead (m := m) hs he ho with h1 | h1
      · have hk := hk _ h1
        refine same ?_
        rw [mem_allO_flat, mem_allO_flat, hr]
        simp only [Option.map_some, itemsOf]
        obtain ⟨out, ho | ho⟩ := ho <;> simp only [ho, Effect] at heff <;> exact listStep_other heff.1 hk
      · rw [hr]; simp only [aheadO]; rw [h1]
    · refine same ?_
      rw [mem_allO_flat, mem_allO_flat, hr]
      simp only [Option.map_some, itemsOf]
      cases hoc : e.outcome <;> simp only [hoc, Effect] at heff <;> first | (rw [heff]; done) | (simp [hoc] at ho; done)
  | grow hh hr hc hp =>
    rename_i id op r out kv l rt
    refine same ?_
    rw [mem_allO_flat, mem_allO_flat]
    have := grow_items hn2 inv (r := er r) (by simp [erS, hr]) (by rw [er_hold]; exact hc) (by rw [er_kvs, er_children]; exact er_split hp)
    simp only [erS] at this
    rw [← this]; simp
  | shrink hh hr hc =>
    rename_i id op r out
    refine same ?_
    rw [mem_allO_flat, mem_allO_flat]
    have := shrink_items inv (r := er r) (by simp [erS, hr]) (by rw [er_hold]; exact hc)
    have e1 : (if r.count = 0 then r.children[0]? else some (r.held none)).map er =
        if (er r).count = 0 then (er r).children[0]? else some ((er r).held none) := by
      cases r with
      | mk w rs kvs cs =>
        by_cases h0 : kvs.length = 0
        · rw [if_pos (show (CNode.mk w rs kvs cs).count = 0 from h0), if_pos (by simpa [CNode.count] using h0)]; simp
        · rw [if_neg (show ¬ (CNode.mk w rs kvs cs).count = 0 from h0), if_neg (by simpa [CNode.count] using h0)]; simp [CNode.held]
    show x ∈ itemsOf ((if r.count = 0 then r.children[0]? else some (r.held none)).map er) ↔ _
    rw [e1, this]
    exact Iff.rfl
  | rlock hw hh => rfl
  | renter hw hr' hf => refine same ?_; simp only [hr', allO, all_addReader]
  | findEmpty hw hr => rfl
  | againEmpty hw hr => rfl

end
end Willow.BTreeWalk
