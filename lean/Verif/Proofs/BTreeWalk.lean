import Verif.Proofs.BTreeWalkErase
set_option linter.unusedSectionVars false
set_option linter.unusedSimpArgs false
/-! What a walk has ahead of it and what is behind it; the steps of the other calls move nothing from one side to the other. -/
namespace Willow.BTreeWalk
open KeyOps BTree Spec LawfulKey BTreeConc

variable {K V : Type}

/-- How many of these shared locks the walk holds. -/
def marksN (m : Nat) (rs : List (Nat × Op K V)) : Nat := rs.countP (fun r => r.1 == m && startsWriting r.2)

@[simp] theorem marksN_nil (m : Nat) : marksN m ([] : List (Nat × Op K V)) = 0 := rfl
@[simp] theorem marksN_append (m : Nat) (a b : List (Nat × Op K V)) : marksN m (a ++ b) = marksN m a + marksN m b := by simp [marksN]
theorem marksN_cons (m : Nat) (r : Nat × Op K V) (rs) :
    marksN m (r :: rs) = marksN m rs + if r.1 = m ∧ startsWriting r.2 = true then 1 else 0 := by
  simp [marksN, List.countP_cons]

mutual
/-- All items of a subtree. -/
def allN : CNode K V → List (K × V)
  | .mk _ _ kvs cs => kvs ++ allL cs
/-- The same for some subtrees. -/
def allL : List (CNode K V) → List (K × V)
  | [] => []
  | c :: cs => allN c ++ allL cs
end
mutual
/-- The items that the walk is going to reach: those in and below the nodes it holds. -/
def ahead (m : Nat) : CNode K V → List (K × V)
  | .mk _ rs kvs cs => if marksN m rs = 0 then aheadL m cs else kvs ++ allL cs
/-- The same for some subtrees. -/
def aheadL (m : Nat) : List (CNode K V) → List (K × V)
  | [] => []
  | c :: cs => ahead m c ++ aheadL m cs
end
mutual
/-- The other items. -/
def behind (m : Nat) : CNode K V → List (K × V)
  | .mk _ rs kvs cs => if marksN m rs = 0 then kvs ++ behindL m cs else []
/-- The same for some subtrees. -/
def behindL (m : Nat) : List (CNode K V) → List (K × V)
  | [] => []
  | c :: cs => behind m c ++ behindL m cs
end
mutual
/-- No path from the node downwards has more than `b` locks of the walk. -/
def lay (m : Nat) : CNode K V → Nat
  | .mk _ rs _ cs => marksN m rs + layL m cs
/-- The same for some subtrees. -/
def layL (m : Nat) : List (CNode K V) → Nat
  | [] => 0
  | c :: cs => max (lay m c) (layL m cs)
end
mutual
/-- Nobody shares a lock that is held exclusively. -/
def Excl : CNode K V → Prop
  | .mk w rs _ cs => (w.isSome = true → rs = []) ∧ ExclL cs
/-- The same for some subtrees. -/
def ExclL : List (CNode K V) → Prop
  | [] => True
  | c :: cs => Excl c ∧ ExclL cs
end

theorem mem_allL {x : K × V} {cs : List (CNode K V)} : x ∈ allL cs ↔ ∃ c ∈ cs, x ∈ allN c := by
  induction cs with
  | nil => simp [allL]
  | cons c cs ih => simp [allL, ih]
theorem mem_aheadL {m} {x : K × V} {cs : List (CNode K V)} : x ∈ aheadL m cs ↔ ∃ c ∈ cs, x ∈ ahead m c := by
  induction cs with
  | nil => simp [aheadL]
  | cons c cs ih => simp [aheadL, ih]
theorem mem_behindL {m} {x : K × V} {cs : List (CNode K V)} : x ∈ behindL m cs ↔ ∃ c ∈ cs, x ∈ behind m c := by
  induction cs with
  | nil => simp [behindL]
  | cons c cs ih => simp [behindL, ih]
theorem exclL_iff {cs : List (CNode K V)} : ExclL cs ↔ ∀ c ∈ cs, Excl c := by
  induction cs with
  | nil => simp [ExclL]
  | cons c cs ih => simp [ExclL, ih]
theorem excl_mk {w : Option (Hold K V)} {rs kvs cs} : Excl (CNode.mk w rs kvs cs) ↔ (w.isSome = true → rs = []) ∧ ∀ c ∈ cs, Excl c := by
  rw [← exclL_iff]; simp only [Excl]
theorem layL_le {m b} {cs : List (CNode K V)} : layL m cs ≤ b ↔ ∀ c ∈ cs, lay m c ≤ b := by
  induction cs with
  | nil => simp [layL]
  | cons c cs ih => simp only [layL, List.forall_mem_cons, ← ih]; omega
theorem layL_mem {m} {cs : List (CNode K V)} {c} (h : c ∈ cs) : lay m c ≤ layL m cs := layL_le.1 (Nat.le_refl _) c h

mutual
theorem all_perm (m : Nat) : ∀ t : CNode K V, (ahead m t ++ behind m t).Perm (allN t)
  | .mk w rs kvs cs => by
    have h := allL_perm m cs
    simp only [ahead, behind, allN]
    split
    · refine List.Perm.trans ?_ (h.append_left kvs)
      rw [← List.append_assoc, ← List.append_assoc]
      exact List.perm_append_comm.append_right _
    · simp
theorem allL_perm (m : Nat) : ∀ cs : List (CNode K V), (aheadL m cs ++ behindL m cs).Perm (allL cs)
  | [] => .refl _
  | c :: cs => by
    have h1 := all_perm m c
    have h2 := allL_perm m cs
    simp only [aheadL, behindL, allL]
    refine List.Perm.trans ?_ (h1.append h2)
    simp only [List.append_assoc]
    refine List.Perm.append_left _ ?_
    rw [← List.append_assoc, ← List.append_assoc]
    exact List.perm_append_comm.append_right _
end

theorem mem_all {m} {x : K × V} {t : CNode K V} : x ∈ allN t ↔ x ∈ ahead m t ∨ x ∈ behind m t := by
  rw [← (all_perm m t).mem_iff]; simp

mutual
theorem all_flat : ∀ t : CNode K V, (allN t).Perm (BTreeConc.flat t)
  | .mk w rs kvs cs => by simp only [allN, BTreeConc.flat]; exact all_weave cs kvs
theorem all_weave : ∀ (cs : List (CNode K V)) (kvs : List (K × V)), (kvs ++ allL cs).Perm (BTreeConc.weave cs kvs)
  | [], kvs => by simp [allL, BTreeConc.weave, BTreeConc.after]
  | c :: cs, kvs => by
    have h1 := all_flat c
    have h2 := all_after cs kvs
    simp only [allL, BTreeConc.weave]
    refine List.Perm.trans ?_ (h1.append h2)
    rw [← List.append_assoc, ← List.append_assoc]
    exact List.perm_append_comm.append_right _
theorem all_after : ∀ (cs : List (CNode K V)) (kvs : List (K × V)), (kvs ++ allL cs).Perm (BTreeConc.after cs kvs)
  | [], kvs => by simp [allL, BTreeConc.after]
  | c :: cs, [] => by
    have h1 := all_flat c
    have h2 := all_after cs []
    simp only [allL, BTreeConc.after, List.nil_append] at *
    exact h1.append h2
  | c :: cs, kv :: kvs => by
    have h1 := all_flat c
    have h2 := all_after cs kvs
    simp only [allL, BTreeConc.after, List.cons_append]
    refine List.Perm.cons _ (List.Perm.trans ?_ (h1.append h2))
    rw [← List.append_assoc, ← List.append_assoc]
    exact List.perm_append_comm.append_right _
end

/-! ### Nodes without locks of the walk -/

theorem ahead_free {m} {t : CNode K V} (h : t.readers = []) : ahead m t = aheadL m t.children := by cases t; simp at h; simp [ahead, h]
theorem behind_free {m} {t : CNode K V} (h : t.readers = []) : behind m t = t.kvs ++ behindL m t.children := by
  cases t; simp at h; simp [behind, h]
theorem lay_free {m} {t : CNode K V} (h : t.readers = []) : lay m t = layL m t.children := by cases t; simp at h; simp [lay, h]
theorem ahead_held {m} {t : CNode K V} (h) : ahead m (t.held h) = ahead m t := by cases t; simp [ahead, CNode.held]
theorem behind_held {m} {t : CNode K V} (h) : behind m (t.held h) = behind m t := by cases t; simp [behind, CNode.held]
theorem lay_held {m} {t : CNode K V} (h) : lay m (t.held h) = lay m t := by cases t; simp [lay, CNode.held]
theorem excl_held {t : CNode K V} (hr : t.readers = []) (he : Excl t) (h) : Excl (t.held h) := by
  cases t; simp at hr; simp [Excl, CNode.held, hr] at *; exact he
theorem excl_readers {t : CNode K V} (he : Excl t) {h} (hh : t.hold = some h) : t.readers = [] := by
  cases t; simp at hh; simp [Excl, hh] at he; exact he.1
theorem excl_children {t : CNode K V} (he : Excl t) : ∀ c ∈ t.children, Excl c := by
  cases t; simp only [Excl, exclL_iff] at he; exact he.2
theorem marksN_call {m} {r : Nat × Op K V} (h : startsWriting r.2 = false) (rs) : marksN m (r :: rs) = marksN m rs := by simp [marksN_cons, h]
theorem ahead_addCall {m} {t : CNode K V} {r : Nat × Op K V} (h : startsWriting r.2 = false) : ahead m (t.addReader r) = ahead m t := by
  cases t; simp [ahead, CNode.addReader, marksN_call h]
theorem behind_addCall {m} {t : CNode K V} {r : Nat × Op K V} (h : startsWriting r.2 = false) : behind m (t.addReader r) = behind m t := by
  cases t; simp [behind, CNode.addReader, marksN_call h]
theorem lay_addCall {m} {t : CNode K V} {r : Nat × Op K V} (h : startsWriting r.2 = false) : lay m (t.addReader r) = lay m t := by
  cases t; simp [lay, CNode.addReader, marksN_call h]
theorem excl_addReader {t : CNode K V} {r : Nat × Op K V} (h : t.hold = none) (he : Excl t) : Excl (t.addReader r) := by
  cases t; simp at h; simp [Excl, CNode.addReader, h] at *; exact he

/-! ### The steps of calls -/

/-- The step inserts this item. -/
def Adds (e : Eff K V) (x : K × V) : Prop :=
  newItem e.op = some x ∧ (e.outcome = .applied (createdOut e.op) ∨ e.outcome = .answered (createdOut e.op))

/-- The step leaves what is ahead of the walk ahead of it, and what is behind it behind it. -/
structure Keep (m : Nat) (e : Eff K V) (t t' : CNode K V) : Prop where
  excl : Excl t'
  lay : ∀ b, lay m t ≤ b → lay m t' ≤ b
  ahead : ∀ x ∈ ahead m t', x ∈ ahead m t ∨ Adds e x
  behind : ∀ x ∈ behind m t', x ∈ behind m t ∨ Adds e x

/-- A node that nobody shares, before and after. -/
theorem keep_plain {m} {e : Eff K V} {w w' : Option (Hold K V)} {kvs kvs' cs cs'}
    (h1 : ∀ c ∈ cs', Excl c) (h2 : ∀ b, (∀ c ∈ cs, lay m c ≤ b) → ∀ c ∈ cs', lay m c ≤ b)
    (h3 : ∀ x, ∀ c ∈ cs', x ∈ ahead m c → (∃ c ∈ cs, x ∈ ahead m c) ∨ Adds e x)
    (h4 : ∀ x ∈ kvs', (x ∈ kvs ∨ ∃ c ∈ cs, x ∈ behind m c) ∨ Adds e x)
    (h5 : ∀ x, ∀ c ∈ cs', x ∈ behind m c → (x ∈ kvs ∨ ∃ c ∈ cs, x ∈ behind m c) ∨ Adds e x) :
    Keep m e (.mk w [] kvs cs) (.mk w' [] kvs' cs') := by
  constructor
  · exact excl_mk.2 ⟨fun _ => rfl, h1⟩
  · intro b; simp only [lay, marksN_nil, Nat.zero_add, layL_le]; exact h2 b
  · intro x; simp only [ahead, marksN_nil, if_pos, mem_aheadL]
    rintro ⟨c, hc, hx⟩; exact h3 x c hc hx
  · intro x; simp only [behind, marksN_nil, if_pos, List.mem_append, mem_behindL]
    rintro (hx | ⟨c, hc, hx⟩)
    · exact h4 x hx
    · exact h5 x c hc hx

theorem split_sub {n : Nat} {kvs : List (K × V)} {cs : List (CNode K V)} {kv l r} (h : splitHalves n kvs cs = some (kv, l, r)) :
    kv ∈ kvs ∧ ∃ k1 c1 k2 c2, l = .mk none [] k1 c1 ∧ r = .mk none [] k2 c2 ∧ (∀ x ∈ k1, x ∈ kvs) ∧ (∀ x ∈ k2, x ∈ kvs) ∧
      (∀ c ∈ c1, c ∈ cs) ∧ ∀ c ∈ c2, c ∈ cs := by
  simp only [splitHalves] at h
  cases hx : kvs[maxValues n / 2]? with
  | none => rw [hx] at h; cases h
  | some x =>
    rw [hx] at h
    simp at h
    obtain ⟨rfl, rfl, rfl⟩ := h
    refine ⟨List.mem_of_getElem? hx, _, _, _, _, rfl, rfl, ?_, ?_, ?_, ?_⟩
    · intro y hy; exact List.mem_of_mem_take hy
    · intro y hy; exact List.mem_of_mem_take (List.mem_of_mem_drop hy)
    · intro y hy; exact List.mem_of_mem_take hy
    · intro y hy; exact List.mem_of_mem_take (List.mem_of_mem_drop hy)

section
variable [KeyOps K]

theorem mem_leafInsert {k : K} {v : V} {kvs : List (K × V)} {x} (h : x ∈ leafInsert k (some v) kvs) : x ∈ kvs ∨ x = (k, v) := by
  simp [leafInsert] at h
  rcases h with h | h | h
  · exact .inl (List.mem_of_mem_take h)
  · exact .inr h
  · exact .inl (List.mem_of_mem_drop h)

theorem insert_sub {kvs : List (K × V)} {cs : List (CNode K V)} {kv l r} :
    (∀ x ∈ (insertHalves kvs cs kv l r).1, x ∈ kvs ∨ x = kv) ∧ ∀ c ∈ (insertHalves kvs cs kv l r).2, c ∈ cs ∨ c = l ∨ c = r := by
  constructor
  · intro x hx
    simp [insertHalves] at hx
    rcases hx with h | h | h
    · exact .inl (List.mem_of_mem_take h)
    · exact .inr h
    · exact .inl (List.mem_of_mem_drop h)
  · intro c hc
    simp [insertHalves] at hc
    rcases hc with h | h | h | h
    · exact .inl (List.mem_of_mem_take h)
    · exact .inr (.inl h)
    · exact .inr (.inr h)
    · exact .inl (List.mem_of_mem_drop h)

/-- Replacing a child by its halves. -/
theorem keep_split {n m} {e : Eff K V} {w w' : Option (Hold K V)} {kvs ca c cb kv l r}
    (he : ∀ x ∈ ca ++ c :: cb, Excl x) (hr : c.readers = []) (hp : splitHalves n c.kvs c.children = some (kv, l, r)) :
    Keep m e (.mk w [] kvs (ca ++ c :: cb))
      (.mk w' [] (insertHalves kvs (ca ++ c :: cb) kv l r).1 (insertHalves kvs (ca ++ c :: cb) kv l r).2) := by
  obtain ⟨g0, k1, c1, k2, c2, rfl, rfl, g1, g2, g3, g4⟩ := split_sub hp
  obtain ⟨i1, i2⟩ := insert_sub (kvs := kvs) (cs := ca ++ c :: cb) (kv := kv) (l := CNode.mk none [] k1 c1) (r := CNode.mk none [] k2 c2)
  have hc : c ∈ ca ++ c :: cb := by simp
  have ec := excl_children (he c hc)
  have hl : lay m c = layL m c.children := lay_free hr
  have ha : ahead m c = aheadL m c.children := ahead_free hr
  have hb : behind m c = c.kvs ++ behindL m c.children := behind_free hr
  refine keep_plain ?_ ?_ ?_ ?_ ?_
  · intro x hx
    rcases i2 x hx with hx | rfl | rfl
    · exact he x hx
    · exact excl_mk.2 ⟨fun _ => rfl, fun y hy => ec y (g3 y hy)⟩
    · exact excl_mk.2 ⟨fun _ => rfl, fun y hy => ec y (g4 y hy)⟩
  · intro b h x hx
    have hcb := h c hc
    rw [hl, layL_le] at hcb
    rcases i2 x hx with hx | rfl | rfl
    · exact h x hx
    · simp only [lay, marksN_nil, Nat.zero_add, layL_le]; exact fun y hy => hcb y (g3 y hy)
    · simp only [lay, marksN_nil, Nat.zero_add, layL_le]; exact fun y hy => hcb y (g4 y hy)
  · intro x y hy hx
    refine .inl ?_
    rcases i2 y hy with hy | rfl | rfl
    · exact ⟨y, hy, hx⟩
    · simp only [ahead, marksN_nil, if_pos, mem_aheadL] at hx
      obtain ⟨z, hz, hx⟩ := hx
      exact ⟨c, hc, by rw [ha, mem_aheadL]; exact ⟨z, g3 z hz, hx⟩⟩
    · simp only [ahead, marksN_nil, if_pos, mem_aheadL] at hx
      obtain ⟨z, hz, hx⟩ := hx
      exact ⟨c, hc, by rw [ha, mem_aheadL]; exact ⟨z, g4 z hz, hx⟩⟩
  · intro x hx
    refine .inl ?_
    rcases i1 x hx with hx | rfl
    · exact .inl hx
    · exact .inr ⟨c, hc, by rw [hb]; simp [g0]⟩
  · intro x y hy hx
    refine .inl (.inr ?_)
    rcases i2 y hy with hy | rfl | rfl
    · exact ⟨y, hy, hx⟩
    · simp only [behind, marksN_nil, if_pos, List.mem_append, mem_behindL] at hx
      refine ⟨c, hc, ?_⟩
      rw [hb]; simp only [List.mem_append, mem_behindL]
      rcases hx with hx | ⟨z, hz, hx⟩
      · exact .inl (g1 x hx)
      · exact .inr ⟨z, g3 z hz, hx⟩
    · simp only [behind, marksN_nil, if_pos, List.mem_append, mem_behindL] at hx
      refine ⟨c, hc, ?_⟩
      rw [hb]; simp only [List.mem_append, mem_behindL]
      rcases hx with hx | ⟨z, hz, hx⟩
      · exact .inl (g2 x hx)
      · exact .inr ⟨z, g4 z hz, hx⟩

end

/-- Two neighbours without shared locks are replaced by one or two nodes with the same children: rotations and merges. -/
theorem keep_pair {m} {e : Eff K V} {w w' : Option (Hold K V)} {kvs kvs' ca b c cb} {ns : List (CNode K V)}
    (he : ∀ x ∈ ca ++ b :: c :: cb, Excl x) (hb : b.readers = []) (hc : c.readers = [])
    (hn : ∀ y ∈ ns, ∃ k cs, y = .mk none [] k cs ∧ (∀ x ∈ k, x ∈ kvs ∨ x ∈ b.kvs ∨ x ∈ c.kvs) ∧ ∀ z ∈ cs, z ∈ b.children ∨ z ∈ c.children)
    (hk : ∀ x ∈ kvs', x ∈ kvs ∨ x ∈ b.kvs ∨ x ∈ c.kvs) :
    Keep m e (.mk w [] kvs (ca ++ b :: c :: cb)) (.mk w' [] kvs' (ca ++ ns ++ cb)) := by
  have mb : b ∈ ca ++ b :: c :: cb := by simp
  have mc : c ∈ ca ++ b :: c :: cb := by simp
  have eb := excl_children (he b mb)
  have ec := excl_children (he c mc)
  have old : ∀ y, y ∈ ca ∨ y ∈ cb → y ∈ ca ++ b :: c :: cb := by
    intro y hy; simp; rcases hy with h | h <;> simp [h]
  have lb : lay m b = layL m b.children := lay_free hb
  have lc : lay m c = layL m c.children := lay_free hc
  have ab : ahead m b = aheadL m b.children := ahead_free hb
  have ac : ahead m c = aheadL m c.children := ahead_free hc
  have bb : behind m b = b.kvs ++ behindL m b.children := behind_free hb
  have bc : behind m c = c.kvs ++ behindL m c.children := behind_free hc
  have part : ∀ y ∈ ca ++ ns ++ cb, (y ∈ ca ∨ y ∈ cb) ∨ y ∈ ns := by
    intro y hy; simp at hy; rcases hy with h | h | h <;> simp [h]
  refine keep_plain ?_ ?_ ?_ ?_ ?_
  · intro y hy
    rcases part y hy with h | h
    · exact he y (old y h)
    · obtain ⟨k, cs, rfl, _, h2⟩ := hn y h
      exact excl_mk.2 ⟨fun _ => rfl, fun z hz => (h2 z hz).elim (eb z) (ec z)⟩
  · intro bd h y hy
    rcases part y hy with hy | hy
    · exact h y (old y hy)
    · obtain ⟨k, cs, rfl, _, h2⟩ := hn y hy
      have h3 := h b mb
      have h4 := h c mc
      rw [lb, layL_le] at h3
      rw [lc, layL_le] at h4
      simp only [lay, marksN_nil, Nat.zero_add, layL_le]
      exact fun z hz => (h2 z hz).elim (h3 z) (h4 z)
  · intro x y hy hx
    refine .inl ?_
    rcases part y hy with hy | hy
    · exact ⟨y, old y hy, hx⟩
    · obtain ⟨k, cs, rfl, _, h2⟩ := hn y hy
      simp only [ahead, marksN_nil, if_pos, mem_aheadL] at hx
      obtain ⟨z, hz, hx⟩ := hx
      rcases h2 z hz with h | h
      · exact ⟨b, mb, by rw [ab, mem_aheadL]; exact ⟨z, h, hx⟩⟩
      · exact ⟨c, mc, by rw [ac, mem_aheadL]; exact ⟨z, h, hx⟩⟩
  · intro x hx
    refine .inl ?_
    rcases hk x hx with h | h | h
    · exact .inl h
    · exact .inr ⟨b, mb, by rw [bb]; simp [h]⟩
    · exact .inr ⟨c, mc, by rw [bc]; simp [h]⟩
  · intro x y hy hx
    refine .inl ?_
    rcases part y hy with hy | hy
    · exact .inr ⟨y, old y hy, hx⟩
    · obtain ⟨k, cs, rfl, h1, h2⟩ := hn y hy
      simp only [behind, marksN_nil, if_pos, List.mem_append, mem_behindL] at hx
      rcases hx with hx | ⟨z, hz, hx⟩
      · rcases h1 x hx with h | h | h
        · exact .inl h
        · exact .inr ⟨b, mb, by rw [bb]; simp [h]⟩
        · exact .inr ⟨c, mc, by rw [bc]; simp [h]⟩
      · rcases h2 z hz with h | h
        · exact .inr ⟨b, mb, by rw [bb]; simp only [List.mem_append, mem_behindL]; exact .inr ⟨z, h, hx⟩⟩
        · exact .inr ⟨c, mc, by rw [bc]; simp only [List.mem_append, mem_behindL]; exact .inr ⟨z, h, hx⟩⟩

/-- One child is replaced. -/
theorem keep_child {m} {e : Eff K V} {w w' : Option (Hold K V)} {kvs kvs' ca c c' cb} (he : ∀ x ∈ ca ++ c :: cb, Excl x)
    (k : Keep m e c c') (hk : ∀ x ∈ kvs', x ∈ kvs ∨ x ∈ behind m c) :
    Keep m e (.mk w [] kvs (ca ++ c :: cb)) (.mk w' [] kvs' (ca ++ c' :: cb)) := by
  have old : ∀ y, y ∈ ca ∨ y ∈ cb → y ∈ ca ++ c :: cb := by
    intro y hy; simp; rcases hy with h | h <;> simp [h]
  have mc : c ∈ ca ++ c :: cb := by simp
  have part : ∀ y ∈ ca ++ c' :: cb, (y ∈ ca ∨ y ∈ cb) ∨ y = c' := by
    intro y hy; simp at hy; rcases hy with h | h | h <;> simp [h]
  refine keep_plain ?_ ?_ ?_ ?_ ?_
  · intro y hy
    rcases part y hy with h | rfl
    · exact he y (old y h)
    · exact k.excl
  · intro b h y hy
    rcases part y hy with hy | rfl
    · exact h y (old y hy)
    · exact k.lay b (h c mc)
  · intro x y hy hx
    rcases part y hy with hy | rfl
    · exact .inl ⟨y, old y hy, hx⟩
    · exact (k.ahead x hx).imp (fun h => ⟨c, mc, h⟩) id
  · intro x hx
    exact .inl ((hk x hx).imp id (fun h => ⟨c, mc, h⟩))
  · intro x y hy hx
    rcases part y hy with hy | rfl
    · exact .inl (.inr ⟨y, old y hy, hx⟩)
    · exact (k.behind x hx).imp (fun h => .inr ⟨c, mc, h⟩) id

/-- Locking a node exclusively. -/
theorem keep_held {m} {e : Eff K V} {c : CNode K V} (he : Excl c) (hf : c.Free) (h) : Keep m e c (c.held h) :=
  ⟨excl_held hf.2 he h, fun b hb => by rw [lay_held]; exact hb, fun x hx => by rw [ahead_held] at hx; exact .inl hx,
    fun x hx => by rw [behind_held] at hx; exact .inl hx⟩

/-- A node keeps its children and has no new values but the inserted one. -/
theorem keep_values {m} {e : Eff K V} {w w' : Option (Hold K V)} {kvs kvs' cs} (he : ∀ x ∈ cs, Excl x)
    (hk : ∀ x ∈ kvs', x ∈ kvs ∨ Adds e x) : Keep m e (.mk w [] kvs cs) (.mk w' [] kvs' cs) :=
  keep_plain he (fun _ h => h) (fun _ c hc hx => .inl ⟨c, hc, hx⟩) (fun x hx => (hk x hx).imp .inl id) (fun _ c hc hx => .inl (.inr ⟨c, hc, hx⟩))

section
variable [KeyOps K]

/-- Steps of a call that holds a chain of nodes; an item that `swap` hands up comes from behind the walk. -/
theorem cstep_keep {n m} {t : CNode K V} {e t'} (st : CStep n t e t') :
    Excl t → Keep m e t t' ∧ ∀ x, e.swap = some x → x ∈ behind m t := by
  induction st with
  | descend hh hi hf hs =>
    intro he
    have hr := (excl_mk.1 he).1 rfl
    subst hr
    have hc := (excl_mk.1 he).2
    exact ⟨keep_child hc (keep_held (hc _ (by simp)) hf _) (fun x hx => .inl hx), fun x hx => by cases hx⟩
  | descendRelease hh hi hf hs =>
    intro he
    have hr := (excl_mk.1 he).1 rfl
    subst hr
    have hc := (excl_mk.1 he).2
    exact ⟨keep_child hc (keep_held (hc _ (by simp)) hf _) (fun x hx => .inl hx), fun x hx => by cases hx⟩
  | found hw hh =>
    intro he
    have hr := (excl_mk.1 he).1 rfl
    subst hr
    exact ⟨keep_values (excl_mk.1 he).2 (fun x hx => .inl hx), fun x hx => by cases hx⟩
  | insert hw hh hn =>
    intro he
    have hr := (excl_mk.1 he).1 rfl
    subst hr
    exact ⟨keep_values (excl_mk.1 he).2 (fun x hx => (mem_leafInsert hx).imp (fun h => h) (fun h => ⟨by rw [h]; exact hw, .inr rfl⟩)), fun x hx => by cases hx⟩
  | insertOver hw hh hn =>
    intro he
    have hr := (excl_mk.1 he).1 rfl
    subst hr
    exact ⟨keep_values (excl_mk.1 he).2 (fun x hx => (mem_leafInsert hx).imp (fun h => h) (fun h => ⟨by rw [h]; exact hw, .inl rfl⟩)), fun x hx => by cases hx⟩
  | split hc hf hp hn =>
    intro he
    have hr := (excl_mk.1 he).1 rfl
    subst hr
    have hch := (excl_mk.1 he).2
    exact ⟨keep_split hch (excl_readers (hch _ (by simp)) hc) hp, fun x hx => by cases hx⟩
  | splitOver hc hf hp hn =>
    intro he
    have hr := (excl_mk.1 he).1 rfl
    subst hr
    have hch := (excl_mk.1 he).2
    exact ⟨keep_split hch (excl_readers (hch _ (by simp)) hc) hp, fun x hx => by cases hx⟩
  | missing hh =>
    intro he
    have hr := (excl_mk.1 he).1 rfl
    subst hr
    exact ⟨keep_values (excl_mk.1 he).2 (fun x hx => .inl hx), fun x hx => by cases hx⟩
  | refused hh hr =>
    intro he
    have hr := (excl_mk.1 he).1 rfl
    subst hr
    exact ⟨keep_values (excl_mk.1 he).2 (fun x hx => .inl hx), fun x hx => by cases hx⟩
  | removeLeaf hh hr hu =>
    intro he
    have hr := (excl_mk.1 he).1 rfl
    subst hr
    exact ⟨keep_values (excl_mk.1 he).2 (fun x hx => .inl (List.mem_of_mem_eraseIdx hx)), fun x hx => by cases hx⟩
  | removeLeafUnder hh hr hu =>
    intro he
    have hr := (excl_mk.1 he).1 rfl
    subst hr
    exact ⟨keep_values (excl_mk.1 he).2 (fun x hx => .inl (List.mem_of_mem_eraseIdx hx)), fun x hx => by cases hx⟩
  | swapRight hh hr hi hc hd hm =>
    rename_i id k can lk rs kvs ca c d cb kv
    intro he
    have hr := (excl_mk.1 he).1 rfl
    subst hr
    have hch := (excl_mk.1 he).2
    have := keep_child (m := m) (e := ⟨id, .delete k can, false, none, .moved⟩) (w := some ⟨id, .delete k can, lk, .down⟩) (w' := some ⟨id, .delete k can, lk, .swapIn (scan k kvs)⟩)
      (kvs := kvs) (kvs' := kvs) (ca := ca ++ [c]) (c := d) (cb := cb) (by simpa using hch)
      (keep_held (hch d (by simp)) hd (some ⟨id, .delete k can, true, .swapDown kv⟩)) (fun x hx => .inl hx)
    exact ⟨by simpa using this, fun x hx => by cases hx⟩
  | swapLeft hh hr hi hc hd hm =>
    intro he
    have hr := (excl_mk.1 he).1 rfl
    subst hr
    have hch := (excl_mk.1 he).2
    exact ⟨keep_child hch (keep_held (hch _ (by simp)) hc _) (fun x hx => .inl hx), fun x hx => by cases hx⟩
  | swapFirst hk hl hf =>
    rename_i id op lk rs kvs first rest c cb kv
    intro he
    have hr := (excl_mk.1 he).1 rfl
    subst hr
    have hch := (excl_mk.1 he).2
    exact ⟨keep_child (ca := []) (by simpa using hch) (keep_held (hch _ (by simp)) hf _) (fun x hx => .inl hx), fun x hx => by cases hx⟩
  | swapLast hk hl hf =>
    intro he
    have hr := (excl_mk.1 he).1 rfl
    subst hr
    have hch := (excl_mk.1 he).2
    exact ⟨keep_child hch (keep_held (hch _ (by simp)) hf _) (fun x hx => .inl hx), fun x hx => by cases hx⟩
  | takeFirst hl hu =>
    intro he
    have hr := (excl_mk.1 he).1 rfl
    subst hr
    refine ⟨keep_values (excl_mk.1 he).2 (fun x hx => .inl (by simp [hx])), fun x hx => ?_⟩
    cases hx; simp [behind]
  | takeFirstUnder hl hu =>
    intro he
    have hr := (excl_mk.1 he).1 rfl
    subst hr
    refine ⟨keep_values (excl_mk.1 he).2 (fun x hx => .inl (by simp [hx])), fun x hx => ?_⟩
    cases hx; simp [behind]
  | takeLast h1 hl hu =>
    intro he
    have hr := (excl_mk.1 he).1 rfl
    subst hr
    refine ⟨keep_values (excl_mk.1 he).2 (fun x hx => .inl (by simp [hx])), fun x hx => ?_⟩
    cases hx; simp [behind]
  | takeLastUnder h1 hl hu =>
    intro he
    have hr := (excl_mk.1 he).1 rfl
    subst hr
    refine ⟨keep_values (excl_mk.1 he).2 (fun x hx => .inl (by simp [hx])), fun x hx => ?_⟩
    cases hx; simp [behind]
  | rotateLeft hm hc hi hx hl hd hg hs hk =>
    rename_i id op lk mk rs ka kv kb ca c d cb out rkv rkvs
    intro he
    have hr := (excl_mk.1 he).1 rfl
    subst hr
    have hch := (excl_mk.1 he).2
    have := keep_pair (m := m) (e := ⟨id, op, true, none, .left out⟩) (w := some ⟨id, op, lk, mk⟩) (w' := none) (kvs := ka ++ kv :: kb) (kvs' := ka ++ rkv :: kb)
      (ca := ca) (b := c) (c := d) (cb := cb)
      (ns := [.mk none [] (c.kvs ++ [kv]) (c.children ++ d.children.take 1), .mk none [] rkvs (d.children.drop 1)]) hch
      (excl_readers (hch _ (by simp)) hc) hd.2
      (by
        intro y hy
        simp only [List.mem_cons, List.not_mem_nil, or_false] at hy
        rcases hy with rfl | rfl
        · refine ⟨_, _, rfl, ?_, ?_⟩
          · intro x hx; simp at hx ⊢; rcases hx with h | h <;> simp [h]
          · intro z hz; simp only [List.mem_append] at hz; exact hz.imp (fun h => h) List.mem_of_mem_take
        · refine ⟨_, _, rfl, ?_, ?_⟩
          · intro x hx; rw [hk]; simp [hx]
          · intro z hz; exact .inr (List.mem_of_mem_drop hz))
      (by intro x hx; rw [hk]; simp at hx ⊢; rcases hx with h | h | h <;> simp [h])
    exact ⟨by simpa using this, fun x hx => by cases hx⟩
  | rotateRight hm hc hi hx hb hd hs hk =>
    rename_i id op lk mk rs ka kv kb ca b c cb out lkv
    intro he
    have hr := (excl_mk.1 he).1 rfl
    subst hr
    have hch := (excl_mk.1 he).2
    have := keep_pair (m := m) (e := ⟨id, op, true, none, .left out⟩) (w := some ⟨id, op, lk, mk⟩) (w' := none) (kvs := ka ++ kv :: kb) (kvs' := ka ++ lkv :: kb)
      (ca := ca) (b := b) (c := c) (cb := cb)
      (ns := [.mk none [] b.kvs.dropLast b.children.dropLast, .mk none [] (kv :: c.kvs) (b.children.getLast?.toList ++ c.children)]) hch
      hb.2 (excl_readers (hch _ (by simp)) hc)
      (by
        intro y hy
        simp only [List.mem_cons, List.not_mem_nil, or_false] at hy
        rcases hy with rfl | rfl
        · exact ⟨_, _, rfl, fun x hx => .inr (.inl (List.dropLast_subset _ hx)), fun z hz => .inl (List.dropLast_subset _ hz)⟩
        · refine ⟨_, _, rfl, ?_, ?_⟩
          · intro x hx; simp at hx ⊢; rcases hx with h | h <;> simp [h]
          · intro z hz
            simp only [List.mem_append, Option.mem_toList] at hz
            exact hz.imp List.mem_of_getLast? (fun h => h))
      (by
        intro x hx
        have := List.mem_of_getLast? hk
        simp at hx ⊢; rcases hx with h | h | h
        · simp [h]
        · subst h; exact .inr (.inl this)
        · simp [h])
    exact ⟨by simpa using this, fun x hx => by cases hx⟩
  | mergeLeft hm hc hi hx hb hd hg hs hs' hu =>
    rename_i id op lk mk rs ka kv kb ca b c cb out
    intro he
    have hr := (excl_mk.1 he).1 rfl
    subst hr
    have hch := (excl_mk.1 he).2
    have := keep_pair (m := m) (e := ⟨id, op, true, none, .left out⟩) (w := some ⟨id, op, lk, mk⟩) (w' := none) (kvs := ka ++ kv :: kb) (kvs' := ka ++ kb)
      (ca := ca) (b := b) (c := c) (cb := cb) (ns := [.mk none [] (b.kvs ++ kv :: c.kvs) (b.children ++ c.children)]) hch
      hb.2 (excl_readers (hch _ (by simp)) hc)
      (by
        intro y hy
        simp only [List.mem_cons, List.not_mem_nil, or_false] at hy
        subst hy
        refine ⟨_, _, rfl, ?_, ?_⟩
        · intro x hx; simp at hx ⊢; rcases hx with h | h | h <;> simp [h]
        · intro z hz; simpa using hz)
      (by intro x hx; simp at hx ⊢; rcases hx with h | h <;> simp [h])
    exact ⟨by simpa using this, fun x hx => by cases hx⟩
  | mergeLeftUnder hm hc hi hx hb hd hg hs hs' hu =>
    rename_i id op lk mk rs ka kv kb ca b c cb out
    intro he
    have hr := (excl_mk.1 he).1 rfl
    subst hr
    have hch := (excl_mk.1 he).2
    have := keep_pair (m := m) (e := ⟨id, op, false, none, .moved⟩) (w := some ⟨id, op, lk, mk⟩) (w' := some ⟨id, op, lk, .under out⟩) (kvs := ka ++ kv :: kb) (kvs' := ka ++ kb)
      (ca := ca) (b := b) (c := c) (cb := cb) (ns := [.mk none [] (b.kvs ++ kv :: c.kvs) (b.children ++ c.children)]) hch
      hb.2 (excl_readers (hch _ (by simp)) hc)
      (by
        intro y hy
        simp only [List.mem_cons, List.not_mem_nil, or_false] at hy
        subst hy
        refine ⟨_, _, rfl, ?_, ?_⟩
        · intro x hx; simp at hx ⊢; rcases hx with h | h | h <;> simp [h]
        · intro z hz; simpa using hz)
      (by intro x hx; simp at hx ⊢; rcases hx with h | h <;> simp [h])
    exact ⟨by simpa using this, fun x hx => by cases hx⟩
  | mergeRight hm hc hx hd hr hg hs hu =>
    rename_i id op lk mk rs kv kb c d cb out
    intro he
    have hr := (excl_mk.1 he).1 rfl
    subst hr
    have hch := (excl_mk.1 he).2
    have := keep_pair (m := m) (e := ⟨id, op, true, none, .left out⟩) (w := some ⟨id, op, lk, mk⟩) (w' := none) (kvs := kv :: kb) (kvs' := kb)
      (ca := []) (b := c) (c := d) (cb := cb) (ns := [.mk none [] (c.kvs ++ kv :: d.kvs) (c.children ++ d.children)]) (by simpa using hch)
      (excl_readers (hch _ (by simp)) hc) hd.2
      (by
        intro y hy
        simp only [List.mem_cons, List.not_mem_nil, or_false] at hy
        subst hy
        refine ⟨_, _, rfl, ?_, ?_⟩
        · intro x hx; simp at hx ⊢; rcases hx with h | h | h <;> simp [h]
        · intro z hz; simpa using hz)
      (by intro x hx; simp [hx])
    exact ⟨by simpa using this, fun x hx => by cases hx⟩
  | mergeRightUnder hm hc hx hd hr hg hs hu =>
    rename_i id op lk mk rs kv kb c d cb out
    intro he
    have hr := (excl_mk.1 he).1 rfl
    subst hr
    have hch := (excl_mk.1 he).2
    have := keep_pair (m := m) (e := ⟨id, op, false, none, .moved⟩) (w := some ⟨id, op, lk, mk⟩) (w' := some ⟨id, op, lk, .under out⟩) (kvs := kv :: kb) (kvs' := kb)
      (ca := []) (b := c) (c := d) (cb := cb) (ns := [.mk none [] (c.kvs ++ kv :: d.kvs) (c.children ++ d.children)]) (by simpa using hch)
      (excl_readers (hch _ (by simp)) hc) hd.2
      (by
        intro y hy
        simp only [List.mem_cons, List.not_mem_nil, or_false] at hy
        subst hy
        refine ⟨_, _, rfl, ?_, ?_⟩
        · intro x hx; simp at hx ⊢; rcases hx with h | h | h <;> simp [h]
        · intro z hz; simpa using hz)
      (by intro x hx; simp [hx])
    exact ⟨by simpa using this, fun x hx => by cases hx⟩
  | inner hm hc hl hid hop hs ih =>
    rename_i id op lk mk rs kvs ca c cb h e c'
    intro he
    have hr := (excl_mk.1 he).1 rfl
    subst hr
    have hch := (excl_mk.1 he).2
    obtain ⟨k, hsw⟩ := ih (hch _ (by simp))
    refine ⟨?_, ?_⟩
    · have k' : Keep m { e with swap := nextSwap mk e.swap } c c' := ⟨k.excl, k.lay, k.ahead, k.behind⟩
      refine keep_child hch k' ?_
      intro x hx
      cases hs' : e.swap with
      | none => simp only [hs', nextKvs] at hx; exact .inl hx
      | some y =>
        rw [hs'] at hx
        cases mk <;> simp only [nextKvs] at hx <;> first | exact .inl hx | skip
        rcases List.mem_or_eq_of_mem_set hx with h | h
        · exact .inl h
        · subst h; exact .inr (hsw _ hs')
    · intro x hx
      have : e.swap = some x := by
        cases mk <;> simp [nextSwap] at hx <;> exact hx
      have := hsw x this
      simp only [behind, marksN_nil, if_pos, List.mem_append, mem_behindL]
      exact .inr ⟨c, by simp, this⟩

end

/-- A step below one child of a node whose own locks stay. -/
theorem keep_below {m} {e : Eff K V} {w : Option (Hold K V)} {rs kvs ca c c' cb} (he : Excl (.mk w rs kvs (ca ++ c :: cb)))
    (k : Keep m e c c') : Keep m e (.mk w rs kvs (ca ++ c :: cb)) (.mk w rs kvs (ca ++ c' :: cb)) := by
  obtain ⟨h1, h2⟩ := excl_mk.1 he
  constructor
  · refine excl_mk.2 ⟨h1, fun y hy => ?_⟩
    simp at hy
    rcases hy with h | rfl | h
    · exact h2 y (by simp [h])
    · exact k.excl
    · exact h2 y (by simp [h])
  · intro b hb
    have e1 : layL m (ca ++ c' :: cb) ≤ layL m (ca ++ c :: cb) := by
      rw [layL_le]
      intro y hy
      simp at hy
      rcases hy with h | rfl | h
      · exact layL_mem (by simp [h])
      · exact k.lay _ (layL_mem (by simp))
      · exact layL_mem (by simp [h])
    simp only [lay] at hb ⊢
    omega
  · intro x hx
    simp only [ahead] at hx ⊢
    by_cases hm : marksN m rs = 0
    · simp only [hm, if_pos, mem_aheadL] at hx ⊢
      obtain ⟨y, hy, hx⟩ := hx
      simp at hy
      rcases hy with h | rfl | h
      · exact .inl ⟨y, by simp [h], hx⟩
      · exact (k.ahead x hx).imp (fun h => ⟨c, by simp, h⟩) id
      · exact .inl ⟨y, by simp [h], hx⟩
    · simp only [hm, if_false, List.mem_append, mem_allL] at hx ⊢
      rcases hx with hx | ⟨y, hy, hx⟩
      · exact .inl (.inl hx)
      · rcases hy with h | h
        · exact .inl (.inr ⟨y, by simp [h], hx⟩)
        · rcases List.mem_cons.1 h with rfl | h
          · rw [mem_all (m := m)] at hx
            rcases hx with hx | hx
            · exact (k.ahead x hx).imp (fun h => .inr ⟨c, by simp, mem_all.2 (.inl h)⟩) id
            · exact (k.behind x hx).imp (fun h => .inr ⟨c, by simp, mem_all.2 (.inr h)⟩) id
          · exact .inl (.inr ⟨y, by simp [h], hx⟩)
  · intro x hx
    simp only [behind] at hx ⊢
    by_cases hm : marksN m rs = 0
    · simp only [hm, if_pos, List.mem_append, mem_behindL] at hx ⊢
      rcases hx with hx | ⟨y, hy, hx⟩
      · exact .inl (.inl hx)
      · rcases hy with h | h
        · exact .inl (.inr ⟨y, by simp [h], hx⟩)
        · rcases List.mem_cons.1 h with rfl | h
          · exact (k.behind x hx).imp (fun h => .inr ⟨c, by simp, h⟩) id
          · exact .inl (.inr ⟨y, by simp [h], hx⟩)
    · simp [hm] at hx

/-- Only the locks of calls on a node change. -/
theorem keep_readers {m} {e : Eff K V} {w : Option (Hold K V)} {rs rs' kvs cs} (he : Excl (.mk w rs kvs cs))
    (h1 : w.isSome = true → rs = [] → rs' = []) (h2 : marksN m rs' = marksN m rs) : Keep m e (.mk w rs kvs cs) (.mk w rs' kvs cs) := by
  obtain ⟨g1, g2⟩ := excl_mk.1 he
  refine ⟨excl_mk.2 ⟨fun h => h1 h (g1 h), g2⟩, ?_, ?_, ?_⟩
  · intro b; simp [lay, h2]
  · intro x hx; simp only [ahead, h2] at hx ⊢; exact .inl hx
  · intro x hx; simp only [behind, h2] at hx ⊢; exact .inl hx

theorem keep_trans {m} {e : Eff K V} {a b c : CNode K V} (h1 : Keep m e a b) (h2 : Keep m e b c) : Keep m e a c :=
  ⟨h2.excl, fun x h => h2.lay x (h1.lay x h), fun x h => (h2.ahead x h).elim (h1.ahead x) .inr,
    fun x h => (h2.behind x h).elim (h1.behind x) .inr⟩

section
variable [KeyOps K]

/-- Steps of any call in a subtree. -/
theorem nstep_keep {n m} {t : CNode K V} {e t'} (st : NStep n t e t') : Excl t → Keep m e t t' := by
  induction st with
  | chain hh hl hs => intro he; exact (cstep_keep hs he).1
  | readHit hr hh =>
    intro he
    refine keep_readers he (fun _ h => by simp at h) ?_
    rw [marksN_append, marksN_append, marksN_call (by simpa using hr)]
  | readMiss hh =>
    intro he
    refine keep_readers he (fun _ h => by simp at h) ?_
    rw [marksN_append, marksN_append, marksN_call rfl]
  | readAgain hh =>
    intro he
    refine keep_readers he (fun _ h => by simp at h) ?_
    rw [marksN_append, marksN_append, marksN_call rfl]
  | readDown hr hh hi hf =>
    rename_i w ra id op rb kvs ca c cb
    intro he
    have k : Keep m ⟨id, op, false, none, .moved⟩ c (c.addReader (id, op)) :=
      ⟨excl_addReader hf ((excl_mk.1 he).2 c (by simp)), fun b h => by rw [lay_addCall (by simpa using hr)]; exact h,
        fun x h => by rw [ahead_addCall (by simpa using hr)] at h; exact .inl h, fun x h => by rw [behind_addCall (by simpa using hr)] at h; exact .inl h⟩
    refine keep_trans (keep_below he k) (keep_readers (keep_below he k).excl (fun _ h => by simp at h) ?_)
    rw [marksN_append, marksN_append, marksN_call (by simpa using hr)]
  | child hs ih =>
    intro he
    exact keep_below he (ih ((excl_mk.1 he).2 _ (by simp)))

end

end Willow.BTreeWalk
