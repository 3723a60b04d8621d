import Verif.Model.ChannelLocks
/- Deadlocks of Model/ChannelLocks.lean. -/
namespace Willow.ChanLocks

theorem advance_phase {s s' : St} {o : List Call} {c c' : Call} (h : advance s o c = some (s', c')) :
    (c.at_ ≠ .hb ∧ s' = s) ∨ (c.at_ = .hb ∧ ∃ p b, finish s c.kind = some (p, b) ∧ s' = { s with phase := p, ptr := b } ∧ c' = { c with at_ := .answered }) := by
  unfold advance at h
  cases hc : c.at_ <;> simp only [hc] at h
  · split at h
    · split at h <;> simp at h; exact .inl ⟨by simp, h.1.symm⟩
    · split at h <;> simp at h; exact .inl ⟨by simp, h.1.symm⟩
  · split at h <;> simp at h; exact .inl ⟨by simp, h.1.symm⟩
  · split at h <;> simp at h; exact .inl ⟨by simp, h.1.symm⟩
  · split at h
    · simp at h
    · rename_i p b hf
      simp at h; exact .inr ⟨rfl, p, b, hf, h.1.symm, h.2.symm⟩
  · simp at h

theorem advance_kind {s s' : St} {o : List Call} {c c' : Call} (h : advance s o c = some (s', c')) : c'.kind = c.kind := by
  unfold advance at h
  cases hc : c.at_ <;> simp only [hc] at h
  · split at h
    · split at h <;> simp at h; rw [← h.2]
    · split at h <;> simp at h; rw [← h.2]
  · split at h <;> simp at h; rw [← h.2]
  · split at h <;> simp at h; rw [← h.2]
  · split at h
    · simp at h
    · simp at h; rw [← h.2]
  · simp at h

/-- taking the heartbeat lock needs it to be free -/
theorem advance_hb {s s' : St} {o : List Call} {c c' : Call} (h : advance s o c = some (s', c')) (hc : c'.at_ = .hb) :
    c.at_ = .node ∧ ∀ x ∈ o, x.at_ ≠ .hb := by
  unfold advance at h
  cases hx : c.at_ <;> simp only [hx] at h
  · split at h
    · split at h <;> simp at h; rw [← h.2] at hc; simp at hc
    · split at h <;> simp at h; rw [← h.2] at hc; simp at hc
  · split at h <;> simp at h; rw [← h.2] at hc; simp at hc
  · split at h <;> simp at h
    rename_i hn
    refine ⟨rfl, ?_⟩
    intro x hx' e
    apply hn; rw [List.any_eq_true]; exact ⟨x, hx', by simp [Call.holdsHb, e]⟩
  · split at h
    · simp at h
    · simp at h; rw [← h.2] at hc; simp at hc
  · simp at h

/-- The state of a deadlock: a call at position `i` waits for the heartbeat process, which waits for it. -/
structure Stuck (i : Nat) (s : St) : Prop where
  ptr : s.ptr = true
  phase : s.phase = .inTimeout ∨ s.phase = .waitStart
  call : ∃ c, s.calls[i]? = some c ∧ c.at_ = .hb ∧ finish s c.kind = none
  only : ∀ j c, s.calls[j]? = some c → c.at_ = .hb → j = i

theorem getElem?_set_mid {a b : List Call} {c c' : Call} (j : Nat) (x : Call) (h : (a ++ c' :: b)[j]? = some x) :
    (j = a.length ∧ x = c') ∨ (j ≠ a.length ∧ (a ++ c :: b)[j]? = some x) := by
  rw [List.getElem?_append] at h ⊢
  split at h
  · rename_i hlt; exact .inr ⟨by omega, by rw [if_pos hlt]; exact h⟩
  · rename_i hge
    rw [List.getElem?_cons] at h
    split at h
    · rename_i h0; simp at h; exact .inl ⟨by omega, h.symm⟩
    · rename_i h0
      refine .inr ⟨by omega, ?_⟩
      rw [if_neg hge, List.getElem?_cons, if_neg h0]; exact h

theorem Stuck.step {i : Nat} {s s' : St} (h : Stuck i s) (hs : Step s s') :
    Stuck i s' ∧ (∀ (j : Nat) c, s.calls[j]? = some c → c.at_ ≠ .answered → ∃ c', s'.calls[j]? = some c' ∧ c'.at_ ≠ .answered) := by
  obtain ⟨ci, hci, hat, hfin⟩ := h.call
  have hilt : i < s.calls.length := by
    rcases Nat.lt_or_ge i s.calls.length with hl | hl
    · exact hl
    · rw [List.getElem?_eq_none hl] at hci; simp at hci
  have keep : ∀ (k : Call) (j : Nat) (c : Call), s.calls[j]? = some c → (s.calls ++ [k])[j]? = some c := by
    intro k j c hj
    rw [List.getElem?_append_left]; exact hj
    rcases Nat.lt_or_ge j s.calls.length with hl | hl
    · exact hl
    · rw [List.getElem?_eq_none hl] at hj; simp at hj
  have back : ∀ (k : Call) (j : Nat) c, (s.calls ++ [k])[j]? = some c → s.calls[j]? = some c ∨ c = k := by
    intro k j c hj
    rw [List.getElem?_append] at hj
    split at hj
    · exact .inl hj
    · rw [List.getElem?_cons] at hj
      split at hj
      · simp at hj; exact .inr hj.symm
      · simp at hj
  have hphase : s.phase ≠ .running := by rcases h.phase with e | e <;> simp [e]
  cases hs with
  | call k hk =>
    refine ⟨⟨h.ptr, h.phase, ⟨ci, keep _ _ _ hci, hat, hfin⟩, ?_⟩, fun j c hj ha => ⟨c, keep _ _ _ hj, ha⟩⟩
    intro j c hj hc
    rcases back _ j c hj with e | e
    · exact h.only j c e hc
    · subst e; simp at hc
  | fire hr => exact absurd hr hphase
  | @go s1 a b c c' hcs ha =>
    have hj : s.calls[a.length]? = some c := by rw [hcs]; simp
    have hne : c.at_ ≠ .hb := by
      intro e
      have := h.only _ c hj e
      rw [← this] at hci
      rw [hj] at hci; simp at hci; subst hci
      rcases advance_phase ha with ⟨h1, _⟩ | ⟨_, p, b', hf, _⟩
      · exact h1 e
      · rw [hfin] at hf; simp at hf
    have hai : a.length ≠ i := by
      intro e; rw [e, hci] at hj; simp at hj; subst hj; exact hne hat
    have hs1 : s1 = s := by
      rcases advance_phase ha with ⟨_, h1⟩ | ⟨h1, _⟩
      · exact h1
      · exact absurd h1 hne
    have hnew : c'.at_ ≠ .hb := by
      intro e
      have := (advance_hb ha e).2 ci ?_
      · exact this hat
      · have hm : ci ∈ s.calls := List.mem_of_getElem? hci
        rw [hcs] at hm hci
        rcases getElem?_set_mid (c := c) i ci hci with ⟨e1, _⟩ | ⟨e1, _⟩
        · exact absurd e1.symm hai
        · rw [List.getElem?_append] at hci
          split at hci
          · exact List.mem_append_left _ (List.mem_of_getElem? hci)
          · rw [List.getElem?_cons, if_neg (by omega)] at hci
            exact List.mem_append_right _ (List.mem_of_getElem? hci)
    have hans : c'.at_ ≠ .answered := by
      intro e
      unfold advance at ha
      cases hx : c.at_ <;> simp only [hx] at ha
      · split at ha
        · split at ha <;> simp at ha; rw [← ha.2] at e; simp at e
        · split at ha <;> simp at ha; rw [← ha.2] at e; simp at e
      · split at ha <;> simp at ha; rw [← ha.2] at e; simp at e
      · split at ha <;> simp at ha; rw [← ha.2] at e; simp at e
      · exact hne hx
      · simp at ha
    subst hs1
    have fwd : ∀ (j : Nat) x, j ≠ a.length → s1.calls[j]? = some x → (a ++ c' :: b)[j]? = some x := by
      intro j x hjn hjx
      rw [hcs] at hjx
      rw [List.getElem?_append] at hjx ⊢
      split
      · rename_i hl; rw [if_pos hl] at hjx; exact hjx
      · rename_i hl; rw [if_neg hl] at hjx
        rw [List.getElem?_cons, if_neg (by omega)] at hjx ⊢; exact hjx
    refine ⟨⟨h.ptr, h.phase, ⟨ci, fwd i ci (fun e => hai e.symm) hci, hat, hfin⟩, ?_⟩, ?_⟩
    · intro j x hjx hx
      rcases getElem?_set_mid (c := c) j x hjx with ⟨_, e⟩ | ⟨e1, e2⟩
      · subst e; exact absurd hx hnew
      · exact h.only j x (by rw [hcs]; exact e2) hx
    · intro j x hjx hx
      by_cases e : j = a.length
      · subst e; exact ⟨c', by simp, hans⟩
      · exact ⟨x, fwd j x e hjx, hx⟩

theorem Stuck.run {i : Nat} {s s' : St} (h : Stuck i s) (hr : Run s s') :
    Stuck i s' ∧ (∀ (j : Nat) c, s.calls[j]? = some c → c.at_ ≠ .answered → ∃ c', s'.calls[j]? = some c' ∧ c'.at_ ≠ .answered) := by
  induction hr with
  | refl => exact ⟨h, fun j c hj hc => ⟨c, hj, hc⟩⟩
  | tail _ hs ih =>
    obtain ⟨h1, h2⟩ := ih.1.step hs
    refine ⟨h1, fun j c hj hc => ?_⟩
    obtain ⟨c', h3, h4⟩ := ih.2 j c hj hc
    exact h2 j c' h3 h4

/-! ### The locks are exclusive -/

/-- at most one call has the heartbeat lock -/
def Excl (s : St) : Prop := ∀ a b c, s.calls = a ++ c :: b → c.at_ = .hb → ∀ x ∈ a ++ b, x.at_ ≠ .hb

theorem mem_mid {a b : List Call} {c' x : Call} (h : x ∈ a ++ c' :: b) : x = c' ∨ x ∈ a ++ b := by
  simp only [List.mem_append, List.mem_cons] at h ⊢
  rcases h with h | h | h
  · exact .inr (.inl h)
  · exact .inl h
  · exact .inr (.inr h)

/-- the lists of calls with at most one at `hb` -/
def Excl' (l : List Call) : Prop := (l.filter (·.holdsHb)).length ≤ 1

theorem excl_of {s : St} (h : Excl' s.calls) : Excl s := by
  intro a b c hc hat x hx e
  unfold Excl' at h
  rw [hc, List.filter_append, List.filter_cons, if_pos (by simp [Call.holdsHb, hat])] at h
  have : x ∈ (a ++ b).filter (·.holdsHb) := List.mem_filter.2 ⟨hx, by simp [Call.holdsHb, e]⟩
  rw [List.filter_append] at this
  have h2 := List.length_pos_of_mem this
  simp only [List.length_append, List.length_cons] at h h2
  omega

theorem excl_step {s s' : St} (h : Excl' s.calls) (hs : Step s s') : Excl' s'.calls := by
  cases hs with
  | call k _ => unfold Excl' at *; simp [List.filter_append, Call.holdsHb] at *; exact h
  | fire _ => unfold Excl' at *; simp [List.filter_append, Call.holdsHb] at *; exact h
  | @go s1 a b c c' hcs ha =>
    unfold Excl' at *
    rw [hcs] at h
    simp only [List.filter_append, List.filter_cons] at h ⊢
    by_cases hc' : c'.at_ = .hb
    · obtain ⟨_, hn⟩ := advance_hb ha hc'
      have h0 : ∀ l : List Call, (∀ x ∈ l, x ∈ a ++ b) → l.filter (·.holdsHb) = [] := by
        intro l hl; rw [List.filter_eq_nil_iff]; intro x hx; simp [Call.holdsHb, hn x (hl x hx)]
      rw [h0 a (by intro x hx; simp [hx]), h0 b (by intro x hx; simp [hx])]
      split <;> simp
    · rw [if_neg (by simp [Call.holdsHb, hc'])]
      split at h
      · simp only [List.length_append, List.length_cons] at h ⊢; omega
      · exact h

theorem excl_run {s s' : St} (h : Excl' s.calls) (hr : Run s s') : Excl' s'.calls := by
  induction hr with
  | refl => exact h
  | tail _ hs ih => exact excl_step ih hs

theorem excl_reach {s : St} (h : Reach s) : Excl s := excl_of (excl_run (by simp [Excl']) h)

/-- without a blocked call at the heartbeat lock, somebody can go on -/
theorem progress {s : St} (hu : ∃ c ∈ s.calls, c.at_ ≠ .answered)
    (hn : ∀ c ∈ s.calls, c.at_ = .hb → finish s c.kind ≠ none) :
    ∃ a c b s' c', s.calls = a ++ c :: b ∧ advance s (a ++ b) c = some (s', c') := by
  -- the call with the highest lock
  by_cases h1 : ∃ c ∈ s.calls, c.at_ = .hb
  · obtain ⟨c, hm, hat⟩ := h1
    obtain ⟨a, b, hab⟩ := List.append_of_mem hm
    have := hn c hm hat
    cases hf : finish s c.kind with
    | none => exact absurd hf this
    | some r =>
      obtain ⟨p, q⟩ := r
      exact ⟨a, c, b, { s with phase := p, ptr := q }, { c with at_ := .answered }, hab, by simp only [advance, hat, hf]⟩
  · by_cases h2 : ∃ c ∈ s.calls, c.at_ = .node
    · obtain ⟨c, hm, hat⟩ := h2
      obtain ⟨a, b, hab⟩ := List.append_of_mem hm
      refine ⟨a, c, b, s, { c with at_ := .hb }, hab, ?_⟩
      simp only [advance, hat]
      rw [if_neg]
      rw [List.any_eq_true]; rintro ⟨x, hx, hh⟩
      exact h1 ⟨x, by rw [hab]; simp only [List.mem_append, List.mem_cons] at hx ⊢; rcases hx with h | h <;> simp [h], by simpa [Call.holdsHb] using hh⟩
    · have hnode : ∀ x ∈ s.calls, x.holdsNode = false := by
        intro x hx
        cases hh : x.holdsNode with
        | false => rfl
        | true =>
          simp only [Call.holdsNode, Bool.or_eq_true, beq_iff_eq] at hh
          rcases hh with e | e
          · exact absurd ⟨x, hx, e⟩ h2
          · exact absurd ⟨x, hx, e⟩ h1
      by_cases h3 : ∃ c ∈ s.calls, c.at_ = .items
      · obtain ⟨c, hm, hat⟩ := h3
        obtain ⟨a, b, hab⟩ := List.append_of_mem hm
        refine ⟨a, c, b, s, { c with at_ := .node }, hab, ?_⟩
        simp only [advance, hat]
        rw [if_neg]
        rw [List.any_eq_true]; rintro ⟨x, hx, hh⟩
        rw [hnode x (by rw [hab]; simp only [List.mem_append, List.mem_cons] at hx ⊢; rcases hx with h | h <;> simp [h])] at hh
        simp at hh
      · obtain ⟨c, hm, hat⟩ := hu
        have hnew : c.at_ = .new := by
          cases e : c.at_ with
          | new => rfl
          | items => exact absurd ⟨c, hm, e⟩ h3
          | node => exact absurd ⟨c, hm, e⟩ h2
          | hb => exact absurd ⟨c, hm, e⟩ h1
          | answered => exact absurd e hat
        obtain ⟨a, b, hab⟩ := List.append_of_mem hm
        cases hk : c.kind.items with
        | true =>
          refine ⟨a, c, b, s, { c with at_ := .items }, hab, ?_⟩
          simp only [advance, hnew, hk, ↓reduceIte]
          rw [if_neg]
          rw [List.any_eq_true]; rintro ⟨x, hx, hh⟩
          have hx' : x ∈ s.calls := by rw [hab]; simp only [List.mem_append, List.mem_cons] at hx ⊢; rcases hx with h | h <;> simp [h]
          simp only [Call.holdsItems, Bool.and_eq_true, Bool.or_eq_true, beq_iff_eq] at hh
          rcases hh.2 with (e | e) | e
          · exact h3 ⟨x, hx', e⟩
          · exact h2 ⟨x, hx', e⟩
          · exact h1 ⟨x, hx', e⟩
        | false =>
          refine ⟨a, c, b, s, { c with at_ := .node }, hab, ?_⟩
          simp only [advance, hnew, hk, Bool.false_eq_true, ↓reduceIte]
          rw [if_neg]
          rw [List.any_eq_true]; rintro ⟨x, hx, hh⟩
          rw [hnode x (by rw [hab]; simp only [List.mem_append, List.mem_cons] at hx ⊢; rcases hx with h | h <;> simp [h])] at hh
          simp at hh

theorem finish_none {s : St} {k : Kind} (h : finish s k = none) : s.ptr = true ∧ (s.phase = .inTimeout ∨ (s.phase = .waitStart ∧ k = .beat)) := by
  cases k <;> cases hp : s.ptr <;> cases hph : s.phase <;> simp_all [finish]

end Willow.ChanLocks

namespace Willow.ChanLocks

/-- A reachable state in which a call at position `i` blocks on the heartbeat process is a deadlock. -/
theorem stuck_of_reach {s : St} (hr : Reach s) {i : Nat} {c : Call} (hc : s.calls[i]? = some c) (hat : c.at_ = .hb)
    (hf : finish s c.kind = none) : Stuck i s := by
  obtain ⟨h1, h2⟩ := finish_none hf
  refine ⟨h1, h2.imp id (·.1), ⟨c, hc, hat, hf⟩, ?_⟩
  intro j x hj hx
  have hex := excl_reach hr
  rcases Nat.lt_trichotomy j i with h | h | h
  · exfalso
    have hlt : i < s.calls.length := by
      rcases Nat.lt_or_ge i s.calls.length with hl | hl
      · exact hl
      · rw [List.getElem?_eq_none hl] at hc; simp at hc
    have hsplit : s.calls = s.calls.take i ++ c :: s.calls.drop (i+1) := by
      rw [List.getElem?_eq_getElem hlt] at hc
      simp at hc; rw [← hc, ← List.drop_eq_getElem_cons hlt, List.take_append_drop]
    refine hex _ _ c hsplit hat x ?_ hx
    apply List.mem_append_left
    apply List.mem_of_getElem? (i := j)
    rw [List.getElem?_take_of_lt h]; exact hj
  · exact h
  · exfalso
    have hlt : i < s.calls.length := by
      rcases Nat.lt_or_ge i s.calls.length with hl | hl
      · exact hl
      · rw [List.getElem?_eq_none hl] at hc; simp at hc
    have hsplit : s.calls = s.calls.take i ++ c :: s.calls.drop (i+1) := by
      rw [List.getElem?_eq_getElem hlt] at hc
      simp at hc; rw [← hc, ← List.drop_eq_getElem_cons hlt, List.take_append_drop]
    refine hex _ _ c hsplit hat x ?_ hx
    apply List.mem_append_right
    apply List.mem_of_getElem? (i := j - (i+1))
    rw [List.getElem?_drop]; rw [show i + 1 + (j - (i+1)) = j by omega]; exact hj

/-! ### No new calls -/

/-- Steps of the calls that are there: no new call, no timeout that fires. -/
inductive GoRun : Nat → St → St → Prop
  | refl {s} : GoRun 0 s s
  | tail {n s s' s1 a b c c'} : GoRun n s s' → s'.calls = a ++ c :: b → advance s' (a ++ b) c = some (s1, c') →
      GoRun (n+1) s { s1 with calls := a ++ c' :: b }

theorem GoRun.run {n : Nat} {s s' : St} (h : GoRun n s s') : Run s s' := by
  induction h with
  | refl => exact .refl
  | tail _ h1 h2 ih => exact .tail ih (.go h1 h2)

/-- how many steps a call has left at most -/
def left : At → Nat
  | .new => 4 | .items => 3 | .node => 2 | .hb => 1 | .answered => 0

def total (l : List Call) : Nat := (l.map (fun c => left c.at_)).sum

theorem advance_left {s s' : St} {o : List Call} {c c' : Call} (h : advance s o c = some (s', c')) : left c'.at_ < left c.at_ := by
  unfold advance at h
  cases hx : c.at_ <;> simp only [hx] at h
  · split at h
    · split at h <;> simp at h; rw [← h.2]; simp [left]
    · split at h <;> simp at h; rw [← h.2]; simp [left]
  · split at h <;> simp at h; rw [← h.2]; simp [left]
  · split at h <;> simp at h; rw [← h.2]; simp [left]
  · split at h
    · simp at h
    · simp at h; rw [← h.2]; simp [left]
  · simp at h

theorem GoRun.total {n : Nat} {s s' : St} (h : GoRun n s s') : n + total s'.calls ≤ total s.calls := by
  induction h with
  | refl => simp
  | tail _ h1 h2 ih =>
    have := advance_left h2
    rw [h1] at ih
    simp only [ChanLocks.total, List.map_append, List.map_cons, List.sum_append, List.sum_cons] at ih ⊢
    omega

theorem total_le (l : List Call) : total l ≤ 4 * l.length := by
  induction l with
  | nil => simp [total]
  | cons c l ih =>
    simp only [total, List.map_cons, List.sum_cons, List.length_cons] at ih ⊢
    have : left c.at_ ≤ 4 := by cases c.at_ <;> simp [left]
    omega

/-- Does the call need an answer of the heartbeat process in this phase? -/
def Waits (p : Phase) (k : Kind) : Prop :=
  (p = .inTimeout ∧ (k = .passed ∨ k = .failed ∨ k = .unsent ∨ k = .beat)) ∨ (p = .waitStart ∧ k = .beat)

/-- No unanswered call can meet a heartbeat process that does not listen. -/
def Calm (s : St) : Prop := ∀ c ∈ s.calls, c.at_ ≠ .answered → s.ptr = true → ¬ Waits s.phase c.kind

theorem finish_some_calm {s : St} {k : Kind} (h : s.ptr = true → ¬ Waits s.phase k) : ∃ p b, finish s k = some (p, b) ∧
    ((p = s.phase ∧ b = s.ptr) ∨ b = false ∨ p = .running ∨ p = .done) := by
  cases k <;> cases hp : s.ptr <;> cases hph : s.phase <;> simp_all [finish, Waits]

theorem Calm.go {s s1 : St} {a b : List Call} {c c' : Call} (h : Calm s) (hcs : s.calls = a ++ c :: b)
    (ha : advance s (a ++ b) c = some (s1, c')) : Calm { s1 with calls := a ++ c' :: b } := by
  intro x hx hans hptr
  have hxk : ∃ y ∈ s.calls, y.at_ ≠ .answered ∧ y.kind = x.kind := by
    rcases mem_mid hx with e | e
    · subst e
      refine ⟨c, by rw [hcs]; simp, ?_, (advance_kind ha).symm⟩
      intro e; have := advance_left ha; rw [e] at this; simp [left] at this
    · exact ⟨x, by rw [hcs]; simp only [List.mem_append, List.mem_cons] at e ⊢; rcases e with h | h <;> simp [h], hans, rfl⟩
  obtain ⟨y, hy, hya, hyk⟩ := hxk
  rw [← hyk]
  rcases advance_phase ha with ⟨_, e⟩ | ⟨hat, p, q, hf, e, _⟩
  · subst e; exact h y hy hya hptr
  · subst e
    simp only at hptr ⊢
    have hc : s.ptr = true → ¬ Waits s.phase c.kind := h c (by rw [hcs]; simp) (by simp [hat])
    obtain ⟨p', q', hf', hpq⟩ := finish_some_calm hc
    rw [hf] at hf'; simp at hf'
    obtain ⟨rfl, rfl⟩ := hf'
    rcases hpq with ⟨e1, e2⟩ | e | e | e
    · rw [e1]; exact h y hy hya (e2 ▸ hptr)
    · rw [e] at hptr; simp at hptr
    · rw [e]; simp [Waits]
    · rw [e]; simp [Waits]

theorem Calm.goRun {n : Nat} {s s' : St} (h : Calm s) (hr : GoRun n s s') : Calm s' := by
  induction hr with
  | refl => exact h
  | tail _ h1 h2 ih => exact (ih h).go h1 h2

theorem Calm.progress {s : St} (h : Calm s) (hu : ∃ c ∈ s.calls, c.at_ ≠ .answered) :
    ∃ a c b s' c', s.calls = a ++ c :: b ∧ advance s (a ++ b) c = some (s', c') := by
  apply ChanLocks.progress hu
  intro c hc hat e
  obtain ⟨p, b, hf, _⟩ := finish_some_calm (h c hc (by simp [hat]))
  rw [hf] at e; simp at e

/-- from a calm state the calls can all be answered -/
theorem Calm.finishes {s : St} (h : Calm s) : ∃ n s', GoRun n s s' ∧ ∀ c ∈ s'.calls, c.at_ = .answered := by
  suffices ∀ m n s', GoRun n s s' → total s'.calls ≤ m → ∃ n s', GoRun n s s' ∧ ∀ c ∈ s'.calls, c.at_ = .answered from
    this _ 0 s .refl (Nat.le_refl _)
  intro m
  induction m with
  | zero =>
    intro n s' hr hm
    refine ⟨n, s', hr, ?_⟩
    intro c hc
    refine Classical.byContradiction fun hn => ?_
    obtain ⟨a, c1, b, s1, c', h1, h2⟩ := (h.goRun hr).progress ⟨c, hc, hn⟩
    have := (GoRun.tail .refl h1 h2).total
    omega
  | succ m ih =>
    intro n s' hr hm
    by_cases hu : ∃ c ∈ s'.calls, c.at_ ≠ .answered
    · obtain ⟨a, c1, b, s1, c', h1, h2⟩ := (h.goRun hr).progress hu
      have := (GoRun.tail .refl h1 h2).total
      exact ih _ _ (.tail hr h1 h2) (by omega)
    · refine ⟨n, s', hr, fun c hc => ?_⟩
      refine Classical.byContradiction fun hn => hu ⟨c, hc, hn⟩

end Willow.ChanLocks
