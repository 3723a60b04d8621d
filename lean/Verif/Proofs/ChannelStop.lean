import Verif.Spec.ChannelStop
/-
Proofs about stopping a channel.
-/
namespace Willow.ChanStop

/-! ### Invariant -/

/-- A heartbeat process waits for its start only while its item is being sent; a call that waits has a reason that lasts. -/
structure Inv (s : St) : Prop where
  start : ∀ i, s.hbs[i]? = some .waitStart → s.exec = .handed (some i)
  there : ∀ i, s.exec = .handed (some i) → i < s.hbs.length
  mgr : s.mgr = .returned → ∀ h ∈ s.hbs, h = .done
  ret : s.exec = .returned → s.mgr = .returned
  refuses : s.mgr ≠ .accepts → cancelled s = true

theorem inv_init : Inv {} := by constructor <;> simp

theorem mem_set_done {l : List Hb} {i : Nat} {a : Hb} (h : ∀ x ∈ l, x = .done) (ha : a = .done) : ∀ x ∈ l.set i a, x = .done := by
  intro x hx
  rcases List.mem_or_eq_of_mem_set hx with h' | h'
  · exact h x h'
  · exact h'.trans ha

theorem set_start {l : List Hb} {i j : Nat} {a : Hb} (h : (l.set i a)[j]? = some .waitStart) (ha : a ≠ .waitStart) :
    j ≠ i ∧ l[j]? = some .waitStart := by
  by_cases e : i = j
  · subst e
    rw [List.getElem?_set_self'] at h
    cases hl : l[i]? <;> simp [hl] at h
    exact absurd h ha
  · rw [List.getElem?_set_ne e] at h; exact ⟨fun h' => e h'.symm, h⟩

theorem Hb.stop_ne (h : Hb) : h.stop ≠ .waitStart := by cases h <;> simp [Hb.stop]
theorem Hb.start_ne (h : Hb) : h.start ≠ .waitStart := by cases h <;> simp [Hb.start]

theorem inv_call {s : St} (hi : Inv s) {k : Kind} {i : Nat} {h : Hb} (hh : s.hbs[i]? = some h) : Inv (call s k i h) := by
  unfold call
  split
  · exact ⟨hi.start, hi.there, hi.mgr, hi.ret, hi.refuses⟩
  · rename_i hc
    refine ⟨fun j hj => ?_, fun j hj => ?_, fun hm => ?_, hi.ret, hi.refuses⟩
    · unfold effect at hj
      split at hj
      · have : s.hbs.set i h = s.hbs := by
          obtain ⟨hlt, rfl⟩ := List.getElem?_eq_some_iff.1 hh
          simp
        simp only [this] at hj
        exact hi.start j hj
      · exact hi.start j (set_start hj h.stop_ne).2
    · simpa using hi.there j hj
    · have hd := hi.mgr hm
      refine mem_set_done hd ?_
      have : h = .done := hd h (List.mem_of_getElem? hh)
      subst this; unfold effect; split <;> rfl

theorem inv_ask {s s' : St} (hi : Inv s) (h : Ask s s') : Inv s' := by
  cases h with
  | shutdown => exact ⟨hi.start, hi.there, hi.mgr, hi.ret, fun _ => by simp [cancelled]⟩
  | call k i h hh => exact inv_call hi hh
  | _ => exact ⟨hi.start, hi.there, hi.mgr, hi.ret, hi.refuses⟩

theorem inv_work {s s' : St} (hi : Inv s) (h : Work s s') : Inv s' := by
  have hns : ∀ {e : Exec}, s.exec = e → (∀ i, e ≠ .handed (some i)) → ∀ i : Nat, s.hbs[i]? ≠ some Hb.waitStart := by
    intro e he hne i hh
    exact hne i (he ▸ hi.start i hh)
  have hc : ∀ {e e' : Exec}, s.exec = e → e ≠ .ending → e ≠ .returned → s.mgr ≠ .accepts → cancelled { s with exec := e' } = true := by
    intro e e' he h1 h2 hm
    have := hi.refuses hm
    simp [cancelled, he, h1, h2] at this ⊢
    simp [this]
  cases h with
  | notified he _ =>
    exact ⟨fun i hh => absurd hh (hns he (by simp) i), by simp, hi.mgr, by simp, fun hm => hc he (by simp) (by simp) hm⟩
  | send he _ =>
    exact ⟨fun i hh => absurd hh (hns he (by simp) i), by simp, hi.mgr, by simp, fun hm => hc he (by simp) (by simp) hm⟩
  | refused he =>
    exact ⟨fun i hh => absurd hh (hns he (by simp) i), by simp, hi.mgr, by simp, fun hm => hc he (by simp) (by simp) hm⟩
  | count he =>
    exact ⟨fun i hh => absurd hh (hns he (by simp) i), by simp, hi.mgr, by simp, fun hm => hc he (by simp) (by simp) hm⟩
  | pop he _ =>
    exact ⟨fun i hh => absurd hh (hns he (by simp) i), by simp, hi.mgr, by simp, fun hm => hc he (by simp) (by simp) hm⟩
  | accepted he hm =>
    refine ⟨fun i hh => ?_, fun i hh => ?_, fun h => ?_, by simp, fun h => absurd hm h⟩
    · simp only [List.getElem?_append] at hh
      split at hh
      · exact absurd hh (hns he (by simp) i)
      · simp only [List.getElem?_singleton] at hh
        split at hh
        · simp; omega
        · simp at hh
    · simp at hh; subst hh; simp
    · exact absurd (hm.symm.trans h) (by simp)
  | unwatched he _ =>
    exact ⟨fun i hh => absurd hh (hns he (by simp) i), by simp, hi.mgr, by simp, fun hm => hc he (by simp) (by simp) hm⟩
  | missing he =>
    exact ⟨fun i hh => absurd hh (hns he (by simp) i), by simp, hi.mgr, by simp, fun hm => hc he (by simp) (by simp) hm⟩
  | received i h0 he hh _ =>
    refine ⟨fun j hj => ?_, by simp, fun hm => ?_, by simp, fun hm => hc he (by simp) (by simp) hm⟩
    · obtain ⟨h1, h2⟩ := set_start hj h0.start_ne
      have := hi.start j h2
      rw [he] at this; simp at this; exact absurd this.symm h1
    · refine mem_set_done (hi.mgr hm) ?_
      rw [hi.mgr hm h0 (List.mem_of_getElem? hh)]; rfl
  | unsent i h0 n he hh _ _ _ =>
    refine ⟨fun j hj => ?_, by simp, fun hm => ?_, by simp, fun hm => hc he (by simp) (by simp) hm⟩
    · obtain ⟨h1, h2⟩ := set_start hj h0.stop_ne
      have := hi.start j h2
      rw [he] at this; simp at this; exact absurd this.symm h1
    · refine mem_set_done (hi.mgr hm) ?_
      rw [hi.mgr hm h0 (List.mem_of_getElem? hh)]; rfl
  | receivedUnwatched he =>
    exact ⟨fun i hh => absurd hh (hns he (by simp) i), by simp, hi.mgr, by simp, fun hm => hc he (by simp) (by simp) hm⟩
  | unsentUnwatched he _ =>
    exact ⟨fun i hh => absurd hh (hns he (by simp) i), by simp, hi.mgr, by simp, fun hm => hc he (by simp) (by simp) hm⟩
  | again he =>
    exact ⟨fun i hh => absurd hh (hns he (by simp) i), by simp, hi.mgr, by simp, fun hm => hc he (by simp) (by simp) hm⟩
  | stop hl _ =>
    refine ⟨fun i hh => ?_, by simp, hi.mgr, by simp, fun _ => by simp [cancelled]⟩
    rw [hi.start i hh] at hl; simp [Exec.listens] at hl
  | refuses hm hcn =>
    exact ⟨hi.start, hi.there, by simp, fun h => by have := hi.ret h; rw [hm] at this; simp at this, fun _ => hcn⟩
  | drained hm hd => exact ⟨hi.start, hi.there, fun _ => hd, fun _ => rfl, fun _ => hi.refuses (by simp [hm])⟩
  | returns he hm =>
    exact ⟨fun i hh => absurd hh (hns he (by simp) i), by simp, hi.mgr, fun _ => hm, fun _ => by simp [cancelled]⟩
  | hbStops i hh hcn =>
    refine ⟨fun j hj => hi.start j (set_start hj (by simp)).2, fun j hj => by simpa using hi.there j hj, fun hm => ?_, hi.ret, hi.refuses⟩
    exact mem_set_done (hi.mgr hm) rfl
  | fires i hh =>
    refine ⟨fun j hj => hi.start j (set_start hj (by simp)).2, fun j hj => by simpa using hi.there j hj, fun hm => ?_, hi.ret, hi.refuses⟩
    exact absurd (hi.mgr hm _ (List.mem_of_getElem? hh)) (by simp)
  | fails i n hh _ _ =>
    refine ⟨fun j hj => hi.start j (set_start hj (by simp)).2, fun j hj => by simpa using hi.there j hj, fun hm => ?_, hi.ret, hi.refuses⟩
    exact absurd (hi.mgr hm _ (List.mem_of_getElem? hh)) (by simp)
  | tried i hh _ =>
    refine ⟨fun j hj => hi.start j (set_start hj (by simp)).2, fun j hj => by simpa using hi.there j hj, fun hm => ?_, hi.ret, hi.refuses⟩
    exact mem_set_done (hi.mgr hm) rfl
  | closed _ _ => exact ⟨hi.start, hi.there, hi.mgr, hi.ret, hi.refuses⟩

theorem inv_of_reach {s : St} (h : Reach s) : Inv s := by
  induction h with
  | init => exact inv_init
  | ask _ h ih => exact inv_ask ih h
  | work _ h ih => exact inv_work ih h

theorem later_reach {s s' : St} (hr : Reach s) (h : Later s s') : Reach s' := by
  induction h with
  | refl => exact hr
  | ask _ h ih => exact .ask ih h
  | work _ h ih => exact .work ih h

theorem worked_reach {s s' : St} {n : Nat} (hr : Reach s) (h : Worked s n s') : Reach s' := by
  induction h with
  | refl => exact hr
  | step _ h ih => exact .work ih h

/-! ### How much can happen -/

/-- Weights: every step inside lowers the sum, except that a refused dequeue may raise it by less than 4. -/
def Exec.weight : Exec → Nat
  | .returned => 0 | .ending => 1 | .idle => 2 | .spin => 3 | .offering => 3
  | .handed _ => 5 | .popped => 12 | .counted => 13 | .called => 14

def Hb.weight : Hb → Nat
  | .done => 0 | .deleting => 1 | .firing => 4 | .running => 5 | .waitStart => 6

def Mgr.weight : Mgr → Nat
  | .returned => 0 | .refuses => 1 | .accepts => 2

/-- The sum. -/
def mu (s : St) : Nat :=
  s.exec.weight + s.mgr.weight + (s.hbs.map Hb.weight).sum + 12 * s.waiting + 2 * s.pending

theorem sum_set {l : List Hb} {i : Nat} {a b : Hb} (h : l[i]? = some a) :
    ((l.set i b).map Hb.weight).sum + a.weight = (l.map Hb.weight).sum + b.weight := by
  induction l generalizing i with
  | nil => simp at h
  | cons x xs ih =>
    cases i with
    | zero => simp at h; subst h; simp; omega
    | succ i =>
      simp at h
      have := ih h
      simp only [List.set_cons_succ, List.map_cons, List.sum_cons]; omega

theorem mu_work {s s' : St} (h : Work s s') : mu s' + 1 ≤ mu s + 4 * (s'.refusals - s.refusals) ∧ s.refusals ≤ s'.refusals := by
  cases h with
  | received i h0 he hh _ =>
    have := sum_set (b := h0.start) hh
    simp [mu, he, Exec.weight]
    cases h0 <;> simp [Hb.start, Hb.weight] at this ⊢ <;> omega
  | unsent i h0 n he hh _ _ hf =>
    have := sum_set (b := h0.stop) hh
    simp [mu, he, Exec.weight]
    cases n <;> cases h0 <;> simp [Hb.stop, Hb.weight] at this hf ⊢ <;> omega
  | hbStops i hh _ => have := sum_set (b := .done) hh; simp [mu, Hb.weight] at this ⊢; omega
  | fires i hh => have := sum_set (b := .firing) hh; simp [mu, Hb.weight] at this ⊢; omega
  | fails i n hh _ _ => have := sum_set (b := .deleting) hh; cases n <;> simp [mu, Hb.weight] at this ⊢ <;> omega
  | tried i hh _ => have := sum_set (b := .done) hh; simp [mu, Hb.weight] at this ⊢; omega
  | stop hl _ =>
    cases he : s.exec <;> simp [he, Exec.listens] at hl <;> simp [mu, he, Exec.weight] <;> omega
  | accepted he _ => simp [mu, he, Exec.weight, Hb.weight]; omega
  | refuses hm _ => simp [mu, hm, Mgr.weight]; omega
  | drained hm _ => simp [mu, hm, Mgr.weight]; omega
  | closed _ _ => simp [mu]; omega
  | _ => simp_all [mu, Exec.weight]; omega

theorem mu_worked {s s' : St} {n : Nat} (h : Worked s n s') :
    mu s' + n ≤ mu s + 4 * (s'.refusals - s.refusals) ∧ s.refusals ≤ s'.refusals := by
  induction h with
  | refl => simp
  | step _ h ih => have := mu_work h; omega

/-! ### Where it can rest -/

theorem rests_over {s : St} (hi : Inv s) (hd : s.down = true ∨ s.deleted = true) (hs : s.stuck = []) (hr : Rests s) : Over s := by
  have hItems : itemsHeld s = false := by simp [itemsHeld, hs]
  have hItem : ∀ i, itemHeld s i = false := fun i => by simp [itemHeld, hs]
  have hnl : s.exec.listens = false := by
    cases hl : s.exec.listens with
    | false => rfl
    | true => exact absurd (Work.stop hl hd) (hr _)
  have hexec : s.exec = .ending ∨ s.exec = .returned := by
    cases he : s.exec with
    | idle | offering | spin => simp [he, Exec.listens] at hnl
    | called => exact absurd (Work.count he) (hr _)
    | counted => exact absurd (Work.pop he hItems) (hr _)
    | popped => exact absurd (Work.missing he) (hr _)
    | handed o =>
      cases o with
      | none => exact absurd (Work.receivedUnwatched he) (hr _)
      | some i =>
        have hlt := hi.there i he
        exact absurd (Work.received i _ he (List.getElem?_eq_getElem hlt) (hItem i)) (hr _)
    | ending => exact .inl rfl
    | returned => exact .inr rfl
  have hcn : cancelled s = true := by rcases hexec with e | e <;> simp [cancelled, e]
  have hdone : ∀ h ∈ s.hbs, h = .done := by
    intro h hh
    obtain ⟨i, hi'⟩ := List.getElem?_of_mem hh
    cases h with
    | done => rfl
    | waitStart =>
      have := hi.start i hi'
      rcases hexec with e | e <;> rw [e] at this <;> simp at this
    | running => exact absurd (Work.hbStops i hi' hcn) (hr _)
    | firing => exact absurd (Work.fails i true hi' (hItem i) hItems) (hr _)
    | deleting => exact absurd (Work.tried i hi' hs) (hr _)
  have hm : s.mgr = .returned := by
    cases hm : s.mgr with
    | accepts => exact absurd (Work.refuses hm hcn) (hr _)
    | refuses => exact absurd (Work.drained hm hdone) (hr _)
    | returned => rfl
  refine ⟨?_, hm, hdone⟩
  rcases hexec with e | e
  · exact absurd (Work.returns e hm) (hr _)
  · exact e

theorem rests_ended {s : St} (hi : Inv s) (hd : s.down = true) (hs : s.stuck = []) (hr : Rests s) : AllEnded s := by
  obtain ⟨h1, h2, h3⟩ := rests_over hi (.inl hd) hs hr
  refine ⟨h1, h2, h3, hs, ?_⟩
  cases hw : s.waiting with
  | zero => rfl
  | succ n => exact absurd (Work.closed hd (by omega)) (hr _)

/-- Nothing that happens inside answers a waiting call or lets a new one wait. -/
theorem work_facts {s s' : St} (h : Work s s') : s'.stuck = s.stuck ∧ s'.down = s.down ∧ s'.deleted = s.deleted := by
  cases h <;> exact ⟨rfl, rfl, rfl⟩

theorem worked_facts {s s' : St} {n : Nat} (h : Worked s n s') : s'.stuck = s.stuck ∧ s'.down = s.down ∧ s'.deleted = s.deleted := by
  induction h with
  | refl => exact ⟨rfl, rfl, rfl⟩
  | step _ h ih => have := work_facts h; exact ⟨this.1.trans ih.1, this.2.1.trans ih.2.1, this.2.2.trans ih.2.2⟩

/-- As long as the limiter refuses nothing, every step lowers the sum: from every state a resting one is reached without refusals. -/
theorem reach_rest (n : Nat) : ∀ s : St, mu s ≤ n → ∃ s' k, Worked s k s' ∧ (∀ s'', Work s' s'' → s''.refusals ≠ s'.refusals) := by
  induction n with
  | zero =>
    intro s h
    refine ⟨s, 0, .refl s, fun s'' hw he => ?_⟩
    have := mu_work hw
    omega
  | succ n ih =>
    intro s h
    by_cases hx : ∃ s', Work s s' ∧ s'.refusals = s.refusals
    · obtain ⟨s', hw, he⟩ := hx
      have := mu_work hw
      obtain ⟨t, k, ht, hr⟩ := ih s' (by omega)
      refine ⟨t, k + 1, ?_, hr⟩
      clear hr
      induction ht with
      | refl => exact .step (.refl s) hw
      | step _ h2 ih2 => exact .step ih2 h2
    · exact ⟨s, 0, .refl s, fun s'' hw he => hx ⟨s'', hw, he⟩⟩

/-- A state in which only refusals are possible is a resting one. -/
theorem rest_of_no_refusal {s : St} (h : ∀ s'', Work s s'' → s''.refusals ≠ s.refusals) : Rests s := by
  intro s' hw
  have hne := h s' hw
  cases hw with
  | refused he => exact h _ (Work.count he) rfl
  | _ => exact hne rfl

/-! ### Calls that wait for ever -/

/-- A call that waits for a heartbeat process whose timeout fired. -/
def Met (s : St) (i : Nat) : Prop := itemHeld s i = true ∧ s.hbs[i]? = some .firing
/-- A heartbeat that came before the start. -/
def Early (s : St) (i : Nat) : Prop := itemHeld s i = true ∧ s.hbs[i]? = some .waitStart ∧ s.exec = .handed (some i)

theorem itemHeld_append {s : St} {i : Nat} {c : Stuck} (h : itemHeld s i = true) : itemHeld { s with stuck := s.stuck ++ [c] } i = true := by
  simp only [itemHeld, List.any_append, Bool.or_eq_true] at h ⊢; exact .inl h

theorem met_ask {s s' : St} {i : Nat} (hm : Met s i) (h : Ask s s') : Met s' i := by
  cases h with
  | call k j h hh =>
    unfold call
    split
    · exact ⟨itemHeld_append hm.1, hm.2⟩
    · rename_i hc
      have hij : j ≠ i := fun e => hc (by subst e; simp [hm.1])
      exact ⟨hm.1, by simp only [List.getElem?_set_ne hij]; exact hm.2⟩
  | _ => exact hm

theorem set_keep {l : List Hb} {i j : Nat} {a b c : Hb} (h1 : l[i]? = some a) (h2 : l[j]? = some b) (hab : a ≠ b) :
    (l.set j c)[i]? = some a := by
  have : j ≠ i := fun e => by subst e; rw [h1] at h2; exact hab (by simpa using h2)
  rw [List.getElem?_set_ne this]; exact h1

theorem met_work {s s' : St} {i : Nat} (hm : Met s i) (h : Work s s') : Met s' i := by
  obtain ⟨h1, h2⟩ := hm
  cases h with
  | accepted _ _ => exact ⟨h1, by simp only [List.getElem?_append]; rw [if_pos (List.getElem?_eq_some_iff.1 h2).1]; exact h2⟩
  | received j h0 he hh hn =>
    have hij : j ≠ i := fun e => by subst e; rw [h1] at hn; simp at hn
    exact ⟨h1, by simp only [List.getElem?_set_ne hij]; exact h2⟩
  | unsent j h0 n he hh hn _ _ =>
    have hij : j ≠ i := fun e => by subst e; rw [h1] at hn; simp at hn
    exact ⟨h1, by simp only [List.getElem?_set_ne hij]; exact h2⟩
  | hbStops j hh _ => exact ⟨h1, set_keep h2 hh (by simp)⟩
  | fires j hh => exact ⟨h1, set_keep h2 hh (by simp)⟩
  | fails j n hh hn _ =>
    have hij : j ≠ i := fun e => by subst e; rw [h1] at hn; simp at hn
    exact ⟨h1, by simp only [List.getElem?_set_ne hij]; exact h2⟩
  | tried j hh _ => exact ⟨h1, set_keep h2 hh (by simp)⟩
  | _ => exact ⟨h1, h2⟩

theorem met_later {s s' : St} {i : Nat} (hm : Met s i) (h : Later s s') : Met s' i := by
  induction h with
  | refl => exact hm
  | ask _ h ih => exact met_ask ih h
  | work _ h ih => exact met_work ih h

theorem early_ask {s s' : St} {i : Nat} (hm : Early s i) (h : Ask s s') : Early s' i := by
  cases h with
  | call k j h hh =>
    unfold call
    split
    · exact ⟨itemHeld_append hm.1, hm.2⟩
    · rename_i hc
      have hij : j ≠ i := fun e => hc (by subst e; simp [hm.1])
      exact ⟨hm.1, by simp only [List.getElem?_set_ne hij]; exact hm.2.1, hm.2.2⟩
  | _ => exact hm

theorem early_work {s s' : St} {i : Nat} (hm : Early s i) (h : Work s s') : Early s' i := by
  obtain ⟨h1, h2, h3⟩ := hm
  cases h with
  | received j h0 he hh hn =>
    rw [h3] at he; simp at he; subst he; rw [h1] at hn; simp at hn
  | unsent j h0 n he hh hn _ _ =>
    rw [h3] at he; simp at he; subst he; rw [h1] at hn; simp at hn
  | hbStops j hh _ => exact ⟨h1, set_keep h2 hh (by simp), h3⟩
  | fires j hh => exact ⟨h1, set_keep h2 hh (by simp), h3⟩
  | fails j n hh hn _ => exact ⟨h1, set_keep h2 hh (by simp), h3⟩
  | tried j hh _ => exact ⟨h1, set_keep h2 hh (by simp), h3⟩
  | stop hl _ => rw [h3] at hl; simp [Exec.listens] at hl
  | refuses _ _ => exact ⟨h1, h2, h3⟩
  | drained _ _ => exact ⟨h1, h2, h3⟩
  | closed _ _ => exact ⟨h1, h2, h3⟩
  | _ => simp_all

theorem early_later {s s' : St} {i : Nat} (hm : Early s i) (h : Later s s') : Early s' i := by
  induction h with
  | refl => exact hm
  | ask _ h ih => exact early_ask ih h
  | work _ h ih => exact early_work ih h

/-- Why a call waits. -/
theorem stuck_reason {s : St} (hr : Reach s) (hne : s.stuck ≠ []) : ∃ i, Met s i ∨ Early s i := by
  induction hr with
  | init => simp at hne
  | @ask s s' hr h ih =>
    by_cases he : s.stuck = []
    · cases h with
      | call k i h hh =>
        have h1 : itemHeld s i = false := by simp [itemHeld, he]
        have h2 : itemsHeld s = false := by simp [itemsHeld, he]
        simp only [call, h1, h2, Bool.and_false, Bool.false_or] at hne ⊢
        split at hne
        · rename_i hw
          rw [if_pos hw]
          refine ⟨i, ?_⟩
          have h3 : itemHeld { s with stuck := s.stuck ++ [⟨k, i⟩] } i = true := by simp [itemHeld]
          cases h with
          | firing => exact .inl ⟨h3, hh⟩
          | waitStart => exact .inr ⟨h3, hh, (inv_of_reach hr).start i hh⟩
          | _ => simp [waits] at hw
        · exact absurd he hne
      | _ => exact absurd he hne
    · obtain ⟨i, hm | hm⟩ := ih he
      · exact ⟨i, .inl (met_ask hm h)⟩
      · exact ⟨i, .inr (early_ask hm h)⟩
  | work hr h ih =>
    rw [(work_facts h).1] at hne
    obtain ⟨i, hm | hm⟩ := ih hne
    · exact ⟨i, .inl (met_work hm h)⟩
    · exact ⟨i, .inr (early_work hm h)⟩

theorem itemHeld_iff {s : St} {i : Nat} : itemHeld s i = true ↔ ∃ c ∈ s.stuck, c.hb = i := by simp [itemHeld]

theorem hangs_iff {s : St} : Hangs s ↔ ∃ i, Met s i ∨ Early s i := by
  constructor
  · rintro (⟨c, h, hb⟩ | ⟨c, h, hb, he⟩)
    · exact ⟨c.hb, .inl ⟨itemHeld_iff.2 ⟨c, h, rfl⟩, hb⟩⟩
    · exact ⟨c.hb, .inr ⟨itemHeld_iff.2 ⟨c, h, rfl⟩, hb, he⟩⟩
  · rintro ⟨i, ⟨h1, h2⟩ | ⟨h1, h2, h3⟩⟩
    · obtain ⟨c, hc, rfl⟩ := itemHeld_iff.1 h1; exact .timeout c hc h2
    · obtain ⟨c, hc, rfl⟩ := itemHeld_iff.1 h1; exact .early c hc h2 h3

/-- A channel that hangs goes on hanging, and never returns. -/
theorem hangs_later {s s' : St} (hr : Reach s) (hh : Hangs s) (h : Later s s') :
    Hangs s' ∧ s'.exec ≠ .returned ∧ s'.mgr ≠ .returned := by
  have hi := inv_of_reach (later_reach hr h)
  obtain ⟨i, hm | hm⟩ := hangs_iff.1 hh
  · have hm' := met_later hm h
    have hne : s'.mgr ≠ .returned := fun he => absurd (hi.mgr he _ (List.mem_of_getElem? hm'.2)) (by simp)
    exact ⟨hangs_iff.2 ⟨i, .inl hm'⟩, fun he => hne (hi.ret he), hne⟩
  · have hm' := early_later hm h
    have hne : s'.mgr ≠ .returned := fun he => absurd (hi.mgr he _ (List.mem_of_getElem? hm'.2.1)) (by simp)
    exact ⟨hangs_iff.2 ⟨i, .inr hm'⟩, fun he => hne (hi.ret he), hne⟩

/-- The calls that wait stay. -/
theorem stuck_later {s s' : St} (h : Later s s') : ∀ c ∈ s.stuck, c ∈ s'.stuck := by
  induction h with
  | refl => exact fun _ h => h
  | ask _ h ih =>
    intro c hc
    have := ih c hc
    cases h with
    | call k i h hh => unfold call; split <;> simp [this]
    | _ => exact this
  | work _ h ih => intro c hc; rw [(work_facts h).1]; exact ih c hc

end Willow.ChanStop
