import Verif.Model.DeleteRace
/-! Deleting a queue while it is in use: requests and deletions of the same queue exclude each other. -/
namespace Willow.DeleteRace

/-- While a deletion has the write lock no request has a read lock. -/
def Excl (s : St) : Prop := ∀ (j k : Nat) (x y : Proc) (q : Nat), s.procs[j]? = some x → s.procs[k]? = some y → x.owns q = true → y.reads q = false

theorem any_of {l : List Proc} {f : Proc → Bool} {j : Nat} {x : Proc} (h : l[j]? = some x) (hf : f x = true) : l.any f = true :=
  List.any_eq_true.2 ⟨x, List.mem_of_getElem? h, hf⟩

theorem get_set {l : List Proc} {i j : Nat} {y x : Proc} (h : (l.set i y)[j]? = some x) : x = y ∨ (j ≠ i ∧ l[j]? = some x) := by
  rw [List.getElem?_set] at h
  split at h
  · split at h
    · cases h; exact Or.inl rfl
    · cases h
  · exact Or.inr ⟨fun e => by simp_all, h⟩

theorem get_append {l : List Proc} {j : Nat} {y x : Proc} (h : (l ++ [y])[j]? = some x) : x = y ∨ l[j]? = some x := by
  rw [List.getElem?_append] at h
  split at h
  · exact Or.inr h
  · rw [List.getElem?_singleton] at h; split at h <;> cases h; exact Or.inl rfl

theorem Excl.spawn {s : St} {t : Task} (h : Excl s) : Excl (s.spawn t) := by
  intro j k x y q hx hy ho
  rcases get_append hx with e | hx
  · subst e; simp [Proc.owns] at ho
  rcases get_append hy with e | hy
  · subst e; simp [Proc.reads]
  exact h j k x y q hx hy ho

theorem Excl.to {s : St} {i : Nat} {p : Proc} {ph : Phase} (h : Excl s) (ho : ∀ q, Proc.owns q { p with phase := ph } = true → (∀ (k : Nat) (y : Proc), s.procs[k]? = some y → y.reads q = false) ∧ Proc.reads q { p with phase := ph } = false)
    (hr : ∀ q, Proc.reads q { p with phase := ph } = true → s.owned q = false) : Excl (s.to i p ph) := by
  intro j k x y q hx hy hw
  rcases get_set hx with e | ⟨_, hx⟩
  · subst e
    rcases get_set hy with e | ⟨_, hy⟩
    · subst e; exact (ho q hw).2
    · exact (ho q hw).1 k y hy
  · rcases get_set hy with e | ⟨_, hy⟩
    · subst e
      cases hc : Proc.reads q { p with phase := ph } with
      | false => rfl
      | true =>
        have := hr q hc
        unfold St.owned at this
        rw [any_of hx hw] at this; cases this
    · exact h j k x y q hx hy hw

/-- A step that neither begins to own nor to read. -/
theorem Excl.idle {s : St} {i : Nat} {p : Proc} {ph : Phase} (h : Excl s) (hne : ph ≠ .owning ∧ ph ≠ .wiping ∧ ph ≠ .inside) : Excl (s.to i p ph) := by
  refine h.to ?_ ?_
  · intro q hq; simp [Proc.owns, hne.1, hne.2.1] at hq
  · intro q hq; simp [Proc.reads, hne.2.2] at hq

theorem Excl.congr {s s' : St} (h : Excl s) (e : s'.procs = s.procs) : Excl s' := by
  unfold Excl; rw [e]; exact h

theorem wiped_owned {s : St} {q : Nat} (h : s.wiped q = true) : ∃ (j : Nat) (x : Proc), s.procs[j]? = some x ∧ x.owns q = true ∧ x.wipes q = true := by
  unfold St.wiped at h
  obtain ⟨x, hx, hw⟩ := List.any_eq_true.1 h
  obtain ⟨j, hj⟩ := List.mem_iff_getElem?.1 hx
  refine ⟨j, x, hj, ?_, hw⟩
  simp only [Proc.wipes, Proc.owns, Bool.and_eq_true, Bool.or_eq_true] at hw ⊢
  exact ⟨hw.1, Or.inr hw.2⟩

theorem not_wiped {s : St} (h : Excl s) {i q : Nat} {p : Proc} (hp : s.procs[i]? = some p) (hr : p.reads q = true) : s.wiped q = false := by
  cases hc : s.wiped q with
  | false => rfl
  | true =>
    obtain ⟨j, x, hx, ho, _⟩ := wiped_owned hc
    rw [h j i x p q hx hp ho] at hr; cases hr

/-- What a step of a goroutine does: it goes on, or ends the process. -/
theorem next_excl {s s' : St} {i : Nat} {p : Proc} {pick : Bool} (h : Excl s) (hp : s.procs[i]? = some p) (hn : next s i p pick = some s') (hd : s.dead = none) :
    Excl s' ∧ (∀ k, s'.dead = some k → k = i ∧ ∃ q, (p.task = .scan q ∨ p.task = .timeout q) ∧ s.wiped q = true) := by
  have quiet : ∀ {t : St}, t.dead = none → (∀ k, t.dead = some k → k = i ∧ ∃ q, (p.task = .scan q ∨ p.task = .timeout q) ∧ s.wiped q = true) := by
    intro t ht k hk; rw [ht] at hk; cases hk
  unfold next at hn
  split at hn
  · split at hn <;> cases hn <;> exact ⟨h.idle ⟨nofun, nofun, nofun⟩, quiet hd⟩
  next op q e1 e2 =>
    split at hn
    · cases hn
    next ho =>
      split at hn
      · cases hn
        have hin : Excl (s.to i p .inside) := by
          refine h.to ?_ ?_
          · intro r hr; simp [Proc.owns] at hr
          · intro r hr
            simp [Proc.reads, e1] at hr
            rw [← hr]; simpa using ho
        split
        · exact ⟨hin.spawn, quiet hd⟩
        · exact ⟨hin, quiet hd⟩
      · cases hn; exact ⟨h.idle ⟨nofun, nofun, nofun⟩, quiet hd⟩
  next op q e1 e2 =>
    have hw : s.wiped q = false := not_wiped h hp (by simp [Proc.reads, e1, e2])
    have hi : ∀ (t : St) a, t.procs = s.procs → t.dead = none → Excl (t.to i p (.done a)) ∧ (∀ k, (t.to i p (.done a)).dead = some k → k = i ∧ ∃ q, (p.task = .scan q ∨ p.task = .timeout q) ∧ s.wiped q = true) :=
      fun t a e e' => ⟨(h.congr e).idle ⟨nofun, nofun, nofun⟩, quiet e'⟩
    unfold nextInside at hn
    rw [hw] at hn
    cases op <;> simp only [Bool.false_eq_true, if_false] at hn
    · split at hn <;> cases hn <;> exact hi _ _ rfl hd
    · split at hn
      · split at hn <;> cases hn; exact hi _ _ rfl hd
      · cases hn; exact hi _ _ rfl hd
    · split at hn
      · split at hn <;> cases hn; exact hi _ _ rfl hd
      · cases hn; exact hi _ _ rfl hd
    all_goals (cases hn; exact hi _ _ rfl hd)
  · split at hn <;> cases hn <;> exact ⟨h.idle ⟨nofun, nofun, nofun⟩, quiet hd⟩
  · split at hn
    · cases hn
    · split at hn <;> cases hn
      · exact ⟨h.idle ⟨nofun, nofun, nofun⟩, quiet hd⟩
      · exact ⟨(h.congr (s' := { s with queues := _ }) rfl).idle ⟨nofun, nofun, nofun⟩, quiet hd⟩
  next q e1 e2 =>
    split at hn <;> cases hn
    · next hw => exact ⟨h.congr rfl, fun k hk => by cases hk; exact ⟨rfl, q, Or.inl e1, hw⟩⟩
    · exact ⟨h.idle ⟨nofun, nofun, nofun⟩, quiet hd⟩
  next q e1 e2 =>
    split at hn <;> cases hn
    · next hw => exact ⟨h.congr rfl, fun k hk => by cases hk; exact ⟨rfl, q, Or.inr e1, hw⟩⟩
    · exact ⟨h.idle ⟨nofun, nofun, nofun⟩, quiet hd⟩
  · split at hn <;> cases hn <;> exact ⟨h.idle ⟨nofun, nofun, nofun⟩, quiet hd⟩
  next q e1 e2 =>
    split at hn
    · cases hn
    next ho =>
      split at hn <;> cases hn
      · refine ⟨h.to ?_ ?_, quiet hd⟩
        · intro r hr
          refine ⟨?_, by simp [Proc.reads]⟩
          simp [Proc.owns, e1] at hr
          intro k y hy
          rw [← hr]
          cases hc : y.reads q with
          | false => rfl
          | true =>
            have : s.read q = true := any_of hy hc
            simp [this] at ho
        · intro r hr; simp [Proc.reads] at hr
      · exact ⟨h.idle ⟨nofun, nofun, nofun⟩, quiet hd⟩
  next q e1 e2 =>
    cases hn
    refine ⟨h.to ?_ ?_, quiet hd⟩
    · intro r hr
      refine ⟨?_, by simp [Proc.reads]⟩
      simp [Proc.owns, e1] at hr
      intro k y hy
      exact h i k p y r hp hy (by simp [Proc.owns, e1, e2, hr])
    · intro r hr; simp [Proc.reads] at hr
  · split at hn <;> cases hn <;> exact ⟨(h.congr (s' := { s with queues := _, items := _, out := _ }) rfl).idle ⟨nofun, nofun, nofun⟩, quiet hd⟩
  · cases hn

theorem step_excl {s s' : St} {l : Label} (h : Excl s) (hs : step s l = some s') :
    Excl s' ∧ (∀ k, s'.dead = some k → ∃ pick p q, l = .go k pick ∧ s.procs[k]? = some p ∧ (p.task = .scan q ∨ p.task = .timeout q) ∧ s.wiped q = true) := by
  unfold step at hs
  split at hs
  · cases hs
  next hd =>
    have hd : s.dead = none := by simpa using hd
    cases l with
    | request op q => cases hs; exact ⟨h.spawn, fun k hk => by rw [show (s.spawn _).dead = s.dead from rfl, hd] at hk; cases hk⟩
    | create q => cases hs; exact ⟨h.spawn, fun k hk => by rw [show (s.spawn _).dead = s.dead from rfl, hd] at hk; cases hk⟩
    | delete q => cases hs; exact ⟨h.spawn, fun k hk => by rw [show (s.spawn _).dead = s.dead from rfl, hd] at hk; cases hk⟩
    | go i pick =>
      simp only at hs
      split at hs
      next p hp =>
        obtain ⟨h1, h2⟩ := next_excl h hp hs hd
        refine ⟨h1, fun k hk => ?_⟩
        obtain ⟨e, q, h3, h4⟩ := h2 k hk
        subst e; exact ⟨pick, p, q, rfl, hp, h3, h4⟩
      · cases hs
    | expire q =>
      simp only at hs
      split at hs
      · cases hs
        refine ⟨(h.congr (s' := { s with out := _ }) rfl).spawn, fun k hk => ?_⟩
        have : s.dead = some k := hk
        rw [hd] at this; cases this
      · cases hs

theorem excl_init : Excl St.init := by intro j k x y q hx; simp [St.init] at hx

theorem run_excl : ∀ {ls : List Label} {s s' : St}, Excl s → run s ls = some s' → Excl s'
  | [], s, s', h, e => by cases e; exact h
  | l :: ls, s, s', h, e => by
    simp only [run, Option.bind_eq_some_iff] at e
    obtain ⟨t, h1, h2⟩ := e
    exact run_excl (step_excl h h1).1 h2

/-- A queue that is not there has no items, no deliveries and no requests at work. -/
def Live (s : St) : Prop := ∀ q, s.queues q = false → s.items q = 0 ∧ s.out q = 0 ∧ ∀ (k : Nat) (y : Proc), s.procs[k]? = some y → y.reads q = false

theorem Live.spawn {s : St} {t : Task} (h : Live s) : Live (s.spawn t) := by
  intro q hq
  obtain ⟨h1, h2, h3⟩ := h q hq
  refine ⟨h1, h2, fun k y hy => ?_⟩
  rcases get_append hy with e | hy
  · subst e; simp [Proc.reads]
  · exact h3 k y hy

/-- The counts of one queue change, which is there afterwards if it has any. -/
theorem Live.to {s : St} {i : Nat} {p : Proc} {ph : Phase} (h : Live s) (hr : ∀ q, Proc.reads q { p with phase := ph } = true → s.queues q = true) : Live (s.to i p ph) := by
  intro q hq
  obtain ⟨h1, h2, h3⟩ := h q hq
  refine ⟨h1, h2, fun k y hy => ?_⟩
  rcases get_set hy with e | ⟨_, hy⟩
  · subst e
    cases hc : Proc.reads q { p with phase := ph } with
    | false => rfl
    | true => have := hr q hc; rw [show s.queues q = false from hq] at this; cases this
  · exact h3 k y hy

theorem Live.idle {s : St} {i : Nat} {p : Proc} {ph : Phase} (h : Live s) (hne : ph ≠ .inside) : Live (s.to i p ph) :=
  h.to fun q hq => by simp [Proc.reads, hne] at hq

theorem Live.items {s : St} {q n : Nat} (h : Live s) (hq : s.queues q = true) : Live { s with items := upd s.items q n } := by
  intro r hr
  obtain ⟨h1, h2, h3⟩ := h r hr
  refine ⟨?_, h2, h3⟩
  show upd s.items q n r = 0
  unfold upd; split
  · next e => rw [e] at hr; rw [hq] at hr; cases hr
  · exact h1

theorem Live.out {s : St} {q n : Nat} (h : Live s) (hq : s.queues q = true ∨ n = 0) : Live { s with out := upd s.out q n } := by
  intro r hr
  obtain ⟨h1, h2, h3⟩ := h r hr
  refine ⟨h1, ?_, h3⟩
  show upd s.out q n r = 0
  unfold upd; split
  · next e =>
    rcases hq with hq | hq
    · rw [e] at hr; rw [hq] at hr; cases hr
    · exact hq
  · exact h2

theorem reads_queues {s : St} (h : Live s) {i q : Nat} {p : Proc} (hp : s.procs[i]? = some p) (hr : p.reads q = true) : s.queues q = true := by
  cases hc : s.queues q with
  | true => rfl
  | false => rw [(h q hc).2.2 i p hp] at hr; cases hr

theorem next_live {s s' : St} {i : Nat} {p : Proc} {pick : Bool} (he : Excl s) (h : Live s) (hp : s.procs[i]? = some p) (hn : next s i p pick = some s') : Live s' := by
  unfold next at hn
  split at hn
  · split at hn <;> cases hn <;> exact h.idle nofun
  next op q e1 e2 =>
    split at hn
    · cases hn
    · split at hn
      next hq =>
        cases hn
        have hin : Live (s.to i p .inside) := h.to fun r hr => by
          simp [Proc.reads, e1] at hr
          rw [← hr]; exact hq
        split
        · exact hin.spawn
        · exact hin
      · cases hn; exact h.idle nofun
  next op q e1 e2 =>
    have hr : p.reads q = true := by simp [Proc.reads, e1, e2]
    have hw : s.wiped q = false := not_wiped he hp hr
    have hq := reads_queues h hp hr
    unfold nextInside at hn
    rw [hw] at hn
    cases op <;> simp only [Bool.false_eq_true, if_false] at hn
    · split at hn <;> cases hn
      · exact (h.items hq).idle nofun
      · exact h.idle nofun
    · split at hn
      · split at hn <;> cases hn
        exact ((h.items hq).out (s := { s with items := _ }) (Or.inl hq)).idle nofun
      · cases hn; exact h.idle nofun
    · split at hn
      · split at hn <;> cases hn; exact (h.out (Or.inl hq)).idle nofun
      · cases hn; exact h.idle nofun
    all_goals (cases hn; exact h.idle nofun)
  · split at hn <;> cases hn <;> exact h.idle nofun
  next q e1 e2 =>
    split at hn
    · cases hn
    · split at hn <;> cases hn
      · exact h.idle nofun
      · refine Live.idle (s := { s with queues := _ }) ?_ nofun
        intro r hr
        have hr : upd s.queues q true r = false := hr
        unfold upd at hr
        split at hr
        · cases hr
        · exact h r hr
  · split at hn <;> cases hn
    · exact h
    · exact h.idle nofun
  · split at hn <;> cases hn
    · exact h
    · exact h.idle nofun
  · split at hn <;> cases hn <;> exact h.idle nofun
  · split at hn
    · cases hn
    · split at hn <;> cases hn <;> exact h.idle nofun
  · cases hn; exact h.idle nofun
  next q e1 e2 =>
    have hno : ∀ (k : Nat) (y : Proc), s.procs[k]? = some y → y.reads q = false := fun k y hy => he i k p y q hp hy (by simp [Proc.owns, e1, e2])
    split at hn <;> cases hn
    · refine Live.idle (s := { s with queues := _, items := _, out := _ }) ?_ nofun
      intro r hr
      have hr : upd s.queues q false r = false := hr
      show upd s.items q 0 r = 0 ∧ upd s.out q 0 r = 0 ∧ _
      unfold upd at hr ⊢
      by_cases e : r = q
      · subst e; rw [if_pos rfl, if_pos rfl]; exact ⟨rfl, rfl, hno⟩
      · rw [if_neg e] at hr; rw [if_neg e, if_neg e]; exact h r hr
    · refine Live.idle (s := { s with items := _, out := _ }) ?_ nofun
      intro r hr
      show upd s.items q 0 r = 0 ∧ upd s.out q 0 r = 0 ∧ _
      unfold upd
      by_cases e : r = q
      · subst e; rw [if_pos rfl, if_pos rfl]; exact ⟨rfl, rfl, hno⟩
      · rw [if_neg e, if_neg e]; exact h r hr
  · cases hn

theorem step_live {s s' : St} {l : Label} (he : Excl s) (h : Live s) (hs : step s l = some s') : Live s' := by
  unfold step at hs
  split at hs
  · cases hs
  cases l with
  | request op q => cases hs; exact h.spawn
  | create q => cases hs; exact h.spawn
  | delete q => cases hs; exact h.spawn
  | go i pick =>
    simp only at hs
    split at hs
    next p hp => exact next_live he h hp hs
    · cases hs
  | expire q =>
    simp only at hs
    split at hs
    next hpos =>
      cases hs
      refine Live.spawn (s := { s with out := _ }) (h.out (Or.inl ?_))
      cases hc : s.queues q with
      | true => rfl
      | false => rw [(h q hc).2.1] at hpos; exact absurd hpos (Nat.lt_irrefl 0)
    · cases hs

theorem live_init : Live St.init := by intro q _; exact ⟨rfl, rfl, fun k y hy => by simp [St.init] at hy⟩

theorem run_live : ∀ {ls : List Label} {s s' : St}, Excl s → Live s → run s ls = some s' → Live s'
  | [], s, s', _, h, e => by cases e; exact h
  | l :: ls, s, s', he, h, e => by
    simp only [run, Option.bind_eq_some_iff] at e
    obtain ⟨t, h1, h2⟩ := e
    exact run_live (step_excl he h1).1 (step_live he h h1) h2

theorem run_append : ∀ {ls ms : List Label} {s : St}, run s (ls ++ ms) = (run s ls).bind fun t => run t ms
  | [], ms, s => rfl
  | l :: ls, ms, s => by
    simp only [List.cons_append, run, Option.bind_assoc]
    congr 1; funext t; exact run_append

/-- Two deletions of the same queue are not at work together. -/
def One (s : St) : Prop := ∀ (j k : Nat) (x y : Proc) (q : Nat), s.procs[j]? = some x → s.procs[k]? = some y → x.marks q = true → y.marks q = true → j = k

theorem One.congr {s s' : St} (h : One s) (e : s'.procs = s.procs) : One s' := by
  unfold One; rw [e]; exact h

theorem One.spawn {s : St} {t : Task} (h : One s) : One (s.spawn t) := by
  intro j k x y q hx hy h1 h2
  rcases get_append hx with e | hx
  · subst e; simp [Proc.marks] at h1
  rcases get_append hy with e | hy
  · subst e; simp [Proc.marks] at h2
  exact h j k x y q hx hy h1 h2

theorem get_set' {l : List Proc} {i j : Nat} {y x : Proc} (h : (l.set i y)[j]? = some x) : (x = y ∧ j = i) ∨ (j ≠ i ∧ l[j]? = some x) := by
  rw [List.getElem?_set] at h
  split at h
  · next e =>
    split at h
    · cases h; exact Or.inl ⟨rfl, e.symm⟩
    · cases h
  · exact Or.inr ⟨fun e => by simp_all, h⟩

theorem One.to {s : St} {i : Nat} {p : Proc} {ph : Phase} (h : One s)
    (hm : ∀ q, Proc.marks q { p with phase := ph } = true → ∀ (k : Nat) (y : Proc), s.procs[k]? = some y → y.marks q = true → k = i) : One (s.to i p ph) := by
  intro j k x y q hx hy h1 h2
  rcases get_set' hx with ⟨e, ej⟩ | ⟨_, hx⟩
  · subst e
    rcases get_set' hy with ⟨e, ek⟩ | ⟨_, hy⟩
    · rw [ej, ek]
    · rw [ej, hm q h1 k y hy h2]
  · rcases get_set' hy with ⟨e, ek⟩ | ⟨_, hy⟩
    · subst e; rw [ek, hm q h2 j x hx h1]
    · exact h j k x y q hx hy h1 h2

theorem One.idle {s : St} {i : Nat} {p : Proc} {ph : Phase} (h : One s) (hne : ph ≠ .marked ∧ ph ≠ .owning ∧ ph ≠ .wiping) : One (s.to i p ph) :=
  h.to fun q hq => by simp [Proc.marks, hne.1, hne.2.1, hne.2.2] at hq

theorem next_one {s s' : St} {i : Nat} {p : Proc} {pick : Bool} (h : One s) (hp : s.procs[i]? = some p) (hn : next s i p pick = some s') : One s' := by
  have keep : ∀ (q : Nat) (ph : Phase), p.task = .delete q → (p.phase = .marked ∨ p.phase = .owning) → One (s.to i p ph) := by
    intro q ph e1 e2
    refine h.to fun r hr k y hy hk => ?_
    have : r = q := by simp [Proc.marks, e1] at hr; exact hr.1.symm
    subst this
    exact h k i y p r hy hp hk (by rcases e2 with e2 | e2 <;> simp [Proc.marks, e1, e2])
  have id : ∀ (t : St) (ph : Phase), t.procs = s.procs → ph ≠ .marked ∧ ph ≠ .owning ∧ ph ≠ .wiping → One (t.to i p ph) :=
    fun t ph e hne => (h.congr e).idle hne
  unfold next at hn
  split at hn
  · split at hn <;> cases hn <;> exact id _ _ rfl ⟨nofun, nofun, nofun⟩
  · split at hn
    · cases hn
    · split at hn <;> cases hn
      · split
        · exact (id s .inside rfl ⟨nofun, nofun, nofun⟩).spawn
        · exact id _ _ rfl ⟨nofun, nofun, nofun⟩
      · exact id _ _ rfl ⟨nofun, nofun, nofun⟩
  · unfold nextInside at hn
    repeat' split at hn
    all_goals first
      | cases hn; done
      | (cases hn; exact id _ _ rfl ⟨nofun, nofun, nofun⟩)
      | (cases hn; exact h.congr rfl)
  · split at hn <;> cases hn <;> exact id _ _ rfl ⟨nofun, nofun, nofun⟩
  · repeat' split at hn
    all_goals first
      | cases hn; done
      | (cases hn; exact id _ _ rfl ⟨nofun, nofun, nofun⟩)
  · split at hn <;> cases hn
    · exact h.congr rfl
    · exact id _ _ rfl ⟨nofun, nofun, nofun⟩
  · split at hn <;> cases hn
    · exact h.congr rfl
    · exact id _ _ rfl ⟨nofun, nofun, nofun⟩
  next q e1 e2 =>
    split at hn <;> cases hn
    · exact id _ _ rfl ⟨nofun, nofun, nofun⟩
    next hno =>
      refine h.to fun r hr k y hy hk => ?_
      have : r = q := by simp [Proc.marks, e1] at hr; exact hr.symm
      subst this
      exact absurd (any_of hy hk) hno
  next q e1 e2 =>
    split at hn
    · cases hn
    · split at hn <;> cases hn
      · exact keep q _ e1 (Or.inl e2)
      · exact id _ _ rfl ⟨nofun, nofun, nofun⟩
  next q e1 e2 => cases hn; exact keep q _ e1 (Or.inr e2)
  · split at hn <;> cases hn <;> exact id { s with queues := _, items := _, out := _ } _ rfl ⟨nofun, nofun, nofun⟩
  · cases hn

theorem step_one {s s' : St} {l : Label} (h : One s) (hs : step s l = some s') : One s' := by
  unfold step at hs
  split at hs
  · cases hs
  cases l with
  | request op q => cases hs; exact h.spawn
  | create q => cases hs; exact h.spawn
  | delete q => cases hs; exact h.spawn
  | go i pick =>
    simp only at hs
    split at hs
    next p hp => exact next_one h hp hs
    · cases hs
  | expire q =>
    simp only at hs
    split at hs
    · cases hs; exact (h.congr (s' := { s with out := _ }) rfl).spawn
    · cases hs

theorem run_one : ∀ {ls : List Label} {s s' : St}, One s → run s ls = some s' → One s'
  | [], s, s', h, e => by cases e; exact h
  | l :: ls, s, s', h, e => by
    simp only [run, Option.bind_eq_some_iff] at e
    obtain ⟨t, h1, h2⟩ := e
    exact run_one (step_one h h1) h2

theorem one_init : One St.init := by intro j k x y q hx; simp [St.init] at hx

/-- Only two steps change the queues there are. -/
theorem next_queues {s s' : St} {i : Nat} {p : Proc} {pick : Bool} (hn : next s i p pick = some s') :
    s'.queues = s.queues ∨ (∃ q, p.task = .create q ∧ s'.queues = upd s.queues q true ∧ s.queues q = false ∧ s'.procs = s.procs.set i { p with phase := .done .ok }) ∨
    (∃ q, p.task = .delete q ∧ p.phase = .wiping ∧ s'.queues = upd s.queues q false ∧ s'.procs = s.procs.set i { p with phase := .done .ok }) := by
  unfold next nextInside at hn
  repeat' split at hn
  all_goals first
    | cases hn; done
    | (cases hn; exact Or.inl rfl)
    | (cases hn; exact Or.inr (Or.inl ⟨_, by assumption, rfl, by simp_all, rfl⟩))
    | (cases hn; exact Or.inr (Or.inr ⟨_, by assumption, by assumption, rfl, rfl⟩))

/-- Every goroutine that deletes came from a request to delete. -/
def From (ls : List Label) (s : St) : Prop := ∀ (j : Nat) (x : Proc) (q : Nat), s.procs[j]? = some x → x.task = .delete q → Label.delete q ∈ ls

theorem next_tasks {s s' : St} {i : Nat} {p : Proc} {pick : Bool} (hp : s.procs[i]? = some p) (hn : next s i p pick = some s') (q : Nat) :
    ∀ (j : Nat) (x : Proc), s'.procs[j]? = some x → x.task = .delete q → ∃ (k : Nat) (y : Proc), s.procs[k]? = some y ∧ y.task = .delete q := by
  have aux : ∀ (t : St) (ph : Phase), t.procs = s.procs → ∀ (j : Nat) (x : Proc), (t.to i p ph).procs[j]? = some x → x.task = .delete q → ∃ (k : Nat) (y : Proc), s.procs[k]? = some y ∧ y.task = .delete q := by
    intro t ph e j x hx ht
    rcases get_set hx with e' | ⟨_, hx⟩
    · subst e'; exact ⟨i, p, hp, ht⟩
    · rw [e] at hx; exact ⟨j, x, hx, ht⟩
  have same : ∀ (t : St), t.procs = s.procs → ∀ (j : Nat) (x : Proc), t.procs[j]? = some x → x.task = .delete q → ∃ (k : Nat) (y : Proc), s.procs[k]? = some y ∧ y.task = .delete q :=
    fun t e j x hx ht => ⟨j, x, e ▸ hx, ht⟩
  have sp : ∀ (t : St) (r : Nat) (ph : Phase), t.procs = s.procs → ∀ (j : Nat) (x : Proc), ((t.to i p ph).spawn (.scan r)).procs[j]? = some x → x.task = .delete q → ∃ (k : Nat) (y : Proc), s.procs[k]? = some y ∧ y.task = .delete q := by
    intro t r ph e j x hx ht
    rcases get_append hx with e' | hx
    · subst e'; cases ht
    · exact aux t ph e j x hx ht
  unfold next nextInside at hn
  repeat' split at hn
  all_goals first
    | cases hn; done
    | (cases hn; exact sp s _ _ rfl)
    | (cases hn; exact aux _ _ rfl)
    | (cases hn; exact same _ rfl)

theorem step_from {s s' : St} {l : Label} {ls : List Label} (h : From ls s) (hs : step s l = some s') : From (ls ++ [l]) s' := by
  intro j x q hx ht
  rw [List.mem_append]
  unfold step at hs
  split at hs
  · cases hs
  cases l with
  | request op r =>
    cases hs; rcases get_append hx with e | hx
    · subst e; cases ht
    · exact Or.inl (h j x q hx ht)
  | create r =>
    cases hs; rcases get_append hx with e | hx
    · subst e; cases ht
    · exact Or.inl (h j x q hx ht)
  | delete r =>
    cases hs; rcases get_append hx with e | hx
    · subst e; cases ht; exact Or.inr (List.mem_singleton.2 rfl)
    · exact Or.inl (h j x q hx ht)
  | go i pick =>
    simp only at hs
    split at hs
    next p hp =>
      obtain ⟨k, y, h1, h2⟩ := next_tasks hp hs q j x hx ht
      exact Or.inl (h k y q h1 h2)
    · cases hs
  | expire r =>
    simp only at hs
    split at hs
    · cases hs; rcases get_append hx with e | hx
      · subst e; cases ht
      · exact Or.inl (h j x q hx ht)
    · cases hs

theorem run_from : ∀ {ms ls : List Label} {s s' : St}, From ls s → run s ms = some s' → From (ls ++ ms) s'
  | [], ls, s, s', h, e => by cases e; simpa using h
  | l :: ms, ls, s, s', h, e => by
    simp only [run, Option.bind_eq_some_iff] at e
    obtain ⟨t, h1, h2⟩ := e
    have := run_from (step_from h h1) h2
    simpa using this

/-- How the process ends: a last step of a scan or a timeout. -/
theorem run_dead : ∀ {ls : List Label} {s s' : St} {k : Nat}, Excl s → s.dead = none → run s ls = some s' → s'.dead = some k →
    ∃ ms pick t p q, ls = ms ++ [.go k pick] ∧ run s ms = some t ∧ t.procs[k]? = some p ∧ (p.task = .scan q ∨ p.task = .timeout q) ∧ t.wiped q = true
  | [], s, s', k, _, hd, e, hk => by cases e; rw [hd] at hk; cases hk
  | l :: ls, s, s', k, he, hd, e, hk => by
    simp only [run, Option.bind_eq_some_iff] at e
    obtain ⟨t, h1, h2⟩ := e
    obtain ⟨he', hx⟩ := step_excl he h1
    cases ht : t.dead with
    | none =>
      obtain ⟨ms, pick, u, p, q, e1, e2, e3⟩ := run_dead he' ht h2 hk
      refine ⟨l :: ms, pick, u, p, q, by rw [e1]; rfl, ?_, e3⟩
      simp only [run, h1, Option.bind_some]; exact e2
    | some m =>
      cases ls with
      | nil =>
        cases h2
        rw [ht] at hk; cases hk
        obtain ⟨pick, p, q, e1, e2⟩ := hx k ht
        exact ⟨[], pick, s, p, q, by rw [e1]; rfl, rfl, e2⟩
      | cons l' ls' =>
        simp only [run, step, ht, Option.isSome_some, if_true, Option.bind_none] at h2
        cases h2

end Willow.DeleteRace
