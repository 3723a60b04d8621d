import Verif.Proofs.DestroyGate
/-
Runs in which no call begins while a DestroyAll sleeps; concrete runs; the run after which a DestroyAll sleeps for ever.
-/
namespace Willow.DestroyGate

/-! Exclusion -/

def opn (d : DPc) : Nat := slp d + wkn d + ins d + wai d

theorem tot_opn (l : List DPc) : tot opn l = tot slp l + tot wkn l + tot ins l + tot wai l := by
  induction l with
  | nil => rfl
  | cons a l ih => simp only [tot, opn] at *; omega

theorem J.exclusive {s : W} (hj : J s) : Exclusive s := by
  intro i hi
  have h1 := tot_le ins s.dest i _ hi
  simp only [ins] at h1
  have hfl := hj.fl
  refine ⟨?_, ?_, ?_⟩
  · intro hm
    have := mem_pos (f := wk) hm (by simp [wk])
    have := hj.ex (by omega)
    omega
  · cases hf : s.flag with
    | true => rfl
    | false => simp only [hf] at hfl; simp at hfl; omega
  · intro j d hd ho
    apply Classical.byContradiction
    intro hne
    have h2 := tot_le2 opn s.dest j i d _ hne hd hi
    rw [tot_opn] at h2
    have : opn DPc.inside = 1 := rfl
    have : 1 ≤ opn d := by cases d <;> simp [DPc.isOpen] at ho <;> simp [opn, slp, wkn, ins, wai]
    split at hfl <;> omega

/-! Quiet runs -/

structure Q (s : W) : Prop where
  j : J s
  np : NoPanic s
  vz : 0 < tot rel s.calls + s.sema + tot wkn s.dest → s.v = 0 ∧ s.w = 0

theorem Q.init : Q W.init := ⟨J.init, by simp [NoPanic, W.init], by simp [W.init, tot]⟩

theorem asleep_of {s : W} (h : 0 < tot slp s.dest + tot wkn s.dest) : Asleep s := by
  by_cases h1 : 0 < tot slp s.dest
  · obtain ⟨i, a, hi, ha⟩ := tot_pos h1
    cases a <;> simp [slp] at ha
    exact Or.inl (List.mem_of_getElem? hi)
  · obtain ⟨i, a, hi, ha⟩ := tot_pos (f := wkn) (l := s.dest) (by omega)
    cases a <;> simp [wkn] at ha
    exact Or.inr (List.mem_of_getElem? hi)

theorem Q.step {s s' : W} {l : Lbl} (hq : Q s) (h : Step s l s') (hr : quietWait s l) : Q s' := by
  have key : NoPanic s' ∧ (0 < tot rel s'.calls + s'.sema + tot wkn s'.dest → s'.v = 0 ∧ s'.w = 0) := by
    obtain ⟨⟨jv, jsl, jfl, jls, jww, jbd, jex⟩, np, vz⟩ := hq
    rw [noPanic_iff] at np ⊢
    obtain ⟨np1, np2⟩ := np
    cases h with
    | begin =>
        have hs : ¬ (0 < tot slp s.dest + tot wkn s.dest) := fun h => hr rfl (asleep_of h)
        have hw : s.w = 0 := by omega
        have hb : beginPc (s.v + 1) s.w = .added := by
          have hlt : ¬ (s.v + 1 < 0) := by omega
          simp [beginPc, addRes, hlt, hw]
        simp only [hb, tot_append, cbr, rel]
        omega
    | destroy =>
        cases hf : s.flag <;> simp only [hf, tot_append, dbr, wkn, if_true, if_false, Bool.false_eq_true] <;> omega
    | call i pc pc' v w sema hi hc =>
        have t1 := tot_set cnt s.calls i pc pc' hi
        have t3 := tot_set lst s.calls i pc pc' hi
        have t4 := tot_set rel s.calls i pc pc' hi
        have t5 := tot_set bad s.calls i pc pc' hi
        have t6 := tot_set cbr s.calls i pc pc' hi
        have u1 := tot_le cnt s.calls i pc hi
        have u3 := tot_le lst s.calls i pc hi
        have u4 := tot_le rel s.calls i pc hi
        have u5 := tot_le bad s.calls i pc hi
        cases hc with
        | check => cases hf : s.flag <;> simp only [hf, if_true, if_false, Bool.false_eq_true, cnt, lst, rel, bad, cbr] at * <;> grind
        | leave =>
            have he : endPc (s.v - 1) s.w = .over ∨ endPc (s.v - 1) s.w = .last s.w false := by
              simp only [cnt] at u1
              simp only [endPc, addRes]
              grind
            rcases he with he | he <;> rw [he] at t1 t3 t4 t5 t6 ⊢ <;> simp only [cnt, lst, rel, bad, cbr] at * <;> grind
        | leaveRefused =>
            have he : endPc (s.v - 1) s.w = .over ∨ endPc (s.v - 1) s.w = .last s.w false := by
              simp only [cnt] at u1
              simp only [endPc, addRes]
              grind
            rcases he with he | he <;> rw [he] at t1 t3 t4 t5 t6 ⊢ <;> simp only [cnt, lst, rel, bad, cbr] at * <;> grind
        | compare w k =>
            have hw : s.v = 0 ∧ s.w = w := by
              simp only [lst, bad] at *
              have h1 := jls (by omega)
              grind
            rw [if_pos hw] at t1 t3 t4 t5 t6 ⊢
            simp only [cnt, lst, rel, bad, cbr] at *
            grind
        | reset w k => simp only [cnt, lst, rel, bad, cbr] at *; grind
        | release n k => simp only [cnt, lst, rel, bad, cbr] at *; grind
        | released k => cases k <;> simp only [afterAdd, cnt, lst, rel, bad, cbr] at * <;> grind
    | dest i pc pc' w sema flag hi hd =>
        have t1 := tot_set slp s.dest i pc pc' hi
        have t2 := tot_set wkn s.dest i pc pc' hi
        have t3 := tot_set ins s.dest i pc pc' hi
        have t4 := tot_set wai s.dest i pc pc' hi
        have t5 := tot_set dbr s.dest i pc pc' hi
        have u2 := tot_le wkn s.dest i pc hi
        cases hd <;> simp only [slp, wkn, ins, wai, dbr] at * <;> grind
  exact ⟨hq.j.step h key.1, key.1, key.2⟩

theorem Q.run {s : W} (h : Run quietWait W.init s) : Q s := by
  generalize h0 : W.init = s0 at h
  induction h with
  | refl => subst h0; exact Q.init
  | step _ hr h2 ih => exact ih.step h2 hr

theorem Run.trans {R : W → Lbl → Prop} {a b c : W} (h1 : Run R a b) (h2 : Run R b c) : Run R a c := by
  induction h2 with
  | refl => exact h1
  | step _ hr hs ih => exact .step ih hr hs

theorem Run.mono {R R' : W → Lbl → Prop} (h : ∀ s l, R s l → R' s l) {a b : W} (h1 : Run R a b) : Run R' a b := by
  induction h1 with
  | refl => exact .refl _
  | step _ hr hs ih => exact .step ih (h _ _ hr) hs

/-! Progress -/

theorem Q.progress {s : W} (hq : Q s) (ho : (∃ c ∈ s.calls, c.isOpen) ∨ (∃ d ∈ s.dest, d.isOpen)) :
    ∃ l s', goOn s l ∧ Step s l s' := by
  obtain ⟨⟨jv, jsl, jfl, jls, jww, jbd, jex⟩, np, vz⟩ := hq
  have callStep : ∀ (c : CPc), c ∈ s.calls → c.isOpen → ∃ l s', goOn s l ∧ Step s l s' := by
    intro c hc ho
    obtain ⟨i, hi⟩ := List.getElem?_of_mem hc
    have : ∃ r c', CStep s c r c' := by
      cases c with
      | added => exact ⟨_, _, .check⟩
      | working => exact ⟨_, _, .leave⟩
      | refused => exact ⟨_, _, .leaveRefused⟩
      | last w k => exact ⟨_, _, .compare w k⟩
      | reset w k => exact ⟨_, _, .reset w k⟩
      | release n k =>
          cases n with
          | zero => exact ⟨_, _, .released k⟩
          | succ n => exact ⟨_, _, .release n k⟩
      | over => exact absurd ho (by simp [CPc.isOpen])
      | broke => exact absurd ho (by simp [CPc.isOpen])
    obtain ⟨⟨v, w, sema⟩, c', hs⟩ := this
    exact ⟨.call i, _, ⟨by simp, by simp⟩, .call s i c c' v w sema hi hs⟩
  have callOf : ∀ f : CPc → Nat, (∀ c, 0 < f c → c.isOpen) → 0 < tot f s.calls → ∃ l s', goOn s l ∧ Step s l s' := by
    intro f hf h
    obtain ⟨i, c, hi, hc⟩ := tot_pos h
    exact callStep c (List.mem_of_getElem? hi) (hf c hc)
  rcases ho with ⟨c, hc, ho⟩ | ⟨d, hd, ho⟩
  · exact callStep c hc ho
  · obtain ⟨i, hi⟩ := List.getElem?_of_mem hd
    have mk : (∃ r d', DStep s d r d') → ∃ l s', goOn s l ∧ Step s l s' := by
      intro ⟨⟨w, sema, flag⟩, d', hs⟩
      exact ⟨.dest i, _, ⟨by simp, by simp⟩, .dest s i d d' w sema flag hi hs⟩
    cases d with
    | waiting =>
        by_cases hv : s.v = 0
        · exact mk ⟨_, _, .pass hv⟩
        · exact mk ⟨_, _, .sleep hv⟩
    | sleeping =>
        have h1 := tot_le slp s.dest i _ hi
        simp only [slp] at h1
        by_cases hs : 0 < s.sema
        · obtain ⟨n, hn⟩ : ∃ n, s.sema = n + 1 := ⟨s.sema - 1, by omega⟩
          exact mk ⟨_, _, .wake n hn⟩
        · by_cases hr : 0 < tot rel s.calls
          · exact callOf rel (by intro c; cases c <;> simp [rel, CPc.isOpen]) hr
          · rcases jww (by omega) with h | h
            · exact callOf lst (by intro c; cases c <;> simp [lst, CPc.isOpen]) (by omega)
            · exact callOf cnt (by intro c; cases c <;> simp [cnt, CPc.isOpen]) h
    | woken =>
        have h1 := tot_le wkn s.dest i _ hi
        simp only [wkn] at h1
        exact mk ⟨_, _, .enter (vz (by omega))⟩
    | inside => exact mk ⟨_, _, .finish⟩
    | over => exact absurd ho (by simp [DPc.isOpen])
    | busy => exact absurd ho (by simp [DPc.isOpen])
    | broke => exact absurd ho (by simp [DPc.isOpen])

/-! Every quiet run ends when nothing new begins -/

def cwt : CPc → Nat
  | .added => 7
  | .working | .refused => 6
  | .last w _ => w + 3
  | .reset w _ => w + 2
  | .release n _ => n + 1
  | _ => 0
def dwt : DPc → Nat
  | .waiting => 4
  | .sleeping => 3
  | .woken => 2
  | .inside => 1
  | _ => 0
def size (s : W) : Nat := tot cwt s.calls + tot dwt s.dest

theorem goOn_quiet {s : W} {l : Lbl} (h : goOn s l) : quietWait s l := fun e => absurd e h.1

theorem Q.size_lt {s s' : W} {l : Lbl} (hq : Q s) (hg : goOn s l) (h : Step s l s') : size s' < size s := by
  have hq' := hq.step h (goOn_quiet hg)
  obtain ⟨⟨jv, jsl, jfl, jls, jww, jbd, jex⟩, np, vz⟩ := hq
  have hbr := hq'.np
  rw [noPanic_iff] at hbr
  simp only [size]
  cases h with
  | begin => exact absurd rfl hg.1
  | destroy => exact absurd rfl hg.2
  | call i pc pc' v w sema hi hc =>
      have t1 := tot_set cwt s.calls i pc pc' hi
      have u5 := tot_le bad s.calls i pc hi
      have hw : s.w ≤ 1 := by split at jfl <;> omega
      cases hc with
      | check => cases hf : s.flag <;> simp only [hf, if_true, if_false, Bool.false_eq_true, cwt] at * <;> omega
      | leave =>
          have : cwt (endPc (s.v - 1) s.w) ≤ s.w + 3 := by
            simp only [endPc]; cases addRes (s.v - 1) s.w (-1) <;> simp [cwt]
          have e : cwt .working = 6 := rfl
          rw [e] at t1; simp only; omega
      | leaveRefused =>
          have : cwt (endPc (s.v - 1) s.w) ≤ s.w + 3 := by
            simp only [endPc]; cases addRes (s.v - 1) s.w (-1) <;> simp [cwt]
          have e : cwt .refused = 6 := rfl
          rw [e] at t1; simp only; omega
      | compare w k =>
          have : cwt (if s.v = 0 ∧ s.w = w then .reset w k else .broke) ≤ w + 2 := by split <;> simp [cwt]
          have e : cwt (.last w k) = w + 3 := rfl
          rw [e] at t1; simp only; omega
      | reset w k => simp only [cwt] at t1; simp only; omega
      | release n k => simp only [cwt] at t1; simp only; omega
      | released k =>
          cases k with
          | true => simp [bad] at u5; omega
          | false => simp only [afterAdd, cwt, Bool.false_eq_true, if_false] at t1 ⊢; omega
  | dest i pc pc' w sema flag hi hd =>
      have t1 := tot_set dwt s.dest i pc pc' hi
      cases hd <;> simp only [dwt] at * <;> omega

theorem no_endless {s : W} (hq : Q s) (f : Nat → W) (h0 : f 0 = s)
    (h : ∀ n, ∃ l, goOn (f n) l ∧ Step (f n) l (f (n + 1))) : False := by
  have hQ : ∀ n, Q (f n) := by
    intro n
    induction n with
    | zero => rw [h0]; exact hq
    | succ n ih => obtain ⟨l, hg, hs⟩ := h n; exact ih.step hs (goOn_quiet hg)
  have hd : ∀ n, size (f n) + n ≤ size s := by
    intro n
    induction n with
    | zero => rw [h0]; omega
    | succ n ih =>
        obtain ⟨l, hg, hs⟩ := h n
        have := (hQ n).size_lt hg hs
        omega
  have := hd (size s + 1)
  omega

theorem Q.finish : ∀ (n : Nat) {s : W}, Q s → size s ≤ n →
    ∃ s', Run goOn s s' ∧ (∀ c ∈ s'.calls, ¬ c.isOpen) ∧ (∀ d ∈ s'.dest, ¬ d.isOpen) ∧ NoPanic s' := by
  intro n
  induction n with
  | zero =>
      intro s hq hn
      refine ⟨s, .refl s, ?_, ?_, hq.np⟩
      · intro c hc ho
        obtain ⟨l, s', hg, hs⟩ := hq.progress (Or.inl ⟨c, hc, ho⟩)
        have := hq.size_lt hg hs; omega
      · intro c hc ho
        obtain ⟨l, s', hg, hs⟩ := hq.progress (Or.inr ⟨c, hc, ho⟩)
        have := hq.size_lt hg hs; omega
  | succ n ih =>
      intro s hq hn
      by_cases h : (∃ c ∈ s.calls, c.isOpen) ∨ (∃ d ∈ s.dest, d.isOpen)
      · obtain ⟨l, s1, hg, hs⟩ := hq.progress h
        have := hq.size_lt hg hs
        obtain ⟨s', hr, h1⟩ := ih (hq.step hs (goOn_quiet hg)) (by omega)
        exact ⟨s', Run.trans (.step (.refl s) hg hs) hr, h1⟩
      · exact ⟨s, .refl s, fun c hc ho => h (Or.inl ⟨c, hc, ho⟩), fun c hc ho => h (Or.inr ⟨c, hc, ho⟩), hq.np⟩

/-! Concrete runs -/

def cnext (s : W) : CPc → Option ((Int × Nat × Nat) × CPc)
  | .added => some ((s.v, s.w, s.sema), if s.flag then .refused else .working)
  | .working => some ((s.v - 1, s.w, s.sema), endPc (s.v - 1) s.w)
  | .refused => some ((s.v - 1, s.w, s.sema), endPc (s.v - 1) s.w)
  | .last w k => some ((s.v, s.w, s.sema), if s.v = 0 ∧ s.w = w then .reset w k else .broke)
  | .reset w k => some ((0, 0, s.sema), .release w k)
  | .release (n + 1) k => some ((s.v, s.w, s.sema + 1), .release n k)
  | .release 0 k => some ((s.v, s.w, s.sema), afterAdd k)
  | .over => none
  | .broke => none

def dnext (s : W) : DPc → Option ((Nat × Nat × Bool) × DPc)
  | .waiting => some (if s.v = 0 then ((s.w, s.sema, s.flag), .inside) else ((s.w + 1, s.sema, s.flag), .sleeping))
  | .sleeping =>
      match s.sema with
      | 0 => none
      | n + 1 => some ((s.w, n, s.flag), .woken)
  | .woken => some (if s.v = 0 ∧ s.w = 0 then ((s.w, s.sema, s.flag), .inside) else ((s.w, s.sema, false), .broke))
  | .inside => some ((s.w, s.sema, false), .over)
  | .over => none
  | .busy => none
  | .broke => none

def next (s : W) : Lbl → Option W
  | .begin => some { s with v := s.v + 1, calls := s.calls ++ [beginPc (s.v + 1) s.w] }
  | .destroy => some { s with flag := true, dest := s.dest ++ [if s.flag then .busy else .waiting] }
  | .call i =>
      match s.calls[i]? with
      | none => none
      | some pc =>
          match cnext s pc with
          | none => none
          | some ((v, w, sema), pc') => some { s with v := v, w := w, sema := sema, calls := s.calls.set i pc' }
  | .dest i =>
      match s.dest[i]? with
      | none => none
      | some pc =>
          match dnext s pc with
          | none => none
          | some ((w, sema, flag), pc') => some { s with w := w, sema := sema, flag := flag, dest := s.dest.set i pc' }

theorem cnext_step {s : W} {pc pc' : CPc} {r : Int × Nat × Nat} (h : cnext s pc = some (r, pc')) : CStep s pc r pc' := by
  cases pc with
  | added => simp only [cnext, Option.some.injEq, Prod.mk.injEq] at h; obtain ⟨h1, h2⟩ := h; subst h1 h2; exact .check
  | working => simp only [cnext, Option.some.injEq, Prod.mk.injEq] at h; obtain ⟨h1, h2⟩ := h; subst h1 h2; exact .leave
  | refused => simp only [cnext, Option.some.injEq, Prod.mk.injEq] at h; obtain ⟨h1, h2⟩ := h; subst h1 h2; exact .leaveRefused
  | last w k => simp only [cnext, Option.some.injEq, Prod.mk.injEq] at h; obtain ⟨h1, h2⟩ := h; subst h1 h2; exact .compare w k
  | reset w k => simp only [cnext, Option.some.injEq, Prod.mk.injEq] at h; obtain ⟨h1, h2⟩ := h; subst h1 h2; exact .reset w k
  | release n k =>
      cases n <;> simp only [cnext, Option.some.injEq, Prod.mk.injEq] at h <;> obtain ⟨h1, h2⟩ := h <;> subst h1 h2
      · exact .released k
      · exact .release _ k
  | over => simp [cnext] at h
  | broke => simp [cnext] at h

theorem dnext_step {s : W} {pc pc' : DPc} {r : Nat × Nat × Bool} (h : dnext s pc = some (r, pc')) : DStep s pc r pc' := by
  cases pc with
  | waiting =>
      simp only [dnext, Option.some.injEq] at h
      split at h <;> simp only [Prod.mk.injEq] at h <;> obtain ⟨h1, h2⟩ := h <;> subst h1 h2
      · exact .pass (by assumption)
      · exact .sleep (by assumption)
  | sleeping =>
      simp only [dnext] at h
      split at h
      · simp at h
      · simp only [Option.some.injEq, Prod.mk.injEq] at h
        obtain ⟨h1, h2⟩ := h; subst h1 h2
        exact .wake _ (by assumption)
  | woken =>
      simp only [dnext, Option.some.injEq] at h
      split at h <;> simp only [Prod.mk.injEq] at h <;> obtain ⟨h1, h2⟩ := h <;> subst h1 h2
      · exact .enter (by assumption)
      · exact .reused (by assumption)
  | inside => simp only [dnext, Option.some.injEq, Prod.mk.injEq] at h; obtain ⟨h1, h2⟩ := h; subst h1 h2; exact .finish
  | over => simp [dnext] at h
  | busy => simp [dnext] at h
  | broke => simp [dnext] at h

theorem next_step {s s' : W} {l : Lbl} (h : next s l = some s') : Step s l s' := by
  cases l with
  | begin => simp only [next, Option.some.injEq] at h; subst h; exact .begin s
  | destroy => simp only [next, Option.some.injEq] at h; subst h; exact .destroy s
  | call i =>
      simp only [next] at h
      split at h
      · simp at h
      · split at h
        · simp at h
        · simp only [Option.some.injEq] at h; subst h
          exact .call s i _ _ _ _ _ (by assumption) (cnext_step (by assumption))
  | dest i =>
      simp only [next] at h
      split at h
      · simp at h
      · split at h
        · simp at h
        · simp only [Option.some.injEq] at h; subst h
          exact .dest s i _ _ _ _ _ (by assumption) (dnext_step (by assumption))

def exec (s : W) : List Lbl → Option W
  | [] => some s
  | l :: ls => match next s l with
    | none => none
    | some s' => exec s' ls

theorem exec_run : ∀ (ls : List Lbl) {s s' : W}, exec s ls = some s' → Run anyStep s s'
  | [], s, s', h => by simp only [exec, Option.some.injEq] at h; subst h; exact .refl s
  | l :: ls, s, s', h => by
      simp only [exec] at h
      split at h
      · simp at h
      · next s1 hs => exact Run.trans (.step (.refl s) trivial (next_step hs)) (exec_run ls h)

def asleepB (s : W) : Bool := s.dest.any fun d => d == .sleeping || d == .woken

def execQ (s : W) : List Lbl → Option W
  | [] => some s
  | l :: ls => if l == .begin && asleepB s then none else match next s l with
    | none => none
    | some s' => execQ s' ls

theorem execQ_run : ∀ (ls : List Lbl) {s s' : W}, execQ s ls = some s' → Run quietWait s s'
  | [], s, s', h => by simp only [execQ, Option.some.injEq] at h; subst h; exact .refl s
  | l :: ls, s, s', h => by
      simp only [execQ] at h
      split at h
      · simp at h
      · rename_i hc
        split at h
        · simp at h
        · rename_i s1 hs
          refine Run.trans (.step (.refl s) ?_ (next_step hs)) (execQ_run ls h)
          intro hl ha
          subst hl
          apply hc
          simp only [beq_self_eq_true, Bool.true_and, asleepB, List.any_eq_true]
          rcases ha with ha | ha
          · exact ⟨_, ha, by simp⟩
          · exact ⟨_, ha, by simp⟩

/-! The state in which a DestroyAll sleeps for ever -/

structure Stuck (s : W) : Prop where
  v : s.v = 1 + tot cnt s.calls
  w : s.w = 1
  se : s.sema = 0
  fl : s.flag = true
  cl : tot lst s.calls = 0 ∧ tot wk s.calls = 0 ∧ ∀ c ∈ s.calls, ∀ n k, c ≠ .release n k
  d0 : s.dest[0]? = some .sleeping
  ds : ∀ (i : Nat) (d : DPc), 0 < i → s.dest[i]? = some d → d = .busy

theorem Stuck.step {s s' : W} {l : Lbl} (hk : Stuck s) (h : Step s l s') : Stuck s' := by
  obtain ⟨hv, hw, hse, hfl, ⟨hl, hwk, hrl⟩, h0, hds⟩ := hk
  cases h with
  | begin =>
      have hb : beginPc (s.v + 1) s.w = .added := by
        have h1 : ¬ (s.v + 1 < 0) := by omega
        have h2 : ¬ (s.v + 1 = 1) := by omega
        have h3 : s.v + 1 > 0 := by omega
        simp [beginPc, addRes, h1, h2, h3]
      simp only [hb]
      refine ⟨?_, hw, hse, hfl, ⟨?_, ?_, ?_⟩, h0, hds⟩
      · simp only [tot_append, cnt]; omega
      · simp only [tot_append, lst]; omega
      · simp only [tot_append, wk]; omega
      · intro c hc n k
        simp only [List.mem_append, List.mem_singleton] at hc
        rcases hc with hc | hc
        · exact hrl c hc n k
        · subst hc; simp
  | destroy =>
      refine ⟨hv, hw, hse, rfl, ⟨hl, hwk, hrl⟩, ?_, ?_⟩
      · simp only [hfl, if_true]
        have : 0 < s.dest.length := by
          cases hd : s.dest with
          | nil => simp [hd] at h0
          | cons a b => simp
        rw [List.getElem?_append_left this]; exact h0
      · intro i d hi hd
        simp only [hfl, if_true] at hd
        by_cases hlt : i < s.dest.length
        · rw [List.getElem?_append_left hlt] at hd; exact hds i d hi hd
        · rw [List.getElem?_append_right (by omega)] at hd
          cases hx : i - s.dest.length with
          | zero => simp [hx] at hd; exact hd.symm
          | succ n => simp [hx] at hd
  | call i pc pc' v w sema hi hc =>
      have t1 := tot_set cnt s.calls i pc pc' hi
      have t2 := tot_set wk s.calls i pc pc' hi
      have t3 := tot_set lst s.calls i pc pc' hi
      have u1 := tot_le cnt s.calls i pc hi
      have u2 := tot_le wk s.calls i pc hi
      have u3 := tot_le lst s.calls i pc hi
      have hmem := List.mem_of_getElem? hi
      have mk : ∀ c ∈ s.calls.set i pc', (∀ n k, pc' ≠ .release n k) → ∀ n k, c ≠ .release n k := by
        intro c hc hp n k
        rcases List.mem_or_eq_of_mem_set hc with h | h
        · exact hrl c h n k
        · subst h; exact hp n k
      cases hc with
      | check =>
          simp only [hfl, if_true] at *
          simp only [cnt, wk, lst] at *
          exact ⟨by simp only; omega, hw, hse, rfl, ⟨by simp only; omega, by simp only; omega, fun c hc => mk c hc (by simp)⟩, h0, hds⟩
      | leave => simp only [wk] at u2; omega
      | leaveRefused =>
          have he : endPc (s.v - 1) s.w = .over := by
            simp only [cnt] at u1
            have h1 : ¬ (s.v - 1 < 0) := by omega
            have h3 : s.v - 1 > 0 := by omega
            simp [endPc, addRes, h1]
            simp [show (1 : Int) < s.v by omega]
          rw [he] at t1 t2 t3 mk ⊢
          simp only [cnt, wk, lst] at *
          exact ⟨by simp only; omega, hw, hse, hfl, ⟨by simp only; omega, by simp only; omega, fun c hc => mk c hc (by simp)⟩, h0, hds⟩
      | compare w k => simp only [lst] at u3; omega
      | reset w k => simp only [lst] at u3; omega
      | release n k => exact absurd rfl (hrl _ hmem _ _)
      | released k => exact absurd rfl (hrl _ hmem _ _)
  | dest i pc pc' w sema flag hi hd =>
      by_cases h : i = 0
      · subst h
        rw [h0] at hi
        simp only [Option.some.injEq] at hi
        subst hi
        cases hd with
        | wake n hn => omega
      · have := hds i pc (by omega) hi
        subst this
        cases hd

theorem Stuck.run {R : W → Lbl → Prop} {s s' : W} (hk : Stuck s) (h : Run R s s') : Stuck s' := by
  induction h with
  | refl => exact hk
  | step _ _ h2 ih => exact ih.step h2

end Willow.DestroyGate
