import Verif.Proofs.DestroyGateLive
/-
Property C102: DestroyAll of the ordered tree next to the other calls of the tree.  The tree counts the calls under way in a
`sync.WaitGroup`, and lets calls begin (Add on a zero counter) while DestroyAll waits, which the WaitGroup forbids and, at times, notices.
-/
namespace Willow.Props
open DestroyGate

/-- C102, part: in every run, as long as nobody has panicked, while a DestroyAll is deleting no other call of the tree is at work, the
flag is set and no other DestroyAll is under way.  Missing: runs in which somebody has panicked (C102_violated_exclusive). -/
theorem C102_exclusive_partial (s : W) (hr : Run anyStep W.init s) (hn : NoPanic s) : Exclusive s :=
  (J.run hr hn).exclusive

/-- C102, part: while a DestroyAll is deleting, a call that checks the flag is refused, and a second DestroyAll returns an error. -/
theorem C102_refused_partial (s s' : W) (i j : Nat) (hr : Run anyStep W.init s) (hn : NoPanic s) (hi : s.dest[i]? = some DPc.inside) :
    (s.calls[j]? = some CPc.added → Step s (.call j) s' → s'.calls[j]? = some CPc.refused) ∧
    (Step s .destroy s' → s'.dest[s.dest.length]? = some DPc.busy) := by
  obtain ⟨_, hf, _⟩ := (J.run hr hn).exclusive i hi
  constructor
  · intro hj h
    have hlt : j < s.calls.length := by
      apply Classical.byContradiction; intro hc
      rw [List.getElem?_eq_none (by omega)] at hj; simp at hj
    cases h with
    | call _ pc pc' v w sema h1 h2 =>
        rw [hj] at h1
        simp only [Option.some.injEq] at h1
        subst h1
        cases h2 with
        | check => simp [hf, hlt]
  · intro h
    cases h with
    | destroy => simp [hf]

/-- C102, part: as long as no call begins while a DestroyAll is asleep in Wait, nobody panics. -/
theorem C102_no_panic_partial (s : W) (hr : Run quietWait W.init s) : NoPanic s := (Q.run hr).np

/-- C102, part: in the same runs somebody can always go on until every call and every DestroyAll has returned. -/
theorem C102_no_deadlock_partial (s : W) (hr : Run quietWait W.init s)
    (ho : (∃ c ∈ s.calls, c.isOpen) ∨ (∃ d ∈ s.dest, d.isOpen)) : ∃ l s', goOn s l ∧ Step s l s' :=
  (Q.run hr).progress ho

/-- C102, part: and what is under way cannot go on for ever without something new beginning; so DestroyAll returns. -/
theorem C102_no_endless_run_partial (s : W) (hr : Run quietWait W.init s) (f : Nat → W) (h0 : f 0 = s)
    (h : ∀ n, ∃ l, goOn (f n) l ∧ Step (f n) l (f (n + 1))) : False := no_endless (Q.run hr) f h0 h

/-- C102, part: everything can finish, without a panic. -/
theorem C102_can_finish_partial (s : W) (hr : Run quietWait W.init s) :
    ∃ s', Run goOn s s' ∧ (∀ c ∈ s'.calls, ¬ c.isOpen) ∧ (∀ d ∈ s'.dest, ¬ d.isOpen) ∧ NoPanic s' :=
  (Q.run hr).finish _ (Nat.le_refl _)

/-- C102, part: when no DestroyAll is under way the flag is not set, so a call that checks it gets to work. -/
theorem C102_accepts_again_partial (s s' : W) (j : Nat) (hr : Run quietWait W.init s) (ho : ∀ d ∈ s.dest, ¬ d.isOpen)
    (hj : s.calls[j]? = some CPc.added) (h : Step s (.call j) s') : s'.calls[j]? = some CPc.working := by
  have hf : s.flag = false := by
    have hfl := (Q.run hr).j.fl
    cases hf : s.flag with
    | false => rfl
    | true =>
        simp only [hf, if_true] at hfl
        have h1 : 0 < tot opn s.dest := by rw [tot_opn]; omega
        obtain ⟨i, d, hi, hd⟩ := tot_pos h1
        exact absurd (by cases d <;> simp_all [opn, slp, wkn, ins, wai, DPc.isOpen]) (ho d (List.mem_of_getElem? hi))
  have hlt : j < s.calls.length := by
    apply Classical.byContradiction; intro hc
    rw [List.getElem?_eq_none (by omega)] at hj; simp at hj
  cases h with
  | call _ pc pc' v w sema h1 h2 =>
      rw [hj] at h1
      simp only [Option.some.injEq] at h1
      subst h1
      cases h2 with
      | check => simp [hf, hlt]

/-! The hypotheses are met: a DestroyAll that sleeps until the call that was at work has left, is then inside while another call is
refused, and a second DestroyAll is refused. -/

def c102Run : List Lbl :=
  [.begin, .call 0, .destroy, .dest 0, .call 0, .call 0, .call 0, .call 0, .call 0, .dest 0, .dest 0, .begin, .destroy]

example : ∃ s, Run quietWait W.init s ∧ Run anyStep W.init s ∧ NoPanic s ∧ s.dest[0]? = some DPc.inside ∧
    s.calls[1]? = some CPc.added ∧ s.dest[1]? = some DPc.busy :=
  ⟨⟨1, 0, 0, true, [.over, .added], [.inside, .busy]⟩, execQ_run c102Run (by decide +kernel), exec_run c102Run (by decide +kernel),
    by simp [NoPanic], rfl, rfl, rfl⟩

/-- The sleeping DestroyAll of the run above. -/
example : ∃ s, Run quietWait W.init s ∧ Asleep s ∧ CPc.working ∈ s.calls :=
  ⟨⟨1, 1, 0, true, [.working], [.sleeping]⟩, execQ_run (c102Run.take 4) (by decide +kernel), by simp [Asleep], by simp⟩

/-- After that DestroyAll has returned, a call that begins. -/
example : ∃ s, Run quietWait W.init s ∧ (∀ d ∈ s.dest, ¬ d.isOpen) ∧ DPc.over ∈ s.dest ∧ s.calls[2]? = some CPc.added :=
  ⟨⟨1, 0, 0, false, [.over, .over, .added], [.over, .busy]⟩,
    execQ_run (c102Run ++ [.call 1, .call 1, .dest 0, .begin]) (by decide +kernel), by simp [DPc.isOpen], by simp, rfl⟩

/-! What goes wrong -/

/-- C102 fails: a call at work that leaves panics when another call begins at that moment, and so does the one that begins (a Create next
to a Find and a DestroyAll). -/
theorem C102_violated_panic_call : ∃ s, Run anyStep W.init s ∧ s.calls = [.broke, .broke] ∧ s.dest = [.sleeping] :=
  ⟨⟨1, 1, 0, true, [.broke, .broke], [.sleeping]⟩,
    exec_run [.begin, .call 0, .destroy, .dest 0, .call 0, .begin, .call 0] (by decide +kernel), rfl, rfl⟩

/-- C102 fails: after that DestroyAll sleeps for ever, and for ever no call of the tree gets to work again: whatever happens later, the
DestroyAll is still asleep, the flag is still set and no call is at work. -/
theorem C102_violated_hang : ∃ s, Run anyStep W.init s ∧ ∀ s', Run anyStep s s' →
    s'.dest[0]? = some DPc.sleeping ∧ s'.flag = true ∧ CPc.working ∉ s'.calls := by
  refine ⟨⟨1, 1, 0, true, [.broke, .broke], [.sleeping]⟩,
    exec_run [.begin, .call 0, .destroy, .dest 0, .call 0, .begin, .call 0] (by decide +kernel), ?_⟩
  intro s' hr
  have hk : Stuck ⟨1, 1, 0, true, [.broke, .broke], [.sleeping]⟩ :=
    ⟨rfl, rfl, rfl, rfl, ⟨rfl, rfl, by simp⟩, rfl, by
      intro i d hi hd
      cases i with
      | zero => omega
      | succ n => simp at hd⟩
  have hk' := hk.run hr
  refine ⟨hk'.d0, hk'.fl, ?_⟩
  intro hm
  have := mem_pos (f := wk) hm (by simp [wk])
  have := hk'.cl.2.1
  omega

/-- C102 fails: DestroyAll itself panics when a call begins between the end of the last call and the moment the woken DestroyAll looks at
the state; nobody else panics before. -/
theorem C102_violated_panic_destroy : ∃ s, Run anyStep W.init s ∧ s.dest = [.broke] ∧ CPc.broke ∉ s.calls ∧ s.flag = false :=
  ⟨⟨1, 0, 0, false, [.over, .added], [.broke]⟩,
    exec_run [.begin, .call 0, .destroy, .dest 0, .call 0, .call 0, .call 0, .call 0, .call 0, .dest 0, .begin, .dest 0]
      (by decide +kernel), rfl, by simp, rfl⟩

/-- C102 fails: a call that has begun between the two looks of the leaving call at the state is not counted; its own end makes the counter
negative (a third panic), and from then on a DestroyAll goes in although a call is at work. -/
theorem C102_violated_exclusive : ∃ s, Run anyStep W.init s ∧ ¬ Exclusive s ∧ CPc.working ∈ s.calls := by
  refine ⟨⟨0, 0, 0, true, [.over, .broke, .broke, .working], [.broke, .inside]⟩,
    exec_run [.begin, .call 0, .destroy, .dest 0, .call 0, .call 0, .begin, .begin, .call 0, .call 0, .call 0, .call 2, .call 2,
      .dest 0, .dest 0, .begin, .call 3, .destroy, .dest 1] (by decide +kernel), ?_, by simp⟩
  intro h
  have := (h 1 rfl).1
  simp at this

end Willow.Props
