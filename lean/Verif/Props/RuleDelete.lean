import Verif.Proofs.RuleDeleteRun
import Verif.Props.Limiter
/-
Property C91: a rule may be deleted while other requests are served.

`Run Sys.init evs s`: a history of requests and deletions in steps.  `Fine evs`: the requests pass validation and their amounts together are an int64.
`abs s.st`: the rules with their overrides and the counters, as plain lists.
-/
namespace Willow.Props
open Willow Willow.Assoc Willow.Spec Willow.OTM Willow.Limiter Willow.LimSpec Willow.RuleDelete

/-- C91.  Every step does what it should (Spec/RuleDelete `Effect`): requests next to deletions do what they do without them, unless they name a rule that is being deleted; the beginning of a
deletion changes nothing; its end removes exactly that rule; in between exactly the overrides of that rule are removed. -/
theorem C91_effect (evs : List (Ev Key)) (s s' : RuleDelete.Sys Key) (e : Option (Ev Key)) (h : RuleDelete.Run Sys.init evs s) (hf : Fine (evs ++ e.toList)) (hs : RuleDelete.Step s e s') :
    Effect s s' e := by
  obtain ⟨h1, h2, h3⟩ := fine_split hf
  exact (step_effect (DInv.run h h1) h2 (by rw [h3]; exact hf.2) hs).2

/-- C91.  After a deletion has begun, every request for the rule (to read or change it or its overrides) is told that it is missing, no second deletion begins, and other
DeleteRules are told 404 or 409: for ever, as ids are not used again. -/
theorem C91_refused (pre post : List (Ev Key)) (s1 s2 s3 : RuleDelete.Sys Key) (id : Nat) (h1 : RuleDelete.Run Sys.init pre s1) (h2 : RuleDelete.Step s1 (some (.begin id)) s2)
    (h3 : RuleDelete.Run s2 post s3) (hf : Fine (pre ++ post)) :
    (∀ op out, .served op out ∈ post → concerns op = some id → out = .notFound) ∧ .begin id ∉ post ∧
      ∀ out, .deleted id out ∈ post → out = .ok ∨ out = .conflict ∨ out = .notFound := by
  obtain ⟨hv, hB⟩ := hf
  rw [requests_append] at hv hB
  rw [totalAmount_append] at hB
  have hn := totalAmount_nonneg (requests post)
  have d1 := DInv.run h1 ⟨fun op ho => hv op (List.mem_append_left _ ho), by omega⟩
  obtain ⟨d2, _, _, _, hx⟩ := step_effect (e := some (.begin id)) d1 trivial (by simp only [evAmount]; omega) h2
  simp only [evAmount, Int.add_zero] at d2
  obtain ⟨_, hr⟩ := refuses_run (id := id) d2 (.inl ((hx id).2 (.inr rfl))) h3 (fun op ho => hv op (List.mem_append_right _ ho)) (by omega)
  exact ⟨fun op out hm => hr _ hm, fun hm => hr _ hm rfl, fun out hm => hr _ hm rfl⟩

/-- C91.  After DeleteRule was answered with success the rule is not there and never again, and there is nothing of its overrides. -/
theorem C91_deleted (pre post : List (Ev Key)) (s1 s2 s3 : RuleDelete.Sys Key) (id : Nat) (h1 : RuleDelete.Run Sys.init pre s1) (h2 : RuleDelete.Step s1 (some (.deleted id .ok)) s2)
    (h3 : RuleDelete.Run s2 post s3) (hf : Fine (pre ++ post)) :
    (∀ r ∈ (abs s3.st).rules, r.id ≠ id) ∧ rel s3.st.overrides (idStr id) = none := by
  obtain ⟨hv, hB⟩ := hf
  rw [requests_append] at hv hB
  rw [totalAmount_append] at hB
  have hn := totalAmount_nonneg (requests post)
  have d1 := DInv.run h1 ⟨fun op ho => hv op (List.mem_append_left _ ho), by omega⟩
  obtain ⟨d2, heff⟩ := step_effect (e := some (.deleted id .ok)) d1 trivial (by simp only [evAmount]; omega) h2
  simp only [evAmount, Int.add_zero] at d2
  have d3 := DInv.runFrom d2 h3 (fun op ho => hv op (List.mem_append_right _ ho)) (by omega)
  rcases heff with ⟨_, ⟨b, hb⟩, ha, hx⟩ | ⟨h, _⟩ | ⟨h, _⟩
  · have hg : Gone s2 id := by
      unfold Gone
      rw [ha]
      refine ⟨fun r hr e => by have := (List.mem_filter.1 hr).2; simp [e] at this, ?_⟩
      obtain ⟨i, hi, e⟩ := d1.there _ hb
      simp only at e
      rw [← e]; exact d1.lim.rinv.fresh i hi
    have hg3 := gone_run d2 hg h3 (fun op ho => hv op (List.mem_append_right _ ho)) (by omega)
    refine ⟨hg3.1, ?_⟩
    cases hr : rel s3.st.overrides (idStr id) with
    | none => rfl
    | some t =>
      obtain ⟨i, hi, e⟩ := d3.lim.own _ _ hr
      exact absurd (idStr_inj e).symm (hg3.1 _ (List.mem_map.2 ⟨i, hi, rfl⟩))
  · cases h
  · cases h

/-- C91.  At every moment all stored overrides belong to a stored rule. -/
theorem C91_no_orphans (evs : List (Ev Key)) (s : RuleDelete.Sys Key) (h : RuleDelete.Run Sys.init evs s) (hf : Fine evs) (b : GoString) (t : ATree Key (OItem Key Int))
    (hr : rel s.st.overrides b = some t) : ∃ r ∈ (abs s.st).rules, b = idStr r.id := by
  obtain ⟨i, hi, e⟩ := (DInv.run h hf).lim.own b t hr
  exact ⟨_, List.mem_map.2 ⟨i, hi, rfl⟩, e⟩

/-- C91.  An increment is refused only if a limit of a rule that nobody is deleting is reached. -/
theorem C91_no_false_refusal (evs : List (Ev Key)) (s s' : RuleDelete.Sys Key) (ch : Choice Key) (kvs : KVs Key) (c : Int) (out : Out Key) (h : RuleDelete.Run Sys.init evs s)
    (hs : RuleDelete.Step s (some (.served (.upsert ch kvs c) out)) s') (hf : Fine (evs ++ [.served (.upsert ch kvs c) out])) (hc : 0 < c) (hout : out ≠ .ok) :
    out = .conflict ∧ s' = s ∧ ∃ r ∈ visible s, ∃ x ∈ ruleLimits kvs r, x.2 ≠ -1 ∧ x.2 ≤ groupTotal (abs s.st).counters x.1 kvs := by
  obtain ⟨⟨_, hi⟩, _⟩ := C91_effect evs s s' (some _) h hf hs
  obtain ⟨l, hp, hd⟩ := hi ch kvs c rfl hc
  split at hd
  · exact absurd hd.1 hout
  · rename_i ha
    refine ⟨hd.1, hd.2, ?_⟩
    simp only [allowed, withRules, Bool.not_eq_true, List.all_eq_false] at ha
    obtain ⟨x, hx, hlim⟩ := ha
    obtain ⟨r, hr, hx⟩ := List.mem_flatMap.1 hx
    have hvis : (!s.isClosing r.id) = true := by
      have : ∀ (l : List LimSpec.Rule), r ∈ l.takeWhile (fun r => !s.isClosing r.id) → (!s.isClosing r.id) = true := by
        intro l
        induction l with
        | nil => intro h; cases h
        | cons a l ih =>
          intro h
          rw [List.takeWhile_cons] at h
          split at h
          · rcases List.mem_cons.1 h with rfl | h
            · assumption
            · exact ih h
          · cases h
      exact this l hr
    have hm := List.mem_filter.1 (hp.mem_iff.1 ((List.takeWhile_sublist _).mem hr))
    refine ⟨r, List.mem_filter.2 ⟨hm.1, hvis⟩, x, hx, ?_⟩
    simp only [Bool.not_eq_true, Bool.or_eq_false_iff] at hlim
    have h2 := of_decide_eq_false hlim.2
    exact ⟨by simpa using hlim.1, Int.not_lt.1 h2⟩

theorem takeWhile_all {α : Type} {p : α → Bool} : ∀ {l : List α}, (∀ a ∈ l, p a = true) → l.takeWhile p = l
  | [], _ => rfl
  | a :: l, h => by
    rw [List.takeWhile_cons, if_pos (h a (by simp)), takeWhile_all (fun b hb => h b (by simp [hb]))]

/-- C91, in part.  An increment is accepted only if no limit of the rules that nobody is deleting is reached, unless a rule that is being deleted applies to the counter.  Missing: the
case in which such a rule applies; see `C91_violated_limit_ignored`. -/
theorem C91_limits_kept_partial (evs : List (Ev Key)) (s s' : RuleDelete.Sys Key) (ch : Choice Key) (kvs : KVs Key) (c : Int) (h : RuleDelete.Run Sys.init evs s)
    (hs : RuleDelete.Step s (some (.served (.upsert ch kvs c) .ok)) s') (hf : Fine (evs ++ [.served (.upsert ch kvs c) .ok])) (hc : 0 < c)
    (hno : ∀ r ∈ (abs s.st).rules, Deleting s r.id → applies r.kvs kvs = false) :
    (∀ r ∈ visible s, ∀ x ∈ ruleLimits kvs r, x.2 = -1 ∨ groupTotal (abs s.st).counters x.1 kvs < x.2) ∧
      abs s'.st = { abs s.st with counters := putCounter (abs s.st).counters kvs c (· + c) } := by
  obtain ⟨⟨_, hi⟩, _⟩ := C91_effect evs s s' (some _) h hf hs
  obtain ⟨l, hp, hd⟩ := hi ch kvs c rfl hc
  split at hd
  · rename_i ha
    refine ⟨?_, hd.2⟩
    intro r hr x hx
    have hrm := (List.mem_filter.1 hr).1
    have happ : applies r.kvs kvs = true := by
      cases e : applies r.kvs kvs with
      | true => rfl
      | false => unfold ruleLimits at hx; simp [e] at hx
    have hall : l.takeWhile (fun r => !s.isClosing r.id) = l := by
      refine takeWhile_all ?_
      intro a ham
      have hm := List.mem_filter.1 (hp.mem_iff.1 ham)
      simp only [Bool.not_eq_eq_eq_not, Bool.not_true]
      rw [not_closing]
      intro hdel
      rw [hno a hm.1 hdel] at hm
      exact absurd hm.2 (by simp)
    rw [hall] at ha
    simp only [allowed, withRules, List.all_eq_true] at ha
    have := ha x (List.mem_flatMap.2 ⟨r, hp.mem_iff.2 (List.mem_filter.2 ⟨hrm, happ⟩), hx⟩)
    rw [Bool.or_eq_true] at this
    exact this.imp (fun h => by simpa using h) of_decide_eq_true
  · exact absurd hd.1 (by simp)

/-- C91.  Every request is answered at once, and a deletion that has begun can be brought to its end. -/
theorem C91_answered (evs : List (Ev Key)) (s : RuleDelete.Sys Key) (h : RuleDelete.Run Sys.init evs s) (hf : Fine evs) :
    (∀ op, (∀ ch id, op ≠ .deleteRule ch id) → LimSpec.ValidOp op → totalAmount (requests evs) + amount op < 2 ^ 63 → ∃ out s', RuleDelete.Step s (some (.served op out)) s') ∧
    ∀ id, Deleting s id → ∃ s', RuleDelete.Run s [.deleted id .ok] s' := by
  have d := DInv.run h hf
  refine ⟨?_, ?_⟩
  · intro op hop hv hB
    obtain ⟨s', out, e, _⟩ := serve_spec d hop hv hB
    exact ⟨out, s', .serve hop e⟩
  · have hfin : ∀ (s1 : RuleDelete.Sys Key) B id, DInv s1 B → (id, true) ∈ s1.closing → ∃ s', RuleDelete.Step s1 (some (.deleted id .ok)) s' := by
      intro s1 B id d1 hc
      obtain ⟨i, him, e⟩ := d1.there _ hc
      simp only at e
      subst e
      obtain ⟨t', r, e, _⟩ := finish_spec d1.lim him (d1.gone _ hc)
      exact ⟨_, .finish i.id hc e⟩
    rintro id ⟨b, hb⟩
    cases b with
    | true =>
      obtain ⟨s', hs⟩ := hfin s _ id d hb
      exact ⟨s', .step .nil hs⟩
    | false =>
      obtain ⟨i, him, e⟩ := d.there _ hb
      simp only at e
      subst e
      obtain ⟨o', out, e, hout, _⟩ := wipe_spec d.lim him (ord := fun l => l) (fun _ => .refl _)
      have hw : RuleDelete.Step s none _ := .wipe i.id _ hb (fun _ => .refl _) e hout
      have d1 := (step_effect (e := none) d trivial (by simp only [evAmount]; have := hf.2; omega) hw).1
      obtain ⟨s', hs⟩ := hfin _ _ i.id d1 (List.mem_map.2 ⟨_, hb, by simp⟩)
      exact ⟨s', .step (evs := []) (.step (evs := []) .nil hw) hs⟩

namespace RD

/-- A script: requests, and the steps of deletions. -/
inductive Do where
  | op (op : Limiter.Op Key)
  | begin (id : Nat)
  | wipe (id : Nat)
  | finish (id : Nat)

/-- Is this DeleteRule? -/
def isDelete : Limiter.Op Key → Bool
  | .deleteRule _ _ => true
  | _ => false

/-- One step of a script. -/
def exec1 (s : RuleDelete.Sys Key) : Do → Option (RuleDelete.Sys Key × Option (Ev Key))
  | .op op => if isDelete op then none else (serve s op).map (fun r => (r.1, some (.served op r.2)))
  | .begin id => if s.isClosing id then none else (s.st.rules.itemById id).map (fun _ => ({ s with closing := s.closing ++ [(id, false)] }, some (.begin id)))
  | .wipe id => if (id, false) ∈ s.closing then
      match OTM.destroyOne s.st.overrides (idStr id) (some fun _ => true) (fun l => l) with
      | none => none
      | some (_, .error _) => none
      | some (o, _) => some (⟨{ s.st with overrides := o }, s.closing.map (fun x => if x.1 = id then (id, true) else x)⟩, none)
    else none
  | .finish id => if (id, true) ∈ s.closing then
      (s.st.rules.destroyById id (some fun _ => true)).map (fun r => (⟨{ s.st with rules := r.1 }, s.closing.filter (fun x => x.1 != id)⟩, some (.deleted id .ok)))
    else none

theorem exec1_step {s s' : RuleDelete.Sys Key} {d : Do} {e : Option (Ev Key)} (h : exec1 s d = some (s', e)) : RuleDelete.Step s e s' := by
  cases d with
  | op op =>
    simp only [exec1] at h
    split at h
    · cases h
    · rename_i hd
      rw [Option.map_eq_some_iff] at h
      obtain ⟨r, hr, e⟩ := h
      cases e
      exact .serve (fun ch id e => by subst e; simp [isDelete] at hd) hr
  | begin id =>
    simp only [exec1] at h
    split at h
    · cases h
    · rename_i hd
      rw [Option.map_eq_some_iff] at h
      obtain ⟨r, hr, e⟩ := h
      cases e
      exact .begin id (by simpa using hd) hr
  | wipe id =>
    simp only [exec1] at h
    split at h
    · rename_i hc
      split at h
      · cases h
      · cases h
      · rename_i hne e
        cases h
        exact .wipe id _ hc (fun _ => .refl _) e (fun e' => hne e')
    · cases h
  | finish id =>
    simp only [exec1] at h
    split at h
    · rename_i hc
      rw [Option.map_eq_some_iff] at h
      obtain ⟨r, hr, e⟩ := h
      cases e
      exact .finish id hc hr
    · cases h

/-- A script. -/
def exec : List Do → RuleDelete.Sys Key → Option (RuleDelete.Sys Key × List (Ev Key))
  | [], s => some (s, [])
  | d :: ds, s => match exec1 s d with
    | none => none
    | some (s', e) => (exec ds s').map (fun r => (r.1, e.toList ++ r.2))

theorem exec_run : ∀ {ds : List Do} {s0 s s' : RuleDelete.Sys Key} {evs evs' : List (Ev Key)}, RuleDelete.Run s0 evs s → exec ds s = some (s', evs') → RuleDelete.Run s0 (evs ++ evs') s'
  | [], s0, s, s', evs, evs', hr, h => by cases h; simpa using hr
  | d :: ds, s0, s, s', evs, evs', hr, h => by
    simp only [exec] at h
    split at h
    · cases h
    · rename_i s1 e he
      rw [Option.map_eq_some_iff] at h
      obtain ⟨r, h1, h2⟩ := h
      cases h2
      have := exec_run (RuleDelete.Run.step hr (exec1_step he)) h1
      simpa [List.append_assoc] using this

/-- The state after a script. -/
def after (ds : List Do) : RuleDelete.Sys Key := match exec ds Sys.init with | some r => r.1 | none => Sys.init

theorem run_after {ds : List Do} {evs : List (Ev Key)} (h : (exec ds Sys.init).map (·.2) = some evs) : RuleDelete.Run Sys.init evs (after ds) := by
  rw [Option.map_eq_some_iff] at h
  obtain ⟨r, h1, rfl⟩ := h
  have e : after ds = r.1 := by unfold after; rw [h1]
  rw [e]
  have := exec_run (evs := []) (RuleDelete.Run.nil (s := Sys.init)) h1
  simpa using this

/-- Rule 0: at most 5 for each value of a; rule 1: at most one for each value of b; an override of rule 0; a counter; the deletion of rule 0 begins. -/
def script : List Do :=
  [.op (.createRule [(sa, kany)] 5), .op (.createRule [(sb, kany)] 1), .op (.createOverride 0 [(sa, ki 2)] 7), .op (.upsert {} [(sa, ki 1), (sb, ki 1)] 1), .begin 0]

/-- What happens then. -/
def evs : List (Ev Key) :=
  [.served (.createRule [(sa, kany)] 5) (.created 0), .served (.createRule [(sb, kany)] 1) (.created 1), .served (.createOverride 0 [(sa, ki 2)] 7) (.created 0),
   .served (.upsert {} [(sa, ki 1), (sb, ki 1)] 1) .ok, .begin 0]

theorem run : RuleDelete.Run Sys.init evs (after script) := run_after rfl

theorem fine {post : List (Ev Key)} (h : ∀ op ∈ requests post, op = .upsert {} [(sa, ki 1), (sb, ki 1)] 1 ∨ op = .upsert {} [(sb, ki 2)] 1 ∨ op = .upsert {} [(sb, ki 1)] 1 ∨ op = .getRule 0)
    (hl : (requests post).length ≤ 1000) : Fine (evs ++ post) := by
  refine ⟨?_, ?_⟩
  · intro op ho
    rw [requests_append] at ho
    rcases List.mem_append.1 ho with ho | ho
    · simp only [evs, requests, List.mem_cons, List.not_mem_nil, or_false] at ho
      rcases ho with rfl | rfl | rfl | rfl <;> simp only [LimSpec.ValidOp, ValidLimit, LimSpec.Int64, Typed, noChoice_valid] <;> decide +kernel
    · rcases h op ho with rfl | rfl | rfl | rfl <;> simp only [LimSpec.ValidOp, ValidLimit, LimSpec.Int64, Typed, noChoice_valid] <;> decide +kernel
  · rw [requests_append, totalAmount_append]
    have h1 : totalAmount (requests evs) = 1 := by decide +kernel
    have h2 : totalAmount (requests post) ≤ (requests post).length := by
      generalize requests post = l at h
      clear hl
      induction l with
      | nil => simp [totalAmount]
      | cons op l ih =>
        rw [totalAmount_cons]
        have := ih (fun o ho => h o (by simp [ho]))
        have h3 : amount op ≤ 1 := by rcases h op (by simp) with rfl | rfl | rfl | rfl <;> decide
        simp only [List.length_cons]
        omega
    omega

end RD

/-- A step next to a deletion: the increment of a counter the deleted rule does not apply to. -/
example : ∃ (evs : List (Ev Key)) (s s' : RuleDelete.Sys Key), RuleDelete.Run Sys.init evs s ∧ Fine (evs ++ [.served (.upsert {} [(sb, ki 2)] 1) .ok]) ∧
    RuleDelete.Step s (some (.served (.upsert {} [(sb, ki 2)] 1) .ok)) s' ∧ (∀ r ∈ (abs s.st).rules, Deleting s r.id → applies r.kvs [(sb, ki 2)] = false) ∧ Deleting s 0 :=
  ⟨_, _, ((RD.exec1 (RD.after RD.script) (.op (.upsert {} [(sb, ki 2)] 1))).map (·.1)).getD Sys.init, RD.run, RD.fine (by simp [requests]) (by simp [requests]),
    RD.exec1_step (d := .op (.upsert {} [(sb, ki 2)] 1)) rfl, by
      have : ∀ r ∈ (abs (RD.after RD.script).st).rules, (RD.after RD.script).isClosing r.id = true → applies r.kvs [(sb, ki 2)] = false := by decide +kernel
      exact fun r hr hd => this r hr (isClosing_iff.2 hd), isClosing_iff.1 (by decide +kernel)⟩

/-- An increment that is refused next to a deletion. -/
example : ∃ (evs : List (Ev Key)) (s s' : RuleDelete.Sys Key), RuleDelete.Run Sys.init evs s ∧ Fine (evs ++ [.served (.upsert {} [(sb, ki 1)] 1) .conflict]) ∧
    RuleDelete.Step s (some (.served (.upsert {} [(sb, ki 1)] 1) .conflict)) s' :=
  ⟨_, _, RD.after RD.script, RD.run, RD.fine (by simp [requests]) (by simp [requests]), RD.exec1_step (d := .op (.upsert {} [(sb, ki 1)] 1)) rfl⟩

/-- A deletion from its beginning to its end, with a request in between and one afterwards. -/
example : ∃ (pre post : List (Ev Key)) (s1 s2 s3 : RuleDelete.Sys Key), RuleDelete.Run Sys.init pre s1 ∧ RuleDelete.Step s1 (some (.begin 0)) s2 ∧ RuleDelete.Run s2 post s3 ∧
    Fine (pre ++ post) ∧ post = [.served (.getRule 0) .notFound, .deleted 0 .ok, .served (.getRule 0) .notFound] := by
  refine ⟨RD.evs.take 4, _, RD.after (RD.script.take 4), RD.after RD.script, RD.after (RD.script ++ [.op (.getRule 0), .wipe 0, .finish 0, .op (.getRule 0)]), RD.run_after rfl,
    RD.exec1_step (d := .begin 0) rfl, ?_, ?_, rfl⟩
  · exact RD.exec_run (ds := [.op (.getRule 0), .wipe 0, .finish 0, .op (.getRule 0)]) (evs := []) .nil rfl
  · have := RD.fine (post := [.served (.getRule 0) .notFound, .deleted 0 .ok, .served (.getRule 0) .notFound]) (by simp [requests]) (by simp [requests])
    exact this

/-- The end of a deletion; the overrides are gone. -/
example : ∃ (pre post : List (Ev Key)) (s1 s2 s3 : RuleDelete.Sys Key), RuleDelete.Run Sys.init pre s1 ∧ RuleDelete.Step s1 (some (.deleted 0 .ok)) s2 ∧ RuleDelete.Run s2 post s3 ∧
    Fine (pre ++ post) ∧ (rel (RD.after RD.script).st.overrides (idStr 0)).isSome = true ∧ post = [.served (.getRule 0) .notFound] := by
  refine ⟨RD.evs, _, RD.after (RD.script ++ [.wipe 0]), RD.after (RD.script ++ [.wipe 0, .finish 0]), RD.after (RD.script ++ [.wipe 0, .finish 0, .op (.getRule 0)]), RD.run_after rfl,
    RD.exec1_step (d := .finish 0) rfl, ?_, ?_, by decide +kernel, rfl⟩
  · exact RD.exec_run (ds := [.op (.getRule 0)]) (evs := []) .nil rfl
  · exact RD.fine (post := [.served (.getRule 0) .notFound]) (by simp [requests]) (by simp [requests])

/-- C91 does not hold in full.  Rule 0 and rule 1 apply to the counter; the limit 1 of rule 1 is reached, and nobody deletes or changes rule 1; while rule 0 is being deleted the
increment is accepted, and the total is 2. -/
theorem C91_violated_limit_ignored : ∃ (evs : List (Ev Key)) (s s' : RuleDelete.Sys Key) (op : Limiter.Op Key), RuleDelete.Run Sys.init evs s ∧ Fine (evs ++ [.served op .ok]) ∧
    op = .upsert {} [(sa, ki 1), (sb, ki 1)] 1 ∧ RuleDelete.Step s (some (.served op .ok)) s' ∧
    (∃ r ∈ visible s, r.id = 1 ∧ ruleLimits [(sa, ki 1), (sb, ki 1)] r = [([sb], 1)] ∧ groupTotal (abs s.st).counters [sb] [(sa, ki 1), (sb, ki 1)] = 1) ∧
    (∀ id, .begin id ∈ evs → id = 0) ∧ groupTotal (abs s'.st).counters [sb] [(sa, ki 1), (sb, ki 1)] = 2 := by
  refine ⟨RD.evs, RD.after RD.script, RD.after (RD.script ++ [.op (.upsert {} [(sa, ki 1), (sb, ki 1)] 1)]), _, RD.run, ?_, rfl,
    RD.exec1_step (d := .op (.upsert {} [(sa, ki 1), (sb, ki 1)] 1)) rfl, ?_, ?_, by decide +kernel⟩
  · exact RD.fine (by simp [requests]) (by simp [requests])
  · refine ⟨(visible (RD.after RD.script))[0]'(by decide +kernel), List.getElem_mem _, by decide +kernel, by decide +kernel, by decide +kernel⟩
  · intro id hid
    simp [RD.evs] at hid
    exact hid

end Willow.Props
