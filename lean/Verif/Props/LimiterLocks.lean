import Verif.Proofs.LimiterGroup
import Verif.Proofs.LimiterCount
import Verif.Props.Limiter
/-
Properties C41, C42, C64: concurrent increments in the limiter.

`Run ⟨st, []⟩ labels s`: from a limiter state with no increments running, any number of increments arrive, and they, all other requests and
failures to obtain a lock interleave in any way; `s` is where this leads.
-/
namespace Willow.Props
open Assoc Spec OTM LimSpec Limiter LimConc

/-- The systems that can be reached by valid requests. -/
def ConcReachable (s : Sys Key) : Prop := ∃ st labels, LimReachable st ∧ (∀ l ∈ labels, ValidLabel l) ∧ Run ⟨st, []⟩ labels s

theorem ConcReachable.inv {s : Sys Key} (h : ConcReachable s) : SysInv s := by
  obtain ⟨st, labels, hr, hv, hrun⟩ := h
  have h0 : SysInv (⟨st, []⟩ : Sys Key) := ⟨hr.inv, by simp, by simp⟩
  exact h0.run hv hrun

/-! ### Running a script (for the examples) -/

/-- `Free` as a test. -/
def freeB (threads : List (Thread Key)) (t : Thread Key) : Bool := t.wants.all (fun l => threads.all (fun t' => t'.held.all (fun h => !sameLock l h)))

/-- One script step: a request arrives, another request is served, or the increment at this position goes on. -/
inductive Cmd where
  | arrive (r : Req Key)
  | other (op : Limiter.Op Key)
  | go (i : Nat)

/-- The label of a script step. -/
def Cmd.label : Cmd → Label Key
  | .arrive r => .arrive r
  | .other op => .other op
  | .go _ => .move

/-- Execute one script step. -/
def exec1 (s : Sys Key) : Cmd → Option (Sys Key)
  | .arrive r => some ⟨s.st, ⟨r, .start⟩ :: s.threads⟩
  | .other op => (Limiter.step s.st op).map (fun x => ⟨x.1, s.threads⟩)
  | .go i => match s.threads.drop i with
    | [] => none
    | t :: b => if freeB s.threads t then (advance s.st t).map (fun x => ⟨x.1, s.threads.take i ++ { t with phase := x.2 } :: b⟩) else none

/-- Execute a script. -/
def exec (s : Sys Key) : List Cmd → Option (Sys Key)
  | [] => some s
  | c :: cs => match exec1 s c with | none => none | some s' => exec s' cs

theorem exec1_step {s s' : Sys Key} {c : Cmd} (h : exec1 s c = some s') : Step s c.label s' := by
  cases c with
  | arrive r => cases h; exact .arrive s r
  | other op =>
    simp only [exec1] at h
    cases hs : Limiter.step s.st op with
    | none => rw [hs] at h; cases h
    | some x => rw [hs] at h; cases h; exact .other s op x.1 x.2 hs
  | go i =>
    simp only [exec1] at h
    split at h
    · cases h
    · rename_i t b hd
      split at h
      · rename_i hf
        have he : s.threads = s.threads.take i ++ t :: b := by rw [← hd, List.take_append_drop]
        obtain ⟨st, th⟩ := s
        simp only at he h hf hd
        generalize th.take i = a at he h
        subst he
        cases ha : advance st t with
        | none => rw [ha] at h; cases h
        | some x =>
          rw [ha] at h; cases h
          refine .move st a b t x.1 x.2 ?_ ha
          intro l hl t' ht' k hk
          unfold freeB at hf
          rw [List.all_eq_true] at hf
          have h1 := hf l hl
          rw [List.all_eq_true] at h1
          have h2 := h1 t' ht'
          rw [List.all_eq_true] at h2
          have h3 := h2 k hk
          simpa using h3
      · cases h

theorem exec_run {s' : Sys Key} : ∀ {cs : List Cmd} {s : Sys Key}, exec s cs = some s' → Run s (cs.map Cmd.label) s'
  | [], s, h => by cases h; exact .nil _
  | c :: cs, s, h => by
    simp only [exec] at h
    split at h
    · cases h
    · rename_i s1 h1
      exact .cons (exec1_step h1) (exec_run h)

/-- The first example: two increments of different counters in the group a = 1 of the first rule of `limState`, after which a third one
arrives.  The first one is summing up the counters of the group. -/
def concScript : List Cmd :=
  [.other (.upsert {} [(sb, ki 1)] (-1)), .arrive ⟨[(sa, ki 1), (sb, ki 6)], 1, {}⟩, .arrive ⟨[(sb, ki 7), (sa, ki 1)], 1, {}⟩, .go 0, .go 0, .go 1, .go 0, .go 0, .go 0]

/-- Where the example is. -/
def concSys : Sys Key := match exec ⟨limState, []⟩ concScript with | some s => s | none => ⟨State.init, []⟩

theorem concScript_valid : ∀ l ∈ concScript.map Cmd.label, ValidLabel l := by
  intro l h
  simp only [concScript, List.map_cons, List.map_nil, List.mem_cons, List.not_mem_nil, or_false, Cmd.label] at h
  rcases h with rfl | rfl | rfl | rfl | rfl | rfl | rfl | rfl | rfl
  · refine ⟨⟨by decide +kernel, ?_, by simp only [LimSpec.Int64]; decide, noChoice_valid⟩, ?_⟩
    · simp only [Typed]; decide +kernel
    · intro ch k c e; cases e; decide
  · exact ⟨by decide +kernel, by simp only [Typed]; decide +kernel, by decide, by decide, noChoice_valid⟩
  · exact ⟨by decide +kernel, by simp only [Typed]; decide +kernel, by decide, by decide, noChoice_valid⟩
  all_goals trivial

theorem concSys_run : Run ⟨limState, []⟩ (concScript.map Cmd.label) concSys := by
  have h : (exec ⟨limState, []⟩ concScript).isSome = true := by decide +kernel
  obtain ⟨s, hs⟩ := Option.isSome_iff_exists.1 h
  have : concSys = s := by unfold concSys; rw [hs]
  rw [this]; exact exec_run hs

theorem concSys_reachable : ConcReachable concSys := ⟨limState, _, limState_small.reachable, concScript_valid, concSys_run⟩

/-! ### C41 -/

/-- C41.  Whatever happens concurrently: two increments whose counters have the same values for the (at least one) group-by keys of a limit are
never both between checking their limits and having added to their counters. -/
theorem C41_no_overlap {st : State Key} {a b : List (Thread Key)} {t u : Thread Key} (h : ConcReachable ⟨st, a ++ t :: b⟩) (hu : u ∈ a ++ b)
    {keys : List GoString} (hne : keys ≠ []) (hg : agree keys t.req.kvs u.req.kvs = true) : ¬ (t.critical ∧ u.critical) := by
  rintro ⟨h1, h2⟩
  have := h.inv.exclusive hu h1 h2 hne
  rw [hg] at this; cases this

/-- C41: because the key-value pairs they lock have one in common. -/
theorem C41_common_lock {keys : List GoString} (hne : keys ≠ []) {a b : KVs Key} (h : agree keys a b = true) :
    ∃ x ∈ a, ∃ y ∈ b, x.1 = y.1 ∧ same x.2 y.2 = true := by
  obtain ⟨x, hx, y, hy, hl⟩ := agree_sameLock hne h
  refine ⟨x, hx, y, hy, ?_⟩
  unfold sameLock at hl
  simp only [Bool.and_eq_true, beq_iff_eq] at hl
  exact ⟨hl.1.1, by simp [same, hl.1.2, hl.2]⟩

/-- C41: an increment that finds a limit other than -1 never goes on to add to its counter without locks. -/
theorem C41_limited_takes_locks {st : State Key} (h : LimReachable st) {r : Req Key} (hv : ValidLabel (.arrive r)) {keys : List GoString} {L : Int}
    (hl : (keys, L) ∈ effective (abs st).rules r.kvs) (hL : L ≠ -1) {st' : State Key} {p : Phase Key} (e : advance st ⟨r, .start⟩ = some (st', p)) :
    (∃ ls, p = .locking ls (sortedKeys r.kvs)) ∨ p = .done .conflict := by
  obtain ⟨rs, e1, hsub, hall⟩ := findLimits_spec h.inv hv.2.2.2.2 hv.1 hv.2.1
  simp only [advance, e1, afterFind] at e
  split at e
  · cases e; exact .inr rfl
  · split at e <;> cases e
    · exact .inl ⟨_, rfl⟩
    · rename_i hlim
      exfalso; apply hlim
      obtain ⟨x, hx, hne⟩ : ∃ x ∈ rs.flatMap Found.limits, x.2 ≠ -1 := by
        rcases hall with ⟨x, hx, hz⟩ | hall
        · exact ⟨x, hx, by omega⟩
        · exact ⟨_, hall _ hl, hL⟩
      obtain ⟨r', hr, hx⟩ := List.mem_flatMap.1 hx
      unfold limited
      rw [List.any_eq_true]
      refine ⟨r', hr, ?_⟩
      rw [List.any_eq_true]
      exact ⟨x, hx, by simpa using hne⟩

/-- Non-vacuity of C41: in the example one increment is in its critical section and the other one waits for a lock; their counters agree on a. -/
example : concSys.threads.map (fun t => (match t.phase with | .summing .. => 1 | .locking _ _ => 2 | _ => 0, t.held.length, t.wants.length)) = [(1, 2, 0), (2, 0, 1)] ∧
    (match concSys.threads with | [t, u] => agree [sa] t.req.kvs u.req.kvs && !freeB concSys.threads u | _ => false) = true := by
  decide +kernel

/-- C41, C35 and C36 under all interleavings.  From any limiter state in which the rule is stored without overrides and nothing is running:
however many increments (each by at most `m`) arrive and interleave with each other and with all other requests that do not update or delete
the rule, create overrides for it or set counters to positive values, the total of every group of counters the rule applies to is at
every moment at most limit - 1 + m (or what it was at the beginning). -/
theorem C41_total_bounded {st : State Key} {B : Int} (h : LimSmall st B) {id : Nat} {rk : KVs Key} {L m : Int} (hr : HasRule id rk L (abs st)) (hL : L ≠ -1)
    {labels : List (Label Key)} (hv : ∀ l ∈ labels, ValidLabel l) (hB : B + labelsAmount labels < 2 ^ 63) (hq : ∀ l ∈ labels, Quiet (KeepsRule id) m l)
    {s : Sys Key} (hrun : Run ⟨st, []⟩ labels s) {kvs : KVs Key} (ha : applies rk kvs = true) :
    groupTotal (abs s.st).counters (rk.map (·.1)) kvs ≤ max (L - 1 + m) (groupTotal (abs st).counters (rk.map (·.1)) kvs) := by
  obtain ⟨hI, _⟩ := h.inv
  have hne : rk.map (·.1) ≠ [] := by
    obtain ⟨r, hrm, _, rfl, _⟩ := hr
    have := (hI.sinv.rval r hrm).1
    simpa using this
  have h0 : GI (rk.map (·.1)) kvs L m (B + labelsAmount labels) (max (L - 1 + m) (groupTotal (abs st).counters (rk.map (·.1)) kvs)) (HasRule id rk L) ⟨st, []⟩ (labelsAmount labels) :=
    ⟨⟨hI.toRInv, by simp, by simp⟩, ⟨B, hI, by simp [pends]⟩, hr, by simp only; omega, by simp, by simp⟩
  exact (GI.run hB hL hne (by omega) (fun _ hp k hk => effective_rule hp ha hk) (fun _ _ ⟨r, hm, hx⟩ e => ⟨r, by rw [e]; exact hm, hx⟩)
    (KeepsRule id) (fun op hk st _ hp => keeps_rule hk hp) hrun h0 hv hq).tot

/-- C41 with increments by one: the limit is never exceeded. -/
theorem C41_limit_never_exceeded {st : State Key} {B : Int} (h : LimSmall st B) {id : Nat} {rk : KVs Key} {L : Int} (hr : HasRule id rk L (abs st)) (hL : L ≠ -1)
    (h0 : ∀ kvs, applies rk kvs = true → groupTotal (abs st).counters (rk.map (·.1)) kvs ≤ L)
    {labels : List (Label Key)} (hv : ∀ l ∈ labels, ValidLabel l) (hB : B + labelsAmount labels < 2 ^ 63) (hq : ∀ l ∈ labels, Quiet (KeepsRule id) 1 l)
    {s : Sys Key} (hrun : Run ⟨st, []⟩ labels s) {kvs : KVs Key} (ha : applies rk kvs = true) :
    groupTotal (abs s.st).counters (rk.map (·.1)) kvs ≤ L := by
  have h1 := C41_total_bounded h hr hL hv hB hq hrun ha
  have h2 := h0 kvs ha
  omega

/-- C41 for the limit of an override. -/
theorem C41_override_limit_never_exceeded {st : State Key} {B : Int} (h : LimSmall st B) {id oid : Nat} {rk ok : KVs Key} {L : Int}
    (hr : HasOverride id rk oid ok L (abs st)) (hL : L ≠ -1)
    (h0 : ∀ kvs, applies rk kvs = true → applies ok kvs = true → groupTotal (abs st).counters (ok.map (·.1)) kvs ≤ L)
    {labels : List (Label Key)} (hv : ∀ l ∈ labels, ValidLabel l) (hB : B + labelsAmount labels < 2 ^ 63) (hq : ∀ l ∈ labels, Quiet (KeepsOverride id oid) 1 l)
    {s : Sys Key} (hrun : Run ⟨st, []⟩ labels s) {kvs : KVs Key} (ha : applies rk kvs = true) (hao : applies ok kvs = true) :
    groupTotal (abs s.st).counters (ok.map (·.1)) kvs ≤ L := by
  obtain ⟨hI, _⟩ := h.inv
  have hsub : ∀ x ∈ rk.map (·.1), x ∈ ok.map (·.1) := by
    obtain ⟨r, hrm, _, rfl, o, hom, _, rfl, _⟩ := hr
    exact hI.sinv.okeys r hrm o hom
  have hne : ok.map (·.1) ≠ [] := by
    obtain ⟨r, hrm, _, rfl, o, hom, _, rfl, _⟩ := hr
    have := (hI.sinv.rval r hrm).1
    intro e
    obtain ⟨x, hx⟩ := List.exists_mem_of_ne_nil _ this
    have := hsub x.1 (List.mem_map.2 ⟨x, hx, rfl⟩)
    rw [e] at this; cases this
  have hG : GI (ok.map (·.1)) kvs L 1 (B + labelsAmount labels) L (HasOverride id rk oid ok L) ⟨st, []⟩ (labelsAmount labels) :=
    ⟨⟨hI.toRInv, by simp, by simp⟩, ⟨B, hI, by simp [pends]⟩, hr, h0 kvs ha hao, by simp, by simp⟩
  exact (GI.run hB hL hne (by omega) (fun _ hp k hk => effective_override hp hsub ha hao hk)
    (fun _ _ ⟨r, hm, hx⟩ e => ⟨r, by rw [e]; exact hm, hx⟩) (KeepsOverride id oid) (fun op hk st _ hp => keeps_override hk hp) hrun hG hv hq).tot

/-- Non-vacuity: the example meets all hypotheses for the rule with limit 2. -/
example : (∃ rk, HasRule 0 rk 2 (abs limState)) ∧ 45 + labelsAmount (concScript.map Cmd.label) < 2 ^ 63 ∧
    (∀ l ∈ concScript.map Cmd.label, Quiet (KeepsRule 0) 1 l) ∧
    groupTotal (abs concSys.st).counters [sa] [(sa, ki 1)] = 1 := by
  refine ⟨⟨_, (abs limState).rules[0]'(by decide +kernel), List.getElem_mem _, by decide +kernel, rfl, by decide +kernel, ?_⟩, by decide +kernel, ?_, by decide +kernel⟩
  · exact List.length_eq_zero_iff.1 (by decide +kernel)
  · intro l h
    simp only [concScript, List.map_cons, List.map_nil, List.mem_cons, List.not_mem_nil, or_false, Cmd.label] at h
    rcases h with rfl | rfl | rfl | rfl | rfl | rfl | rfl | rfl | rfl
    · exact ⟨trivial, fun k c e => by cases e⟩
    · exact Int.le_refl _
    · exact Int.le_refl _
    all_goals trivial

/-! ### C42 -/

/-- C42.  As long as an increment has not answered, some increment can go on: its next lock, if it waits for one, is free, and its next step does not
crash.  So no set of increments can wait for each other for ever. -/
theorem C42_no_deadlock {s : Sys Key} (h : ConcReachable s) (hex : ∃ t ∈ s.threads, ¬ t.finished) :
    ∃ a t b, s.threads = a ++ t :: b ∧ ¬ t.finished ∧ ∃ st' p, advance s.st t = some (st', p) ∧ Step s .move ⟨st', a ++ { t with phase := p } :: b⟩ := by
  obtain ⟨a, t, b, st', p, e, hnd, hf, ha⟩ := h.inv.progress hex
  refine ⟨a, t, b, e, hnd, st', p, ha, ?_⟩
  obtain ⟨st, th⟩ := s
  simp only at e hf ha
  subst e
  exact .move st a b t st' p hf ha

/-- C42: the locks are requested in one global order of the keys. -/
theorem C42_global_order {kvs : KVs Key} (hv : ValidKVs kvs) :
    (sortedKeys kvs).Perm (kvs.map (·.1)) ∧ (sortedKeys kvs).Pairwise (fun a b => strLt a b = true) := ⟨sortedKeys_perm kvs, sortedKeys_sorted hv⟩

/-- C42: an increment that has not answered never crashes the service. -/
theorem C42_no_crash {s : Sys Key} (h : ConcReachable s) {t : Thread Key} (ht : t ∈ s.threads) (hn : ¬ t.finished) : advance s.st t ≠ none := by
  obtain ⟨r, e⟩ := advance_some h.inv.lim (h.inv.threads t ht) hn
  rw [e]; simp

/-- Non-vacuity of C42: in the example neither increment is finished and one of them is blocked; the script can go on until both have answered
(the limit is 2: one is accepted, the other one refused). -/
example : (∃ t ∈ concSys.threads, ¬ t.finished) ∧
    ((exec concSys ((List.replicate 7 (Cmd.go 0)) ++ List.replicate 9 (Cmd.go 1))).map (fun s => s.threads.map (fun t => match t.phase with | .done o => outCode o | _ => 0))) = some [200, 409] := by
  refine ⟨⟨concSys.threads[0]'(by decide +kernel), List.getElem_mem _, ?_⟩, by decide +kernel⟩
  rintro ⟨out, e⟩
  have h : (match (concSys.threads[0]'(by decide +kernel)).phase with | .done _ => true | _ => false) = false := by decide +kernel
  rw [e] at h; cases h

/-! ### C64 -/

/-- C64: at any time the value of a counter is what it was plus the amounts of exactly those increments of it that are accepted - none is lost, none
counts twice, a refused one adds nothing - however increments, changes of rules and changes of other counters interleave (without decrements and
settings of this counter, and without overflows). -/
theorem C64_no_lost_increment {st : State Key} {B : Int} (h : LimSmall st B) {labels : List (Label Key)} (hv : ∀ l ∈ labels, ValidLabel l)
    (hB : B + labelsAmount labels < 2 ^ 63) {s : Sys Key} (hrun : Run ⟨st, []⟩ labels s) {kvs : KVs Key} (hk : ValidKVs kvs)
    (hoff : ∀ op, Label.other op ∈ labels → OffCounter kvs op) :
    valueAt (abs s.st).counters kvs = valueAt (abs st).counters kvs + accepted kvs s.threads := by
  obtain ⟨hI, _⟩ := h.inv
  have h0 : CI kvs (valueAt (abs st).counters kvs) (B + labelsAmount labels) ⟨st, []⟩ (labelsAmount labels) :=
    ⟨⟨hI.toRInv, by simp, by simp⟩, ⟨B, hI, by simp [pends]⟩, by simp [accepted]⟩
  exact (CI.run hB hk hrun h0 hv hoff).val

/-- Non-vacuity of C64: the two increments of the example run to their end; one of them, of a counter that is not stored before, is accepted. -/
example : (∀ op, Label.other op ∈ concScript.map Cmd.label → OffCounter [(sa, ki 1), (sb, ki 6)] op) ∧
    ((exec concSys ((List.replicate 7 (Cmd.go 0)) ++ List.replicate 9 (Cmd.go 1))).map (fun s =>
      (s.threads.map (fun t => t.okB), accepted [(sb, ki 7), (sa, ki 1)] s.threads, valueAt (abs s.st).counters [(sb, ki 7), (sa, ki 1)],
        accepted [(sa, ki 1), (sb, ki 6)] s.threads, valueAt (abs s.st).counters [(sa, ki 1), (sb, ki 6)]))) =
      some ([true, false], 1, 1, 0, 0) := by
  refine ⟨?_, by decide +kernel⟩
  intro op h
  simp only [concScript, List.map_cons, List.map_nil, List.mem_cons, List.not_mem_nil, or_false, Cmd.label, Label.other.injEq, reduceCtorEq] at h
  subst h
  simp only [OffCounter]; decide +kernel

end Willow.Props
