import Verif.Proofs.LimiterLease
import Verif.Props.LimiterLocks
/-
Property C84: limits when the locks of increments can be lost.

`LRun ⟨st, []⟩ labels s`: as `Run` (C41), but at any moment the locker can take back a lock that an increment holds.  `t.lost` are the keys of the locks the
increment `t` lost before its answer was settled.
-/
namespace Willow.Props
open Assoc Spec OTM LimSpec Limiter LimConc LimLease

/-- The systems that can be reached by valid requests. -/
def LeaseReachable (s : LSys Key) : Prop := ∃ st labels, LimReachable st ∧ (∀ l ∈ labels, ValidLabel l) ∧ LRun ⟨st, []⟩ labels s

theorem LeaseReachable.inv {s : LSys Key} (h : LeaseReachable s) : LSysInv s := by
  obtain ⟨st, labels, hr, hv, hrun⟩ := h
  have h0 : LSysInv (⟨st, []⟩ : LSys Key) := ⟨hr.inv, by simp, by simp⟩
  exact h0.run hv hrun

/-! ### Running a script (for the examples) -/

/-- `LFree` as a test. -/
def lfreeB (threads : List (LThread Key)) (t : LThread Key) : Bool := t.th.wants.all (fun l => threads.all (fun u => u.holds.all (fun h => !sameLock l h)))

/-- `open` as a test. -/
def openB (t : LThread Key) : Bool := match t.th.phase with | .releasing _ _ | .done _ => false | _ => true

/-- One script step: as `Cmd`, or the increment at this position loses the lock for this key. -/
inductive LCmd where
  | base (c : Cmd)
  | lose (i : Nat) (k : GoString)

/-- The label of a script step. -/
def LCmd.label : LCmd → Label Key
  | .base c => c.label
  | .lose _ _ => .move

/-- Execute one script step. -/
def lexec1 (s : LSys Key) : LCmd → Option (LSys Key)
  | .base (.arrive r) => some ⟨s.st, ⟨⟨r, .start⟩, []⟩ :: s.threads⟩
  | .base (.other op) => (Limiter.step s.st op).map (fun x => ⟨x.1, s.threads⟩)
  | .base (.go i) => match s.threads.drop i with
    | [] => none
    | t :: b => if lfreeB s.threads t then (advance s.st t.th).map (fun x => ⟨x.1, s.threads.take i ++ ⟨⟨t.th.req, x.2⟩, t.lost⟩ :: b⟩) else none
  | .lose i k => match s.threads.drop i with
    | [] => none
    | t :: b => if openB t && (t.holds.map (·.1)).contains k then some ⟨s.st, s.threads.take i ++ ⟨t.th, k :: t.lost⟩ :: b⟩ else none

/-- Execute a script. -/
def lexec (s : LSys Key) : List LCmd → Option (LSys Key)
  | [] => some s
  | c :: cs => match lexec1 s c with | none => none | some s' => lexec s' cs

theorem lexec1_step {s s' : LSys Key} {c : LCmd} (h : lexec1 s c = some s') : LStep s c.label s' := by
  cases c with
  | base c =>
    cases c with
    | arrive r => cases h; exact .arrive s r
    | other op =>
      simp only [lexec1] at h
      cases hs : Limiter.step s.st op with
      | none => rw [hs] at h; cases h
      | some x => rw [hs] at h; cases h; exact .other s op x.1 x.2 hs
    | go i =>
      simp only [lexec1] at h
      split at h
      · cases h
      · rename_i t b hd
        split at h
        · rename_i hf
          have he : s.threads = s.threads.take i ++ t :: b := by rw [← hd, List.take_append_drop]
          obtain ⟨st, th⟩ := s
          simp only at he h hf hd
          generalize th.take i = a at he h
          subst he
          cases ha : advance st t.th with
          | none => rw [ha] at h; cases h
          | some x =>
            rw [ha] at h; cases h
            refine .move st a b t x.1 x.2 ?_ ha
            intro l hl t' ht' k hk
            unfold lfreeB at hf
            rw [List.all_eq_true] at hf
            have h1 := hf l hl
            rw [List.all_eq_true] at h1
            have h2 := h1 t' ht'
            rw [List.all_eq_true] at h2
            have h3 := h2 k hk
            simpa using h3
        · cases h
  | lose i k =>
    simp only [lexec1] at h
    split at h
    · cases h
    · rename_i t b hd
      split at h
      · rename_i hf
        have he : s.threads = s.threads.take i ++ t :: b := by rw [← hd, List.take_append_drop]
        obtain ⟨st, th⟩ := s
        simp only at he h hf hd
        generalize th.take i = a at he h
        subst he
        cases h
        rw [Bool.and_eq_true] at hf
        refine .lose st a b t k ?_ (List.contains_iff_mem.1 hf.2)
        have := hf.1
        unfold openB at this
        unfold LThread.open
        split at this <;> simp_all
      · cases h

theorem lexec_run {s' : LSys Key} : ∀ {cs : List LCmd} {s : LSys Key}, lexec s cs = some s' → LRun s (cs.map LCmd.label) s'
  | [], s, h => by cases h; exact .nil _
  | c :: cs, s, h => by
    simp only [lexec] at h
    split at h
    · cases h
    · rename_i s1 h1
      exact .cons (lexec1_step h1) (lexec_run h)

/-- The example of C41 (limit 2 for the group a = 1, whose total is 1): the first increment loses its lock for a while it sums up the counters; the
second one gets it, and both are accepted. -/
def leaseScript : List LCmd :=
  concScript.map .base ++ [.lose 0 sa] ++ List.replicate 7 (.base (.go 1)) ++ List.replicate 7 (.base (.go 0)) ++ List.replicate 4 (.base (.go 1))

/-- Where the example leads. -/
def leaseSys : LSys Key := match lexec ⟨limState, []⟩ leaseScript with | some s => s | none => ⟨State.init, []⟩

theorem leaseSys_run : LRun ⟨limState, []⟩ (leaseScript.map LCmd.label) leaseSys := by
  have h : (lexec ⟨limState, []⟩ leaseScript).isSome = true := by decide +kernel
  obtain ⟨s, hs⟩ := Option.isSome_iff_exists.1 h
  have : leaseSys = s := by unfold leaseSys; rw [hs]
  rw [this]; exact lexec_run hs

theorem leaseScript_moves : ∀ l ∈ (leaseScript.drop 9).map LCmd.label, l = .move := by
  intro l hl
  have h9 : leaseScript.drop 9 = [.lose 0 sa] ++ List.replicate 7 (.base (.go 1)) ++ List.replicate 7 (.base (.go 0)) ++ List.replicate 4 (.base (.go 1)) := by
    simp [leaseScript, concScript]
  rw [h9] at hl
  simp only [List.map_append, List.map_cons, List.map_nil, List.map_replicate, List.mem_append, List.mem_singleton, List.mem_replicate] at hl
  rcases hl with ((hl | hl) | hl) | hl
  · exact hl
  all_goals exact hl.2

theorem leaseScript_labels : leaseScript.map LCmd.label = concScript.map Cmd.label ++ (leaseScript.drop 9).map LCmd.label := by
  simp [leaseScript, concScript, LCmd.label]

theorem leaseScript_valid : ∀ l ∈ leaseScript.map LCmd.label, ValidLabel l := by
  intro l hl
  rw [leaseScript_labels] at hl
  rcases List.mem_append.1 hl with hl | hl
  · exact concScript_valid l hl
  · rw [leaseScript_moves l hl]; trivial

theorem leaseScript_quiet : ∀ l ∈ leaseScript.map LCmd.label, Quiet (KeepsRule 0) 1 l := by
  intro l hl
  rw [leaseScript_labels] at hl
  rcases List.mem_append.1 hl with h | h
  · simp only [concScript, List.map_cons, List.map_nil, List.mem_cons, List.not_mem_nil, or_false, Cmd.label] at h
    rcases h with rfl | rfl | rfl | rfl | rfl | rfl | rfl | rfl | rfl
    · exact ⟨trivial, fun k c e => by cases e⟩
    · exact Int.le_refl _
    · exact Int.le_refl _
    all_goals trivial
  · rw [leaseScript_moves l h]; trivial

theorem leaseSys_reachable : LeaseReachable leaseSys := ⟨limState, _, limState_small.reachable, leaseScript_valid, leaseSys_run⟩

/-! ### C84 -/

/-- C84.  Without the assumption that locks are kept, the limit of a rule can be exceeded: from a state in which the group is below the limit, a run of valid
requests (two increments by one and a decrement, none of which touches the rule), in which one lock is lost, ends with both increments accepted and the
total of the group above the limit. -/
theorem C84_violated_limit_exceeded : ∃ (st : State Key) (rk kvs : KVs Key) (labels : List (Label Key)) (s : LSys Key), LimReachable st ∧
    HasRule 0 rk 2 (abs st) ∧ applies rk kvs = true ∧ groupTotal (abs st).counters (rk.map (·.1)) kvs ≤ 2 ∧
    (∀ l ∈ labels, ValidLabel l) ∧ (∀ l ∈ labels, Quiet (KeepsRule 0) 1 l) ∧ LRun ⟨st, []⟩ labels s ∧
    (∀ t ∈ s.threads, t.th.okB = true) ∧ (s.threads.map (fun t => t.lost.length)).sum = 1 ∧
    groupTotal (abs s.st).counters (rk.map (·.1)) kvs = 3 := by
  refine ⟨limState, ((abs limState).rules[0]'(by decide +kernel)).kvs, [(sa, ki 1), (sb, ki 1)], _, leaseSys, limState_small.reachable,
    ⟨(abs limState).rules[0]'(by decide +kernel), List.getElem_mem _, by decide +kernel, rfl, by decide +kernel, ?_⟩, by decide +kernel, by decide +kernel,
    leaseScript_valid, leaseScript_quiet, leaseSys_run, ?_, by decide +kernel, by decide +kernel⟩
  · exact List.length_eq_zero_iff.1 (by decide +kernel)
  · have h : leaseSys.threads.all (fun t => t.th.okB) = true := by decide +kernel
    exact fun t ht => List.all_eq_true.1 h t ht

/-- C84.  How far it can be exceeded: the total of every group is at every moment at most limit - 1 + m (or what it was at the beginning) plus the
amounts of those accepted increments of the group that had lost a lock - however increments (each by at most `m`), losses of locks and all other requests (that
leave the rule alone and set no counter to a positive value) interleave. -/
theorem C84_total_bounded {st : State Key} {B : Int} (h : LimSmall st B) {id : Nat} {rk : KVs Key} {L m : Int} (hr : HasRule id rk L (abs st)) (hL : L ≠ -1)
    {labels : List (Label Key)} (hv : ∀ l ∈ labels, ValidLabel l) (hB : B + labelsAmount labels < 2 ^ 63) (hq : ∀ l ∈ labels, Quiet (KeepsRule id) m l)
    {s : LSys Key} (hrun : LRun ⟨st, []⟩ labels s) {kvs : KVs Key} (ha : applies rk kvs = true) :
    groupTotal (abs s.st).counters (rk.map (·.1)) kvs ≤
      max (L - 1 + m) (groupTotal (abs st).counters (rk.map (·.1)) kvs) + slips (rk.map (·.1)) kvs s.threads := by
  obtain ⟨hI, _⟩ := h.inv
  have hne : rk.map (·.1) ≠ [] := by
    obtain ⟨r, hrm, _, rfl, _⟩ := hr
    have := (hI.sinv.rval r hrm).1
    simpa using this
  have h0 : GE (rk.map (·.1)) kvs L m (B + labelsAmount labels) (max (L - 1 + m) (groupTotal (abs st).counters (rk.map (·.1)) kvs)) (HasRule id rk L) ⟨st, []⟩ (labelsAmount labels) :=
    ⟨⟨hI.toRInv, by simp, by simp⟩, ⟨B, hI, by simp [lpends, pends], by simp⟩, hr, by simp only [slips, List.filter_nil, List.map_nil, List.sum_nil]; omega, by simp⟩
  exact (GE.run hB hL hne (by omega) (fun _ hp k hk => effective_rule hp ha hk) (fun _ _ ⟨r, hm, hx⟩ e => ⟨r, by rw [e]; exact hm, hx⟩)
    (KeepsRule id) (fun op hk st _ hp => keeps_rule hk hp) hrun h0 hv hq).tot

/-- C84: the same for the limit of an override. -/
theorem C84_override_total_bounded {st : State Key} {B : Int} (h : LimSmall st B) {id oid : Nat} {rk ok : KVs Key} {L m : Int}
    (hr : HasOverride id rk oid ok L (abs st)) (hL : L ≠ -1)
    {labels : List (Label Key)} (hv : ∀ l ∈ labels, ValidLabel l) (hB : B + labelsAmount labels < 2 ^ 63) (hq : ∀ l ∈ labels, Quiet (KeepsOverride id oid) m l)
    {s : LSys Key} (hrun : LRun ⟨st, []⟩ labels s) {kvs : KVs Key} (ha : applies rk kvs = true) (hao : applies ok kvs = true) :
    groupTotal (abs s.st).counters (ok.map (·.1)) kvs ≤
      max (L - 1 + m) (groupTotal (abs st).counters (ok.map (·.1)) kvs) + slips (ok.map (·.1)) kvs s.threads := by
  obtain ⟨hI, _⟩ := h.inv
  have hsub : ∀ x ∈ rk.map (·.1), x ∈ ok.map (·.1) := by
    obtain ⟨r, hrm, _, rfl, o, hom, _, rfl, _⟩ := hr
    exact hI.sinv.okeys r hrm o hom
  have hne : ok.map (·.1) ≠ [] := by
    obtain ⟨r, hrm, _, rfl, o, hom, _, rfl, _⟩ := hr
    have := (hI.sinv.rval r hrm).1
    intro e
    obtain ⟨x, hx⟩ := List.exists_mem_of_ne_nil _ this
    have := hsub x.1 (List.mem_map.2 ⟨x, hx, rfl⟩)
    rw [e] at this; cases this
  have h0 : GE (ok.map (·.1)) kvs L m (B + labelsAmount labels) (max (L - 1 + m) (groupTotal (abs st).counters (ok.map (·.1)) kvs)) (HasOverride id rk oid ok L) ⟨st, []⟩ (labelsAmount labels) :=
    ⟨⟨hI.toRInv, by simp, by simp⟩, ⟨B, hI, by simp [lpends, pends], by simp⟩, hr, by simp only [slips, List.filter_nil, List.map_nil, List.sum_nil]; omega, by simp⟩
  exact (GE.run hB hL hne (by omega) (fun _ hp k hk => effective_override hp hsub ha hao hk)
    (fun _ _ ⟨r, hm, hx⟩ e => ⟨r, by rw [e]; exact hm, hx⟩) (KeepsOverride id oid) (fun op hk st _ hp => keeps_override hk hp) hrun h0 hv hq).tot

theorem slips_none {keys : List GoString} {kvs : KVs Key} {l : List (LThread Key)} (h : ∀ t ∈ l, t.th.okB = true → t.lost = []) : slips keys kvs l = 0 := by
  unfold slips
  rw [List.filter_eq_nil_iff.2]
  · rfl
  · intro t ht hs
    simp only [LThread.slipped, Bool.and_eq_true] at hs
    rw [h t ht hs.1.2] at hs
    exact absurd hs.1.1 (by simp)

/-- C84 with increments by one, as far as it holds: if no accepted increment lost a lock before it was settled, the limit is never exceeded (whatever the
refused ones lost). -/
theorem C84_limit_kept_partial {st : State Key} {B : Int} (h : LimSmall st B) {id : Nat} {rk : KVs Key} {L : Int} (hr : HasRule id rk L (abs st)) (hL : L ≠ -1)
    (h0 : ∀ kvs, applies rk kvs = true → groupTotal (abs st).counters (rk.map (·.1)) kvs ≤ L)
    {labels : List (Label Key)} (hv : ∀ l ∈ labels, ValidLabel l) (hB : B + labelsAmount labels < 2 ^ 63) (hq : ∀ l ∈ labels, Quiet (KeepsRule id) 1 l)
    {s : LSys Key} (hrun : LRun ⟨st, []⟩ labels s) (hlost : ∀ t ∈ s.threads, t.th.okB = true → t.lost = []) {kvs : KVs Key} (ha : applies rk kvs = true) :
    groupTotal (abs s.st).counters (rk.map (·.1)) kvs ≤ L := by
  have h1 := C84_total_bounded h hr hL hv hB hq hrun ha
  have h2 := h0 kvs ha
  rw [slips_none hlost] at h1
  omega

theorem slips_le_count {keys : List GoString} {kvs : KVs Key} : ∀ {l : List (LThread Key)}, (∀ t ∈ l, t.th.req.c ≤ 1) →
    slips keys kvs l ≤ (l.filter (fun t => t.slipped)).length
  | [], _ => by simp [slips]
  | t :: l, h => by
    have ih := slips_le_count (keys := keys) (kvs := kvs) (l := l) (fun u hu => h u (by simp [hu]))
    have h1 := h t (by simp)
    have := slips_middle keys kvs [] l t
    simp only [List.nil_append] at this
    rw [this, List.filter_cons]
    cases t.slipped
    · simpa using ih
    · simp only [Bool.true_and, if_true, List.length_cons]
      split <;> omega

theorem lrun_amounts {keeps : Limiter.Op Key → Prop} {m : Int} {s s' : LSys Key} {labels : List (Label Key)} (hrun : LRun s labels s') :
    (∀ t ∈ s.threads, t.th.req.c ≤ m) → (∀ l ∈ labels, Quiet keeps m l) → ∀ t ∈ s'.threads, t.th.req.c ≤ m := by
  induction hrun with
  | nil => exact fun h _ => h
  | @cons s s1 s2 l ls hs _ ih =>
    intro h hq
    refine ih ?_ (fun l hl => hq l (by simp [hl]))
    have hl := hq l (by simp)
    cases hs with
    | arrive r =>
      intro t ht
      rcases List.mem_cons.1 ht with rfl | ht
      · exact hl
      · exact h t ht
    | other _ op st' out e => exact h
    | move st a b t st' p hf e =>
      intro u hu
      rcases mem_middle.1 hu with rfl | hu
      · exact h t (mem_middle.2 (.inl rfl))
      · exact h u (mem_middle.2 (.inr hu))
    | fail st a b r ls todo lost =>
      intro u hu
      rcases mem_middle.1 hu with rfl | hu
      · exact h ⟨⟨r, .locking ls todo⟩, lost⟩ (mem_middle.2 (.inl rfl))
      · exact h u (mem_middle.2 (.inr hu))
    | lose st a b t k ho hk =>
      intro u hu
      rcases mem_middle.1 hu with rfl | hu
      · exact h t (mem_middle.2 (.inl rfl))
      · exact h u (mem_middle.2 (.inr hu))
    | loseLate st a b r todo lost out k =>
      intro u hu
      rcases mem_middle.1 hu with rfl | hu
      · exact h ⟨⟨r, .releasing todo out⟩, lost⟩ (mem_middle.2 (.inl rfl))
      · exact h u (mem_middle.2 (.inr hu))

/-- C84 with increments by one: the limit is exceeded by at most the number of accepted increments that lost a lock. -/
theorem C84_excess_counted {st : State Key} {B : Int} (h : LimSmall st B) {id : Nat} {rk : KVs Key} {L : Int} (hr : HasRule id rk L (abs st)) (hL : L ≠ -1)
    (h0 : ∀ kvs, applies rk kvs = true → groupTotal (abs st).counters (rk.map (·.1)) kvs ≤ L)
    {labels : List (Label Key)} (hv : ∀ l ∈ labels, ValidLabel l) (hB : B + labelsAmount labels < 2 ^ 63) (hq : ∀ l ∈ labels, Quiet (KeepsRule id) 1 l)
    {s : LSys Key} (hrun : LRun ⟨st, []⟩ labels s) {kvs : KVs Key} (ha : applies rk kvs = true) :
    groupTotal (abs s.st).counters (rk.map (·.1)) kvs ≤ L + (s.threads.filter (fun t => !t.lost.isEmpty && t.th.okB)).length := by
  have h1 := C84_total_bounded h hr hL hv hB hq hrun ha
  have h2 := h0 kvs ha
  have h3 := slips_le_count (keys := rk.map (·.1)) (kvs := kvs) (lrun_amounts hrun (by simp) hq)
  simp only [LThread.slipped] at h3
  omega

/-- Non-vacuity of the bounds, which are reached: the example meets all hypotheses (the limit is 2, the total at the end 3, one accepted increment lost a lock). -/
example : (∃ rk, HasRule 0 rk 2 (abs limState)) ∧ 45 + labelsAmount (leaseScript.map LCmd.label) < 2 ^ 63 ∧ LimSmall limState 45 ∧
    groupTotal (abs leaseSys.st).counters [sa] [(sa, ki 1)] = 3 ∧ slips [sa] [(sa, ki 1)] leaseSys.threads = 1 ∧
    (leaseSys.threads.filter (fun t => !t.lost.isEmpty && t.th.okB)).length = 1 := by
  refine ⟨⟨_, (abs limState).rules[0]'(by decide +kernel), List.getElem_mem _, by decide +kernel, rfl, by decide +kernel, ?_⟩, by decide +kernel, limState_small,
    by decide +kernel, by decide +kernel, by decide +kernel⟩
  exact List.length_eq_zero_iff.1 (by decide +kernel)

/-- Non-vacuity of `C84_limit_kept_partial`: one increment of the group runs to its end with all its locks; another one loses a lock and does not end. -/
example : (lexec ⟨limState, []⟩ (concScript.map .base ++ List.replicate 7 (.base (.go 0)) ++ [.base (.go 1), .lose 1 sa])).map (fun s =>
    (s.threads.map (fun t => (t.th.okB, t.lost.length)), groupTotal (abs s.st).counters [sa] [(sa, ki 1)])) = some ([(true, 0), (false, 1)], 2) := by
  decide +kernel

/-- C84.  What the locks are for still holds of those increments that kept theirs: two increments of one group, both with all their locks, are never
both between checking their limits and having added. -/
theorem C84_no_overlap {st : State Key} {a b : List (LThread Key)} {t u : LThread Key} (h : LeaseReachable ⟨st, a ++ t :: b⟩) (hu : u ∈ a ++ b)
    {keys : List GoString} (hne : keys ≠ []) (hg : agree keys t.th.req.kvs u.th.req.kvs = true) (htl : t.lost = []) (hul : u.lost = []) :
    ¬ (t.th.critical ∧ u.th.critical) := by
  rintro ⟨h1, h2⟩
  have := h.inv.exclusive hu h1 h2 htl hul hne
  rw [hg] at this; cases this

/-- C84.  No lock is ever held by two increments. -/
theorem C84_locks_exclusive {st : State Key} {a b : List (LThread Key)} {t u : LThread Key} (h : LeaseReachable ⟨st, a ++ t :: b⟩) (hu : u ∈ a ++ b)
    {x y : GoString × Key} (hx : x ∈ t.holds) (hy : y ∈ u.holds) : ¬ (x.1 = y.1 ∧ same x.2 y.2 = true) := by
  rintro ⟨h1, h2⟩
  have := ((pairwise_middle LApart.symm).1 h.inv.apart).1 u hu x hx y hy
  simp only [sameLock, same] at this h2
  rw [h1] at this
  simp only [beq_self_eq_true, Bool.true_and] at this
  rw [h2] at this; cases this

/-- Non-vacuity: before the lock is lost one increment is critical and holds two locks, the other one waits; afterwards both are critical. -/
example : (lexec ⟨limState, []⟩ (leaseScript.take 9)).map (fun s => s.threads.map (fun t => (t.holds.length, lfreeB s.threads t))) = some [(2, true), (0, false)] ∧
    (lexec ⟨limState, []⟩ (leaseScript.take 15)).map (fun s => s.threads.map (fun t => (t.holds.length, t.lost.length, match t.th.phase with | .summing .. => true | _ => false))) =
      some [(1, 1, true), (2, 0, true)] := by decide +kernel

/-- C84.  A lost lock blocks nobody: as long as an increment has not answered, some increment can go on. -/
theorem C84_no_deadlock {s : LSys Key} (h : LeaseReachable s) (hex : ∃ t ∈ s.threads, ¬ t.th.finished) :
    ∃ a t b, s.threads = a ++ t :: b ∧ ¬ t.th.finished ∧ ∃ st' p, advance s.st t.th = some (st', p) ∧ LStep s .move ⟨st', a ++ ⟨⟨t.th.req, p⟩, t.lost⟩ :: b⟩ := by
  obtain ⟨a, t, b, st', p, e, hnd, hf, ha⟩ := h.inv.progress hex
  refine ⟨a, t, b, e, hnd, st', p, ha, ?_⟩
  obtain ⟨st, th⟩ := s
  simp only at e hf ha
  subst e
  exact .move st a b t st' p hf ha

/-- C84.  The counters stay exact: the value of a counter is what it was plus the amounts of exactly those increments of it that are accepted, whatever
locks are lost. -/
theorem C84_no_lost_increment {st : State Key} {B : Int} (h : LimSmall st B) {labels : List (Label Key)} (hv : ∀ l ∈ labels, ValidLabel l)
    (hB : B + labelsAmount labels < 2 ^ 63) {s : LSys Key} (hrun : LRun ⟨st, []⟩ labels s) {kvs : KVs Key} (hk : ValidKVs kvs)
    (hoff : ∀ op, Label.other op ∈ labels → OffCounter kvs op) :
    valueAt (abs s.st).counters kvs = valueAt (abs st).counters kvs + accepted kvs (s.threads.map (·.th)) := by
  obtain ⟨hI, _⟩ := h.inv
  have h0 : CE kvs (valueAt (abs st).counters kvs) (B + labelsAmount labels) ⟨st, []⟩ (labelsAmount labels) :=
    ⟨⟨hI.toRInv, by simp, by simp⟩, ⟨B, hI, by simp [lpends, pends]⟩, by simp [accepted]⟩
  exact (CE.run hB hk hrun h0 hv hoff).val

/-- Non-vacuity: the example has an increment that is not finished on its way, and ends with both counters increased by one. -/
example : (lexec ⟨limState, []⟩ (leaseScript.take 24)).map (fun s => s.threads.map (fun t => match t.th.phase with | .done _ => true | _ => false)) = some [true, false] ∧
    accepted [(sa, ki 1), (sb, ki 6)] (leaseSys.threads.map (·.th)) = 1 ∧ valueAt (abs leaseSys.st).counters [(sa, ki 1), (sb, ki 6)] = 1 ∧
    accepted [(sb, ki 7), (sa, ki 1)] (leaseSys.threads.map (·.th)) = 1 ∧ valueAt (abs leaseSys.st).counters [(sb, ki 7), (sa, ki 1)] = 1 := by decide +kernel

end Willow.Props
