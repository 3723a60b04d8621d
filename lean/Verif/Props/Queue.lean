import Verif.Proofs.Queue
import Verif.Props.Limiter
/-
Properties C53, C66: channels and limiter together (Model/Queue.lean).
-/
namespace Willow.Props
open Willow Willow.Assoc Willow.Spec Willow.Limiter Willow.LimSpec Willow.Queue Willow.QueueSpec Willow.ChanSpec
variable {D : Type}

/-! ### Running a script (for the examples) -/

/-- One request and its answer. -/
def talk1Exec (k : KVs Key) (st : State Key) : Ask → Option (State Key)
  | .up => match Limiter.step st (.upsert {} k 1) with | some (st', .ok) => some st' | _ => none
  | .upRefused => match Limiter.step st (.upsert {} k 1) with | some (_, .ok) => none | some (st', _) => some st' | none => none
  | .down => match Limiter.step st (.upsert {} k (-1)) with | some (st', .ok) => some st' | _ => none
  | .zero => match Limiter.step st (.setCounter k 0) with | some (st', .ok) => some st' | _ => none

theorem talk1Exec_talk {k : KVs Key} {st st' : State Key} {a : Ask} (h : talk1Exec k st a = some st') : Talk1 k st a st' := by
  cases a <;> simp only [talk1Exec] at h
  · split at h <;> simp at h; subst h; rename_i e; exact .up noChoice_valid e
  · split at h <;> simp at h
    subst h; rename_i hne e; exact .upRefused noChoice_valid e hne
  · split at h <;> simp at h; subst h; rename_i e; exact .down noChoice_valid e
  · split at h <;> simp at h; subst h; rename_i e; exact .zero e

/-- Requests in a row. -/
def talkExec (q : GoString) (kvs : KVs Key) (st : State Key) : List (Kind × Ask) → Option (State Key)
  | [] => some st
  | (κ, a) :: as => match talk1Exec (kvsOf q kvs κ) st a with | some st' => talkExec q kvs st' as | none => none

theorem talkExec_talk {q : GoString} {kvs : KVs Key} {st' : State Key} : ∀ {as : List (Kind × Ask)} {st : State Key},
    talkExec q kvs st as = some st' → Talk q kvs st as st'
  | [], st, h => by simp [talkExec] at h; subst h; exact .nil
  | (κ, a) :: as, st, h => by
    simp only [talkExec] at h
    split at h
    · rename_i e; exact .cons (talk1Exec_talk e) (talkExec_talk h)
    · simp at h

/-- What happens in a script. -/
inductive SysCmd
  | create (q : GoString) (kvs : KVs Key)
  /-- a step of the channel with this number -/
  | chan (i : Nat) (c : ChanCmd)
  | other (op : Limiter.Op Key)

/-- Execute one step, if it is possible. -/
def sysExec1 (s : Sys Nat) : SysCmd → Option (Sys Nat)
  | .create q kvs => if s.chans.all (fun c => !(c.live && (c.queue == q && sameKVs c.kvs kvs))) then some ⟨s.lim, s.chans ++ [⟨q, kvs, Channel.init⟩]⟩ else none
  | .chan i cmd => match s.chans.drop i with
    | [] => none
    | c :: l2 => if c.st.crashed then none else match chanExec1 c.st cmd with
      | none => none
      | some st' =>
        let evs := (st'.log.take (st'.log.length - c.st.log.length)).reverse
        if st'.log = evs.reverse ++ c.st.log then
          match talkExec c.queue c.kvs s.lim (dequeueAsks c.st st' ++ evs.flatMap asksOf) with
          | some lim' => some ⟨lim', s.chans.take i ++ { c with st := st' } :: l2⟩
          | none => none
        else none
  | .other op => match Limiter.step s.lim op with | some (lim', _) => some ⟨lim', s.chans⟩ | none => none

/-- The label of a step, except for the state of a channel. -/
def SysCmd.fits : SysCmd → Label Nat → Prop
  | .create q kvs, l => l = .create q kvs
  | .chan _ _, l => ∃ c, l = .chan c
  | .other op, l => l = .other op

theorem sysExec1_step {s s' : Sys Nat} {c : SysCmd} (h : sysExec1 s c = some s') : ∃ l, c.fits l ∧ Queue.Step s l s' := by
  cases c with
  | create q kvs =>
    simp only [sysExec1] at h
    split at h <;> simp at h
    subst h
    rename_i hc
    refine ⟨_, rfl, Queue.Step.create q kvs fun c hm hl hx => ?_⟩
    have := List.all_eq_true.1 hc c hm
    simp [hl, hx.1, hx.2] at this
  | chan i cmd =>
    simp only [sysExec1] at h
    split at h
    · simp at h
    · rename_i c l2 hd
      split at h
      · simp at h
      · rename_i hcr
        split at h
        · simp at h
        · rename_i st' h1
          split at h
          · rename_i hl
            split at h <;> simp at h
            subst h
            rename_i ht
            refine ⟨_, ⟨c, rfl⟩, ?_⟩
            have e : s = ⟨s.lim, s.chans.take i ++ c :: l2⟩ := by rw [← hd, List.take_append_drop]
            have hst := Queue.Step.chan (l1 := s.chans.take i) (l2 := l2) (by simpa using hcr) (chanExec1_step h1) hl (talkExec_talk ht)
            rw [← e] at hst
            exact hst
          · simp at h
  | other op =>
    simp only [sysExec1] at h
    split at h <;> simp at h
    subst h
    rename_i e
    exact ⟨_, rfl, Queue.Step.other op e⟩

/-- Execute a script. -/
def sysExec (s : Sys Nat) : List SysCmd → Option (Sys Nat)
  | [] => some s
  | c :: cs => match sysExec1 s c with | some s' => sysExec s' cs | none => none

theorem forall2_snoc {α β : Type} {R : α → β → Prop} {a : α} {b : β} (h : R a b) : ∀ {l : List α} {l' : List β}, List.Forall₂ R l l' → List.Forall₂ R (l ++ [a]) (l' ++ [b])
  | _, _, .nil => .cons h .nil
  | _, _, .cons x xs => .cons x (forall2_snoc h xs)

theorem sysExec_run {s0 s' : Sys Nat} : ∀ {cs : List SysCmd} {s : Sys Nat} {ls : List (Label Nat)} {cs0 : List SysCmd}, Queue.Run s0 ls s → List.Forall₂ SysCmd.fits cs0 ls →
    sysExec s cs = some s' → ∃ ls', Queue.Run s0 ls' s' ∧ List.Forall₂ SysCmd.fits (cs0 ++ cs) ls'
  | [], s, ls, cs0, hr, hf, h => by simp [sysExec] at h; subst h; exact ⟨ls, hr, by simpa using hf⟩
  | c :: cs, s, ls, cs0, hr, hf, h => by
    simp only [sysExec] at h
    split at h
    · rename_i s1 e
      obtain ⟨l, f, hst⟩ := sysExec1_step e
      obtain ⟨ls', r, g⟩ := sysExec_run (cs0 := cs0 ++ [c]) (hr.snoc hst) (forall2_snoc f hf) h
      exact ⟨ls', r, by simpa using g⟩
    · simp at h

/-- "a" -/
def exA : GoString := str ['a']
/-- "b" -/
def exB : GoString := str ['b']
/-- "jobs" -/
def exJobs : GoString := str ['j', 'o', 'b', 's']
/-- "other" -/
def exOther : GoString := str ['o', 't', 'h', 'e', 'r']

/-- willow starts (cmd/willow/main.go) and creates the queues "jobs" for at most 4 items and "other" for at most 2; a user limits the items with a = "a" that are
processed at the same time to 2. -/
def bootOps : List (Limiter.Op Key) :=
  [.createRule ruleKVs 0, .createOverride 0 (overrideKVs exJobs) 4, .createOverride 0 (overrideKVs exOther) 2,
   .createRule [(exA, vString exA), (pre ++ sRunning, KeyOps.any)] 2]

/-- The limiter then. -/
def bootState : State Key := match Limiter.run State.init bootOps with | some (st, _) => st | none => State.init

theorem bootOps_valid : ∀ op ∈ bootOps, LimSpec.ValidOp op := by
  intro op h
  simp only [bootOps, List.mem_cons, List.not_mem_nil, or_false] at h
  rcases h with rfl | rfl | rfl | rfl <;> simp only [LimSpec.ValidOp, ValidLimit] <;> decide +kernel

theorem bootState_small : LimSmall bootState 0 := by
  obtain ⟨st, outs, e, _⟩ := C37_refines bootOps bootOps_valid (by decide +kernel)
  refine ⟨bootOps, outs, bootOps_valid, by decide +kernel, by decide, ?_⟩
  unfold bootState; rw [e]

theorem bootState_rules : (abs bootState).rules =
    [⟨0, ruleKVs, 0, [⟨0, overrideKVs exJobs, 4⟩, ⟨1, overrideKVs exOther, 2⟩], 2⟩, ⟨1, [(exA, vString exA), (pre ++ sRunning, KeyOps.any)], 2, [], 0⟩] := by
  obtain ⟨st, outs, e, h, _⟩ := C37_refines bootOps bootOps_valid (by decide +kernel)
  have e2 : bootState = st := by unfold bootState; rw [e]
  rw [e2, h]
  rfl

theorem bootState_has : HasOverride 0 ruleKVs 0 (overrideKVs exJobs) 4 (abs bootState) ∧ HasOverride 0 ruleKVs 1 (overrideKVs exOther) 2 (abs bootState) ∧
    HasRule 1 [(exA, vString exA), (pre ++ sRunning, KeyOps.any)] 2 (abs bootState) := by
  unfold HasOverride HasRule
  rw [bootState_rules]
  exact ⟨⟨_, .head _, rfl, rfl, _, .head _, rfl, rfl, rfl⟩, ⟨_, .head _, rfl, rfl, _, .tail _ (.head _), rfl, rfl, rfl⟩, ⟨_, .tail _ (.head _), rfl, rfl, rfl, rfl⟩⟩

/-- Is the command valid? -/
def SysCmd.valid (bad : List GoString) : SysCmd → Prop
  | .create _ kvs => GoodKeys bad kvs
  | .chan _ _ => True
  | .other op => LimSpec.ValidOp op

/-- How much the command can add to the counters. -/
def SysCmd.amount : SysCmd → Int
  | .create _ _ => 0
  | .chan _ _ => 1
  | .other op => LimSpec.amount op

theorem fits_labels {bad : List GoString} : ∀ {cs : List SysCmd} {ls : List (Label Nat)}, List.Forall₂ SysCmd.fits cs ls →
    ((∀ c ∈ cs, c.valid bad) → ∀ l ∈ ls, QueueSpec.ValidLabel bad l) ∧ (∀ op, .other op ∈ ls → .other op ∈ cs) ∧ QueueSpec.labelsAmount ls = (cs.map SysCmd.amount).sum
  | _, _, .nil => by simp [QueueSpec.labelsAmount]
  | c :: cs, l :: ls, .cons h hs => by
    obtain ⟨h1, h2, h3⟩ := fits_labels (bad := bad) hs
    have key : (c.valid bad → QueueSpec.ValidLabel bad l) ∧ (∀ op, l = .other op → c = .other op) ∧ QueueSpec.labelAmount l = c.amount := by
      cases c with
      | create q kvs => simp only [SysCmd.fits] at h; subst h; exact ⟨id, (fun _ e => by cases e), rfl⟩
      | chan i cc => obtain ⟨c, rfl⟩ := h; exact ⟨id, (fun _ e => by cases e), rfl⟩
      | other op => simp only [SysCmd.fits] at h; subst h; exact ⟨id, (fun _ e => by cases e; rfl), rfl⟩
    refine ⟨fun hv l' hl' => ?_, fun op ho => ?_, ?_⟩
    · rcases List.mem_cons.1 hl' with rfl | hl'
      · exact key.1 (hv c (by simp))
      · exact h1 (fun c hc => hv c (by simp [hc])) l' hl'
    · rcases List.mem_cons.1 ho with e | ho
      · rw [key.2.1 op e.symm]; simp
      · exact List.mem_cons_of_mem _ (h2 op ho)
    · unfold QueueSpec.labelsAmount at *
      rw [List.map_cons, List.sum_cons, List.map_cons, List.sum_cons, h3, key.2.2]

/-- The state after a script. -/
def sysRun (cs : List SysCmd) : Sys Nat := (sysExec ⟨bootState, []⟩ cs).getD ⟨bootState, []⟩

theorem sysRun_run {cs : List SysCmd} (h : (sysExec ⟨bootState, []⟩ cs).isSome = true) : ∃ ls, Queue.Run ⟨bootState, []⟩ ls (sysRun cs) ∧ List.Forall₂ SysCmd.fits cs ls := by
  unfold sysRun
  cases e : sysExec ⟨bootState, []⟩ cs with
  | none => rw [e] at h; cases h
  | some s =>
    obtain ⟨ls, hr, hf⟩ := sysExec_run (cs0 := []) .nil .nil e
    exact ⟨ls, hr, by simpa using hf⟩

/-- The steps of a delivery from a channel. -/
def deliver (i : Nat) : List SysCmd := takeCmds.map (.chan i) ++ [.chan i .received]

/-- Two channels of "jobs" and one of "other"; items are stored, one delivered, one refused; other users of the limiter do something, too; "jobs" is limited to 3. -/
def busyScript : List SysCmd :=
  [.create exJobs [(exA, vString exA)], .create exJobs [(exA, vString exA), (exB, vString exB)], .create exOther [(exA, vString exA)],
   .chan 0 (.enqueue reqA true), .chan 1 (.enqueue reqA true), .chan 2 (.enqueue reqB true), .other (.updateOverride 0 0 3),
   .chan 1 (.enqueue reqB true), .chan 0 (.enqueue reqA false), .other (.upsert {} [(exB, vString exA)] 3)] ++ deliver 1 ++ deliver 2 ++
  (takeCmds.take 2).map (.chan 0) ++ [.chan 0 (.count false)]

theorem good_decide {bad : List GoString} {kvs : KVs Key} (h1 : (kvs.map (·.1)).Nodup) (h2 : kvs ≠ []) (h3 : ∀ kv ∈ kvs, wild kv.2 = false)
    (h4 : ∀ kv ∈ kvs, kv.1 ∉ bad) : GoodKeys bad kvs := ⟨⟨h2, h1⟩, h3, h4⟩

/-! ### C53 -/

/-- What the channels of a queue count, over all its channels. -/
def countedIn (q : GoString) (s : Sys D) : Nat := ((channels q s).map (fun c => c.st.enq)).sum

/-- What the channels of a group count as being processed. -/
def runningIn (keys : List GoString) (kvs : KVs Key) (s : Sys D) : Nat :=
  ((s.chans.filter (fun c => !c.st.closed && agree keys kvs (runKVs c.queue c.kvs))).map (fun c => c.st.run)).sum

theorem totalAmount_nonneg : ∀ ops : List (Limiter.Op Key), 0 ≤ totalAmount ops
  | [] => by simp [totalAmount]
  | o :: os => by
    have ih := totalAmount_nonneg os
    unfold totalAmount at *
    rw [List.map_cons, List.sum_cons]
    have : 0 ≤ amount o := by cases o <;> simp [amount] <;> omega
    omega

theorem start_core {κ : Kind} {bad : List GoString} {st0 : State Key} {B : Int} (h0 : LimSmall st0 B) {keys : List GoString} {kvs0 : KVs Key} {M : Int} (hM : 0 ≤ M) :
    Core κ bad keys kvs0 M (⟨st0, []⟩ : Sys D) B := by
  have hI := h0.inv.1
  refine ⟨hI, ?_, by simp, by simp, by simp, by simp, by simpa [sumIn] using hM⟩
  obtain ⟨ops, _, _, rfl, _, _⟩ := h0
  exact totalAmount_nonneg ops

/-- From a history without any limit to one with a limit. -/
theorem two_phases {κ : Kind} {bad : List GoString} {key : GoString} (hS : Setting κ bad key) {st0 : State Key} {B : Int} (h0 : LimSmall st0 B)
    {s0 s : Sys D} {ls0 ls : List (Label D)} (hr0 : Queue.Run ⟨st0, []⟩ ls0 s0) (hr : Queue.Run s0 ls s)
    {keys : List GoString} {kvs0 : KVs Key} {M : Int} {P : St → Prop}
    (hP : ∀ st, P st → ∀ k, agree keys kvs0 k = true → ∃ L, L ≠ -1 ∧ L ≤ M ∧ (keys, L) ∈ effective st.rules k)
    (hPr : ∀ st st', st'.rules = st.rules → P st → P st') (Ok : Limiter.Op Key → Prop)
    (hPo : ∀ st op, SInv st → LimSpec.ValidOp op → Ok op → P st → P (specStep st op).1)
    (hP0 : P (abs s0.lim)) (hv : ∀ l ∈ ls0 ++ ls, QueueSpec.ValidLabel bad l) (ho0 : ∀ op, .other op ∈ ls0 ++ ls → OffKey key op)
    (ho : ∀ op, .other op ∈ ls → Ok op) (hB : B + QueueSpec.labelsAmount (ls0 ++ ls) < 2 ^ 63 - 1) (hq0 : ∀ c ∈ s0.chans, Queue.Quiet κ c.st)
    (hq : ∀ c ∈ s.chans, Queue.Quiet κ c.st) (hM : sumIn keys kvs0 (s0.chans.flatMap (tr κ)) ≤ M) :
    ∃ B', Core κ bad keys kvs0 M s B' := by
  have hsum : QueueSpec.labelsAmount (ls0 ++ ls) = QueueSpec.labelsAmount ls0 + QueueSpec.labelsAmount ls := by simp [QueueSpec.labelsAmount]
  have hnn : 0 ≤ QueueSpec.labelsAmount ls := by
    unfold QueueSpec.labelsAmount
    clear hsum hB hv ho0 ho hr
    induction ls with
    | nil => simp
    | cons o os ih =>
      rw [List.map_cons, List.sum_cons]
      have : 0 ≤ QueueSpec.labelAmount o := by
        cases o with
        | other op => cases op <;> simp [QueueSpec.labelAmount, amount] <;> omega
        | _ => simp [QueueSpec.labelAmount]
      omega
  have h1 := (start_core (κ := κ) (bad := bad) (D := D) h0 (keys := [[]]) (kvs0 := []) (M := 0) (by simp)).run hS (P := fun _ => True)
    (fun _ _ k hk => by simp [agree, valueOf] at hk) (fun _ _ _ _ => trivial) (fun _ => True) (fun _ _ _ _ _ _ => trivial) hr0 trivial
    (fun l hl => hv l (by simp [hl])) (fun op hop => ⟨ho0 op (by simp [hop]), trivial⟩) (by omega) hq0
  have h2 : Core κ bad keys kvs0 M s0 (B + QueueSpec.labelsAmount ls0) :=
    ⟨h1.1.lim, h1.1.bound, h1.1.reach, h1.1.good, h1.1.apart, h1.1.val, hM⟩
  exact ⟨_, (h2.run hS hP hPr Ok hPo hr hP0 (fun l hl => hv l (by simp [hl])) (fun op hop => ⟨ho0 op (by simp [hop]), ho op hop⟩) (by omega) hq).1⟩

theorem keeps_limit {id oid : Nat} {rk ok : KVs Key} {M : Int} {op : Limiter.Op Key} (hk : KeepsLimit id oid M op) {st : St}
    (h : ∃ L, 0 ≤ L ∧ L ≤ M ∧ HasOverride id rk oid ok L st) : ∃ L, 0 ≤ L ∧ L ≤ M ∧ HasOverride id rk oid ok L (specStep st op).1 := by
  obtain ⟨L, h0, hL, h⟩ := h
  by_cases hu : ∃ l, op = .updateOverride id oid l
  · obtain ⟨l, rfl⟩ := hu
    obtain ⟨l0, lM⟩ := hk rfl rfl
    simp only [specStep]
    split
    · exact ⟨L, h0, hL, h⟩
    · split
      · exact ⟨L, h0, hL, h⟩
      · obtain ⟨r, hr, e1, e2, o, ho, e3, e4, _⟩ := h
        refine ⟨l, l0, lM, _, mem_setRule hr id _, ?_⟩
        rw [if_pos (by simpa using e1)]
        refine ⟨e1, e2, { o with limit := l }, ?_, e3, e4, rfl⟩
        simp only [Rule.setOverride]
        exact List.mem_map.2 ⟨o, ho, by rw [if_pos (by simpa using e3)]⟩
  · refine ⟨L, h0, hL, keeps_override ?_ h⟩
    cases op with
    | updateOverride i o l => exact fun ⟨a, b⟩ => hu ⟨l, by rw [a, b]⟩
    | _ => exact hk

theorem filter_sum_le {α : Type} {p p' : α → Bool} {f g : α → Nat} : ∀ {l : List α}, (∀ x ∈ l, p x = true → p' x = true ∧ f x ≤ g x) →
    ((l.filter p).map f).sum ≤ ((l.filter p').map g).sum
  | [], _ => by simp
  | x :: l, h => by
    have ih := filter_sum_le (l := l) (fun y hy => h y (by simp [hy]))
    rw [List.filter_cons, List.filter_cons]
    by_cases hp : p x = true
    · obtain ⟨h1, h2⟩ := h x (by simp) hp
      rw [if_pos hp, if_pos h1]; simp only [List.map_cons, List.sum_cons]; omega
    · rw [if_neg hp]
      split
      · simp only [List.map_cons, List.sum_cons]; omega
      · exact ih

theorem sumIn_tr (κ : Kind) (keys : List GoString) (kvs0 : KVs Key) : ∀ l : List (Chan D), sumIn keys kvs0 (l.flatMap (tr κ)) =
    (((l.filter (fun c => !c.st.closed && agree keys kvs0 (kvsOf c.queue c.kvs κ))).map (fun c => num κ c.st)).sum : Nat)
  | [] => by simp [sumIn]
  | c :: l => by
    have ih := sumIn_tr κ keys kvs0 l
    rw [List.flatMap_cons, sumIn_append, ih, List.filter_cons]
    unfold tr
    by_cases hc : c.st.closed = true
    · simp [hc, sumIn]
    · by_cases ha : agree keys kvs0 (kvsOf c.queue c.kvs κ) = true
      · simp [hc, sumIn, ha]
      · simp [hc, sumIn, ha]

theorem same_vString_refl (q : GoString) : same (vString q) (vString q) = true := BTree.keq_refl _

/-- The group of a queue. -/
def queueGroup : List GoString := [pre ++ sQueueName, pre ++ sEnqueued]

theorem override_agree (q : GoString) : agree queueGroup (overrideKVs q) (overrideKVs q) = true := by
  simp [agree, queueGroup, overrideKVs, valueOf_cons, qn_ne_enq, same_vString_refl]

theorem channel_agree {q : GoString} {kvs : KVs Key} (h : GoodKeys badEnq kvs) (q' : GoString) :
    agree queueGroup (overrideKVs q') (enqKVs q kvs) = true ↔ q' = q := by
  rw [enqKVs_eq h]
  simp only [agree, queueGroup, overrideKVs, List.cons_append, valueOf_cons, List.all_cons, List.all_nil]
  simp only [List.append_cancel_left_eq, qn_ne_enq, Ne.symm qn_ne_enq, if_true, if_false, same_vString_refl, Bool.and_true]
  constructor
  · exact same_vString
  · rintro rfl; exact same_vString_refl _

/-- A queue's limit, whatever was stored before: the items a queue stores are at most its maximum, or what was counted when the maximum was set.
Keys that collide with those of willow are excluded, and so are other users of the limiter that change willow's counters; willow may change the maximum, but not
above `M`. -/
theorem C53_lowered_partial {st0 : State Key} {B : Int} (h0 : LimSmall st0 B) {q : GoString} {rid oid : Nat} {M : Int}
    {s0 s : Sys D} {ls0 ls : List (Label D)} (hr0 : Queue.Run ⟨st0, []⟩ ls0 s0) (hr : Queue.Run s0 ls s)
    (hM : ∃ L, 0 ≤ L ∧ L ≤ M ∧ HasOverride rid ruleKVs oid (overrideKVs q) L (abs s0.lim))
    (hv : ∀ l ∈ ls0 ++ ls, QueueSpec.ValidLabel badEnq l) (ho0 : ∀ op, .other op ∈ ls0 ++ ls → OffKey (pre ++ sEnqueued) op)
    (ho : ∀ op, .other op ∈ ls → KeepsLimit rid oid M op) (hB : B + QueueSpec.labelsAmount (ls0 ++ ls) < 2 ^ 63 - 1) :
    (itemsIn q s : Int) ≤ max M (countedIn q s0) := by
  have good0 : ∀ {s : Sys D} {ls : List (Label D)}, Queue.Run ⟨st0, []⟩ ls s → (∀ l ∈ ls, QueueSpec.ValidLabel badEnq l) → ∀ c ∈ s.chans, GoodKeys badEnq c.kvs := by
    intro s ls h
    induction h with
    | nil => intro _ c hc; cases hc
    | snoc _ hst ih =>
      intro hv c hc
      have ih := ih (fun l hl => hv l (by simp [hl]))
      cases hst with
      | create q kvs _ =>
        rcases List.mem_append.1 hc with hc | hc
        · exact ih c hc
        · simp only [List.mem_singleton] at hc; subst hc; exact hv (.create q kvs) (by simp)
      | chan x1 x2 x3 x4 =>
        rename_i c' _ _ _ _
        simp only [List.mem_append, List.mem_cons] at hc
        rcases hc with hc | rfl | hc
        · exact ih c (by simp [hc])
        · exact ih c' (by simp)
        · exact ih c (by simp [hc])
      | other op _ => exact ih c hc
  have hcount : ∀ {s : Sys D}, (∀ c ∈ s.chans, GoodKeys badEnq c.kvs) → sumIn queueGroup (overrideKVs q) (s.chans.flatMap (tr .enq)) = (countedIn q s : Int) := by
    intro s hg
    rw [sumIn_tr]
    unfold countedIn channels
    congr 3
    refine List.filter_congr fun c hc => ?_
    have := channel_agree (q := c.queue) (hg c hc) q
    simp only [kvsOf]
    by_cases e : q = c.queue
    · rw [this.2 e]; subst e; simp [Bool.and_comm]
    · have h2 : agree queueGroup (overrideKVs q) (enqKVs c.queue c.kvs) = false := by
        cases h : agree queueGroup (overrideKVs q) (enqKVs c.queue c.kvs) with
        | false => rfl
        | true => exact absurd (this.1 h) e
      have h3 : (c.queue == q) = false := by simpa using fun h => e h.symm
      rw [h2, h3]; simp
  obtain ⟨B', hc⟩ := two_phases setting_enq h0 hr0 hr (keys := queueGroup) (kvs0 := overrideKVs q) (M := max M (countedIn q s0))
    (P := fun st => ∃ L, 0 ≤ L ∧ L ≤ M ∧ HasOverride rid ruleKVs oid (overrideKVs q) L st)
    (by
      rintro st ⟨L, hL0, hL, h⟩ k hk
      refine ⟨L, by omega, by omega, ?_⟩
      have := effective_override h (by simp [ruleKVs, overrideKVs]) (kvs := overrideKVs q) ?_ ?_ (k := k) hk
      · exact this
      · have hw : wild (KeyOps.any : Key) = true := by decide
        simp [applies, ruleKVs, overrideKVs, valueOf_cons, qn_ne_enq, hw]
      · simp [applies, overrideKVs, valueOf_cons, qn_ne_enq, same_vString_refl])
    (by rintro st st' e ⟨L, h1, h2, r, hr, h3⟩; exact ⟨L, h1, h2, r, by rw [e]; exact hr, h3⟩)
    (KeepsLimit rid oid M) (fun st op _ _ hk hp => keeps_limit hk hp) hM hv ho0 ho hB (fun _ _ e => by cases e) (fun _ _ e => by cases e)
    (by rw [hcount (good0 hr0 (fun l hl => hv l (by simp [hl])))]; omega)
  have h1 := hc.sum
  rw [hcount hc.good] at h1
  refine Int.le_trans (Int.ofNat_le.2 ?_) h1
  refine filter_sum_le fun c hm hp => ⟨hp, ?_⟩
  have hcl : c.st.closed = false := by simp at hp; exact hp.2
  refine (C49_partial (hc.reach c hm) ?_).1
  cases hf : c.st.forced with
  | false => rfl
  | true => rw [(Channel.inv_reach (hc.reach c hm)).forced hf] at hcl; cases hcl

/-- C53, the part that holds: the items a queue stores over all its channels are at most its maximum, provided no item has one of the keys "queue_name", "enqueued"
and "_willow_enqueued", and nobody but willow changes the counters willow uses.  (Missing: the same for all keys, see `C53_violated`.) -/
theorem C53_partial {st0 : State Key} {B : Int} (h0 : LimSmall st0 B) {q : GoString} {rid oid : Nat} {M : Int}
    (hM : ∃ L, 0 ≤ L ∧ L ≤ M ∧ HasOverride rid ruleKVs oid (overrideKVs q) L (abs st0))
    {s : Sys D} {ls : List (Label D)} (hr : Queue.Run ⟨st0, []⟩ ls s)
    (hv : ∀ l ∈ ls, QueueSpec.ValidLabel badEnq l) (ho : ∀ op, .other op ∈ ls → OffKey (pre ++ sEnqueued) op ∧ KeepsLimit rid oid M op)
    (hB : B + QueueSpec.labelsAmount ls < 2 ^ 63 - 1) :
    (itemsIn q s : Int) ≤ M := by
  have := C53_lowered_partial h0 (.nil (s0 := (⟨st0, []⟩ : Sys D))) hr hM (by simpa using hv) (by simpa using fun op h => (ho op h).1) (fun op h => (ho op h).2) (by simpa using hB)
  obtain ⟨L, hL0, hLM, _⟩ := hM
  simp only [countedIn, channels] at this
  simp at this
  omega

/-- Commands that are valid for C53 and C66. -/
theorem busy_valid : (∀ c ∈ busyScript, c.valid badEnq) ∧ ∀ c ∈ busyScript, c.valid badRun := by
  have key : ∀ bad, bad = badEnq ∨ bad = badRun → ∀ c ∈ busyScript, c.valid bad := by
    intro bad hb c hc
    simp only [busyScript, deliver, takeCmds, List.map_cons, List.map_nil, List.cons_append, List.nil_append, List.take, List.mem_cons, List.not_mem_nil, or_false] at hc
    rcases hb with rfl | rfl <;>
    · rcases hc with rfl | rfl | rfl | rfl | rfl | rfl | rfl | rfl | rfl | rfl | rfl | rfl | rfl | rfl | rfl | rfl | rfl | rfl | rfl | rfl | rfl | rfl | rfl | rfl | rfl
      all_goals first
        | exact trivial
        | exact good_decide (by decide +kernel) (by decide +kernel) (by decide +kernel) (by decide +kernel)
        | (simp only [SysCmd.valid, LimSpec.ValidOp, ValidLimit, LimSpec.Int64, Typed, noChoice_valid]; decide +kernel)
  exact ⟨key _ (.inl rfl), key _ (.inr rfl)⟩

theorem busy_other (op : Limiter.Op Key) (h : .other op ∈ busyScript) : OffKey (pre ++ sEnqueued) op ∧ OffKey (pre ++ sRunning) op ∧ KeepsLimit 0 0 4 op ∧ KeepsRule 1 op := by
  simp [busyScript, deliver, takeCmds] at h
  rcases h with rfl | rfl
  · exact ⟨trivial, trivial, fun _ _ => by omega, trivial⟩
  · refine ⟨?_, ?_, trivial, trivial⟩ <;> simp only [OffKey] <;> decide +kernel

/-- Non-vacuity: a history over three channels; in the end "jobs" stores 3 items, and another one was refused after the maximum was lowered to 3. -/
example : ∃ ls, Queue.Run ⟨bootState, []⟩ ls (sysRun busyScript) ∧ (∀ l ∈ ls, QueueSpec.ValidLabel badEnq l) ∧
    (∀ op, .other op ∈ ls → OffKey (pre ++ sEnqueued) op ∧ KeepsLimit 0 0 4 op) ∧ 0 + QueueSpec.labelsAmount ls < 2 ^ 63 - 1 ∧
    itemsIn exJobs (sysRun busyScript) = 3 ∧ itemsIn exOther (sysRun busyScript) = 1 := by
  obtain ⟨ls, hr, hf⟩ := sysRun_run (cs := busyScript) (by decide +kernel)
  obtain ⟨h1, h2, h3⟩ := fits_labels (bad := badEnq) hf
  refine ⟨ls, hr, h1 busy_valid.1, fun op ho => ?_, ?_, by decide +kernel⟩
  · have := busy_other op (h2 op ho); exact ⟨this.1, this.2.2.1⟩
  · rw [h3]; decide +kernel

/-- The history of `C53_violated`: the items of "jobs" have the key "queue_name", with the value "other". -/
def nameScript : List SysCmd :=
  [.create exJobs [(exA, vString exA)], .create exJobs [(sQueueName, vString exOther)], .create exOther [(exA, vString exA)],
   .chan 0 (.enqueue reqA true), .chan 0 (.enqueue reqA true), .chan 0 (.enqueue reqA true), .chan 0 (.enqueue reqA true), .chan 0 (.enqueue reqA false),
   .chan 1 (.enqueue reqA true), .chan 1 (.enqueue reqA true), .chan 1 (.enqueue reqA false), .chan 2 (.enqueue reqA false)]

/-- C53 fails.  "jobs" is limited to 4 items and "other" to 2; nobody but willow uses the limiter.  Items whose key "queue_name" has the value "other" are counted
for the queue "other": "jobs" stores 6 items, and "other" refuses its first one. -/
theorem C53_violated : ∃ ls s, Queue.Run (⟨bootState, []⟩ : Sys Nat) ls s ∧ (∀ op, .other op ∉ ls) ∧ (∀ c ∈ s.chans, ValidKVs c.kvs ∧ Typed c.kvs) ∧
    HasOverride 0 ruleKVs 0 (overrideKVs exJobs) 4 (abs bootState) ∧ HasOverride 0 ruleKVs 1 (overrideKVs exOther) 2 (abs bootState) ∧
    itemsIn exJobs s = 6 ∧ itemsIn exOther s = 0 ∧ ∃ c ∈ s.chans, c.queue = exOther ∧ .refused ∈ c.st.log := by
  obtain ⟨ls, hr, hf⟩ := sysRun_run (cs := nameScript) (by decide +kernel)
  refine ⟨ls, _, hr, fun op ho => ?_, ?_, bootState_has.1, bootState_has.2.1, by decide +kernel, by decide +kernel, by decide +kernel⟩
  · have := (fits_labels (bad := badEnq) hf).2.1 op ho
    simp [nameScript] at this
  · unfold ValidKVs Typed; decide +kernel

/-! ### C66 -/

theorem calm_back {s0 s : Sys D} {ls : List (Label D)} (hr : Queue.Run s0 ls s) (h : Calm s) : Calm s0 := by
  induction hr with
  | nil => exact h
  | snoc _ hst ih =>
    refine ih ?_
    cases hst with
    | create q kvs _ => exact fun c hc => h c (List.mem_append.2 (.inl hc))
    | chan hc1 hs1 hl ht1 =>
      rename_i c st' evs _
      intro d hd
      simp only [List.mem_append, List.mem_cons] at hd
      rcases hd with hd | rfl | hd
      · exact h d (by simp [hd])
      · obtain ⟨q1, q2⟩ := h { d with st := st' } (by simp)
        simp only [hl] at q1 q2
        exact ⟨fun hm => q1 (List.mem_append.2 (.inr hm)), fun id hm => q2 id (List.mem_append.2 (.inr hm))⟩
      · exact h d (by simp [hd])
    | other op _ => exact h

theorem calm_processing {s : Sys D} (hr : ∀ c ∈ s.chans, Channel.Reach c.st) (h : Calm s) (keys : List GoString) (kvs : KVs Key) :
    processingIn keys kvs s ≤ runningIn keys kvs s := by
  refine filter_sum_le fun c hc hp => ⟨hp, ?_⟩
  obtain ⟨h1, h2⟩ := h c hc
  have := C50_partial (hr c hc) (reach_forced_log (hr c hc) h1) h2
  omega

/-- C66 with any property `P` of the limiter's rules that has the limit as its consequence. -/
theorem running_bounded {st0 : State Key} {B : Int} (h0 : LimSmall st0 B)
    {s0 s : Sys D} {ls0 ls : List (Label D)} (hr0 : Queue.Run ⟨st0, []⟩ ls0 s0) (hr : Queue.Run s0 ls s)
    {keys : List GoString} {kvs0 : KVs Key} {M : Int} {P : St → Prop}
    (hP : ∀ st, P st → ∀ k, agree keys kvs0 k = true → ∃ L, L ≠ -1 ∧ L ≤ M ∧ (keys, L) ∈ effective st.rules k)
    (hPr : ∀ st st', st'.rules = st.rules → P st → P st') (Ok : Limiter.Op Key → Prop)
    (hPo : ∀ st op, Ok op → P st → P (specStep st op).1)
    (hP0 : P (abs s0.lim)) (hv : ∀ l ∈ ls0 ++ ls, QueueSpec.ValidLabel badRun l) (ho0 : ∀ op, .other op ∈ ls0 ++ ls → OffKey (pre ++ sRunning) op)
    (ho : ∀ op, .other op ∈ ls → Ok op) (hB : B + QueueSpec.labelsAmount (ls0 ++ ls) < 2 ^ 63 - 1) (hq : Calm s) :
    (processingIn keys kvs0 s : Int) ≤ max M (runningIn keys kvs0 s0) := by
  have hq0 := calm_back hr hq
  obtain ⟨B', hc⟩ := two_phases setting_run h0 hr0 hr (keys := keys) (kvs0 := kvs0) (M := max M (runningIn keys kvs0 s0)) (P := P)
    (by
      intro st h k hk
      obtain ⟨L, h1, h2, h3⟩ := hP st h k hk
      exact ⟨L, h1, by omega, h3⟩) hPr Ok (fun st op _ _ hk hp => hPo st op hk hp) hP0 hv ho0 ho hB (fun c hc _ => hq0 c hc) (fun c hc _ => hq c hc)
    (by rw [sumIn_tr]; simp only [kvsOf, num, runningIn]; omega)
  have h1 := hc.sum
  rw [sumIn_tr] at h1
  have h2 := calm_processing hc.reach hq keys kvs0
  have h3 : runningIn keys kvs0 s = ((s.chans.filter (fun c => !c.st.closed && agree keys kvs0 (kvsOf c.queue c.kvs .run))).map (fun c => num .run c.st)).sum := rfl
  omega

/-- C66, the part that holds, with a rule: the items being processed, over all channels of all queues that belong to a group of a rule of the limiter, are at most the
rule's limit (or what was counted when the rule was created), provided no item has one of the keys "_willow_queue_name", "_willow_running" and "_willow_enqueued",
nobody but willow changes the counters willow uses, and the two problems of C50 do not occur.  (Missing: the same without them, see `C66_violated`.) -/
theorem C66_rule_partial {st0 : State Key} {B : Int} (h0 : LimSmall st0 B) {rid : Nat} {rk : KVs Key} {L : Int} (hL : L ≠ -1)
    {s0 s : Sys D} {ls0 ls : List (Label D)} (hr0 : Queue.Run ⟨st0, []⟩ ls0 s0) (hr : Queue.Run s0 ls s) (hrule : HasRule rid rk L (abs s0.lim))
    (hv : ∀ l ∈ ls0 ++ ls, QueueSpec.ValidLabel badRun l) (ho0 : ∀ op, .other op ∈ ls0 ++ ls → OffKey (pre ++ sRunning) op)
    (ho : ∀ op, .other op ∈ ls → KeepsRule rid op) (hB : B + QueueSpec.labelsAmount (ls0 ++ ls) < 2 ^ 63 - 1) (hq : Calm s)
    {kvs : KVs Key} (ha : applies rk kvs = true) :
    (processingIn (rk.map (·.1)) kvs s : Int) ≤ max L (runningIn (rk.map (·.1)) kvs s0) :=
  running_bounded h0 hr0 hr (P := HasRule rid rk L) (fun _ hp _ hk => ⟨L, hL, Int.le_refl _, effective_rule hp ha hk⟩)
    (fun _ _ e ⟨r, hm, hx⟩ => ⟨r, by rw [e]; exact hm, hx⟩) (KeepsRule rid) (fun _ _ hk hp => keeps_rule hk hp) hrule hv ho0 ho hB hq

/-- C66, the part that holds, with an override: as `C66_rule_partial`; the limit of the override may be changed, but not above `M`. -/
theorem C66_override_partial {st0 : State Key} {B : Int} (h0 : LimSmall st0 B) {rid oid : Nat} {rk ok : KVs Key} {M : Int}
    {s0 s : Sys D} {ls0 ls : List (Label D)} (hr0 : Queue.Run ⟨st0, []⟩ ls0 s0) (hr : Queue.Run s0 ls s)
    (hsub : ∀ x ∈ rk.map (·.1), x ∈ ok.map (·.1)) (hover : ∃ L, 0 ≤ L ∧ L ≤ M ∧ HasOverride rid rk oid ok L (abs s0.lim))
    (hv : ∀ l ∈ ls0 ++ ls, QueueSpec.ValidLabel badRun l) (ho0 : ∀ op, .other op ∈ ls0 ++ ls → OffKey (pre ++ sRunning) op)
    (ho : ∀ op, .other op ∈ ls → KeepsLimit rid oid M op) (hB : B + QueueSpec.labelsAmount (ls0 ++ ls) < 2 ^ 63 - 1) (hq : Calm s)
    {kvs : KVs Key} (har : applies rk kvs = true) (ha : applies ok kvs = true) :
    (processingIn (ok.map (·.1)) kvs s : Int) ≤ max M (runningIn (ok.map (·.1)) kvs s0) :=
  running_bounded h0 hr0 hr (P := fun st => ∃ L, 0 ≤ L ∧ L ≤ M ∧ HasOverride rid rk oid ok L st)
    (fun _ ⟨L, h1, h2, hp⟩ _ hk => ⟨L, by omega, h2, effective_override hp hsub har ha hk⟩)
    (fun _ _ e ⟨L, h1, h2, r, hm, hx⟩ => ⟨L, h1, h2, r, by rw [e]; exact hm, hx⟩) (KeepsLimit rid oid M) (fun _ _ hk hp => keeps_limit hk hp) hover hv ho0 ho hB hq

/-- C66: a group of channels that starts empty. -/
theorem C66_partial {st0 : State Key} {B : Int} (h0 : LimSmall st0 B) {rid : Nat} {rk : KVs Key} {L : Int} (hL : 0 ≤ L)
    {s : Sys D} {ls : List (Label D)} (hrule : HasRule rid rk L (abs st0)) (hr : Queue.Run ⟨st0, []⟩ ls s)
    (hv : ∀ l ∈ ls, QueueSpec.ValidLabel badRun l) (ho : ∀ op, .other op ∈ ls → OffKey (pre ++ sRunning) op ∧ KeepsRule rid op)
    (hB : B + QueueSpec.labelsAmount ls < 2 ^ 63 - 1) (hq : Calm s) {kvs : KVs Key} (ha : applies rk kvs = true) :
    (processingIn (rk.map (·.1)) kvs s : Int) ≤ L := by
  have := C66_rule_partial h0 (L := L) (by omega) (.nil (s0 := (⟨st0, []⟩ : Sys D))) hr hrule (by simpa using hv) (by simpa using fun op h => (ho op h).1)
    (fun op h => (ho op h).2) (by simpa using hB) hq ha
  simp [runningIn] at this
  omega


/-- Non-vacuity: the history of the example of C53; in the end one item with a = "a" is processed in each of two queues, and a third one was not handed out. -/
example : ∃ ls, Queue.Run ⟨bootState, []⟩ ls (sysRun busyScript) ∧ (∀ l ∈ ls, QueueSpec.ValidLabel badRun l) ∧
    (∀ op, .other op ∈ ls → OffKey (pre ++ sRunning) op ∧ KeepsRule 1 op) ∧ 0 + QueueSpec.labelsAmount ls < 2 ^ 63 - 1 ∧ Calm (sysRun busyScript) ∧
    HasRule 1 [(exA, vString exA), (pre ++ sRunning, KeyOps.any)] 2 (abs bootState) ∧
    processingIn [exA, pre ++ sRunning] [(exA, vString exA), (pre ++ sRunning, vString sTrue)] (sysRun busyScript) = 2 ∧
    itemsIn exJobs (sysRun busyScript) = 3 := by
  obtain ⟨ls, hr, hf⟩ := sysRun_run (cs := busyScript) (by decide +kernel)
  obtain ⟨h1, h2, h3⟩ := fits_labels (bad := badRun) hf
  refine ⟨ls, hr, h1 busy_valid.2, fun op ho => ?_, ?_, ?_, bootState_has.2.2, by decide +kernel⟩
  · have := busy_other op (h2 op ho); exact ⟨this.2.1, this.2.2.2⟩
  · rw [h3]; decide +kernel
  · have : (sysRun busyScript).chans.all (fun c => c.st.log.all (fun | .forced => false | .unsent _ false => false | _ => true)) = true := by decide +kernel
    intro c hc
    have h := List.all_eq_true.1 (List.all_eq_true.1 this c hc)
    exact ⟨fun hm => by simpa using h _ hm, fun id hm => by simpa using h _ hm⟩

/-- The history of `C66_violated_stale_ack`: item 0 times out while item 1 is processed, it is handed out again, the consumer that timed out acks it, and the second
delivery fails. -/
def staleScript : List SysCmd :=
  [.create exJobs [(exA, vString exA)], .chan 0 (.enqueue reqA true), .chan 0 (.enqueue reqA true), .chan 0 (.enqueue reqA true), .chan 0 (.enqueue reqA true)] ++
  deliver 0 ++ deliver 0 ++ [.chan 0 (.fire 0), .chan 0 (.timeout 0)] ++ takeCmds.map (.chan 0) ++ [.chan 0 (.passed 0), .chan 0 .unsent] ++ deliver 0 ++ deliver 0

/-- C66 fails: the limiter limits the items with a = "a" that are processed to 2, but 3 are (stale ack). -/
theorem C66_violated_stale_ack : ∃ ls s, Queue.Run (⟨bootState, []⟩ : Sys Nat) ls s ∧ (∀ op, .other op ∉ ls) ∧ (∀ c ∈ s.chans, GoodKeys badRun c.kvs) ∧
    HasRule 1 [(exA, vString exA), (pre ++ sRunning, KeyOps.any)] 2 (abs bootState) ∧
    processingIn [exA, pre ++ sRunning] [(exA, vString exA), (pre ++ sRunning, vString sTrue)] s = 3 := by
  obtain ⟨ls, hr, hf⟩ := sysRun_run (cs := staleScript) (by decide +kernel)
  refine ⟨ls, _, hr, fun op ho => ?_, ?_, bootState_has.2.2, by decide +kernel⟩
  · have := (fits_labels (bad := badEnq) hf).2.1 op ho
    simp [staleScript, deliver, takeCmds] at this
  · unfold GoodKeys ValidKVs Typed; decide +kernel

/-- The history of `C66_violated_delete`: the queue is deleted while an item is on its way to a consumer; it is created again and two of its items are handed out;
then the delivery of the old item fails. -/
def recreateScript : List SysCmd :=
  [.create exJobs [(exA, vString exA)], .chan 0 (.enqueue reqA true)] ++ takeCmds.map (.chan 0) ++ [.chan 0 .forceBegin, .chan 0 .forceMark, .chan 0 .forceEnd,
   .create exJobs [(exA, vString exA)], .chan 1 (.enqueue reqA true), .chan 1 (.enqueue reqA true), .chan 1 (.enqueue reqA true)] ++
  deliver 1 ++ deliver 1 ++ [.chan 0 .unsent] ++ deliver 1

/-- C66 fails: the limiter limits the items with a = "a" that are processed to 2, but 3 are (deleted queue). -/
theorem C66_violated_delete : ∃ ls s, Queue.Run (⟨bootState, []⟩ : Sys Nat) ls s ∧ (∀ op, .other op ∉ ls) ∧ (∀ c ∈ s.chans, GoodKeys badRun c.kvs) ∧
    HasRule 1 [(exA, vString exA), (pre ++ sRunning, KeyOps.any)] 2 (abs bootState) ∧
    processingIn [exA, pre ++ sRunning] [(exA, vString exA), (pre ++ sRunning, vString sTrue)] s = 3 := by
  obtain ⟨ls, hr, hf⟩ := sysRun_run (cs := recreateScript) (by decide +kernel)
  refine ⟨ls, _, hr, fun op ho => ?_, ?_, bootState_has.2.2, by decide +kernel⟩
  · have := (fits_labels (bad := badEnq) hf).2.1 op ho
    simp [recreateScript, deliver, takeCmds] at this
  · unfold GoodKeys ValidKVs Typed; decide +kernel

end Willow.Props
