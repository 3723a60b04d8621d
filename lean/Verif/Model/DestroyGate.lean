/-
DestroyAll of the ordered tree next to the other calls of the same tree.

/repo/internal/datastructures/btree/threadsafe_destroy.go:75-122 (DestroyAll), :24-29 (Destroy), threadsafe_create.go:35-40 and :182-187,
threadsafe_find.go:31, :197, :238, :362, :499, :603, threadsafe_delete.go:65 (every other call: `readWriteWG.Add(1)`, deferred
`readWriteWG.Add(-1)`, then the check of `destroying`), threadsafe_b_tree.go:24-26 (the fields), :100-106 (checkDestroying).

The counter is a `sync.WaitGroup` of Go 1.22 (/repo/go.mod:3), whose source is part of the Go distribution (src/sync/waitgroup.go); its
documented rule, that a positive Add on a zero counter must happen before Wait, is what the tree's calls do not keep.  The steps of Add
and Wait are modelled one by one below, panics included.

What is simplified: one atomic operation (on the state word of the WaitGroup, on its semaphore or on `destroying`) is one step; the load
and the compare-and-swap of Wait are one step (the swap only succeeds when nothing changed in between); the counter and the number of
waiters are not bounded by 32 bits; what a call does between the check of `destroying` and its deferred Add(-1) is `working`, what
DestroyAll does between Wait and the deferred store to `destroying` is `inside` (other parts of the model say what happens there).  The
check of a single key being destroyed (threadsafe_b_tree.go:108-124) comes after the check modelled here and makes the call return
early, which is the same as ending the work at once.  A goroutine that panics runs its deferred functions; the panic itself is then
either recovered (net/http does for handlers) or ends the process, in which case nothing follows.
-/
namespace Willow.DestroyGate

/-- Where a call of the tree other than DestroyAll is. -/
inductive CPc where
  /-- `readWriteWG.Add(1)` has returned; `destroying` is not checked yet.  threadsafe_create.go:35-38. -/
  | added
  /-- The check found `destroying` unset: the call does its work.  threadsafe_create.go:40-71. -/
  | working
  /-- The check found `destroying` set: the call is going to return ErrorTreeDestroying.  threadsafe_create.go:38-40. -/
  | refused
  /-- Inside Add: this call brought the counter to zero while `w` goroutines sleep in Wait; it is going to compare the state with what
  it saw.  `k` says that the Add is the one that begins the call.  src/sync/waitgroup.go, Add. -/
  | last (w : Nat) (k : Bool)
  /-- Inside Add: the comparison succeeded; the call is going to set the state to zero. -/
  | reset (w : Nat) (k : Bool)
  /-- Inside Add: the call is going to release the semaphore `n` times. -/
  | release (n : Nat) (k : Bool)
  /-- The call has returned. -/
  | over
  /-- The call has panicked. -/
  | broke
deriving DecidableEq, Repr

/-- Where a call of DestroyAll is. -/
inductive DPc where
  /-- The compare-and-swap of `destroying` succeeded; going to Wait.  threadsafe_destroy.go:77-83. -/
  | waiting
  /-- Asleep on the semaphore inside Wait.  threadsafe_destroy.go:83. -/
  | sleeping
  /-- Woken inside Wait; going to look whether the state is zero.  threadsafe_destroy.go:83. -/
  | woken
  /-- Wait has returned: the keys are collected and deleted.  threadsafe_destroy.go:85-122. -/
  | inside
  /-- Returned nil, with `destroying` unset again (the deferred store of line 80). -/
  | over
  /-- Returned ErrorTreeDestroying.  threadsafe_destroy.go:77-79. -/
  | busy
  /-- Panicked in Wait; the deferred store of line 80 has unset `destroying`. -/
  | broke
deriving DecidableEq, Repr

/-- The WaitGroup (counter, waiters, semaphore), the flag and the calls.  threadsafe_b_tree.go:18-40. -/
structure W where
  v : Int
  w : Nat
  sema : Nat
  flag : Bool
  calls : List CPc
  dest : List DPc
deriving DecidableEq, Repr

/-- A new tree.  threadsafe_b_tree.go:72-90. -/
def W.init : W := ⟨0, 0, 0, false, [], []⟩

/-- What Add does after it has changed the counter. -/
inductive AddRes where
  /-- it panics: "negative WaitGroup counter" or "Add called concurrently with Wait" -/
  | panic
  /-- it returns -/
  | ok
  /-- the counter is zero and goroutines sleep in Wait: it goes on to wake them -/
  | last
deriving DecidableEq, Repr

/-- The branches of `(*WaitGroup).Add(delta)` after the atomic addition; `v` is the new counter, `w` the number of waiters.
src/sync/waitgroup.go, Add, called at threadsafe_create.go:35-36 (and the other calls). -/
def addRes (v : Int) (w : Nat) (delta : Int) : AddRes :=
  if v < 0 then .panic
  else if w ≠ 0 ∧ delta > 0 ∧ v = delta then .panic
  else if v > 0 ∨ w = 0 then .ok
  else .last

/-- Where a call is after `Add(1)`.  threadsafe_create.go:35. -/
def beginPc (v : Int) (w : Nat) : CPc :=
  match addRes v w 1 with
  | .panic => .broke
  | .ok => .added
  | .last => .last w true

/-- Where a call is after the deferred `Add(-1)`.  threadsafe_create.go:36. -/
def endPc (v : Int) (w : Nat) : CPc :=
  match addRes v w (-1) with
  | .panic => .broke
  | .ok => .over
  | .last => .last w false

/-- Where a call goes on after an Add that woke the waiters. -/
def afterAdd (k : Bool) : CPc := if k then .added else .over

/-- What a step is. -/
inductive Lbl where
  /-- a call of the tree makes its Add(1) -/
  | begin
  /-- a new DestroyAll does its compare-and-swap -/
  | destroy
  /-- the call at this position makes a step -/
  | call (i : Nat)
  /-- the DestroyAll at this position makes a step -/
  | dest (i : Nat)
deriving DecidableEq, Repr

/-- One step of the call that is at `pc`: the new state of the WaitGroup and where the call is then. -/
inductive CStep (s : W) : CPc → (Int × Nat × Nat) → CPc → Prop
  /-- the check of `destroying`.  threadsafe_create.go:38, threadsafe_b_tree.go:100-106. -/
  | check : CStep s .added (s.v, s.w, s.sema) (if s.flag then .refused else .working)
  /-- the deferred Add(-1) of a call that did its work.  threadsafe_create.go:36. -/
  | leave : CStep s .working (s.v - 1, s.w, s.sema) (endPc (s.v - 1) s.w)
  /-- the deferred Add(-1) of a refused call.  threadsafe_create.go:36. -/
  | leaveRefused : CStep s .refused (s.v - 1, s.w, s.sema) (endPc (s.v - 1) s.w)
  /-- `if wg.state.Load() != state { panic(...) }`.  src/sync/waitgroup.go, Add. -/
  | compare (w : Nat) (k : Bool) :
      CStep s (.last w k) (s.v, s.w, s.sema) (if s.v = 0 ∧ s.w = w then .reset w k else .broke)
  /-- `wg.state.Store(0)`.  src/sync/waitgroup.go, Add. -/
  | reset (w : Nat) (k : Bool) : CStep s (.reset w k) (0, 0, s.sema) (.release w k)
  /-- one `runtime_Semrelease`.  src/sync/waitgroup.go, Add. -/
  | release (n : Nat) (k : Bool) : CStep s (.release (n + 1) k) (s.v, s.w, s.sema + 1) (.release n k)
  /-- all waiters are released: Add returns.  src/sync/waitgroup.go, Add. -/
  | released (k : Bool) : CStep s (.release 0 k) (s.v, s.w, s.sema) (afterAdd k)

/-- One step of the DestroyAll that is at `pc`: waiters, semaphore, flag, and where it is then. -/
inductive DStep (s : W) : DPc → (Nat × Nat × Bool) → DPc → Prop
  /-- Wait with the counter at zero returns at once.  threadsafe_destroy.go:83. -/
  | pass : s.v = 0 → DStep s .waiting (s.w, s.sema, s.flag) .inside
  /-- Wait with another counter adds a waiter and sleeps.  threadsafe_destroy.go:83. -/
  | sleep : s.v ≠ 0 → DStep s .waiting (s.w + 1, s.sema, s.flag) .sleeping
  /-- the semaphore lets the sleeper go.  threadsafe_destroy.go:83. -/
  | wake (n : Nat) : s.sema = n + 1 → DStep s .sleeping (s.w, n, s.flag) .woken
  /-- the state is zero: Wait returns.  threadsafe_destroy.go:83. -/
  | enter : s.v = 0 ∧ s.w = 0 → DStep s .woken (s.w, s.sema, s.flag) .inside
  /-- the state is not zero: "WaitGroup is reused before previous Wait has returned"; the deferred store.  threadsafe_destroy.go:80-83. -/
  | reused : ¬ (s.v = 0 ∧ s.w = 0) → DStep s .woken (s.w, s.sema, false) .broke
  /-- DestroyAll returns; the deferred store.  threadsafe_destroy.go:80, :122. -/
  | finish : DStep s .inside (s.w, s.sema, false) .over

/-- One step of the whole. -/
inductive Step : W → Lbl → W → Prop
  /-- threadsafe_create.go:35, threadsafe_find.go:31, threadsafe_delete.go:65, threadsafe_destroy.go:24. -/
  | begin (s : W) :
      Step s .begin { s with v := s.v + 1, calls := s.calls ++ [beginPc (s.v + 1) s.w] }
  /-- `destroying.CompareAndSwap(false, true)`.  threadsafe_destroy.go:77-79. -/
  | destroy (s : W) :
      Step s .destroy { s with flag := true, dest := s.dest ++ [if s.flag then .busy else .waiting] }
  | call (s : W) (i : Nat) (pc pc' : CPc) (v : Int) (w sema : Nat) : s.calls[i]? = some pc → CStep s pc (v, w, sema) pc' →
      Step s (.call i) { s with v := v, w := w, sema := sema, calls := s.calls.set i pc' }
  | dest (s : W) (i : Nat) (pc pc' : DPc) (w sema : Nat) (flag : Bool) : s.dest[i]? = some pc → DStep s pc (w, sema, flag) pc' →
      Step s (.dest i) { s with w := w, sema := sema, flag := flag, dest := s.dest.set i pc' }

/-- Any number of steps, each of them allowed by `R` in the state it starts from. -/
inductive Run (R : W → Lbl → Prop) : W → W → Prop
  | refl (s : W) : Run R s s
  | step {s s' s'' : W} {l : Lbl} : Run R s s' → R s' l → Step s' l s'' → Run R s s''

end Willow.DestroyGate
