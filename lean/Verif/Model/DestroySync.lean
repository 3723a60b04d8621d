/-
Model of pkg/async/destroy.go: `DestroySync`, as a labelled transition system over any number of threads.

One step for each atomic action: a TryRLock, an RUnlock, the compare-and-swap, announcing a writer, acquiring the write lock,
Unlock, and the store of the flag.  The read-write mutex is modelled as Go documents it: a pending writer keeps new readers out,
the write lock is acquired when the last reader leaves, TryRLock does not fail without a pending or holding writer.
-/
namespace Willow.DestroySync

/-- `sync.RWMutex`: number of readers, a writer that has announced itself, a writer that holds the lock. -/
structure RW where
  readers : Nat := 0
  pending : Bool := false
  held : Bool := false

/-- Where a thread is. -/
inductive PC
  /-- outside -/
  | idle
  /-- GuardOperation returned true, ClearOperation not yet called (destroy.go:41-47) -/
  | guarded
  /-- WaitDestroy: the compare-and-swap succeeded, `Lock` not yet called (destroy.go:50-54) -/
  | won
  /-- WaitDestroy: inside `Lock`, waiting for the readers (destroy.go:54) -/
  | waiting
  /-- WaitDestroy returned true, ClearDestroy not yet called (destroy.go:56) -/
  | destroying
  /-- ClearDestroy: `Unlock` is done, the flag is still set (destroy.go:60-61) -/
  | unlocked
deriving DecidableEq, Repr

/-- What a thread observes. -/
inductive Ev
  | guard (ok : Bool)
  | cleared
  | wait (ok : Bool)
  | clearDestroy
  /-- an internal step -/
  | tau
deriving DecidableEq, Repr

/-- destroy.go:29-32 `DestroySync` and the threads using it. -/
structure St where
  rw : RW := {}
  destroying : Bool := false
  threads : List PC

/-- Steps of the thread `p` between the threads `a` and `b`. -/
inductive Step : St → Ev → St → Prop
  /-- destroy.go:41-43: TryRLock succeeds -/
  | guardOk {rw d a b} : rw.pending = false → rw.held = false →
      Step ⟨rw, d, a ++ .idle :: b⟩ (.guard true) ⟨{ rw with readers := rw.readers + 1 }, d, a ++ .guarded :: b⟩
  /-- destroy.go:41-43: TryRLock fails -/
  | guardFail {rw d a b} : (rw.pending = true ∨ rw.held = true) →
      Step ⟨rw, d, a ++ .idle :: b⟩ (.guard false) ⟨rw, d, a ++ .idle :: b⟩
  /-- destroy.go:45-47 -/
  | clear {rw d a b} :
      Step ⟨rw, d, a ++ .guarded :: b⟩ .cleared ⟨{ rw with readers := rw.readers - 1 }, d, a ++ .idle :: b⟩
  /-- destroy.go:50-52 -/
  | casLose {rw a b} : Step ⟨rw, true, a ++ .idle :: b⟩ (.wait false) ⟨rw, true, a ++ .idle :: b⟩
  /-- destroy.go:50 -/
  | casWin {rw a b} : Step ⟨rw, false, a ++ .idle :: b⟩ .tau ⟨rw, true, a ++ .won :: b⟩
  /-- destroy.go:54: `Lock` excludes other writers, then announces itself -/
  | announce {rw d a b} : rw.pending = false → rw.held = false →
      Step ⟨rw, d, a ++ .won :: b⟩ .tau ⟨{ rw with pending := true }, d, a ++ .waiting :: b⟩
  /-- destroy.go:54-56: the last reader has left -/
  | acquire {rw d a b} : rw.readers = 0 →
      Step ⟨rw, d, a ++ .waiting :: b⟩ (.wait true) ⟨{ rw with pending := false, held := true }, d, a ++ .destroying :: b⟩
  /-- destroy.go:60 -/
  | unlock {rw d a b} : Step ⟨rw, d, a ++ .destroying :: b⟩ .tau ⟨{ rw with held := false }, d, a ++ .unlocked :: b⟩
  /-- destroy.go:61 -/
  | store {rw d a b} : Step ⟨rw, d, a ++ .unlocked :: b⟩ .clearDestroy ⟨rw, false, a ++ .idle :: b⟩

/-- destroy.go:34-39 `NewDestroySync`, with `n` threads. -/
def init (n : Nat) : St := ⟨{}, false, List.replicate n .idle⟩

/-- Reachable states. -/
inductive Reach (n : Nat) : St → Prop
  | init : Reach n (init n)
  | step {s e s'} : Reach n s → Step s e s' → Reach n s'

end Willow.DestroySync
