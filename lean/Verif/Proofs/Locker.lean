import Verif.Spec.Locker
namespace Willow.Locker
open Willow.LockerSpec

/-- The thread counts as waiting for lock `l`. -/
def pend (l : LockId) : Thread → Bool
  | .waiting l' _ | .leaving l' | .leavingIn l' _ => l' == l
  | _ => false
def isClaimed (l : LockId) : Thread → Bool
  | .claimed l' _ => l' == l
  | _ => false
def isTo (l : LockId) : Thread → Bool
  | .toWant l' | .toIn l' => l' == l
  | _ => false

/-- 1 if the lock is claimed (or its timeout not yet processed). -/
def hold : Phase → Nat
  | .claiming | .held | .heldReply | .hbReply _ | .relReply .failed | .ctxWait | .panicked => 1
  | _ => 0
def alive : Phase → Bool
  | .absent | .exited | .stuck => false
  | _ => true
/-- Phases in which the client counter is exact. -/
def counted : Phase → Bool
  | .absent | .exited | .stuck | .notRunning => false
  | _ => true
/-- Phases of the inner loop. -/
def inner : Phase → Bool
  | .held | .heldReply | .hbReply _ | .relReply .failed => true
  | _ => false
def sessOk : Phase → Bool
  | .held | .heldReply | .hbReply _ | .relReply .failed | .exited | .panicked => true
  | _ => false
/-- Phases in which a deleting thread waits for the answer `destroy`. -/
def replyW : Phase → Option Bool
  | .outerReply b | .toReply b | .ctxReply b => some b
  | .relReply .destroy => some true
  | .relReply .processed => some false
  | _ => none

def refOk (tree : Option LockId) : Thread → Prop
  | .waiting l _ | .claimed l _ | .leaving l => tree = some l
  | .leavingIn l l' | .leavingResp l l' => l' = l ∧ tree = some l
  | .hbIn l _ | .hbResp l _ => tree = some l
  | .relIn l' _ | .relResp l' _ | .toWant l' | .toIn l' | .toResp l' => tree = some l'
  | .relFound _ _ => True

/-- The live sessions according to the state. -/
def liveSt (s : St) : List Sess :=
  match s.tree with
  | none => []
  | some l => match (s.objs l).session with
    | none => []
    | some x => [x]

structure Inv (s : St) : Prop where
  absent : ∀ l, s.next ≤ l → s.objs l = {}
  born : ∀ l, l < s.next → (s.objs l).phase ≠ .absent
  notStuck : ∀ l, (s.objs l).phase ≠ .stuck
  treeLt : ∀ l, s.tree = some l → l < s.next
  refs : ∀ t ∈ s.threads, refOk s.tree t
  excl : s.threads.countP Thread.holdsW ≤ 1
  exclR : s.threads.countP Thread.holdsW = 1 → s.threads.countP Thread.holdsR = 0
  one : ∀ l, alive (s.objs l).phase = true → s.tree = some l
  cnt : ∀ l, counted (s.objs l).phase = true → (s.objs l).count = s.threads.countP (pend l) + hold (s.objs l).phase
  claimedN : ∀ l, s.threads.countP (isClaimed l) = if (s.objs l).phase = .claiming then 1 else 0
  toN : ∀ l, s.threads.countP (isTo l) = if (s.objs l).blockDone = true ∨ (s.objs l).phase = .ctxWait then 1 else 0
  sess : ∀ l, (s.objs l).session ≠ none → sessOk (s.objs l).phase = true ∧ s.tree = some l
  armed : ∀ l, (s.objs l).armed = true → inner (s.objs l).phase = true → (s.objs l).session ≠ none
  bd : ∀ l, (s.objs l).blockDone = true → inner (s.objs l).phase = true ∧ (s.objs l).session = none
  reply : ∀ l b, replyW (s.objs l).phase = some b →
    (b = true ↔ (s.objs l).count = 0) ∧ s.threads.countP Thread.holdsW = 1

theorem free_iff (ts : List Thread) :
    free ts ↔ ts.countP Thread.holdsW = 0 ∧ ts.countP Thread.holdsR = 0 := by
  simp only [free, List.countP_eq_zero]
  constructor
  · intro h; exact ⟨fun t ht => by simp [(h t ht).1], fun t ht => by simp [(h t ht).2]⟩
  · intro h t ht
    exact ⟨by simpa using h.1 t ht, by simpa using h.2 t ht⟩

theorem readable_iff (ts : List Thread) : readable ts ↔ ts.countP Thread.holdsW = 0 := by
  simp only [readable, List.countP_eq_zero]
  constructor
  · intro h t ht; simp [h t ht]
  · intro h t ht; simpa using h t ht

theorem Inv.init : Inv {} := by
  constructor <;> intros <;> simp_all [alive, counted, replyW]

theorem replyW_alive {p : Phase} {b : Bool} (h : replyW p = some b) : alive p = true := by
  unfold replyW at h; split at h <;> simp_all [alive]

theorem replyW_counted {p : Phase} {b : Bool} (h : replyW p = some b) : counted p = true := by
  unfold replyW at h; split at h <;> simp_all [counted]

theorem refs_drop {tree : Option LockId} {l : LockId} {ts : List Thread} (ht : tree = some l)
    (h : ∀ t ∈ ts, refOk tree t) (hW : ts.countP Thread.holdsW = 0) (hR : ts.countP Thread.holdsR = 0)
    (hT : ts.countP (isTo l) = 0) (hP : ts.countP (pend l) = 0) (hC : ts.countP (isClaimed l) = 0) :
    ∀ t ∈ ts, refOk none t := by
  intro t hm
  have h1 := h t hm
  have h2 := (List.countP_eq_zero.mp hW) t hm
  have h3 := (List.countP_eq_zero.mp hR) t hm
  have h4 := (List.countP_eq_zero.mp hT) t hm
  have h5 := (List.countP_eq_zero.mp hP) t hm
  have h6 := (List.countP_eq_zero.mp hC) t hm
  cases t <;> simp_all [refOk, Thread.holdsW, Thread.holdsR, isTo, pend, isClaimed]

theorem pend_next {n : LockId} {tree : Option LockId} {ts : List Thread} (hn : ∀ l, tree = some l → l < n)
    (h : ∀ t ∈ ts, refOk tree t) : ts.countP (pend n) = 0 := by
  refine List.countP_eq_zero.mpr fun t hm => ?_
  have h1 := h t hm
  cases t <;> grind [refOk, pend]

theorem refs_new {tree tree' : Option LockId} {ts : List Thread} (htr : tree = none)
    (h : ∀ t ∈ ts, refOk tree t) : ∀ t ∈ ts, refOk tree' t := by
  intro t hm
  have h1 := h t hm
  cases t <;> grind [refOk]

section
variable (tree : Option LockId) (l l' : LockId) (i : Int) (x : Sess)
theorem refOk_waiting : refOk tree (.waiting l i) = (tree = some l) := rfl
theorem refOk_claimed : refOk tree (.claimed l i) = (tree = some l) := rfl
theorem refOk_leaving : refOk tree (.leaving l) = (tree = some l) := rfl
theorem refOk_leavingIn : refOk tree (.leavingIn l l') = (l' = l ∧ tree = some l) := rfl
theorem refOk_leavingResp : refOk tree (.leavingResp l l') = (l' = l ∧ tree = some l) := rfl
theorem refOk_hbIn : refOk tree (.hbIn l x) = (tree = some l) := rfl
theorem refOk_hbResp : refOk tree (.hbResp l x) = (tree = some l) := rfl
theorem refOk_relFound : refOk tree (.relFound l x) = True := rfl
theorem refOk_relIn : refOk tree (.relIn l x) = (tree = some l) := rfl
theorem refOk_relResp : refOk tree (.relResp l x) = (tree = some l) := rfl
theorem refOk_toWant : refOk tree (.toWant l) = (tree = some l) := rfl
theorem refOk_toIn : refOk tree (.toIn l) = (tree = some l) := rfl
theorem refOk_toResp : refOk tree (.toResp l) = (tree = some l) := rfl
end

end Willow.Locker
