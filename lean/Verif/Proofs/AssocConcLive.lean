import Verif.Proofs.AssocConcSim
import Verif.Proofs.LimiterLocks
/-! The associated tree under concurrency: calls end; without destructions nobody waits for ever. -/
namespace Willow.AssocConc
open Willow

variable {V A : Type}

/-! ### No call goes on for ever -/

/-- How far a call is from its end. -/
def Phase.stage (n : Nat) : Phase V A → Nat
  | .query todo _ => 7 * n + 10 + todo.length
  | .lookup _ => 7 * n + 9
  | .touch todo nodes => 4 * n + 8 + 3 * todo.length + 2 * nodes.length
  | .lock todo held _ => 4 * n + 7 + held.length + 2 * todo.length
  | .make held _ => 4 * n + 6 + held.length
  | .unlock todo _ => 4 * n + 5 + todo.length
  | .dfind todo nodes => n + 4 + 3 * todo.length + 2 * nodes.length
  | .dlock todo held _ => n + 3 + 2 * todo.length + held.length
  | .dunlock todo _ _ => n + 2 + todo.length
  | .clean todo _ => 1 + todo.length
  | .mark => 3
  | .seize => 2
  | .wipe _ => 1
  | .done _ _ => 0

@[simp] theorem stage_query (n : Nat) (todo : KVs V) (acc : Option (List Nat)) : (Phase.query todo acc : Phase V A).stage n = 7 * n + 10 + todo.length := rfl
@[simp] theorem stage_lookup (n : Nat) (ids : List Nat) : (Phase.lookup ids : Phase V A).stage n = 7 * n + 9 := rfl
@[simp] theorem stage_touch (n : Nat) (todo : KVs V) (nodes : List Nat) : (Phase.touch todo nodes : Phase V A).stage n = 4 * n + 8 + 3 * todo.length + 2 * nodes.length := rfl
@[simp] theorem stage_lock (n : Nat) (todo held : List Nat) (got : Option (List Nat)) : (Phase.lock todo held got : Phase V A).stage n = 4 * n + 7 + held.length + 2 * todo.length := rfl
@[simp] theorem stage_make (n : Nat) (held : List Nat) (id : Nat) : (Phase.make held id : Phase V A).stage n = 4 * n + 6 + held.length := rfl
@[simp] theorem stage_unlock (n : Nat) (todo : List Nat) (r : Res A) : (Phase.unlock todo r : Phase V A).stage n = 4 * n + 5 + todo.length := rfl
@[simp] theorem stage_dfind (n : Nat) (todo : KVs V) (nodes : List Nat) : (Phase.dfind todo nodes : Phase V A).stage n = n + 4 + 3 * todo.length + 2 * nodes.length := rfl
@[simp] theorem stage_dlock (n : Nat) (todo held : List Nat) (got : Option (List Nat)) : (Phase.dlock todo held got : Phase V A).stage n = n + 3 + 2 * todo.length + held.length := rfl
@[simp] theorem stage_dunlock (n : Nat) (todo : List Nat) (stop : Bool) (r : Res A) : (Phase.dunlock todo stop r : Phase V A).stage n = n + 2 + todo.length := rfl
@[simp] theorem stage_clean (n : Nat) (todo : KVs V) (r : Res A) : (Phase.clean todo r : Phase V A).stage n = 1 + todo.length := rfl
@[simp] theorem stage_wipe (n : Nat) (todo : KVs V) : (Phase.wipe todo : Phase V A).stage n = 1 := rfl
@[simp] theorem stage_done (n : Nat) (r : Res A) (kept : List Nat) : (Phase.done r kept : Phase V A).stage n = 0 := rfl
@[simp] theorem stage_mark (n : Nat) : (Phase.mark : Phase V A).stage n = 3 := rfl
@[simp] theorem stage_seize (n : Nat) : (Phase.seize : Phase V A).stage n = 2 := rfl

local macro "count" : tactic => `(tactic| first | (simp; done) | (simp; omega))

/-- The rest. -/
def Phase.tail : Phase V A → Nat
  | .lookup ids => ids.length
  | .wipe todo => todo.length
  | _ => 0

/-- Closer to the end. -/
def Closer (n : Nat) (p p' : Phase V A) : Prop := p'.stage n < p.stage n ∨ (p'.stage n = p.stage n ∧ p'.tail < p.tail)

theorem afterQuery_stage (c : Call V A) : (afterQuery c).stage c.kvs.length < 7 * c.kvs.length + 9 := by
  cases c <;> simp only [afterQuery, Call.kvs] <;> count

theorem afterUnlock_stage (c : Call V A) (r : Res A) : (afterUnlock c r).stage c.kvs.length < 4 * c.kvs.length + 5 := by
  cases r <;> simp only [afterUnlock] <;> count

theorem afterDfind_stage (c : Call V A) (nodes : List Nat) : (afterDfind c nodes).stage c.kvs.length < c.kvs.length + 4 + 2 * nodes.length := by
  unfold afterDfind; split <;> count

theorem finish_stage (c : Call V A) (r : Res A) : (finish c r).stage c.kvs.length = 0 := by
  cases c <;> rfl

theorem afterDunlock_stage (c : Call V A) (stop : Bool) (r : Res A) : (afterDunlock c stop r).stage c.kvs.length < c.kvs.length + 2 := by
  unfold afterDunlock; split
  · rw [finish_stage]; omega
  · count

/-- Every step of a call brings it closer to its end. -/
theorem next_closer [DecidableEq V] {blocks : (Nat → Option (Item V A)) → Nat → Nat → Bool} {s s' : St V A} {t pick : Nat} {th : Thread V A} (h : next blocks s t pick th = some s') :
    ∃ p', s'.threads = s.threads.set t { th with phase := p' } ∧ Closer th.call.kvs.length th.phase p' := by
  unfold next at h
  have a1 := afterQuery_stage th.call
  split at h
  next acc e => cases h; exact ⟨_, rfl, by rw [e]; left; count⟩
  next p rest acc e =>
    unfold nextQuery at h
    rw [e]
    split at h
    · cases h; exact ⟨_, rfl, by left; count⟩
    · split at h
      · cases h
      · split at h
        · cases h; exact ⟨_, rfl, by left; count⟩
        · cases h; exact ⟨_, rfl, by left; count⟩
  next e => cases h; exact ⟨_, rfl, by rw [e]; left; count⟩
  next id rest e =>
    unfold nextLookup at h
    rw [e]
    split at h
    · cases h; exact ⟨_, rfl, by right; simp [Phase.tail]⟩
    · split at h
      · cases h
      · split at h
        · cases h; exact ⟨_, rfl, by left; count⟩
        · cases h; exact ⟨_, rfl, by right; simp [Phase.tail]⟩
  next nodes e => cases h; exact ⟨_, rfl, by rw [e]; left; count⟩
  next p rest nodes e =>
    unfold nextTouch at h
    rw [e]
    split at h
    · cases h; exact ⟨_, rfl, by left; count⟩
    · split at h
      · cases h
      · cases h; exact ⟨_, rfl, by left; count⟩
  next held got e =>
    unfold nextLocked at h
    rw [e]
    split at h
    · split at h
      · cases h; exact ⟨_, rfl, by left; count⟩
      · split at h
        · cases h; exact ⟨_, rfl, by left; count⟩
        · split at h
          · cases h
          · split at h
            · cases h; exact ⟨_, rfl, by left; count⟩
            · cases h; exact ⟨_, rfl, by left; count⟩
    · split at h
      · cases h; exact ⟨_, rfl, by left; count⟩
      · cases h
  next i rest held got e =>
    unfold nextLock at h
    rw [e]
    split at h
    · cases h
    · cases h; exact ⟨_, rfl, by left; count⟩
  next held id e =>
    unfold nextMake at h
    rw [e]
    split at h
    · split at h
      · cases h
      · cases h; exact ⟨_, rfl, by left; count⟩
    · split at h
      · cases h
      · cases h; exact ⟨_, rfl, by left; count⟩
    · cases h; exact ⟨_, rfl, by left; count⟩
  next r e => cases h; exact ⟨_, rfl, by rw [e]; left; have := afterUnlock_stage th.call r; count⟩
  next i rest r e => cases h; exact ⟨_, rfl, by rw [e]; left; count⟩
  next nodes e => cases h; exact ⟨_, rfl, by rw [e]; left; have := afterDfind_stage th.call nodes; count⟩
  next p rest nodes e =>
    unfold nextDfind at h
    rw [e]
    split at h
    · cases h; exact ⟨_, rfl, by left; count⟩
    · cases h; exact ⟨_, rfl, by left; count⟩
  next held got e =>
    unfold nextDlocked at h
    rw [e]
    split at h
    · split at h
      · cases h; exact ⟨_, rfl, by left; count⟩
      · split at h
        · cases h
        · split at h
          · split at h
            · cases h; exact ⟨_, rfl, by left; count⟩
            · cases h; exact ⟨_, rfl, by left; count⟩
          · cases h; exact ⟨_, rfl, by left; count⟩
    · cases h; exact ⟨_, rfl, by left; count⟩
  next i rest held got e =>
    unfold nextDlock at h
    rw [e]
    split at h
    · cases h
    · split at h
      · cases h; exact ⟨_, rfl, by left; count⟩
      · cases h; exact ⟨_, rfl, by left; count⟩
  next stop r e => cases h; exact ⟨_, rfl, by rw [e]; left; have := afterDunlock_stage th.call stop r; count⟩
  next i rest stop r e => cases h; exact ⟨_, rfl, by rw [e]; left; count⟩
  next r e => cases h; exact ⟨_, rfl, by rw [e]; left; rw [finish_stage]; count⟩
  next p rest r e =>
    unfold nextClean at h
    rw [e]
    split at h
    · cases h; exact ⟨_, rfl, by left; count⟩
    · split at h
      · cases h
      · split at h
        · cases h; exact ⟨_, rfl, by left; count⟩
        · cases h; exact ⟨_, rfl, by left; count⟩
  next e =>
    rw [e]
    split at h
    · cases h
      unfold nextMark
      split
      · exact ⟨_, rfl, by left; count⟩
      · exact ⟨_, rfl, by left; count⟩
    · cases h
  next e =>
    rw [e]
    split at h
    · unfold nextSeize at h
      split at h
      · cases h
      · split at h
        · cases h; exact ⟨_, rfl, by left; count⟩
        · split at h
          · cases h; exact ⟨_, rfl, by left; count⟩
          · cases h; exact ⟨_, rfl, by left; count⟩
    · cases h
  next e =>
    rw [e]
    split at h
    · cases h; exact ⟨_, rfl, by left; count⟩
    · cases h
  next p rest e =>
    rw [e]
    split at h
    next id can q hc hq =>
      split at h
      next it hit =>
        have hlt := (List.getElem?_eq_some_iff.1 hq).1
        have hl : Closer th.call.kvs.length (Phase.wipe (p :: rest) : Phase V A) (.wipe ((p :: rest).eraseIdx pick)) := by
          right
          refine ⟨rfl, ?_⟩
          simp only [Phase.tail]
          rw [List.length_eraseIdx_of_lt hlt]; omega
        unfold nextWipe at h
        split at h
        · cases h; exact ⟨_, rfl, hl⟩
        · split at h
          · cases h
          · simp only at h
            split at h
            · cases h; exact ⟨_, rfl, hl⟩
            · cases h; exact ⟨_, rfl, hl⟩
      · cases h
    · cases h
  · cases h

/-- How much is left to do. -/
def St.stage (s : St V A) : Nat := (s.threads.map fun th => th.phase.stage th.call.kvs.length).sum
def St.tail (s : St V A) : Nat := (s.threads.map fun th => th.phase.tail).sum
def St.open (s : St V A) : Nat := (s.threads.map fun th => if th.returned then 0 else 1).sum

theorem step_less [DecidableEq V] {blocks : (Nat → Option (Item V A)) → Nat → Nat → Bool} {s s' : St V A} {e : Option (Event V A)} (hs : Step blocks s e s') (hne : ∀ c, e ≠ some (.call c)) :
    (Prod.lex Nat.lt_wfRel (Prod.lex Nat.lt_wfRel Nat.lt_wfRel)).rel (s'.stage, s'.tail, s'.open) (s.stage, s.tail, s.open) := by
  cases hs with
  | call c => exact absurd rfl (hne c)
  | go t pick th ht hn =>
    obtain ⟨p', e1, hc⟩ := next_closer hn
    have k1 := sum_set (fun th : Thread V A => th.phase.stage th.call.kvs.length) ht { th with phase := p' }
    have k2 := sum_set (fun th : Thread V A => th.phase.tail) ht { th with phase := p' }
    rw [← e1] at k1 k2
    simp only at k1 k2
    rcases hc with hc | ⟨hc, hc'⟩
    · left; show St.stage s' < St.stage s; unfold St.stage; omega
    · have e2 : s'.stage = s.stage := by unfold St.stage; omega
      rw [e2]
      right; left; show St.tail s' < St.tail s; unfold St.tail; omega
  | ret t th r kept ht hr hp =>
    have k1 := sum_set (fun th : Thread V A => th.phase.stage th.call.kvs.length) ht { th with returned := true }
    have k2 := sum_set (fun th : Thread V A => th.phase.tail) ht { th with returned := true }
    have k3 := sum_set (fun th : Thread V A => if th.returned then 0 else 1) ht { th with returned := true }
    simp only [hr, if_true, Bool.false_eq_true, if_false] at k1 k2 k3
    have e1 : ({ s with threads := s.threads.set t { th with returned := true } } : St V A).stage = s.stage := by unfold St.stage; simp only; omega
    have e2 : ({ s with threads := s.threads.set t { th with returned := true } } : St V A).tail = s.tail := by unfold St.tail; simp only; omega
    rw [e1, e2]
    right; right
    show St.open { s with threads := s.threads.set t { th with returned := true } } < St.open s
    unfold St.open; simp only; omega

theorem no_forever [DecidableEq V] {blocks : (Nat → Option (Item V A)) → Nat → Nat → Bool} (f : Nat → St V A) (h : Forever blocks f) : False := by
  have wf := (Prod.lex Nat.lt_wfRel (Prod.lex Nat.lt_wfRel Nat.lt_wfRel)).wf
  have key : ∀ i, (Prod.lex Nat.lt_wfRel (Prod.lex Nat.lt_wfRel Nat.lt_wfRel)).rel ((f (i + 1)).stage, (f (i + 1)).tail, (f (i + 1)).open) ((f i).stage, (f i).tail, (f i).open) := by
    intro i
    obtain ⟨e, hs, hne⟩ := h i
    exact step_less hs hne
  generalize hg : (fun i => ((f i).stage, (f i).tail, (f i).open)) = g at *
  have key' : ∀ i, (Prod.lex Nat.lt_wfRel (Prod.lex Nat.lt_wfRel Nat.lt_wfRel)).rel (g (i + 1)) (g i) := by
    intro i; rw [← hg]; exact key i
  have : ∀ x, ∀ i, g i = x → False := by
    intro x
    induction wf.apply x with
    | intro x _ ih =>
      intro i e
      exact ih (g (i + 1)) (e ▸ key' i) (i + 1) rfl
  exact this _ 0 rfl

/-! ### Nobody waits for ever -/

theorem exists_above : ∀ l : List Nat, ∃ n, ∀ x ∈ l, x < n
  | [] => ⟨0, nofun⟩
  | a :: l => by
    obtain ⟨n, h⟩ := exists_above l
    refine ⟨n + a + 1, ?_⟩
    intro x hx
    rcases List.mem_cons.1 hx with e | hx
    · omega
    · have := h x hx; omega

/-- The id a call names. -/
def Call.target : Call V A → List Nat
  | .destroy id _ => [id]
  | _ => []

theorem exists_fresh (s : St V A) : ∃ pick, s.fresh pick = true := by
  obtain ⟨n, h⟩ := exists_above (s.used ++ s.threads.flatMap fun th => th.call.target)
  refine ⟨n, ?_⟩
  simp only [St.fresh, Bool.and_eq_true, decide_eq_true_eq, List.all_eq_true]
  refine ⟨?_, ?_⟩
  · intro hn; have := h n (List.mem_append_left _ hn); omega
  · intro th ht
    split
    next j _ e =>
      have := h j (List.mem_append_right _ (List.mem_flatMap.2 ⟨th, ht, by rw [e]; simp [Call.target]⟩))
      simp; omega
    · rfl

/-- The ID node a call needs next. -/
def Thread.waits (s : St V A) (th : Thread V A) : Option Nat :=
  match th.phase with
  | .query (p :: _) _ | .touch (p :: _) _ | .clean (p :: _) _ | .wipe (p :: _) => s.index p
  | .lock (i :: _) _ _ | .dlock (i :: _) _ _ => some i
  | _ => none

/-- A call that is not over goes on if the node it needs is free. -/
theorem next_free [DecidableEq V] {blocks : (Nat → Option (Item V A)) → Nat → Nat → Bool} {s : St V A} (hi : Inv s) (hb : ∀ id, s.busy blocks id = false) {t : Nat} {th : Thread V A}
    (ht : s.threads[t]? = some th) (hd : ∀ r kept, th.phase ≠ .done r kept) (hw : ∀ i, th.waits s = some i → (s.node i).owner = none) :
    ∃ pick s', next blocks s t pick th = some s' := by
  obtain ⟨hcr, _, hfit⟩ := hi.creates t th ht
  unfold Thread.waits at hw
  unfold next
  cases e : th.phase with
  | query todo acc =>
    cases todo with
    | nil => exact ⟨0, _, rfl⟩
    | cons p rest =>
      rw [e] at hw
      refine ⟨0, ?_⟩
      simp only [nextQuery]
      cases hx : s.index p with
      | none => exact ⟨_, rfl⟩
      | some i =>
        simp only
        rw [if_neg (by simp [hw i hx])]
        split <;> exact ⟨_, rfl⟩
  | lookup ids =>
    cases ids with
    | nil => exact ⟨0, _, rfl⟩
    | cons id rest =>
      refine ⟨0, ?_⟩
      simp only [nextLookup, hb]
      split
      · exact ⟨_, rfl⟩
      · simp only [Bool.false_eq_true, if_false]
        split <;> exact ⟨_, rfl⟩
  | touch todo nodes =>
    cases todo with
    | nil => exact ⟨0, _, rfl⟩
    | cons p rest =>
      rw [e] at hw
      refine ⟨0, ?_⟩
      simp only [nextTouch]
      cases hx : s.index p with
      | none => exact ⟨_, rfl⟩
      | some i =>
        simp only
        rw [if_neg (by simp [hw i hx])]
        exact ⟨_, rfl⟩
  | lock todo held got =>
    cases todo with
    | nil =>
      obtain ⟨pick, hf⟩ := exists_fresh s
      refine ⟨pick, ?_⟩
      simp only [nextLocked, hb, hf, if_true]
      split
      · split
        · exact ⟨_, rfl⟩
        · split
          · exact ⟨_, rfl⟩
          · simp only [Bool.false_eq_true, if_false]
            split <;> exact ⟨_, rfl⟩
      · exact ⟨_, rfl⟩
    | cons i rest =>
      rw [e] at hw
      refine ⟨0, ?_⟩
      simp only [nextLock]
      rw [if_neg (by simp [hw i rfl])]
      exact ⟨_, rfl⟩
  | make held id =>
    refine ⟨0, ?_⟩
    simp only [nextMake, hb, Bool.false_eq_true, if_false]
    split <;> exact ⟨_, rfl⟩
  | unlock todo r => cases todo <;> exact ⟨0, _, rfl⟩
  | dfind todo nodes => cases todo <;> exact ⟨0, _, rfl⟩
  | dlock todo held got =>
    cases todo with
    | nil =>
      refine ⟨0, ?_⟩
      simp only [nextDlocked, hb, Bool.false_eq_true, if_false]
      split
      · split
        · exact ⟨_, rfl⟩
        · split
          · split <;> exact ⟨_, rfl⟩
          · exact ⟨_, rfl⟩
      · exact ⟨_, rfl⟩
    | cons i rest =>
      rw [e] at hw
      refine ⟨0, ?_⟩
      simp only [nextDlock]
      rw [if_neg (by simp [hw i rfl])]
      split <;> exact ⟨_, rfl⟩
  | dunlock todo stop r => cases todo <;> exact ⟨0, _, rfl⟩
  | clean todo r =>
    cases todo with
    | nil => exact ⟨0, _, rfl⟩
    | cons p rest =>
      rw [e] at hw
      refine ⟨0, ?_⟩
      simp only [nextClean]
      cases hx : s.index p with
      | none => exact ⟨_, rfl⟩
      | some i =>
        simp only
        rw [if_neg (by simp [hw i hx])]
        split <;> exact ⟨_, rfl⟩
  | done r kept => exact absurd e (hd r kept)
  | mark =>
    rw [e] at hfit
    cases hc : th.call with
    | destroy id can => exact ⟨0, _, rfl⟩
    | _ => rw [hc] at hfit; exact hfit.elim
  | seize =>
    rw [e] at hfit
    cases hc : th.call with
    | destroy id can =>
      refine ⟨0, ?_⟩
      simp only [nextSeize, hb, Bool.false_eq_true, if_false]
      split
      · exact ⟨_, rfl⟩
      · split <;> exact ⟨_, rfl⟩
    | _ => rw [hc] at hfit; exact hfit.elim
  | wipe todo =>
    rw [e] at hfit
    cases hc : th.call with
    | destroy id can =>
      cases todo with
      | nil => exact ⟨0, _, rfl⟩
      | cons p rest =>
        rw [e] at hw
        obtain ⟨it, hit, _⟩ := hi.cont.wip t th id (p :: rest) ht ⟨⟨can, hc⟩, e⟩
        refine ⟨0, ?_⟩
        simp only [List.getElem?_cons_zero, hit, nextWipe]
        cases hx : s.index p with
        | none => exact ⟨_, rfl⟩
        | some i =>
          simp only
          rw [if_neg (by simp [hw i hx])]
          split <;> exact ⟨_, rfl⟩
    | _ => rw [hc] at hfit; exact hfit.elim

/-- The key of the node a call with locks waits for. -/
def Thread.wkey (s : St V A) (th : Thread V A) : Option GoString :=
  match th.phase with
  | .lock (i :: _) _ _ | .dlock (i :: _) _ _ => some (s.node i).pair.1
  | _ => none

theorem holder_waits {s : St V A} (hi : Inv s) {u : Nat} {x : Thread V A} {i j : Nat} (hu : s.threads[u]? = some x) (hk : ∀ r kept, x.phase = .done r kept → kept = [])
    (hh : j ∈ x.phase.holds) (hw : x.waits s = some i) : x.wkey s = some (s.node i).pair.1 ∧ strLt (s.node j).pair.1 (s.node i).pair.1 = true := by
  obtain ⟨hcr, hok, hfit⟩ := hi.creates u x hu
  have hph := hi.phs u x hu
  have main : ∀ rest held : List Nat, x.phase.holds = held → (held ++ i :: rest).map (fun i => (s.node i).pair) = x.call.kvs → (∀ id can, x.call ≠ .destroy id can) →
      strLt (s.node j).pair.1 (s.node i).pair.1 = true := by
    intro rest held e1 e2 hnd
    have hs : Sorted x.call.kvs := by
      cases hc : x.call with
      | destroy id can => exact absurd hc (hnd id can)
      | _ => rw [hc] at hok; exact hok.2
    rw [← e2, List.map_append] at hs
    unfold Sorted at hs
    rw [List.pairwise_append] at hs
    exact hs.2.2 _ (List.mem_map.2 ⟨j, e1 ▸ hh, rfl⟩) _ (List.mem_map.2 ⟨i, by simp, rfl⟩)
  unfold Thread.waits at hw
  unfold Thread.wkey
  cases e : x.phase with
  | lock todo held got =>
    rw [e] at hw hph hfit
    cases todo with
    | nil => cases hw
    | cons k rest => cases hw; exact ⟨rfl, main rest held (by rw [e]; rfl) hph.1 (by intro id can hc; rw [hc] at hfit; exact hfit)⟩
  | dlock todo held got =>
    rw [e] at hw hph hfit
    cases todo with
    | nil => cases hw
    | cons k rest => cases hw; exact ⟨rfl, main rest held (by rw [e]; rfl) hph.1 (by intro id can hc; rw [hc] at hfit; exact hfit)⟩
  | done r kept =>
    have := hk r kept e
    rw [e, this] at hh; cases hh
  | make held id => rw [e] at hw; cases hw
  | unlock held r => rw [e] at hw; cases hw
  | dunlock held stop r => rw [e] at hw; cases hw
  | _ => rw [e] at hh; cases hh

/-- Some call goes on. -/
theorem progress [DecidableEq V] {blocks : (Nat → Option (Item V A)) → Nat → Nat → Bool} {s : St V A} (hi : Inv s) (hb : ∀ id, s.busy blocks id = false)
    (hk : ∀ (u : Nat) (x : Thread V A), s.threads[u]? = some x → ∀ r kept, x.phase = .done r kept → kept = []) {t : Nat} {th : Thread V A}
    (ht : s.threads[t]? = some th) (hd : ∀ r kept, th.phase ≠ .done r kept) :
    ∃ (u pick : Nat) (x : Thread V A) (s' : St V A), s.threads[u]? = some x ∧ next blocks s u pick x = some s' := by
  apply Classical.byContradiction
  intro hno
  -- everybody who is not over waits for a node somebody has locked
  have hall : ∀ (u : Nat) (x : Thread V A), s.threads[u]? = some x → (∀ r kept, x.phase ≠ .done r kept) →
      ∃ (i v : Nat) (y : Thread V A), x.waits s = some i ∧ s.threads[v]? = some y ∧ i ∈ y.phase.holds := by
    intro u x hu hx
    apply Classical.byContradiction
    intro hc
    obtain ⟨pick, s', h⟩ := next_free (blocks := blocks) hi hb hu hx (by
      intro i hw
      cases ho : (s.node i).owner with
      | none => rfl
      | some v =>
        obtain ⟨y, hy, h⟩ := (hi.locks.own i v).1 ho
        exact absurd ⟨i, v, y, hw, hy, h⟩ hc)
    exact hno ⟨u, pick, x, s', hu, h⟩
  have hholder : ∀ (u : Nat) (x : Thread V A) (j : Nat), s.threads[u]? = some x → j ∈ x.phase.holds → ∀ r kept, x.phase ≠ .done r kept := by
    intro u x j hu hj r kept e
    have := hk u x hu r kept e
    rw [e, this] at hj; cases hj
  obtain ⟨i0, v0, y0, _, hv0, hi0⟩ := hall t th ht hd
  obtain ⟨i1, v1, y1, hw1, hv1, hi1⟩ := hall v0 y0 hv0 (hholder v0 y0 i0 hv0 hi0)
  obtain ⟨k1, _⟩ := holder_waits hi hv0 (hk v0 y0 hv0) hi0 hw1
  obtain ⟨m, hm, hmax⟩ := LimConc.maxKey (s.threads.filterMap (Thread.wkey s)) (by
    intro e
    have : (s.node i1).pair.1 ∈ s.threads.filterMap (Thread.wkey s) := List.mem_filterMap.2 ⟨y0, List.mem_of_getElem? hv0, k1⟩
    rw [e] at this; cases this)
  obtain ⟨x, hx, hxm⟩ := List.mem_filterMap.1 hm
  obtain ⟨u, hu⟩ := List.mem_iff_getElem?.1 hx
  have hxd : ∀ r kept, x.phase ≠ .done r kept := by
    intro r kept e; unfold Thread.wkey at hxm; rw [e] at hxm; cases hxm
  obtain ⟨i, v, y, hw, hv, hiy⟩ := hall u x hu hxd
  have him : (s.node i).pair.1 = m := by
    unfold Thread.wkey at hxm
    unfold Thread.waits at hw
    split at hxm <;> simp_all
  obtain ⟨j, _, _, hwj, _, _⟩ := hall v y hv (hholder v y i hv hiy)
  obtain ⟨k2, k3⟩ := holder_waits hi hv (hk v y hv) hiy hwj
  have := hmax (s.node j).pair.1 (List.mem_filterMap.2 ⟨y, List.mem_of_getElem? hv, k2⟩)
  rw [him] at k3
  rw [k3] at this; cases this

/-! ### Runs -/

theorem next_calls [DecidableEq V] {blocks : (Nat → Option (Item V A)) → Nat → Nat → Bool} {s s' : St V A} {t pick : Nat} {th : Thread V A} (ht : s.threads[t]? = some th) (h : next blocks s t pick th = some s')
    {u : Nat} {x : Thread V A} (hu : s'.threads[u]? = some x) : ∃ y, s.threads[u]? = some y ∧ y.call = x.call := by
  obtain ⟨p', e, _⟩ := next_closer h
  rw [e] at hu
  rcases set_cases ht hu with ⟨e1, e2⟩ | ⟨_, hu⟩
  · subst e1; subst e2; exact ⟨th, ht, rfl⟩
  · exact ⟨x, hu, rfl⟩

theorem run_calls [DecidableEq V] [Inhabited V] {blocks : (Nat → Option (Item V A)) → Nat → Nat → Bool} {evs : List (Event V A)} {s : St V A} (h : Run blocks St.init evs s) :
    ∀ (u : Nat) (x : Thread V A), s.threads[u]? = some x → Event.call x.call ∈ evs := by
  generalize h0 : (St.init : St V A) = s0 at h
  induction h with
  | nil => subst h0; intro u x hu; simp [St.init] at hu
  | @step s' s'' evs e h' hstep ih =>
    intro u x hu
    cases hstep with
    | call c hok =>
      rcases append_cases hu with ⟨_, e⟩ | hu
      · subst e; simp
      · exact List.mem_append_left _ (ih u x hu)
    | go t pick th ht hn =>
      obtain ⟨y, hy, e⟩ := next_calls ht hn hu
      rw [← e]; exact List.mem_append_left _ (ih u y hy)
    | ret t th r kept ht hr hp =>
      rcases set_cases ht hu with ⟨e, e'⟩ | ⟨_, hu⟩
      · subst e'; exact List.mem_append_left _ (ih t th ht)
      · exact List.mem_append_left _ (ih u x hu)

/-- Without destructions, or without deletions, no lock is left locked. -/
theorem kept_nil [DecidableEq V] [Inhabited V] {blocks : (Nat → Option (Item V A)) → Nat → Nat → Bool} {evs : List (Event V A)} {s : St V A} (h : Run blocks St.init evs s)
    (hc : ∀ c, Event.call c ∈ evs → c.creates = true) (hd : (∀ c, Event.call c ∈ evs → c.destroys = false) ∨ (∀ c, Event.call c ∈ evs → c.deletes = false)) :
    ∀ (u : Nat) (x : Thread V A), s.threads[u]? = some x → ∀ r kept, x.phase = .done r kept → kept = [] := by
  generalize h0 : (St.init : St V A) = s0 at h
  induction h with
  | nil => subst h0; intro u x hu; simp [St.init] at hu
  | @step s' s'' evs e h' hstep ih =>
    subst h0
    have hc' := fun c h => hc c (List.mem_append_left _ h)
    have hd' : (∀ c, Event.call c ∈ evs → c.destroys = false) ∨ (∀ c, Event.call c ∈ evs → c.deletes = false) :=
      hd.imp (fun hd c h => hd c (List.mem_append_left _ h)) (fun hd c h => hd c (List.mem_append_left _ h))
    have ih := ih hc' hd'
    have hi : Inv s' := Inv.run h' hc'
    have hcalls := run_calls h'
    cases hstep with
    | call c hok =>
      intro u x hu
      rcases append_cases hu with ⟨_, e⟩ | hu
      · subst e; intro r kept e; cases c <;> cases e
      · exact ih u x hu
    | go t pick th ht hn =>
      have hm := next_move hi ht hn
      have self : ∀ {p : Phase V A}, (∀ r kept, p = .done r kept → kept = []) → s''.threads = s'.threads.set t { th with phase := p } →
          ∀ (u : Nat) (x : Thread V A), s''.threads[u]? = some x → ∀ r kept, x.phase = .done r kept → kept = [] := by
        intro p hp e u x hu
        rw [e] at hu
        rcases set_cases ht hu with ⟨_, e⟩ | ⟨_, hu⟩
        · subst e; exact hp
        · exact ih u x hu
      have hfit := (hi.creates t th ht).2.2
      have haq : ∀ (c : Call V A) r kept, afterQuery c = .done r kept → kept = [] := by
        intro c r kept e; cases c <;> cases e <;> rfl
      cases hm with
      | queryMiss h _ => exact self (haq _) rfl
      | lookupEnd h => exact self (haq _) rfl
      | @dclosing held id h hin =>
        exfalso
        rcases hd' with hd' | hd'
        · obtain ⟨u, x, hu, ⟨can, e⟩, _⟩ := (hi.cont.des.2 id).1 hin
          have := hd' _ (hcalls u x hu)
          rw [e] at this; cases this
        · have := hd' _ (hcalls t th ht)
          rw [h] at hfit
          cases hcc : th.call with
          | delete kvs can => rw [hcc] at this; cases this
          | _ => rw [hcc] at hfit; exact hfit.elim
      | _ => exact self (by intro r kept e; cases e <;> rfl) rfl
    | ret t th r kept ht hr hp =>
      intro u x hu
      rcases set_cases ht hu with ⟨e, e'⟩ | ⟨_, hu⟩
      · subst e'; exact ih t th ht
      · exact ih u x hu

/-- When nothing more can happen, all calls have returned. -/
theorem stuck_returned [DecidableEq V] {blocks : (Nat → Option (Item V A)) → Nat → Nat → Bool} {s : St V A} (hi : Inv s) (hb : ∀ id, s.busy blocks id = false)
    (hk : ∀ (u : Nat) (x : Thread V A), s.threads[u]? = some x → ∀ r kept, x.phase = .done r kept → kept = []) (hs : Stuck blocks s) :
    ∀ (t : Nat) (th : Thread V A), s.threads[t]? = some th → th.returned = true := by
  intro t th ht
  by_cases hd : ∃ r kept, th.phase = .done r kept
  · obtain ⟨r, kept, e⟩ := hd
    cases hr : th.returned with
    | true => rfl
    | false =>
      obtain ⟨c, h⟩ := hs _ _ (.ret t th r kept ht hr e)
      cases h
  · exfalso
    obtain ⟨u, pick, x, s', hu, hn⟩ := progress (blocks := blocks) hi hb hk ht (fun r kept e => hd ⟨r, kept, e⟩)
    obtain ⟨c, h⟩ := hs _ _ (.go u pick x hu hn)
    cases h

theorem not_busy [DecidableEq V] [Inhabited V] {blocks : (Nat → Option (Item V A)) → Nat → Nat → Bool} {evs : List (Event V A)} {s : St V A} (h : Run blocks St.init evs s)
    (hd : ∀ c, Event.call c ∈ evs → c.destroys = false) (id : Nat) : s.busy blocks id = false := by
  unfold St.busy
  rw [List.any_eq_false]
  intro th ht
  obtain ⟨u, hu⟩ := List.mem_iff_getElem?.1 ht
  have := hd _ (run_calls h u th hu)
  split
  next e _ => rw [e] at this; cases this
  · simp

theorem not_busy' {blocks : (Nat → Option (Item V A)) → Nat → Nat → Bool} (hb : ∀ f i j, blocks f i j = false) (s : St V A) (id : Nat) : s.busy blocks id = false := by
  unfold St.busy
  rw [List.any_eq_false]
  intro th ht
  split
  · simp [hb]
  · simp

end Willow.AssocConc
