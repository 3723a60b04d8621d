import Verif.Proofs.Waiting
import Verif.Props.Queue
/-
C68, C69: clients that wait for an item while channels are created.
-/
namespace Willow.Props
open Willow Willow.Assoc Willow.Spec Willow.Waiting Willow.WaitingSpec Willow.Queue

/-- C68 (partial: proper queries): whatever the order of steps, a client that waits is listening to every channel its query selects. -/
theorem C68_offered_partial {s : Waiting.St} (hr : WaitingSpec.Reachable s) {c : Nat} {k : Cons} (hk : s.cons[c]? = some k) (hw : k.waiting = true)
    (hq : Proper k.query) {j : Nat} {p : Prod} (hp : s.prods[j]? = some p) (hi : p.inserted = true) (hm : wants k.query p.kvs = true) : j ∈ k.offered := by
  have h := (reachable_inv hr).cons k (List.mem_of_getElem? hk)
  simp only [Prod.inserted, Bool.and_eq_true, decide_eq_true_eq, Bool.not_eq_true'] at hi
  rcases h.wait hq hw j p hp (by simp only [Prod.announced, decide_eq_true_eq]; omega) hm with h | h
  · exact h
  · rw [hi.2] at h; cases h

/-- "any type" -/
def exTr : TypeRestrictions := ⟨DataType.min, DataType.max⟩
/-- The query `a = a`. -/
def exWant : Query Key := .mk (some { kvs := [(exA, ⟨vString exA, .eq, exTr⟩)] }) [] [] true
/-- The query `a != a and b = b`. -/
def exNot : Query Key := .mk (some { kvs := [(exA, ⟨vString exA, .ne, exTr⟩), (exB, ⟨vString exB, .eq, exTr⟩)] }) [] [] true
/-- The query with one Or, `a = a`. -/
def exOr : Query Key := .mk none [exWant] [] true
/-- The query for everything. -/
def exAll : Query Key := .mk none [] [] true
/-- Key-values of channels. -/
def exKa : KVs Key := [(exA, vString exA)]
def exKb : KVs Key := [(exB, vString exB)]
def exKab : KVs Key := [(exA, vString exA), (exB, vString exB)]

theorem exWant_proper : Proper exWant := by
  refine ⟨⟨?_, trivial, trivial⟩, by simp [exWant, Asks]⟩
  intro s hs
  simp only [Option.some.injEq] at hs; subst hs
  refine ⟨⟨by simp, ?_, by simp⟩, rfl⟩
  intro kq hkq
  simp only [List.mem_singleton] at hkq; subst hkq
  exact ⟨by simp only [ValidTR]; decide +kernel, .inl rfl⟩

/-- From a check of the final state of a history to the state; the first client arrives after `ls`. -/
theorem reach_of_run {ls ls' : List Label} {q : Query Key} (hv : ∀ l ∈ ls ++ [.arriveClient q] ++ ls', WaitingSpec.Label.Valid l)
    (hn : (Waiting.run Waiting.St.init ls).any (fun s => s.cons.isEmpty) = true) {f : Waiting.St → Cons → Bool}
    (h : (Waiting.run Waiting.St.init (ls ++ [.arriveClient q] ++ ls')).any (fun s => s.cons[0]?.any (f s)) = true) :
    ∃ s k, WaitingSpec.Reachable s ∧ s.cons[0]? = some k ∧ k.query = q ∧ f s k = true := by
  rcases hs : Waiting.run Waiting.St.init (ls ++ [.arriveClient q] ++ ls') with _ | s
  · rw [hs] at h; simp at h
  · rw [hs] at h
    simp only [Option.any_some, Option.any_eq_true] at h
    obtain ⟨k, h1, h2⟩ := h
    refine ⟨s, k, ⟨_, hv, hs⟩, h1, ?_, h2⟩
    rw [run_append, run_append] at hs
    rcases h0 : Waiting.run Waiting.St.init ls with _ | s0
    · simp [h0] at hn
    · rw [h0] at hn hs
      simp only [Option.any_some, List.isEmpty_iff] at hn
      simp only [Option.bind_some, Waiting.run, Waiting.step, hn, List.nil_append] at hs
      obtain ⟨k', h3, h4⟩ := run_query ls' hs (c := 0) (k := ⟨q, false, fun _ => none, [], none, [], false⟩) rfl
      rw [h1] at h3; cases h3
      exact h4

/-- A history in which channel 0 exists before the client, channel 1 is created while it searches, channel 2 while it waits, and channel 3
is not wanted. -/
def exBefore : List Label :=
  [.arriveItem exKa] ++ List.replicate 5 (.create 0) ++ [.arriveItem exKab] ++ List.replicate 4 (.create 1)
def exAfter : List Label :=
  [.register 0, .start 0 ([], some exA)] ++ List.replicate 4 (.create 1) ++
  [.visit 0 ([], some exA) (exA, vString exA), .finish 0 ([], some exA), .lookup 0 0, .lookup 0 1, .wait 0, .arriveItem exKa] ++
  List.replicate 5 (.create 2) ++ [.arriveItem exKb] ++ List.replicate 5 (.create 3)

def exHistory : List Label := exBefore ++ [.arriveClient exWant] ++ exAfter

theorem exHistory_ok : (Waiting.run Waiting.St.init exHistory).any (fun s => s.cons.any (fun k => k.waiting && k.offered == [1, 0, 1, 2]) &&
    s.prods.all (·.inserted)) = true := by decide +kernel

/-- C68_offered_partial is about such histories: three channels are wanted and offered, one is not. -/
example : ∃ (s : Waiting.St) (c : Nat) (k : Cons), WaitingSpec.Reachable s ∧ s.cons[c]? = some k ∧ k.waiting = true ∧ Proper k.query ∧
    (∃ p, s.prods[0]? = some p ∧ p.inserted = true ∧ wants k.query p.kvs = true) ∧ (∃ p, s.prods[1]? = some p ∧ p.inserted = true ∧ wants k.query p.kvs = true) ∧
    (∃ p, s.prods[2]? = some p ∧ p.inserted = true ∧ wants k.query p.kvs = true) ∧ (∃ p, s.prods[3]? = some p ∧ p.inserted = true ∧ wants k.query p.kvs = false) := by
  have hvalid : ∀ l ∈ exHistory, WaitingSpec.Label.Valid l := by
    intro l hl
    have h1 : ∀ kvs, l = .arriveItem kvs → kvs = exKa ∨ kvs = exKb ∨ kvs = exKab := by
      rintro kvs rfl
      simp [exHistory, exBefore, exAfter] at hl
      rcases hl with h | h | h | h <;> simp [h]
    cases l with
    | arriveItem kvs =>
      rcases h1 kvs rfl with rfl | rfl | rfl
      · exact ⟨by simp [exKa], by decide +kernel⟩
      · exact ⟨by simp [exKb], by decide +kernel⟩
      · exact ⟨by simp [exKab], by decide +kernel⟩
    | _ => trivial
  obtain ⟨s, k, h1, h2, h3, h4⟩ := reach_of_run (ls := exBefore) (q := exWant) (ls' := exAfter) hvalid (by decide +kernel)
    (f := fun s k => k.waiting && [(0, true), (1, true), (2, true), (3, false)].all (fun jb => s.prods[jb.1]?.any (fun p => p.inserted && (wants exWant p.kvs == jb.2)))) (by decide +kernel)
  simp only [Bool.and_eq_true, List.all_cons, List.all_nil, Option.any_eq_true, beq_iff_eq] at h4
  refine ⟨s, 0, k, h1, h2, h4.1, ?_⟩
  rw [h3]
  exact ⟨exWant_proper, h4.2.1, h4.2.2.1, h4.2.2.2.1, h4.2.2.2.2.1⟩

/-- C68 fails for the query for everything: a channel that was announced before the client registered, and inserted after it looked, is
never offered to it, although the client waits and the channel has an item. -/
theorem C68_violated_empty_query : ∃ s k p, WaitingSpec.Reachable s ∧ s.cons[0]? = some k ∧ k.waiting = true ∧ IsEmptyQuery k.query ∧
    s.prods[0]? = some p ∧ p.inserted = true ∧ p.done = true ∧ wants k.query p.kvs = true ∧ k.offered = [] := by
  obtain ⟨s, k, h1, h2, h3, h4⟩ := reach_of_run (q := exAll)
    (ls := [.arriveItem exKa, .create 0, .create 0, .create 0]) (ls' := [.register 0, .iterate 0, .wait 0, .create 0, .create 0])
    (f := fun s k => k.waiting && k.offered.isEmpty && s.prods[0]?.any (fun p => p.inserted && p.done && wants exAll p.kvs))
    (by
      intro l hl
      cases l with
      | arriveItem kvs =>
        simp at hl; subst hl
        exact ⟨by simp [exKa], by decide +kernel⟩
      | _ => trivial) (by decide +kernel) (by decide +kernel)
  simp only [Option.any_eq_true, Bool.and_eq_true] at h4
  obtain ⟨⟨hw, ho⟩, p, hp, ⟨hi, hd⟩, hwant⟩ := h4
  exact ⟨s, k, p, h1, h2, hw, h3 ▸ ⟨rfl, rfl, rfl, rfl⟩, hp, hi, hd, h3 ▸ hwant, by simpa using ho⟩

/-- C69 (partial: queries without !=, without (sub-)queries of Ors only, and without a cut-off type restriction): a client only listens to
channels its query selects. -/
theorem C69_only_wanted_partial {s : Waiting.St} (hr : WaitingSpec.Reachable s) {c : Nat} {k : Cons} (hk : s.cons[c]? = some k)
    (hq : Plain k.query) {j : Nat} (hj : j ∈ k.offered) : ∃ p, s.prods[j]? = some p ∧ wants k.query p.kvs = true :=
  ((reachable_inv2 hr).off k (List.mem_of_getElem? hk)).off hq j hj

example : Plain exWant ∧ (Waiting.run Waiting.St.init exHistory).any (fun s => s.cons.any (fun k => k.offered == [1, 0, 1, 2])) = true := by
  refine ⟨.inr ⟨⟨?_, trivial, trivial⟩, by simp [exWant, Asks], by simp [exWant, NotOnlyOrs]⟩, by decide +kernel⟩
  intro s hs
  simp only [Option.some.injEq] at hs; subst hs
  refine ⟨⟨by simp, ?_, by simp⟩, rfl, ?_⟩
  · intro kq hkq
    simp only [List.mem_singleton] at hkq; subst hkq
    exact ⟨by simp only [ValidTR]; decide +kernel, .inl rfl⟩
  · intro kq hkq
    simp only [List.mem_singleton] at hkq; subst hkq
    exact ⟨by simp, by simp [TrOk]⟩

/-- C69 fails for !=: if the channel is created between the search for the excluded value and the search for the other key, the client
gets items of a channel its query excludes. -/
theorem C69_violated_not_equals : ∃ s k p, WaitingSpec.Reachable s ∧ s.cons[0]? = some k ∧ Proper k.query ∧ s.prods[0]? = some p ∧
    wants k.query p.kvs = false ∧ 0 ∈ k.offered := by
  obtain ⟨s, k, h1, h2, h3, h4⟩ := reach_of_run (q := exNot)
    (ls := []) (ls' := [.register 0, .start 0 ([], some exA), .finish 0 ([], some exA), .arriveItem exKab] ++ List.replicate 8 (.create 0) ++
      [.start 0 ([], some exB), .visit 0 ([], some exB) (exB, vString exB), .finish 0 ([], some exB), .lookup 0 0])
    (f := fun s k => k.offered.contains 0 && s.prods[0]?.any (fun p => !wants exNot p.kvs))
    (by
      intro l hl
      cases l with
      | arriveItem kvs =>
        simp at hl; subst hl
        exact ⟨by simp [exKab], by decide +kernel⟩
      | _ => trivial) (by decide +kernel) (by decide +kernel)
  simp only [Option.any_eq_true, Bool.and_eq_true, Bool.not_eq_true'] at h4
  obtain ⟨ho, p, hp, hw⟩ := h4
  refine ⟨s, k, p, h1, h2, h3 ▸ ?_, hp, h3 ▸ hw, by simpa using ho⟩
  refine ⟨⟨?_, trivial, trivial⟩, by simp [exNot, Asks]⟩
  intro s hs
  simp only [Option.some.injEq] at hs; subst hs
  refine ⟨⟨by decide +kernel, ?_, by simp⟩, rfl⟩
  intro kq hkq
  simp only [List.mem_cons, List.not_mem_nil, or_false] at hkq
  rcases hkq with rfl | rfl
  · exact ⟨by simp only [ValidTR]; decide +kernel, .inr (.inl rfl)⟩
  · exact ⟨by simp only [ValidTR]; decide +kernel, .inl rfl⟩

/-- C69 fails for a query of Ors only: a channel created while the client waits is offered to it whatever its key-values are (C21). -/
theorem C69_violated_only_ors : ∃ s k p, WaitingSpec.Reachable s ∧ s.cons[0]? = some k ∧ Proper k.query ∧ k.waiting = true ∧ s.prods[0]? = some p ∧
    wants k.query p.kvs = false ∧ 0 ∈ k.offered := by
  obtain ⟨s, k, h1, h2, h3, h4⟩ := reach_of_run (q := exOr)
    (ls := []) (ls' := [.register 0, .start 0 ([1, 0], some exA), .finish 0 ([1, 0], some exA), .wait 0, .arriveItem exKb] ++ List.replicate 5 (.create 0))
    (f := fun s k => k.waiting && k.offered.contains 0 && s.prods[0]?.any (fun p => !wants exOr p.kvs))
    (by
      intro l hl
      cases l with
      | arriveItem kvs =>
        simp at hl; subst hl
        exact ⟨by simp [exKb], by decide +kernel⟩
      | _ => trivial) (by decide +kernel) (by decide +kernel)
  simp only [Option.any_eq_true, Bool.and_eq_true, Bool.not_eq_true'] at h4
  obtain ⟨⟨hwait, ho⟩, p, hp, hw⟩ := h4
  refine ⟨s, k, p, h1, h2, h3 ▸ ?_, hwait, hp, h3 ▸ hw, by simpa using ho⟩
  exact ⟨⟨fun s hs => by simp at hs, ⟨by simp [exWant, Asks], exWant_proper.1, trivial⟩, trivial⟩, by simp [exOr, Asks]⟩

end Willow.Props
