import Verif.Proofs.Requests
import Verif.Props.Queues
/-!
C57: willow answers every request.  C70: a request answered with an error changes nothing.
-/
namespace Willow.BTree
open KeyOps LawfulKey Spec
variable {K V : Type} [LawfulKey K]

/-- A failed create of a new key is reported as created to the tree. -/
theorem tree_create_fail_new {b : Tree K V} {l} (hr : RepW b l) (key : K) (hl : lookupL key l = none) : ∃ b', b.create key none = some (b', .created) := by
  obtain ⟨hn, hs, h3⟩ := hr
  cases hroot : b.root with
  | none =>
    refine ⟨{ b with root := some (.mk [] []) }, ?_⟩
    simp only [Tree.create, hroot]
    simp [create, hit, scan, Node.isLeaf, leafInsert, Node.depth]
  | some r =>
    simp only [hroot] at h3
    obtain ⟨h, a, c, d⟩ := h3
    rcases create_fail_spec hn key h (r.depth + 1) r a (by rw [c]; exact hs) (by rw [depth_of_WF a]; omega)
      with ⟨kv, q1, q2⟩ | ⟨t', q1, q2, q3, q4, q5⟩
    · rw [c, hl] at q2; cases q2
    · exact ⟨{ b with root := some t' }, by simp only [Tree.create, hroot, q1]⟩

end Willow.BTree

namespace Willow.Props
open Willow Willow.Assoc Willow.Spec Willow.LimSpec Willow.Limiter Willow.Queue Willow.Queues Willow.QueuesSpec Willow.Requests Willow.RequestsSpec

/-- C57 (partial): on any limiter, in every history of requests, valid or not, every request is answered and the service keeps running.
Missing (`Tame`, see the violations below): creating a queue without Properties; queries with a sub-query that has no condition; items with
a timeout that is not positive; deleting a channel with no or broken key-values; the limiter failing while something is updated, acked or
deleted; and failed creates that damage the queues (C56). -/
theorem C57_answers_partial {lim : State Key} {B : Int} (hlim : LimReached lim B) {s : Requests.St} (hs : Requests.start lim = some s) {rs : List Requests.Req}
    (ht : TameRun s.q.rule [] rs) (hB : B + amountsOf rs < 2 ^ 63) :
    ∃ s' os, Requests.run s rs = (some s', os) ∧ os.length = rs.length ∧ ∀ o ∈ os, Answered o := by
  have := amountsOf_nonneg rs
  have hl := limReached_linv hlim (by omega)
  obtain ⟨s', os, e, h1, h2, _⟩ := run_fine (start_inv hl hs) ht hB
  exact ⟨s', os, e, h1, h2⟩

/-- The state after a history of tame requests, the queues there, and what was added to counters. -/
def TameReached (s : Requests.St) (m : Map) (B : Int) : Prop :=
  ∃ lim B0 s0 rs os, LimReached lim B0 ∧ Requests.start lim = some s0 ∧ TameRun s0.q.rule [] rs ∧ B = B0 + amountsOf rs ∧ B < 2 ^ 63 ∧
    Requests.run s0 rs = (some s, os) ∧ m = mapRun [] rs

theorem tameReached_inv {s : Requests.St} {m : Map} {B : Int} (h : TameReached s m B) : RInv s m B := by
  obtain ⟨lim, B0, s0, rs, os, hlim, hs, ht, rfl, hB, e, rfl⟩ := h
  have := amountsOf_nonneg rs
  obtain ⟨s', os', e', _, _, hi, _⟩ := run_fine (start_inv (limReached_linv hlim (by omega)) hs) ht hB
  rw [e'] at e
  cases e
  exact hi

/-- C57, the exact condition for creates: an otherwise valid create of a new name crashes iff it has no Properties. -/
theorem C57_create_crashes_iff {s : Requests.St} {m : Map} {B : Int} (h : TameReached s m B) (n : GoString) (props : Option QueueProps) (up : Bool)
    (hn : n ≠ []) (hp : ∀ p, props = some p → ∃ l, p.maxItems = some l ∧ LimSpec.Int64 l) (hsafe : ∀ l, props = some ⟨some l⟩ → Safe m (.create n l up)) :
    ¬ Answered (handle s (.create (some ⟨some ⟨some (some n), props⟩, false⟩) up)).2 ↔ props = none ∧ m.get? n = none := by
  have hi := tameReached_inv h
  have hB : B < 2 ^ 63 := by obtain ⟨_, _, _, _, _, _, _, _, _, hB, _⟩ := h; exact hB
  cases props with
  | some p =>
    obtain ⟨l, hl, hl2⟩ := hp p rfl
    obtain ⟨_⟩ := p
    cases hl
    simp only [reduceCtorEq, false_and, iff_false, Classical.not_not]
    have hq : queueReq? (.create (some ⟨some ⟨some (some n), some ⟨some l⟩⟩, false⟩) up) = some (.create n l up) := by simp [queueReq?, hn]
    have ha : amountOf (.create (some ⟨some ⟨some (some n), some ⟨some l⟩⟩, false⟩) up) = 0 := by simp [amountOf, hq, reqAmount]
    obtain ⟨s', o, e, ho, _⟩ := handle_fine hi (r := .create (some ⟨some ⟨some (some n), some ⟨some l⟩⟩, false⟩) up)
      ⟨fun q h' => by rw [hq] at h'; cases h'; exact hl2, trivial⟩ ⟨fun q h' => by rw [hq] at h'; cases h'; exact hsafe l rfl, trivial⟩ (by rw [ha]; omega)
    rw [e]; exact ho
  | none =>
    have e : handle s (.create (some ⟨some ⟨some (some n), none⟩, false⟩) up) = createNoProps s n := by
      simp [handle, create, QueueBody.validateSpecOnly, QueueSpec.validate, hn]
    simp only [true_and]
    rw [e]
    by_cases hg : m.get? n = none
    · obtain ⟨es, ht, _, _, hp⟩ := hi.q.tree
      rcases find_entry hi.q.names hp n with ⟨hf, _⟩ | ⟨_, _, _, _, hg'⟩
      · obtain ⟨b', hb⟩ := BTree.tree_create_fail_new ht (vString n) (insertEntry_name hf)
        simp only [createNoProps, hb, hg, iff_true]
        exact fun ha => ha.1 rfl
      · rw [hg] at hg'; cases hg'
    · rw [createNoProps_found hi hg]
      simp only [hg, iff_false, Classical.not_not]
      exact answered_answer _

/-- C57, the exact condition for deleting a channel: it ends the process iff the queue exists and there are no key-values, or one of them is
broken, or the channel exists and the limiter cannot be reached.  In particular an empty body does, although the client is told 400. -/
theorem C57_channel_delete_crashes_iff {s : Requests.St} {m : Map} {B : Int} (h : TameReached s m B) (n : GoString) (kvs : RawKVs) (complete up : Bool) (hd : Distinct kvs) :
    ¬ Answered (handle s (.channelDelete n kvs complete up)).2 ↔
      m.get? n ≠ none ∧ ((kvs = [] ∨ ∃ kv ∈ kvs, kv.2 = none) ∨ (up = false ∧ ∃ c ∈ channelsOf s n, sameKVs (kvsOf kvs) c.1 = true)) := by
  have hi := tameReached_inv h
  have hok : ∀ b : Bool, Answered (if b then .answer .ok else .rejected) ∧ Answered (if b then .answer .notFound else .rejected) := by
    intro b; cases b <;> exact ⟨⟨by simp, by simp⟩, by simp, by simp⟩
  have hinv : validKVs true kvs = false ↔ kvs = [] ∨ ∃ kv ∈ kvs, kv.2 = none := by
    simp only [validKVs, Bool.and_eq_false_iff, List.all_eq_false, Bool.not_eq_false', List.isEmpty_iff]
    refine or_congr Iff.rfl (exists_congr fun kv => and_congr Iff.rfl ?_)
    cases hk : kv.2 with
    | none => simp [validValue]
    | some k =>
      simp only [validValue, if_true, decide_eq_true_eq, reduceCtorEq, iff_false, Classical.not_not]
      rcases BTree.LawfulKey.typ_valid k with h | h
      · simp only [DataType.isGeneral, Bool.or_eq_true, beq_iff_eq] at h
        generalize KeyOps.typ k = x at h
        rcases h with (((((((((((h | h) | h) | h) | h) | h) | h) | h) | h) | h) | h) | h) | h <;> (rw [h]; decide)
      · rw [h]; decide
  show ¬ Answered (channelDelete s n kvs complete up).2 ↔ _
  unfold channelDelete
  rcases onQueue_spec hi n (if complete && validKVs false kvs then .answer .notFound else .rejected)
      (deleteChannel s n kvs up (if complete && validKVs false kvs then .answer .ok else .rejected)) with ⟨hg, e⟩ | ⟨hg, hn, e⟩
  · rw [e]
    simp only [hg, ne_eq, not_true_eq_false, false_and, iff_false, Classical.not_not]
    exact (hok _).2
  · rw [e]
    simp only [ne_eq, hg, not_false_eq_true, true_and, ← hinv]
    cases hv : validKVs true kvs with
    | false =>
      simp only [deleteChannel, hv, Bool.false_eq_true, if_false, true_or, iff_true]
      exact fun ha => ha.2 rfl
    | true =>
      simp only [Bool.true_eq_false, false_or]
      obtain ⟨f, hf⟩ := hi.chans
      obtain ⟨c, out, e1, hsim, hsame⟩ := OTM.step_sim hf (op := .deleteByKeyValues n (kvsOf kvs) (some (fun _ => true))) (kvsOf_valid hv hd)
      have e1' : OTM.deleteByKeyValues s.chans n (kvsOf kvs) (some (fun _ => true)) = some (c, out) := e1
      have hfn := hf.eq n
      simp only [OTMSpec.famStep, OTM.OOp.one, OTMSpec.relStep, OTMSpec.relStep.remove, if_neg hn, ← hfn] at hsame
      have hex : (∃ i, out = .deleted (some i)) ↔ ∃ c ∈ channelsOf s n, sameKVs (kvsOf kvs) c.1 = true := by
        cases hr : OTM.rel s.chans n with
        | none =>
          simp only [hr, Option.map_none] at hsame
          simp only [channelsOf, hr]
          cases out <;> simp_all [OTMSpec.Same]
        | some t =>
          simp only [hr, Option.map_some, OTM.plain] at hsame
          simp only [channelsOf, hr, Option.map_some, Option.getD_some, List.mem_map]
          cases hx : t.items.find? (fun i => sameKVs (kvsOf kvs) i.kvs) with
          | none =>
            simp only [hx] at hsame
            have hno := List.find?_eq_none.1 hx
            constructor
            · rintro ⟨i, rfl⟩; simp [OTMSpec.Same] at hsame
            · rintro ⟨_, ⟨i, hi', rfl⟩, hs⟩; exact absurd hs (hno i hi')
          | some i =>
            simp only [hx, if_true] at hsame
            constructor
            · intro _; exact ⟨_, ⟨i, List.mem_of_find?_eq_some hx, rfl⟩, by have := List.find?_some hx; exact this⟩
            · intro _
              cases out <;> simp_all [OTMSpec.Same]
      have ho : ∃ a, out = .deleted a := by
        simp only [OTM.deleteByKeyValues, OTM.onRelation, if_neg hn] at e1'
        split at e1'
        · cases e1'; exact ⟨_, rfl⟩
        · simp only [Option.some.injEq, Prod.mk.injEq] at e1'
          exact ⟨_, e1'.2.symm⟩
      obtain ⟨a, rfl⟩ := ho
      rw [← hex]
      simp only [deleteChannel, hv, if_true, e1']
      cases a with
      | none =>
        simp only [OTM.OOut.deleted.injEq, reduceCtorEq, exists_false, and_false, iff_false, Classical.not_not]
        exact (hok _).1
      | some i =>
        cases up with
        | true =>
          simp only [if_true, Bool.true_eq_false, false_and, iff_false, Classical.not_not]
          exact (hok _).1
        | false =>
          simp only [Bool.false_eq_true, if_false, true_and, OTM.OOut.deleted.injEq, Option.some.injEq, exists_eq', iff_true]
          exact fun ha => ha.2 rfl

/-! ### A history -/

/-- The replies after a start on the empty limiter. -/
def replies (rs : List Requests.Req) : List Reply := match Requests.start freshLim with | some s => (Requests.run s rs).2 | none => []

/-- A create. -/
def mkQueue (n : GoString) (l : Int) : Requests.Req := .create (some ⟨some ⟨some (some n), some ⟨some l⟩⟩, false⟩) true
/-- Key-values `{k: "v"}`. -/
def kvOne (k v : GoString) : RawKVs := [(k, some (vString v))]
/-- An item. -/
def mkItem (kvs : RawKVs) (timeout : Int) : ItemBody := ⟨some (some kvs, some ⟨1, some false, some 0, some sFront, some timeout⟩), false⟩
/-- The query that matches everything. -/
def anything : Query Key := .mk none [] [] true

/-- Non-vacuity of C57: queues, items of two channels, a conflict, requests that are rejected and requests that are not found. -/
def exTame : List Requests.Req :=
  [mkQueue qa 5, mkQueue qb 2, .create none true, .create (some ⟨some ⟨some (some qa), none⟩, false⟩) true, .create (some ⟨some ⟨some (some []), none⟩, false⟩) true,
   .enqueue qa (some (mkItem (kvOne qa qb) 10)) true, .enqueue qa (some (mkItem (kvOne qb qb) 20)) true, .enqueue qa (some (mkItem (kvOne qa qb) 30)) true,
   .enqueue qa (some (mkItem (kvOne qa qb) 40)) false, .enqueue qc (some (mkItem (kvOne qa qb) 40)) true, .enqueue qa (some (mkItem [] 40)) true,
   .channelQuery qa (some anything), .dequeue qa (some anything) 0 true, .dequeue qa (some (exactQuery [(qa, vString qb)])) 0 true,
   .heartbeat qa (some ⟨qa, kvOne qa qb⟩) true, .ack qa (some ⟨qa, kvOne qa qb⟩) .okEmpty, .channelQuery qa (some anything),
   .dequeue qa (some (exactQuery [(qa, vString qb)])) 0 true, .ack qb (some ⟨qa, kvOne qa qb⟩) .ok, .channelDelete qa (kvOne qb qb) true true,
   .channelQuery qa (some anything), .delete qa true true true, .get qa, .list]

example : replies exTame = [.answer .ok, .answer .ok, .rejected, .answer .conflict, .rejected, .answer .ok, .answer .ok, .answer .ok, .answer .conflict, .answer .notFound,
    .rejected, .channels 2, .item 10, .item 30, .answer .ok, .answer .ok, .channels 1, .answer .conflict, .answer .notFound, .answer .ok, .channels 0, .answer .ok,
    .answer .notFound, .answer (.all [(qb, 2)])] := by decide +kernel

theorem anything_proper : Proper anything := ⟨⟨by simp, trivial, trivial⟩, .inl ⟨rfl, rfl, rfl, rfl⟩⟩

theorem exTame_tame (rule : Nat) : TameRun rule [] exTame := by
  have hi : ∀ l : Int, -100 ≤ l → l ≤ 100 → LimSpec.Int64 l := by intro l h1 h2; unfold LimSpec.Int64; omega
  have hc : ∀ m n l, -1 ≤ l → l ≤ 100 → n ≠ [] → WellTyped rule (mkQueue n l) ∧ Tame m (mkQueue n l) := by
    intro m n l h1 h2 h3
    have hq : queueReq? (mkQueue n l) = some (.create n l true) := by simp [queueReq?, mkQueue, h3]
    refine ⟨⟨fun q h' => ?_, trivial⟩, fun q h' => ?_, trivial⟩
    · rw [hq] at h'; cases h'; exact hi l (by omega) h2
    · rw [hq] at h'; cases h'; exact .inl ⟨rfl, h1⟩
  unfold exTame
  refine ⟨(hc [] _ _ (by omega) (by omega) (by decide)).1, (hc _ _ _ (by omega) (by omega) (by decide)).2, ?_⟩
  refine ⟨(hc [] _ _ (by omega) (by omega) (by decide)).1, (hc _ _ _ (by omega) (by omega) (by decide)).2, ?_⟩
  repeat' first | exact anything_proper | exact exactQuery_proper _ | refine And.intro ?_ ?_
  all_goals first
    | trivial
    | exact anything_proper
    | exact exactQuery_proper _
    | (intro q h'; simp [queueReq?] at h'; done)
    | (intro q h'; cases h'; trivial)
    | (refine .inr ?_; decide)
    | exact .inl rfl
    | (intro q h'; cases h'; exact .inr rfl)
    | (intro t h'; cases h'; decide)
    | (show Distinct _; unfold Distinct; decide)
    | (exact .inr rfl)
    | (show _ ≠ _; decide)
    | (refine .inr ⟨by decide, ?_, rfl⟩; intro kv hkv; simp [kvOne] at hkv; subst hkv; simp)

example : ∃ s, Requests.start freshLim = some s ∧ TameRun s.q.rule [] exTame ∧ 0 + amountsOf exTame < 2 ^ 63 := by
  cases h : Requests.start freshLim with
  | none => exact absurd h (by decide +kernel)
  | some s => exact ⟨s, rfl, exTame_tame _, by decide +kernel⟩

/-! ### Crashes -/

/-- C57 fails: a create without Properties passes validation and panics; another queue is lost. -/
theorem C57_violated_no_properties :
    replies [mkQueue qb 5, mkQueue qc 5, .create (some ⟨some ⟨some (some qa), none⟩, false⟩) true, .get qc] =
      [.answer .ok, .answer .ok, .panicked, .answer .notFound] := by decide +kernel

/-- C57 fails: an item with timeout 0 or less is accepted, and ends the process when a consumer takes it. -/
theorem C57_violated_timeout :
    replies [mkQueue qa 5, .enqueue qa (some (mkItem (kvOne qa qb) 0)) true, .dequeue qa (some anything) 0 true] = [.answer .ok, .answer .ok, .died] ∧
    replies [mkQueue qa 5, .enqueue qa (some (mkItem (kvOne qa qb) (-5))) true, .dequeue qa (some anything) 0 true] = [.answer .ok, .answer .ok, .died] := by
  decide +kernel

/-- The same in any state: taking an item whose timeout is not positive ends the process, any other item is delivered. -/
theorem C57_dequeue_crashes_iff {s : Requests.St} {m : Map} {B : Int} (h : TameReached s m B) {n : GoString} (hn : m.get? n ≠ none) {heap : List (List Int)}
    {c : OTM.Tree Key Nat} {l : List (OTM.OItem Key Nat)} {q : Query Key} (hq : validQuery q = true) (hl : OTM.query s.chans n q = some (c, .visited l))
    {pick r : Nat} {t : Int} {ts : List Int} (ho : (offers heap l)[pick]? = some (r, t, ts)) :
    (handle { s with heap := heap } (.dequeue n (some q) pick true)).2 = if t ≤ 0 then .died else .item t := by
  have hi := tameReached_inv h
  obtain ⟨es, ht, _, _, hp⟩ := hi.q.tree
  rcases find_entry hi.q.names hp n with ⟨_, hg⟩ | ⟨e, he, hf, hen, hg⟩
  · exact absurd hg hn
  · simp only [handle, dequeue, hq, if_true, onQueue, findRef_spec ht, hf, Option.map_some, dequeueFound, hl, ho]
    split <;> rfl

/-- The query `{"And":[{}]}`. -/
def emptyAnd : Query Key := .mk none [] [anything] true

/-- C57 fails: a valid query with a sub-query without conditions ends the process if it is used to dequeue, and panics otherwise, as soon as the
queue has had a channel. -/
theorem C57_violated_empty_subquery :
    validQuery emptyAnd = true ∧
    replies [mkQueue qa 5, .enqueue qa (some (mkItem (kvOne qa qb) 10)) true, .dequeue qa (some emptyAnd) 0 true] = [.answer .ok, .answer .ok, .died] ∧
    replies [mkQueue qa 5, .enqueue qa (some (mkItem (kvOne qa qb) 10)) true, .channelQuery qa (some emptyAnd)] = [.answer .ok, .answer .ok, .panicked] := by
  decide +kernel

/-- C57 fails: deleting a channel with an empty body ends the process, for every queue. -/
theorem C57_violated_empty_delete {s : Requests.St} {m : Map} {B : Int} (h : TameReached s m B) {n : GoString} (hn : m.get? n ≠ none) (complete up : Bool) :
    ¬ Answered (handle s (.channelDelete n [] complete up)).2 :=
  (C57_channel_delete_crashes_iff h n [] complete up (by simp [Distinct])).2 ⟨hn, .inl (.inl rfl)⟩

/-- C57 fails: if the limiter cannot be reached, deleting a channel or a queue with a channel ends the process, and an ack panics. -/
theorem C57_violated_limiter_down :
    replies [mkQueue qa 5, .enqueue qa (some (mkItem (kvOne qa qb) 10)) true, .channelDelete qa (kvOne qa qb) true false] = [.answer .ok, .answer .ok, .died] ∧
    replies [mkQueue qa 5, .enqueue qa (some (mkItem (kvOne qa qb) 10)) true, .delete qa false true true] = [.answer .ok, .answer .ok, .died] ∧
    replies [mkQueue qa 5, .delete qa true false false] = [.answer .ok, .panicked] ∧
    replies [mkQueue qa 5, .update qa (some ⟨some 7⟩) false false] = [.answer .ok, .panicked] := by decide +kernel

theorem exTame_reached : ∃ s m B, TameReached s m B ∧ m.get? qb = some 2 := by
  cases h : Requests.start freshLim with
  | none => exact absurd h (by decide +kernel)
  | some s =>
    obtain ⟨s', os, e, _, _⟩ := C57_answers_partial freshLim_reached h (exTame_tame _) (by decide +kernel)
    exact ⟨s', _, _, ⟨_, _, s, exTame, os, freshLim_reached, h, exTame_tame _, rfl, by decide +kernel, e, rfl⟩, by decide +kernel⟩

/-- Non-vacuity: the conditions for the crashing delete are met after `exTame`. -/
example : ∃ s m B, TameReached s m B ∧ m.get? qb ≠ none := by
  obtain ⟨s, m, B, h, hm⟩ := exTame_reached
  exact ⟨s, m, B, h, by simp [hm]⟩

/-! ### C70 -/

/-- C70 (partial): a request that is answered with an error (400, 404, 409, 500) leaves all queues, their limits, the channels and their items
as they were.  Missing: a failed delete of a queue, a rejected delete of a channel (see below), and what `Tame` leaves out (failed updates and
creates, C56). -/
theorem C70_error_changes_nothing_partial {s s' : Requests.St} {m : Map} {B : Int} (h : TameReached s m B) {r : Requests.Req} (hw : WellTyped s.q.rule r)
    (ht : Tame m r) (hB : B + amountOf r < 2 ^ 63) {o : Reply} (e : handle s r = (some s', o)) (he : IsError o)
    (h1 : ∀ n upC upQ up, r ≠ .delete n upC upQ up) (h2 : ∀ n kvs c up, r = .channelDelete n kvs c up → c = true ∧ validKVs false kvs = true) :
    Unchanged s s' := handle_error (tameReached_inv h) hw ht hB e he h1 h2

/-- Non-vacuity: after `exTame`, an enqueue to a missing queue is answered with an error. -/
example : ∃ s m B, TameReached s m B ∧ ∃ s', handle s (.enqueue qc (some (mkItem (kvOne qa qb) 10)) true) = (some s', .answer .notFound) ∧ IsError (.answer .notFound) := by
  have hg : (mapRun [] exTame).get? qc = none := by decide +kernel
  cases h : Requests.start freshLim with
  | none => exact absurd h (by decide +kernel)
  | some s =>
    obtain ⟨s', os, e, _, _⟩ := C57_answers_partial freshLim_reached h (exTame_tame _) (by decide +kernel)
    have hr : TameReached s' (mapRun [] exTame) (0 + amountsOf exTame) := ⟨_, _, s, exTame, os, freshLim_reached, h, exTame_tame _, rfl, by decide +kernel, e, rfl⟩
    refine ⟨s', _, _, hr, s', ?_, trivial⟩
    rcases onQueue_spec (tameReached_inv hr) qc (.answer .notFound) (enqueueFound s' qc (kvOne qa qb) 10 true) with ⟨_, e⟩ | ⟨hg', _⟩
    · rw [← e]
      simp only [handle, Requests.enqueue, mkItem]
      exact if_pos (by decide +kernel)
    · exact absurd hg hg'

/-- C70 fails: a delete of a channel that is answered 400, because the body is cut off after the key-values, deletes the channel. -/
theorem C70_violated_rejected_delete :
    replies [mkQueue qa 5, .enqueue qa (some (mkItem (kvOne qa qb) 10)) true, .channelDelete qa (kvOne qa qb) false true, .channelQuery qa (some anything)] =
      [.answer .ok, .answer .ok, .rejected, .channels 0] := by decide +kernel

/-- C70 fails: a delete of a queue that is answered 500 has already destroyed all channels and items; the queue stays. -/
theorem C70_violated_failed_queue_delete :
    replies [mkQueue qa 5, .enqueue qa (some (mkItem (kvOne qa qb) 10)) true, .channelQuery qa (some anything), .delete qa true true false,
      .get qa, .channelQuery qa (some anything)] =
      [.answer .ok, .answer .ok, .channels 1, .answer .internal, .answer (.one (qa, 5)), .channels 0] := by decide +kernel

end Willow.Props
