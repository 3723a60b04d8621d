import Verif.Spec.Requests
import Verif.Proofs.Queues
import Verif.Proofs.OneToMany
/-! Requests of willow: tame requests are answered. -/
namespace Willow.Assoc
open Willow Willow.Spec
variable {K V : Type} [KeyOps K]

/-! ### Queries that ask for something do not panic -/

mutual
theorem query_some (t : ATree K V) : ∀ q : Query K, everywhere (fun _ => True) Asks q → Asks q → ∃ s, t.query q = some (some s)
  | .mk sel or and nl, he, ha => by
    simp only [everywhere] at he
    obtain ⟨_, hor, hand⟩ := he
    simp only [ATree.query]
    cases sel with
    | some s =>
      obtain ⟨s1, e1⟩ := queryAnds_total t and hand (t.findIDs s)
      obtain ⟨s2, e2⟩ := queryOrs_total t or hor s1
      exact ⟨s2, by simp only [Option.isSome_some, Option.map_some]; rw [e1]; exact e2⟩
    | none =>
      cases and with
      | nil =>
        cases or with
        | nil => simp [Asks] at ha
        | cons o or =>
          simp only [everywhereL] at hor
          obtain ⟨s1, e1⟩ := query_some t o hor.2.1 hor.1
          obtain ⟨s2, e2⟩ := queryOrs_total t or hor.2.2 s1
          exact ⟨s2, by simp only [ATree.queryAnds, ATree.queryOrs, Option.isSome_none, e1, Bool.false_eq_true, if_false]; exact e2⟩
      | cons a and =>
        simp only [everywhereL] at hand
        obtain ⟨s0, e0⟩ := query_some t a hand.2.1 hand.1
        obtain ⟨s1, e1⟩ := queryAnds_total t and hand.2.2 s0
        obtain ⟨s2, e2⟩ := queryOrs_total t or hor s1
        exact ⟨s2, by simp only [ATree.queryAnds, Option.isSome_none, e0, Bool.false_eq_true, if_false, e1]; exact e2⟩
theorem queryAnds_total (t : ATree K V) : ∀ (qs : List (Query K)), everywhereL (fun _ => True) Asks qs → ∀ s : GSet,
    ∃ s', t.queryAnds true (some s) qs = some (true, some s')
  | [], _, s => ⟨s, by simp [ATree.queryAnds]⟩
  | q :: qs, he, s => by
    simp only [everywhereL] at he
    cases s with
    | nil => exact ⟨[], by simp [ATree.queryAnds]⟩
    | cons a s =>
      obtain ⟨s0, e0⟩ := query_some t q he.2.1 he.1
      obtain ⟨s1, e1⟩ := queryAnds_total t qs he.2.2 (GSet.inter (a :: s) s0)
      exact ⟨s1, by simp only [ATree.queryAnds, e0]; exact e1⟩
theorem queryOrs_total (t : ATree K V) : ∀ (qs : List (Query K)), everywhereL (fun _ => True) Asks qs → ∀ s : GSet,
    ∃ s', t.queryOrs true (some s) qs = some (some s')
  | [], _, s => ⟨s, by simp [ATree.queryOrs]⟩
  | q :: qs, he, s => by
    simp only [everywhereL] at he
    obtain ⟨s0, e0⟩ := query_some t q he.2.1 he.1
    obtain ⟨s1, e1⟩ := queryOrs_total t qs he.2.2 (s.addBulk s0)
    exact ⟨s1, by simp only [ATree.queryOrs, e0]; exact e1⟩
end

theorem queryAction_total (t : ATree K V) {q : Query K} (he : everywhere (fun _ => True) Asks q) (ha : IsEmptyQuery q ∨ Asks q) :
    ∃ l, t.queryAction q = some l := by
  obtain ⟨sel, or, and, nl⟩ := q
  by_cases hem : IsEmptyQuery (.mk sel or and nl)
  · obtain ⟨rfl, rfl, rfl, rfl⟩ := hem
    exact ⟨t.items, rfl⟩
  · obtain ⟨s, e⟩ := query_some t _ he (ha.resolve_left hem)
    refine ⟨s.filterMap t.itemById, ?_⟩
    unfold ATree.queryAction
    split
    · rename_i heq; cases heq; exact absurd ⟨rfl, rfl, rfl, rfl⟩ hem
    · rw [e]

end Willow.Assoc

namespace Willow.Requests
open Willow Willow.Assoc Willow.Spec Willow.Queues Willow.QueuesSpec Willow.Queue Willow.BTree

theorem exactQuery_proper (kvs : KVs Key) : RequestsSpec.Proper (exactQuery kvs) :=
  ⟨⟨fun _ _ => trivial, trivial, trivial⟩, .inr (by simp [Asks, exactQuery])⟩

/-- The invariant. -/
structure RInv (s : St) (m : Map) (B : Int) : Prop where
  q : QInv s.q m B
  chans : ∃ f, OTM.Sim s.chans f
  pos : ∀ l ∈ s.heap, ∀ t ∈ l, 0 < t
  named : m.get? [] = none

/-- A request does well. -/
def Fine (s : St) (r : Req) (m' : Map) (B' : Int) : Prop :=
  ∃ s' o, handle s r = (some s', o) ∧ RequestsSpec.Answered o ∧ RInv s' m' B' ∧ s'.q.rule = s.q.rule

theorem specStep_named {m : Map} (h : m.get? [] = none) {r : Queues.Req} (hr : ∀ l up, r ≠ .create [] l up) : (QueuesSpec.specStep m r).1.get? [] = none := by
  rw [get?_none] at h ⊢
  cases r with
  | create n l up =>
    simp only [QueuesSpec.specStep]
    split
    · exact h
    · split
      · intro q hq
        rcases List.mem_append.1 hq with hq | hq
        · exact h q hq
        · simp at hq; subst hq
          intro e; simp only at e; subst e; exact hr l up rfl
      · exact h
  | get n => simp only [QueuesSpec.specStep]; split <;> exact h
  | list => exact h
  | update n l upQ up =>
    simp only [QueuesSpec.specStep]
    split
    · split
      · intro q hq
        obtain ⟨p, hp, rfl⟩ := List.mem_map.1 hq
        by_cases e : p.1 = n
        · simp only [e, BEq.rfl, if_true]; rw [← e]; exact h p hp
        · simp only [beq_iff_eq, e, if_false]; exact h p hp
      · exact h
    · exact h
  | delete n upQ up =>
    simp only [QueuesSpec.specStep]
    split
    · split
      · intro q hq; exact h q (List.mem_filter.1 hq).1
      · exact h
    · exact h
  | other op => exact h

theorem queueReq_spec {s : St} {m : Map} {B : Int} (h : RInv s m B) {r : Queues.Req} (hv : ValidReq s.q.rule r) (hs : Safe m r) (hB : B + reqAmount r < 2 ^ 63)
    (hr : ∀ l up, r ≠ .create [] l up) :
    ∃ q' o, queueReq s r = (some { s with q := q' }, .answer o) ∧ RInv { s with q := q' } (QueuesSpec.specStep m r).1 (B + reqAmount r) ∧
      QueuesSpec.Same o (QueuesSpec.specStep m r).2 ∧ q'.rule = s.q.rule := by
  obtain ⟨q', o, e, hq, hsame, hrule⟩ := step_spec h.q hv hs hB
  exact ⟨q', o, by simp [queueReq, e], ⟨hq, h.chans, h.pos, specStep_named h.named hr⟩, hsame, hrule⟩

theorem onQueue_spec {s : St} {m : Map} {B : Int} (h : RInv s m B) (n : GoString) (missing : Reply) (f : Option St × Reply) :
    (m.get? n = none ∧ onQueue s n missing f = (some s, missing)) ∨ (m.get? n ≠ none ∧ n ≠ [] ∧ onQueue s n missing f = f) := by
  obtain ⟨es, ht, hh, href, hp⟩ := h.q.tree
  rcases find_entry h.q.names hp n with ⟨hf, hg⟩ | ⟨e, he, hf, hen, hg⟩
  · exact .inl ⟨hg, by simp [onQueue, findRef_spec ht, hf]⟩
  · refine .inr ⟨by rw [hg]; simp, ?_, by simp [onQueue, findRef_spec ht, hf]⟩
    rintro rfl
    rw [h.named] at hg; cases hg

theorem answered_answer (o : Out) : RequestsSpec.Answered (.answer o) := ⟨by simp, by simp⟩
theorem answered_rejected : RequestsSpec.Answered .rejected := ⟨by simp, by simp⟩

/-- A query of the channels of a queue returns channels. -/
theorem query_visited (c : OTM.Tree Key Nat) {n : GoString} (hn : n ≠ []) {q : Query Key} (hq : RequestsSpec.Proper q) :
    ∃ c' l, OTM.query c n q = some (c', .visited l) := by
  unfold OTM.query OTM.onRelation
  rw [if_neg hn]
  cases OTM.rel c n with
  | none => exact ⟨c, [], rfl⟩
  | some t =>
    obtain ⟨l, e⟩ := queryAction_total t hq.1 hq.2
    simp only [e, Option.map_some]
    exact ⟨_, _, rfl⟩

theorem kvsOf_valid {b : Bool} {kvs : RawKVs} (hv : validKVs b kvs = true) (hd : RequestsSpec.Distinct kvs) : ValidKVs (kvsOf kvs) := by
  simp only [validKVs, Bool.and_eq_true, List.all_eq_true] at hv
  obtain ⟨h1, h2⟩ := hv
  have h3 : kvs.map (·.1) = (kvsOf kvs).map (·.1) := by
    have : ∀ l : RawKVs, (∀ kv ∈ l, validValue b kv.2 = true) → l.map (·.1) = (kvsOf l).map (·.1) := by
      intro l
      induction l with
      | nil => intro _; rfl
      | cons x l ih =>
        intro hl
        have hx := hl x (by simp)
        obtain ⟨k, v⟩ := x
        cases v with
        | none => simp [validValue] at hx
        | some v =>
          have := ih (fun kv hkv => hl kv (by simp [hkv]))
          simp [kvsOf, this]
    exact this kvs h2
  refine ⟨?_, ?_⟩
  · intro e
    rw [e] at h3
    cases kvs with
    | nil => simp at h1
    | cons x l => simp at h3
  · rw [← h3]; exact hd

theorem amountOf_none {r : Req} (h : RequestsSpec.queueReq? r = none) : RequestsSpec.amountOf r = 0 := by simp [RequestsSpec.amountOf, h]
theorem mapStep_none {m : Map} {r : Req} (h : RequestsSpec.queueReq? r = none) : RequestsSpec.mapStep m r = m := by simp [RequestsSpec.mapStep, h]

/-- Requests that do not reach the queues. -/
theorem Fine.other {s : St} {m : Map} {B : Int} {r : Req} (hq : RequestsSpec.queueReq? r = none)
    (h : Fine s r m B) : Fine s r (RequestsSpec.mapStep m r) (B + RequestsSpec.amountOf r) := by
  rw [amountOf_none hq, mapStep_none hq, Int.add_zero]; exact h

theorem Fine.mk {s s' : St} {m : Map} {B : Int} {r : Req} {o : Reply} (e : handle s r = (some s', o)) (ha : RequestsSpec.Answered o)
    (hi : RInv s' m B) (hr : s'.q.rule = s.q.rule) : Fine s r m B := ⟨s', o, e, ha, hi, hr⟩

/-- Requests that reach the queues only. -/
theorem Fine.queue {s : St} {m : Map} {B : Int} (h : RInv s m B) {r : Req} {q : Queues.Req} (hq : RequestsSpec.queueReq? r = some q)
    (hv : ValidReq s.q.rule q) (hs : Safe m q) (hB : B + RequestsSpec.amountOf r < 2 ^ 63) (hr : ∀ l up, q ≠ .create [] l up) (hh : handle s r = queueReq s q) :
    Fine s r (RequestsSpec.mapStep m r) (B + RequestsSpec.amountOf r) := by
  simp only [RequestsSpec.amountOf, RequestsSpec.mapStep, hq] at hB ⊢
  obtain ⟨q', o, e, hi, _, hrule⟩ := queueReq_spec h hv hs hB hr
  exact ⟨_, _, hh.trans e, answered_answer _, hi, hrule⟩

theorem createNoProps_found {s : St} {m : Map} {B : Int} (h : RInv s m B) {n : GoString} (hn : m.get? n ≠ none) :
    createNoProps s n = (some s, .answer .conflict) := by
  obtain ⟨es, ht, hh, href, hp⟩ := h.q.tree
  rcases find_entry h.q.names hp n with ⟨hf, hg⟩ | ⟨e, he, hf, hen, hg⟩
  · exact absurd hg hn
  · have hlook : lookupL (vString n) (es.map Entry.kv) = some e.kv := by rw [lookupL_entries, hf]; rfl
    obtain ⟨kv, hkv⟩ := tree_create_fail_found ht _ hlook
    simp only [createNoProps, hkv]

theorem create_fine {s : St} {m : Map} {B : Int} (h : RInv s m B) {b : Option QueueBody} {up : Bool} (hw : RequestsSpec.WellTyped s.q.rule (.create b up))
    (ht : RequestsSpec.Tame m (.create b up)) (hB : B + RequestsSpec.amountOf (.create b up) < 2 ^ 63) :
    Fine s (.create b up) (RequestsSpec.mapStep m (.create b up)) (B + RequestsSpec.amountOf (.create b up)) := by
  cases b with
  | none => exact Fine.other rfl (.mk (s' := s) rfl answered_rejected h rfl)
  | some b =>
    by_cases hv : b.validateSpecOnly = true
    · obtain ⟨spec, state⟩ := b
      simp only [QueueBody.validateSpecOnly, Bool.and_eq_true, Bool.not_eq_true'] at hv
      obtain ⟨h1, rfl⟩ := hv
      cases spec with
      | none => simp at h1
      | some spec =>
        obtain ⟨name, props⟩ := spec
        simp only [QueueSpec.validate, Bool.and_eq_true] at h1
        obtain ⟨h1, h2⟩ := h1
        match name, h1 with
        | some (some n), h1 =>
          have hn : n ≠ [] := by simpa using h1
          match props, h2 with
          | some ⟨some l⟩, _ =>
            have hq : RequestsSpec.queueReq? (.create (some ⟨some ⟨some (some n), some ⟨some l⟩⟩, false⟩) up) = some (.create n l up) := by
              simp [RequestsSpec.queueReq?, hn]
            refine Fine.queue h hq (hw.1 _ hq) (ht.1 _ hq) hB ?_ ?_
            · intro l' up' e; cases e; exact hn rfl
            · simp [handle, create, QueueBody.validateSpecOnly, QueueSpec.validate, QueueProps.validate, hn]
          | none, _ =>
            refine Fine.other rfl (.mk (s' := s) (o := .answer .conflict) ?_ (answered_answer _) h rfl)
            have := createNoProps_found h (n := n) (ht.2.resolve_left hn)
            simp [handle, create, QueueBody.validateSpecOnly, QueueSpec.validate, hn, this]
    · have hq : RequestsSpec.queueReq? (.create (some b) up) = none := by
        obtain ⟨spec, state⟩ := b
        unfold RequestsSpec.queueReq?
        split
        · rename_i n l up' heq
          injection heq with heq _
          injection heq with heq
          injection heq with h1 h2
          subst h1 h2
          simp only [QueueBody.validateSpecOnly, QueueSpec.validate, QueueProps.validate] at hv
          simp at hv
          simp [hv]
        all_goals first | rfl | (rename_i heq; cases heq)
      exact Fine.other hq (.mk (s' := s) (by simp [handle, create, hv]) answered_rejected h rfl)

theorem update_fine {s : St} {m : Map} {B : Int} (h : RInv s m B) {n : GoString} {b : Option QueueProps} {upQ up : Bool}
    (hw : RequestsSpec.WellTyped s.q.rule (.update n b upQ up)) (ht : RequestsSpec.Tame m (.update n b upQ up)) (hB : B + RequestsSpec.amountOf (.update n b upQ up) < 2 ^ 63) :
    Fine s (.update n b upQ up) (RequestsSpec.mapStep m (.update n b upQ up)) (B + RequestsSpec.amountOf (.update n b upQ up)) := by
  match b with
  | none => exact Fine.other rfl (.mk (s' := s) rfl answered_rejected h rfl)
  | some ⟨none⟩ => exact Fine.other rfl (.mk (s' := s) rfl answered_rejected h rfl)
  | some ⟨some l⟩ => exact Fine.queue h rfl (hw.1 _ rfl) (ht.1 _ rfl) hB (by simp) rfl

theorem destroyChannels_spec {s : St} (hc : ∃ f, OTM.Sim s.chans f) {n : GoString} (hn : n ≠ []) :
    ∃ c, destroyChannels s n true = (some c, .answer .ok) ∧ (∃ f, OTM.Sim c f) ∧ OTM.rel c n = none ∧ ∀ b, b ≠ n → OTM.rel c b = OTM.rel s.chans b := by
  obtain ⟨f, hf⟩ := hc
  unfold destroyChannels
  cases hr : OTM.rel s.chans n with
  | none => exact ⟨s.chans, rfl, ⟨f, hf⟩, hr, fun _ _ => rfl⟩
  | some t =>
    obtain ⟨c, out, e, hsim, _⟩ := OTM.step_sim hf (op := .destroyOne n none id) (fun l => List.Perm.refl _)
    have e' : OTM.destroyOne s.chans n none id = some (c, out) := e
    refine ⟨c, by simp [e'], ⟨_, hsim⟩, ?_, ?_⟩
    · have := hsim.eq n
      simp only [OTMSpec.famStep, OTM.OOp.one, if_true, OTMSpec.relStep, if_neg hn, ← hf.eq n, hr, Option.map_some, Option.all_none] at this
      simpa using this
    · intro b hb
      exact OTM.step_other e hb

theorem delete_fine {s : St} {m : Map} {B : Int} (h : RInv s m B) {n : GoString} {upC upQ up : Bool}
    (ht : RequestsSpec.Tame m (.delete n upC upQ up)) (hB : B + RequestsSpec.amountOf (.delete n upC upQ up) < 2 ^ 63) :
    Fine s (.delete n upC upQ up) (RequestsSpec.mapStep m (.delete n upC upQ up)) (B + RequestsSpec.amountOf (.delete n upC upQ up)) := by
  have hq : RequestsSpec.queueReq? (.delete n upC upQ up) = some (.delete n upQ up) := rfl
  simp only [RequestsSpec.amountOf, RequestsSpec.mapStep, hq] at hB ⊢
  rcases onQueue_spec h n (.answer .ok) (deleteFound s n upC upQ up) with ⟨hg, e⟩ | ⟨hg, hn, e⟩
  · refine ⟨s, _, e, answered_answer _, ?_, rfl⟩
    simp only [QueuesSpec.specStep, hg, reqAmount, Int.add_zero]; exact h
  · have hup : upC = true := ht.2.resolve_left hg
    subst hup
    obtain ⟨c, ec, hc, _⟩ := destroyChannels_spec h.chans hn
    have h' : RInv { s with chans := c } m B := ⟨h.q, hc, h.pos, h.named⟩
    obtain ⟨q', o, e2, hi, _, hrule⟩ := queueReq_spec h' (r := .delete n upQ up) trivial (ht.1 _ hq) hB (by simp)
    refine ⟨_, _, ?_, answered_answer o, hi, hrule⟩
    show delete s n true upQ up = _
    unfold delete
    rw [e]
    simp only [deleteFound, ec]
    exact e2

theorem handle_fine {s : St} {m : Map} {B : Int} (h : RInv s m B) {r : Req} (hw : RequestsSpec.WellTyped s.q.rule r) (ht : RequestsSpec.Tame m r)
    (hB : B + RequestsSpec.amountOf r < 2 ^ 63) : Fine s r (RequestsSpec.mapStep m r) (B + RequestsSpec.amountOf r) := by
  cases r with
  | create b up => exact create_fine h hw ht hB
  | list => exact Fine.queue h rfl (hw.1 _ rfl) (ht.1 _ rfl) hB (by simp) rfl
  | get n => exact Fine.queue h rfl (hw.1 _ rfl) (ht.1 _ rfl) hB (by simp) rfl
  | update n b upQ up => exact update_fine h hw ht hB
  | delete n upC upQ up => exact delete_fine h ht hB
  | channelQuery n q =>
    refine Fine.other rfl ?_
    cases q with
    | none => exact .mk (s' := s) rfl answered_rejected h rfl
    | some q =>
      by_cases hv : validQuery q = true
      · rcases onQueue_spec h n (.channels 0) (queryFound s n q) with ⟨hg, e⟩ | ⟨hg, hn, e⟩
        · exact .mk (s' := s) (by simp only [handle, channelQuery, hv, if_true]; exact e) ⟨by simp, by simp⟩ h rfl
        · obtain ⟨c', l, eq⟩ := query_visited s.chans hn ht.2
          refine .mk (s' := s) (o := .channels l.length) ?_ ⟨by simp, by simp⟩ h rfl
          simp only [handle, channelQuery, hv, if_true]
          rw [e]; simp only [queryFound, eq]
      · exact .mk (s' := s) (by simp [handle, channelQuery, hv]) answered_rejected h rfl
  | channelDelete n kvs complete up =>
    refine Fine.other rfl ?_
    rcases onQueue_spec h n (if complete && validKVs false kvs then .answer .notFound else .rejected)
      (deleteChannel s n kvs up (if complete && validKVs false kvs then .answer .ok else .rejected)) with ⟨hg, e⟩ | ⟨hg, hn, e⟩
    · refine .mk (s' := s) e ?_ h rfl
      split <;> exact ⟨by simp, by simp⟩
    · obtain ⟨h1, h2, rfl⟩ := ht.2.resolve_left hg
      have hv : validKVs true kvs = true := by
        simp only [validKVs, Bool.and_eq_true, List.all_eq_true]
        refine ⟨by simpa using h1, fun kv hkv => ?_⟩
        have := h2 kv hkv
        cases hk : kv.2 with
        | none => exact absurd hk this
        | some k =>
          simp only [validValue, if_true, decide_eq_true_eq]
          rcases LawfulKey.typ_valid k with h | h
          · simp only [DataType.isGeneral, Bool.or_eq_true, beq_iff_eq] at h
            generalize KeyOps.typ k = x at h
            rcases h with (((((((((((h | h) | h) | h) | h) | h) | h) | h) | h) | h) | h) | h) | h <;> (rw [h]; decide)
          · rw [h]; decide
      obtain ⟨f, hf⟩ := h.chans
      obtain ⟨c, out, e1, hsim, _⟩ := OTM.step_sim hf (op := .deleteByKeyValues n (kvsOf kvs) (some (fun _ => true))) (kvsOf_valid hv hw.2)
      have e1' : OTM.deleteByKeyValues s.chans n (kvsOf kvs) (some (fun _ => true)) = some (c, out) := e1
      have ho : ∃ a, out = .deleted a := by
        simp only [OTM.deleteByKeyValues, OTM.onRelation, if_neg hn] at e1'
        split at e1'
        · cases e1'; exact ⟨_, rfl⟩
        · simp only [Option.some.injEq, Prod.mk.injEq] at e1'
          exact ⟨_, e1'.2.symm⟩
      obtain ⟨a, rfl⟩ := ho
      refine .mk (s' := { s with chans := c }) (o := if complete && validKVs false kvs then .answer .ok else .rejected) ?_ (by split <;> exact ⟨by simp, by simp⟩)
        ⟨h.q, ⟨_, hsim⟩, h.pos, h.named⟩ rfl
      show channelDelete s n kvs complete true = _
      unfold channelDelete
      rw [e]
      simp only [deleteChannel, hv, if_true, e1']
      cases a <;> rfl
  | enqueue n b admit =>
    refine Fine.other rfl ?_
    cases b with
    | none => exact .mk (s' := s) rfl answered_rejected h rfl
    | some b =>
      by_cases hv : b.validateSpecOnly = true
      · obtain ⟨spec, state⟩ := b
        match spec, hv with
        | some (some kvs, some ⟨data, updateable, retryAttempts, retryPosition, timeout⟩), hv =>
          simp only [ItemBody.validateSpecOnly, ItemProps.validate, Bool.and_eq_true] at hv
          cases timeout with
          | none => simp at hv
          | some timeout =>
            have hpos : 0 < timeout := ht.2 timeout rfl
            have hk := kvsOf_valid hv.1.1 hw.2
            obtain ⟨f, hf⟩ := h.chans
            obtain ⟨c, out, e1, hsim, _⟩ := OTM.step_sim hf (op := .createOrFind n (kvsOf kvs) (if admit then some s.heap.length else none)) hk
            have e1' : OTM.createOrFind s.chans n (kvsOf kvs) (if admit then some s.heap.length else none) = some (c, out) := e1
            have he : handle s (.enqueue n (some ⟨some (some kvs, some ⟨data, updateable, retryAttempts, retryPosition, some timeout⟩), state⟩) admit) =
                onQueue s n (.answer .notFound) (enqueueFound s n kvs timeout admit) := by
              simp only [handle, enqueue]
              exact if_pos (by simp only [ItemBody.validateSpecOnly, ItemProps.validate, Bool.and_eq_true]; exact hv)
            rcases onQueue_spec h n (.answer .notFound) (enqueueFound s n kvs timeout admit) with ⟨hg, e⟩ | ⟨hg, hn, e⟩
            · exact .mk (s' := s) (he.trans e) (answered_answer _) h rfl
            · rw [e] at he; simp only [enqueueFound, e1'] at he
              cases out with
              | created id =>
                refine .mk he (answered_answer _) ⟨h.q, ⟨_, hsim⟩, ?_, h.named⟩ rfl
                intro l hl t htl
                rcases List.mem_append.1 hl with hl | hl
                · exact h.pos l hl t htl
                · simp at hl; subst hl; simp at htl; subst htl; exact hpos
              | found i =>
                cases admit with
                | false => exact .mk he (answered_answer _) ⟨h.q, ⟨_, hsim⟩, h.pos, h.named⟩ rfl
                | true =>
                  refine .mk he (answered_answer _) ⟨h.q, ⟨_, hsim⟩, ?_, h.named⟩ rfl
                  intro l hl t htl
                  rcases List.mem_or_eq_of_mem_set hl with hl | rfl
                  · exact h.pos l hl t htl
                  · rcases List.mem_append.1 htl with htl | htl
                    · rw [List.getD_eq_getElem?_getD] at htl
                      cases hx : s.heap[i.value]? with
                      | none => simp [hx] at htl
                      | some y => simp only [hx, Option.getD_some] at htl; exact h.pos y (List.mem_of_getElem? hx) t htl
                    · simp at htl; subst htl; exact hpos
              | failed => exact .mk he (answered_answer _) ⟨h.q, ⟨_, hsim⟩, h.pos, h.named⟩ rfl
              | error _ => exact .mk he (answered_answer _) ⟨h.q, ⟨_, hsim⟩, h.pos, h.named⟩ rfl
              | deleted _ => exact .mk he (answered_answer _) ⟨h.q, ⟨_, hsim⟩, h.pos, h.named⟩ rfl
              | visited _ => exact .mk he (answered_answer _) ⟨h.q, ⟨_, hsim⟩, h.pos, h.named⟩ rfl
              | destroyed _ => exact .mk he (answered_answer _) ⟨h.q, ⟨_, hsim⟩, h.pos, h.named⟩ rfl
      · exact .mk (s' := s) (by simp [handle, enqueue, hv]) answered_rejected h rfl
  | dequeue n q pick admit =>
    refine Fine.other rfl ?_
    cases q with
    | none => exact .mk (s' := s) rfl answered_rejected h rfl
    | some q =>
      by_cases hv : validQuery q = true
      · have he : handle s (.dequeue n (some q) pick admit) = onQueue s n (.answer .notFound) (dequeueFound s n q pick admit) := by
          simp only [handle, dequeue, hv, if_true]
        rcases onQueue_spec h n (.answer .notFound) (dequeueFound s n q pick admit) with ⟨hg, e⟩ | ⟨hg, hn, e⟩
        · exact .mk (s' := s) (he.trans e) (answered_answer _) h rfl
        · obtain ⟨c', l, eq⟩ := query_visited s.chans hn ht.2
          rw [e] at he; simp only [dequeueFound, eq] at he
          cases ho : (offers s.heap l)[pick]? with
          | none => rw [ho] at he; exact .mk (s' := s) he (answered_answer _) h rfl
          | some x =>
            obtain ⟨r, t, ts⟩ := x
            rw [ho] at he
            cases admit with
            | false => exact .mk (s' := s) he (answered_answer _) h rfl
            | true =>
              have hm := List.mem_of_getElem? ho
              simp only [offers, List.mem_filterMap] at hm
              obtain ⟨i, _, hi⟩ := hm
              have hx : s.heap[i.value]? = some (t :: ts) := by
                rw [List.getD_eq_getElem?_getD] at hi
                cases hx : s.heap[i.value]? with
                | none => simp [hx] at hi
                | some y =>
                  cases y with
                  | nil => simp [hx] at hi
                  | cons a as => simp [hx] at hi; rw [hi.2.1, hi.2.2]
              have hy := h.pos _ (List.mem_of_getElem? hx)
              have ht := hy t (by simp)
              simp only [show ¬ t ≤ 0 by omega, if_false] at he
              refine .mk he ⟨by simp, by simp⟩ ⟨h.q, h.chans, ?_, h.named⟩ rfl
              intro l hl t' ht'
              rcases List.mem_or_eq_of_mem_set hl with hl | rfl
              · exact h.pos l hl t' ht'
              · exact hy t' (by simp [ht'])
      · exact .mk (s' := s) (by simp [handle, dequeue, hv]) answered_rejected h rfl
  | ack n b res =>
    refine Fine.other rfl ?_
    cases b with
    | none => exact .mk (s' := s) rfl answered_rejected h rfl
    | some b =>
      by_cases hv : b.validate = true
      · have he : handle s (.ack n (some b) res) = onQueue s n (.answer .notFound) (ackFound s n b.kvs res) := by
          simp only [handle, ack, hv, if_true]
        rcases onQueue_spec h n (.answer .notFound) (ackFound s n b.kvs res) with ⟨hg, e⟩ | ⟨hg, hn, e⟩
        · exact .mk (s' := s) (he.trans e) (answered_answer _) h rfl
        · obtain ⟨c', l, eq⟩ := query_visited s.chans hn (exactQuery_proper (kvsOf b.kvs))
          rw [e] at he; simp only [ackFound, eq] at he
          cases l with
          | nil => exact .mk (s' := s) he (answered_answer _) h rfl
          | cons x l =>
            cases res with
            | notFound => exact .mk (s' := s) he (answered_answer _) h rfl
            | ok => exact .mk (s' := s) he (answered_answer _) h rfl
            | limiterFailed => exact absurd rfl ht.2
            | okEmpty =>
              have hvk : validKVs false b.kvs = true := by
                simp only [ItemRef.validate, Bool.and_eq_true] at hv; exact hv.2
              obtain ⟨f, hf⟩ := h.chans
              obtain ⟨c, out, e1, hsim, _⟩ := OTM.step_sim hf (op := .deleteByKeyValues n (kvsOf b.kvs) (some (fun i => (s.heap.getD i.value []).isEmpty))) (kvsOf_valid hvk hw.2)
              have e1' : OTM.deleteByKeyValues s.chans n (kvsOf b.kvs) (some (fun i => (s.heap.getD i.value []).isEmpty)) = some (c, out) := e1
              have ho : ∃ a, out = .deleted a := by
                simp only [OTM.deleteByKeyValues, OTM.onRelation, if_neg hn] at e1'
                split at e1'
                · cases e1'; exact ⟨_, rfl⟩
                · simp only [Option.some.injEq, Prod.mk.injEq] at e1'
                  exact ⟨_, e1'.2.symm⟩
              obtain ⟨a, rfl⟩ := ho
              simp only [e1'] at he
              exact .mk he (answered_answer _) ⟨h.q, ⟨_, hsim⟩, h.pos, h.named⟩ rfl
      · exact .mk (s' := s) (by simp [handle, ack, hv]) answered_rejected h rfl
  | heartbeat n b found =>
    refine Fine.other rfl ?_
    cases b with
    | none => exact .mk (s' := s) rfl answered_rejected h rfl
    | some b =>
      by_cases hv : b.validate = true
      · have he : handle s (.heartbeat n (some b) found) = onQueue s n (.answer .notFound) (heartbeatFound s n b.kvs found) := by
          simp only [handle, heartbeat, hv, if_true]
        rcases onQueue_spec h n (.answer .notFound) (heartbeatFound s n b.kvs found) with ⟨hg, e⟩ | ⟨hg, hn, e⟩
        · exact .mk (s' := s) (he.trans e) (answered_answer _) h rfl
        · obtain ⟨c', l, eq⟩ := query_visited s.chans hn (exactQuery_proper (kvsOf b.kvs))
          rw [e] at he; simp only [heartbeatFound, eq] at he
          exact .mk (s' := s) he (answered_answer _) h rfl
      · exact .mk (s' := s) (by simp [handle, heartbeat, hv]) answered_rejected h rfl
  | other op => exact Fine.queue h rfl (hw.1 _ rfl) (ht.1 _ rfl) hB (by simp) rfl

theorem amountOf_nonneg (r : Req) : 0 ≤ RequestsSpec.amountOf r := by
  unfold RequestsSpec.amountOf
  split
  · exact reqAmount_nonneg _
  · exact Int.le_refl 0

theorem amountsOf_nonneg : ∀ rs, 0 ≤ RequestsSpec.amountsOf rs
  | [] => Int.le_refl 0
  | r :: rs => by
    have := amountOf_nonneg r
    have := amountsOf_nonneg rs
    simp only [RequestsSpec.amountsOf, List.map_cons, List.sum_cons] at *
    omega

/-- The queues after a history. -/
def mapRun (m : Map) : List Req → Map
  | [] => m
  | r :: rs => mapRun (RequestsSpec.mapStep m r) rs

theorem run_fine : ∀ {rs : List Req} {s : St} {m : Map} {B : Int}, RInv s m B → RequestsSpec.TameRun s.q.rule m rs → B + RequestsSpec.amountsOf rs < 2 ^ 63 →
    ∃ s' os, run s rs = (some s', os) ∧ os.length = rs.length ∧ (∀ o ∈ os, RequestsSpec.Answered o) ∧ RInv s' (mapRun m rs) (B + RequestsSpec.amountsOf rs) ∧ s'.q.rule = s.q.rule
  | [], s, m, B, h, _, _ => ⟨s, [], rfl, rfl, by simp, by simpa [RequestsSpec.amountsOf, mapRun] using h, rfl⟩
  | r :: rs, s, m, B, h, ht, hB => by
    have e : RequestsSpec.amountsOf (r :: rs) = RequestsSpec.amountOf r + RequestsSpec.amountsOf rs := by simp [RequestsSpec.amountsOf]
    have := amountsOf_nonneg rs
    obtain ⟨s1, o, a1, a2, a3, a4⟩ := handle_fine h ht.1 ht.2.1 (by omega)
    obtain ⟨s2, os, b1, b2, b3, b4, b5⟩ := run_fine a3 (by rw [a4]; exact ht.2.2) (by omega)
    refine ⟨s2, o :: os, by simp only [run, a1, b1], by simp [b2], ?_, ?_, by rw [b5, a4]⟩
    · intro o' ho
      rcases List.mem_cons.1 ho with rfl | ho
      · exact a2
      · exact b3 o' ho
    · rw [e, ← Int.add_assoc]; exact b4

theorem start_inv {lim : Limiter.State Key} {B : Int} (h : Limiter.LInv lim B) {s : St} (hs : start lim = some s) : RInv s [] B := by
  unfold start at hs
  rcases start_spec h with ⟨_, e⟩ | ⟨_, q, e, hq⟩
  · rw [e] at hs; cases hs
  · rw [e] at hs; cases hs
    exact ⟨hq, ⟨_, OTM.sim_nil⟩, by simp, rfl⟩

end Willow.Requests

/-! ### Errors change nothing -/
namespace Willow.Requests
open Willow Willow.Assoc Willow.Spec Willow.Queues Willow.QueuesSpec Willow.Queue Willow.BTree

theorem queueOf_spec {s : St} {m : Map} {B : Int} (h : RInv s m B) (n : GoString) :
    RequestsSpec.queueOf s n = some (match m.get? n with | some l => .one (n, l) | none => .notFound) := by
  obtain ⟨s', o, e, _, hs, _⟩ := step_get h.q n
  simp only [RequestsSpec.queueOf, e, Option.map_some]
  cases hg : m.get? n with
  | none =>
    simp only [QueuesSpec.specStep, hg] at hs
    cases o <;> simp_all [QueuesSpec.Same]
  | some l =>
    simp only [QueuesSpec.specStep, hg] at hs
    cases o <;> simp_all [QueuesSpec.Same]

theorem unchanged_queues {s s' : St} {m : Map} {B B' : Int} (h : RInv s m B) (h' : RInv s' m B') (hc : ∀ n, RequestsSpec.channelsOf s' n = RequestsSpec.channelsOf s n) :
    RequestsSpec.Unchanged s s' := ⟨fun n => by rw [queueOf_spec h, queueOf_spec h'], hc⟩

theorem unchanged_refl (s : St) : RequestsSpec.Unchanged s s := ⟨fun _ => rfl, fun _ => rfl⟩

theorem specStep_error {m : Map} {r : Queues.Req} {o : Out} (h : QueuesSpec.Same o (QueuesSpec.specStep m r).2) (he : RequestsSpec.IsError (.answer o)) :
    (QueuesSpec.specStep m r).1 = m := by
  cases r with
  | create n l up =>
    simp only [QueuesSpec.specStep] at h ⊢
    split
    · rfl
    · rename_i hg
      simp only [hg] at h
      split
      · rename_i hc; rw [if_pos hc] at h; cases o <;> simp_all [QueuesSpec.Same, RequestsSpec.IsError]
      · rfl
  | get n => simp only [QueuesSpec.specStep]; split <;> rfl
  | list => rfl
  | update n l upQ up =>
    simp only [QueuesSpec.specStep] at h ⊢
    split
    · rename_i hg
      simp only [hg] at h
      split
      · rename_i hc; rw [if_pos hc] at h; cases o <;> simp_all [QueuesSpec.Same, RequestsSpec.IsError]
      · rfl
    · rfl
  | delete n upQ up =>
    simp only [QueuesSpec.specStep] at h ⊢
    split
    · rename_i hg
      simp only [hg] at h
      split
      · rename_i hc; rw [if_pos hc] at h; cases o <;> simp_all [QueuesSpec.Same, RequestsSpec.IsError]
      · rfl
    · rfl
  | other op => rfl

theorem queueReq_error {s s' : St} {m : Map} {B : Int} (h : RInv s m B) {r : Queues.Req} (hv : ValidReq s.q.rule r) (hs : Safe m r) (hB : B + reqAmount r < 2 ^ 63)
    (hr : ∀ l up, r ≠ .create [] l up) {o : Reply} (e : queueReq s r = (some s', o)) (he : RequestsSpec.IsError o) : RequestsSpec.Unchanged s s' := by
  obtain ⟨q', o', e', hi, hsame, hrule⟩ := queueReq_spec h hv hs hB hr
  rw [e'] at e
  cases e
  rw [specStep_error hsame he] at hi
  exact unchanged_queues h hi (fun _ => rfl)

theorem onQueue_error {s s' : St} {m : Map} {B : Int} (h : RInv s m B) {n : GoString} {missing o : Reply} {f : Option St × Reply}
    (e : onQueue s n missing f = (some s', o)) (hf : n ≠ [] → f = (some s', o) → RequestsSpec.Unchanged s s') : RequestsSpec.Unchanged s s' := by
  rcases onQueue_spec h n missing f with ⟨_, e'⟩ | ⟨_, hn, e'⟩
  · rw [e'] at e; cases e; exact unchanged_refl _
  · exact hf hn (e'.symm.trans e)

theorem channels_same {s : St} {c : OTM.Tree Key Nat} {n : GoString} (h1 : ∀ b, b ≠ n → OTM.rel c b = OTM.rel s.chans b)
    (h2 : (((OTM.rel c n).map (·.items)).getD []) = ((OTM.rel s.chans n).map (·.items)).getD []) (b : GoString) :
    RequestsSpec.channelsOf { s with chans := c } b = RequestsSpec.channelsOf s b := by
  by_cases hb : b = n
  · subst hb
    simp only [RequestsSpec.channelsOf]
    cases hx : OTM.rel c b <;> cases hy : OTM.rel s.chans b <;> simp_all
  · simp only [RequestsSpec.channelsOf, h1 b hb]

/-- An enqueue that is not accepted leaves the channels of every queue alone. -/
theorem createOrFind_same {s : St} (hc : ∃ f, OTM.Sim s.chans f) {n : GoString} {kvs : KVs Key} (hk : ValidKVs kvs) {v : Option Nat}
    {c : OTM.Tree Key Nat} {out : OTM.OOut Key Nat} (e : OTM.createOrFind s.chans n kvs v = some (c, out)) (hout : ∀ id, out ≠ .created id) (b : GoString) :
    RequestsSpec.channelsOf { s with chans := c } b = RequestsSpec.channelsOf s b := by
  obtain ⟨f, hf⟩ := hc
  obtain ⟨c', out', e1, hsim, hs⟩ := OTM.step_sim hf (op := .createOrFind n kvs v) hk
  have e1' : OTM.createOrFind s.chans n kvs v = some (c', out') := e1
  rw [e] at e1'
  cases e1'
  refine channels_same (n := n) (fun b hb => OTM.step_other e1 hb) ?_ b
  have h1 := hsim.eq n
  have h2 := hf.eq n
  simp only [OTMSpec.famStep, OTM.OOp.one, if_true, OTMSpec.relStep] at h1 hs
  have key : ∀ (o : OTM.Tree Key Nat), ((OTM.rel o n).map (·.items)).getD [] = (((OTM.rel o n).map OTM.plain).getD ⟨[], 0⟩).items := by
    intro o; cases OTM.rel o n <;> rfl
  rw [key, key, h1, h2]
  split
  · rfl
  · split
    · rfl
    · split
      · cases hfn : f n <;> rfl
      · rename_i h3 h4 _ _ _ h5
        exfalso
        simp only [h3, h4, h5, if_false] at hs
        cases out with
        | created id => exact hout id rfl
        | _ => simp_all [OTMSpec.Same]
      · cases hfn : f n <;> rfl

theorem handle_error {s s' : St} {m : Map} {B : Int} (h : RInv s m B) {r : Req} (hw : RequestsSpec.WellTyped s.q.rule r) (ht : RequestsSpec.Tame m r)
    (hB : B + RequestsSpec.amountOf r < 2 ^ 63) {o : Reply} (e : handle s r = (some s', o)) (he : RequestsSpec.IsError o)
    (h1 : ∀ n upC upQ up, r ≠ .delete n upC upQ up) (h2 : ∀ n kvs c up, r = .channelDelete n kvs c up → c = true ∧ validKVs false kvs = true) :
    RequestsSpec.Unchanged s s' := by
  cases r with
  | create b up =>
    cases b with
    | none => cases e; exact unchanged_refl _
    | some b =>
      by_cases hv : b.validateSpecOnly = true
      · obtain ⟨spec, state⟩ := b
        have hv' := hv
        simp only [QueueBody.validateSpecOnly, Bool.and_eq_true, Bool.not_eq_true'] at hv
        obtain ⟨hs1, rfl⟩ := hv
        cases spec with
        | none => simp at hs1
        | some spec =>
          obtain ⟨name, props⟩ := spec
          simp only [QueueSpec.validate, Bool.and_eq_true] at hs1
          obtain ⟨hs1, hs2⟩ := hs1
          match name, hs1 with
          | some (some n), hs1 =>
            have hn : n ≠ [] := by simpa using hs1
            match props, hs2 with
            | some ⟨some l⟩, _ =>
              have hq : RequestsSpec.queueReq? (.create (some ⟨some ⟨some (some n), some ⟨some l⟩⟩, false⟩) up) = some (.create n l up) := by
                simp [RequestsSpec.queueReq?, hn]
              have e' : queueReq s (.create n l up) = (some s', o) := by
                rw [← e]; simp [handle, create, QueueBody.validateSpecOnly, QueueSpec.validate, QueueProps.validate, hn]
              refine queueReq_error h (hw.1 _ hq) (ht.1 _ hq) ?_ ?_ e' he
              · simpa [RequestsSpec.amountOf, hq] using hB
              · intro l' up' e; cases e; exact hn rfl
            | none, _ =>
              have := createNoProps_found h (n := n) (ht.2.resolve_left hn)
              simp [handle, create, QueueBody.validateSpecOnly, QueueSpec.validate, hn, this] at e
              rw [← e.1]; exact unchanged_refl _
      · simp [handle, create, hv] at e
        rw [← e.1]; exact unchanged_refl _
  | list => exact queueReq_error h (hw.1 _ rfl) (ht.1 _ rfl) hB (by simp) e he
  | get n => exact queueReq_error h (hw.1 _ rfl) (ht.1 _ rfl) hB (by simp) e he
  | update n b upQ up =>
    match b with
    | none => cases e; exact unchanged_refl _
    | some ⟨none⟩ => cases e; exact unchanged_refl _
    | some ⟨some l⟩ => exact queueReq_error h (hw.1 _ rfl) (ht.1 _ rfl) hB (by simp) e he
  | delete n upC upQ up => exact absurd rfl (h1 n upC upQ up)
  | channelQuery n q =>
    cases q with
    | none => cases e; exact unchanged_refl _
    | some q =>
      simp only [handle, channelQuery] at e
      split at e
      · refine onQueue_error h e (fun _ e => ?_)
        unfold queryFound at e
        split at e <;> cases e
        exact unchanged_refl _
      · cases e; exact unchanged_refl _
  | channelDelete n kvs complete up =>
    obtain ⟨rfl, hv⟩ := h2 n kvs complete up rfl
    refine onQueue_error h e (fun _ e => ?_)
    simp only [hv, Bool.and_self, if_true] at e
    unfold deleteChannel at e
    split at e
    · split at e
      · cases e
      · split at e
        · cases e; simp [RequestsSpec.IsError] at he
        · cases e
      · cases e; simp [RequestsSpec.IsError] at he
      · cases e
    · cases e
  | enqueue n b admit =>
    cases b with
    | none => cases e; exact unchanged_refl _
    | some b =>
      by_cases hv : b.validateSpecOnly = true
      · obtain ⟨spec, state⟩ := b
        match spec, hv with
        | some (some kvs, some ⟨data, updateable, retryAttempts, retryPosition, timeout⟩), hv =>
          have hv' := hv
          simp only [ItemBody.validateSpecOnly, ItemProps.validate, Bool.and_eq_true] at hv
          cases timeout with
          | none => simp at hv
          | some timeout =>
            have hk := kvsOf_valid hv.1.1 hw.2
            simp only [handle, enqueue, hv', if_true] at e
            refine onQueue_error h e (fun _ e => ?_)
            unfold enqueueFound at e
            split at e
            · cases e
            · cases e; simp [RequestsSpec.IsError] at he
            · rename_i c i hx
              split at e
              · cases e; simp [RequestsSpec.IsError] at he
              · cases e; exact ⟨fun _ => rfl, createOrFind_same h.chans hk hx (by simp)⟩
            · rename_i c hx
              cases e; exact ⟨fun _ => rfl, createOrFind_same h.chans hk hx (by simp)⟩
            · rename_i c out g1 g2 g3 hx
              cases e; exact ⟨fun _ => rfl, createOrFind_same h.chans hk hx (by intro id hi; subst hi; exact g1 _ rfl)⟩
      · simp [handle, enqueue, hv] at e
        rw [← e.1]; exact unchanged_refl _
  | dequeue n q pick admit =>
    cases q with
    | none => cases e; exact unchanged_refl _
    | some q =>
      simp only [handle, dequeue] at e
      split at e
      · refine onQueue_error h e (fun _ e => ?_)
        unfold dequeueFound at e
        split at e
        · split at e
          · split at e
            · cases e
            · cases e; simp [RequestsSpec.IsError] at he
          · cases e; exact unchanged_refl _
        · cases e
      · cases e; exact unchanged_refl _
  | ack n b res =>
    cases b with
    | none => cases e; exact unchanged_refl _
    | some b =>
      simp only [handle, ack] at e
      split at e
      · refine onQueue_error h e (fun _ e => ?_)
        unfold ackFound at e
        split at e
        · cases e
        · cases e; exact unchanged_refl _
        · split at e
          · cases e; exact unchanged_refl _
          · cases e; exact unchanged_refl _
          · split at e
            · cases e
            · cases e; simp [RequestsSpec.IsError] at he
            · cases e
          · cases e
        · cases e
      · cases e; exact unchanged_refl _
  | heartbeat n b found =>
    cases b with
    | none => cases e; exact unchanged_refl _
    | some b =>
      simp only [handle, heartbeat] at e
      split at e
      · refine onQueue_error h e (fun _ e => ?_)
        unfold heartbeatFound at e
        split at e
        · cases e; exact unchanged_refl _
        · cases e
      · cases e; exact unchanged_refl _
  | other op => exact queueReq_error h (hw.1 _ rfl) (ht.1 _ rfl) hB (by simp) e he

end Willow.Requests
