import Verif.Proofs.World
import Verif.Props.Requests
/-!
C79: what requests do to the queues, the channels and the items, and what they answer.

`worldOf s`: the limit of each queue, as GET answers it, and its channels with their waiting items.
`Does w r o w'` (Spec/World.lean): what the request `r` is for; `o` is its answer.
-/
namespace Willow.Props
open Willow Willow.Assoc Willow.Spec Willow.LimSpec Willow.Limiter Willow.Queue Willow.Queues Willow.QueuesSpec Willow.Requests Willow.RequestsSpec Willow.WorldSpec

theorem tameReached_world {s : Requests.St} {m : Map} {B : Int} (h : TameReached s m B) : WInv s m B := by
  obtain ⟨lim, B0, s0, rs, os, hlim, hs, ht, rfl, hB, e, rfl⟩ := h
  have := amountsOf_nonneg rs
  obtain ⟨s', os', e', hi, _⟩ := run_world (start_world (limReached_linv hlim (by omega)) hs) ht hB
  rw [e'] at e
  cases e
  exact hi

/-- C79 (partial): after every history, a request that is not answered with an error does what it is for, and nothing else, and its answer says
what it found.  Missing: what `Tame` leaves out (C56, C57), and concurrent requests. -/
theorem C79_effect_partial {s s' : Requests.St} {m : Map} {B : Int} (h : TameReached s m B) {r : Requests.Req} (hw : WellTyped s.q.rule r) (ht : Tame m r)
    (hB : B + amountOf r < 2 ^ 63) {o : Reply} (e : handle s r = (some s', o)) (ho : ¬ IsError o) : Does (worldOf s) r o (worldOf s') := by
  obtain ⟨s1, o1, e1, _, _, _, hd, _⟩ := handle_world (tameReached_world h) hw ht hB
  rw [e1] at e
  cases e
  exact hd ho

/-- C79 (partial): a request does not touch the limit, the channels or the items of a queue it does not name, whatever its answer is. -/
theorem C79_isolation_partial {s s' : Requests.St} {m : Map} {B : Int} (h : TameReached s m B) {r : Requests.Req} (hw : WellTyped s.q.rule r) (ht : Tame m r)
    (hB : B + amountOf r < 2 ^ 63) {o : Reply} (e : handle s r = (some s', o)) (b : GoString) (hb : namedBy r ≠ some b) :
    (worldOf s').limit b = (worldOf s).limit b ∧ (worldOf s').chans b = (worldOf s).chans b := by
  obtain ⟨s1, o1, e1, _, _, _, _, ho⟩ := handle_world (tameReached_world h) hw ht hB
  rw [e1] at e
  cases e
  exact ho b hb

/-- C79 (partial): the service as a whole: it starts with no queues, and in every history each request does what it is for, or is answered with an
error and does nothing (or what C70 reports). -/
theorem C79_history_partial {lim : State Key} {B : Int} (hlim : LimReached lim B) {s : Requests.St} (hs : Requests.start lim = some s) {rs : List Requests.Req}
    (ht : TameRun s.q.rule [] rs) (hB : B + amountsOf rs < 2 ^ 63) :
    worldOf s = World.empty ∧ ∃ s' os, Requests.run s rs = (some s', os) ∧ Runs World.empty rs os (worldOf s') := by
  have := amountsOf_nonneg rs
  have hw := start_world (limReached_linv hlim (by omega)) hs
  have h0 : worldOf s = World.empty := by
    refine world_eq hw.r (fun n => rfl) (fun n => channelsOf_nil (hw.orphan n rfl))
  obtain ⟨s', os, e, hr⟩ := run_runs hw ht hB
  exact ⟨h0, s', os, e, h0 ▸ hr⟩

/-- C79 (partial): in every history, for every queue: what was delivered and what waits was accepted, each item once; and if neither the queue nor
one of its channels is deleted, what was accepted was delivered or waits.  Items are told apart by their timeouts here. -/
theorem C79_conservation_partial {lim : State Key} {B : Int} (hlim : LimReached lim B) {s : Requests.St} (hs : Requests.start lim = some s) {rs : List Requests.Req}
    (ht : TameRun s.q.rule [] rs) (hB : B + amountsOf rs < 2 ^ 63) {s' : Requests.St} {os : List Reply} (e : Requests.run s rs = (some s', os)) (n : GoString) (t : Int) :
    WorldSpec.delivered n t rs os + waiting t (channelsOf s' n) ≤ accepted n t rs os ∧
      ((∀ r ∈ rs, ¬ Destroys n r) → WorldSpec.delivered n t rs os + waiting t (channelsOf s' n) = accepted n t rs os) := by
  obtain ⟨_, s1, os1, e1, hr⟩ := C79_history_partial hlim hs ht hB
  rw [e1] at e
  cases e
  have h := count_runs n t hr
  have h0 : waiting t (World.empty.chans n) = 0 := rfl
  have h1 : (worldOf s').chans n = channelsOf s' n := rfl
  rw [h0, h1] at h
  refine ⟨by omega, fun hd => ?_⟩
  have := h.2 hd
  omega

/-- The conditions are met by `exTame` (Props/Requests.lean): ten of its requests change something. -/
example : ∃ s, Requests.start freshLim = some s ∧ TameRun s.q.rule [] exTame ∧ 0 + amountsOf exTame < 2 ^ 63 ∧
    accepted qa 10 exTame (replies exTame) = 1 ∧ WorldSpec.delivered qa 10 exTame (replies exTame) = 1 ∧ accepted qa 20 exTame (replies exTame) = 1 := by
  cases h : Requests.start freshLim with
  | none => exact absurd h (by decide +kernel)
  | some s => exact ⟨s, rfl, exTame_tame _, by decide +kernel, by decide +kernel, by decide +kernel, by decide +kernel⟩

/-- The conditions of C79_effect_partial and C79_isolation_partial are met: after `exTame`, creating a queue succeeds, and names only that queue. -/
example : ∃ s m B s', TameReached s m B ∧ WellTyped s.q.rule (mkQueue qa 5) ∧ Tame m (mkQueue qa 5) ∧ B + amountOf (mkQueue qa 5) < 2 ^ 63 ∧
    handle s (mkQueue qa 5) = (some s', .answer .ok) ∧ namedBy (mkQueue qa 5) ≠ some qb := by
  cases h : Requests.start freshLim with
  | none => exact absurd h (by decide +kernel)
  | some s =>
    obtain ⟨s', os, e, _, _⟩ := C57_answers_partial freshLim_reached h (exTame_tame _) (by decide +kernel)
    have hr : TameReached s' (mapRun [] exTame) (0 + amountsOf exTame) := ⟨_, _, s, exTame, os, freshLim_reached, h, exTame_tame _, rfl, by decide +kernel, e, rfl⟩
    have hq : queueReq? (mkQueue qa 5) = some (.create qa 5 true) := rfl
    have hw : WellTyped s'.q.rule (mkQueue qa 5) := ⟨fun q h' => by rw [hq] at h'; cases h'; show LimSpec.Int64 5; unfold LimSpec.Int64; omega, trivial⟩
    have ht : Tame (mapRun [] exTame) (mkQueue qa 5) := ⟨fun q h' => by rw [hq] at h'; cases h'; exact .inl ⟨rfl, by decide⟩, trivial⟩
    obtain ⟨q', o, e2, _, hsame, _⟩ := queueReq_spec (tameReached_inv hr) (r := .create qa 5 true) (hw.1 _ hq) (ht.1 _ hq) (by decide +kernel) (by intro l up hx; cases hx)
    have hg : (mapRun [] exTame).get? qa = none := by decide +kernel
    have ho : o = .ok := out_of_same hsame (by simp [QueuesSpec.specStep, hg]) |>.trans (by simp [QueuesSpec.specStep, hg])
    subst ho
    exact ⟨s', _, _, _, hr, hw, ht, by decide +kernel, e2, by decide⟩

end Willow.Props
