import Verif.Props.Client
import Verif.Props.World
/-!
C77: what a call of the willow client returns is what happened.
-/
namespace Willow.Props
open Willow Willow.Assoc Willow.Spec Willow.LimSpec Willow.Limiter Willow.Queue Willow.Queues Willow.QueuesSpec Willow.Requests Willow.RequestsSpec Willow.WorldSpec
open Willow.Client Willow.ClientSpec

theorem call_reached {s : Requests.St} {e : Env} {c : Client.Call} {m : Client.Method} {url : GoString} {body : Client.Body} {h : Client.Handler}
    (hreq : request c = some (m, url, body)) (hct : contentType c = true) (hr : reached e.h2 m url = some h) :
    call s e c = ((handle s (decoded e h body)).1, resultOf c (respond h (handle s (decoded e h body)).2)) := by
  unfold reached at hr
  unfold call
  simp only [hreq]
  split at hr
  · cases hr
  · rename_i p hp
    simp only [hp, hr, hct, if_true]

/-- A call that the client does not send. -/
theorem call_rejected {s : Requests.St} {e : Env} {c : Client.Call} (h : ¬ Accepted c) : call s e c = (some s, .failed) := by
  have : request c = none := by cases c <;> simp_all [request, Accepted]
  simp [call, this]

/-- An accepted call with names that survive is handled as what it asks for. -/
theorem call_asks {s : Requests.St} {e : Env} {c : Client.Call} (ha : Accepted c) (hs : Survives c) (hb : ¬ IsHeartbeat c) :
    ∃ h, okStatus h = wants c ∧ call s e c = ((handle s (asks e c)).1, resultOf c (respond h (handle s (asks e c)).2)) := by
  have h47 : ∀ {n}, Plain n → (47 : UInt8) ∉ n := fun hn hb => (hn.2 _ hb).2.2.2.2.1 rfl
  have named : ∀ {m : Client.Method} {n : GoString} {h : Client.Handler} {body : Client.Body}, request c = some (m, urlOf n h.below, body) → contentType c = true →
      h.queue = some n → Plain n → (∀ (_ : (47 : UInt8) ∉ n) (_ : n ≠ []), Client.route m (urlOf n h.below) = some h) → okStatus h = wants c → decoded e h body = asks e c →
      ∃ h, okStatus h = wants c ∧ call s e c = ((handle s (asks e c)).1, resultOf c (respond h (handle s (asks e c)).2)) := by
    intro m n h body h1 h2 h3 h4 h5 h6 h7
    refine ⟨h, h6, ?_⟩
    rw [call_reached h1 h2 ((reached_iff (h2 := e.h2) h3 h5).2 h4), h7]
  cases c with
  | createQueue b =>
    have ha' : b.validateSpecOnly = true := ha
    obtain ⟨n, p, rfl, hne, hv⟩ := viaJson_name ha'
    have hu := (repair_iff_valid n).2 (hs.2 n p false rfl)
    have hd : reached e.h2 .post base = some .create := by
      unfold reached; rw [arrives_plain e.h2 (by decide)]; decide
    refine ⟨.create, rfl, ?_⟩
    rw [call_reached (m := .post) (url := base) (body := .queue (viaJson ⟨some ⟨some (some n), p⟩, false⟩)) (by rw [request]; exact if_pos ha') rfl hd, hv, hu]
    rfl
  | listQueues =>
    have hd : reached e.h2 .get base = some .list := by
      unfold reached; rw [arrives_plain e.h2 (by decide)]; decide
    exact ⟨.list, rfl, call_reached (m := .get) (url := base) (body := .empty) rfl rfl hd⟩
  | heartbeat n r => exact absurd trivial hb
  | getQueue n q =>
    exact named (h := .get n) (body := .query q) (by rw [request]; exact if_pos ha) rfl rfl (hs.1 n rfl) (fun a b => (route_urlOf a b .get).1) rfl rfl
  | updateQueue n p =>
    exact named (h := .update n) (body := .props p) (by rw [request]; exact if_pos ha) rfl rfl (hs.1 n rfl) (fun a b => (route_urlOf a b .put).1) rfl rfl
  | deleteQueue n =>
    exact named (h := .delete n) (body := .empty) rfl rfl rfl (hs.1 n rfl) (fun a b => (route_urlOf a b .delete).1) rfl rfl
  | enqueue n b =>
    exact named (h := .enqueue n) (body := .item b) (by rw [request]; exact if_pos ha) rfl rfl (hs.1 n rfl) (fun a b => (route_urlOf a b .post).2.2.1) rfl rfl
  | dequeue n q =>
    exact named (h := .dequeue n) (body := .query q) (by rw [request]; exact if_pos ha) rfl rfl (hs.1 n rfl) (fun a b => (route_urlOf a b .get).2.2.1) rfl rfl
  | deleteChannel n kvs =>
    exact named (h := .channelDelete n) (body := .kvs kvs) (by rw [request]; exact if_pos ha) rfl rfl (hs.1 n rfl) (fun a b => (route_urlOf a b .delete).2.1) rfl rfl
  | ack n r =>
    exact named (h := .ack n) (body := .ref r) (by rw [request]; exact if_pos ha) rfl rfl (hs.1 n rfl)
      (fun a b => by rw [show (Handler.ack n).below = pItems ++ 47 :: sAck from rfl, (route_urlOf a b .post).2.2.2.1]; rfl) rfl rfl

/-- An error of the service is an error of the call. -/
theorem says_error {c : Client.Call} {h : Client.Handler} {o : Reply} (he : IsError o) : saysOf (resultOf c (respond h o)) = none := by
  cases o with
  | answer o => cases o <;> cases c <;> simp_all [IsError, respond, resultOf, wants, knows, errorOf, saysOf, unknown]
  | rejected => cases c <;> simp [respond, resultOf, wants, knows, errorOf, saysOf, unknown]
  | _ => exact absurd he (fun h => h)

/-- A success of the service is a success of the call, and is returned as it is. -/
theorem says_ok {w w' : World} {e : Env} {c : Client.Call} {h : Client.Handler} {o : Reply} (hh : okStatus h = wants c) (hb : ¬ IsHeartbeat c)
    (hd : Does w (asks e c) o w') : saysOf (resultOf c (respond h o)) = some o := by
  cases c with
  | createQueue b => obtain ⟨_, _, _, _, _, rfl⟩ := hd; simp [respond, resultOf, hh, payload, saysOf]
  | listQueues => obtain ⟨_, qs, rfl, _⟩ := hd; simp [respond, resultOf, wants, payload, saysOf]
  | getQueue n q => obtain ⟨_, l, _, rfl⟩ := hd; simp [respond, resultOf, wants, payload, saysOf]
  | updateQueue n p => obtain ⟨_, _, _, _, rfl⟩ := hd; simp [respond, resultOf, hh, payload, saysOf]
  | deleteQueue n => obtain ⟨_, rfl⟩ := hd; simp [respond, resultOf, hh, payload, saysOf]
  | enqueue n b => obtain ⟨_, rfl, _⟩ := hd; simp [respond, resultOf, hh, payload, saysOf]
  | dequeue n q => obtain ⟨_, _, t, _, rfl, _⟩ := hd; simp [respond, resultOf, wants, payload, saysOf]
  | deleteChannel n kvs => obtain ⟨_, _, rfl⟩ := hd; simp [respond, resultOf, hh, payload, saysOf]
  | ack n r => obtain ⟨_, rfl, _⟩ := hd; simp [respond, resultOf, hh, payload, saysOf]
  | heartbeat n r => exact absurd trivial hb

/-- C77 (partial): after every history, a call of the client that returns no error did what it asked for, and returned what it found; one that
returns an error changed nothing.  Missing: names that do not survive (C76), the channels that a failed DeleteQueue destroys (C70, reported in `Honest`),
what `Tame` leaves out (C56, C57), and requests whose answers are lost on the way. -/
theorem C77_results_partial {s : Requests.St} {m : Map} {B : Int} (h : TameReached s m B) (e : Env) (c : Client.Call) (hs : Survives c)
    (hw : WellTyped s.q.rule (asks e c)) (ht : Tame m (asks e c)) (hB : B + amountOf (asks e c) < 2 ^ 63) :
    ∃ s' res, call s e c = (some s', res) ∧ Honest (worldOf s) e c res (worldOf s') := by
  by_cases ha : Accepted c
  case neg => exact ⟨s, .failed, call_rejected ha, .inl rfl⟩
  by_cases hb : IsHeartbeat c
  · cases c with
    | heartbeat n r =>
      have hn := hs.1 n rfl
      refine ⟨s, .apiError 400, ?_, .inl rfl⟩
      have h47 : (47 : UInt8) ∉ n := fun hb => (hn.2 _ hb).2.2.2.2.1 rfl
      have hr : reached e.h2 .post (urlOf n (pItems ++ 47 :: sHeartbeat)) = some (.heartbeat n) := by
        refine (reached_iff (h2 := e.h2) (h := .heartbeat n) (m := .post) rfl (fun a b => ?_)).2 hn
        rw [show (Handler.heartbeat n).below = pItems ++ 47 :: sHeartbeat from rfl, (route_urlOf a b .post).2.2.2.2]; rfl
      have hreq : request (.heartbeat n r) = some (.post, urlOf n (pItems ++ 47 :: sHeartbeat), .ref r) := by rw [request]; exact if_pos ha
      unfold reached at hr
      unfold call
      simp only [hreq]
      split at hr
      · cases hr
      · rename_i p hp
        simp only [hp, hr, contentType]
        rfl
    | _ => exact absurd hb (fun h => h)
  · obtain ⟨hd, hst, hcall⟩ := call_asks (s := s) (e := e) ha hs hb
    have hwi := tameReached_world h
    obtain ⟨s', o, e1, _, hwi', _, hdoes, _⟩ := handle_world hwi hw ht hB
    refine ⟨s', resultOf c (respond hd o), by rw [hcall, e1], ?_⟩
    by_cases he : IsError o
    · unfold Honest
      rw [says_error he]
      rcases handle_fails hwi hw ht hB e1 hwi'.r he with hf | hf
      · exact .inl hf
      · cases c with
        | deleteQueue n => exact .inr ⟨n, rfl, hf⟩
        | deleteChannel n kvs =>
          have ha' : validKVs false kvs = true := ha
          obtain ⟨hx, _⟩ := hf
          simp [ha'] at hx
        | _ => exact absurd hf (fun h => h)
    · unfold Honest
      rw [says_ok hst hb (hdoes he)]
      exact hdoes he

/-- The conditions are met: after `exTame`, with the name "jobs 1.é!". -/
example : ∃ s m B, TameReached s m B ∧ Survives (.deleteQueue qPlain) ∧ WellTyped s.q.rule (asks (goodEnv true) (.deleteQueue qPlain)) ∧
    Tame m (asks (goodEnv true) (.deleteQueue qPlain)) ∧ B + amountOf (asks (goodEnv true) (.deleteQueue qPlain)) < 2 ^ 63 := by
  obtain ⟨s, m, B, h, hm⟩ := exTame_reached
  have hB : B < 2 ^ 63 := by obtain ⟨_, _, _, _, _, _, _, _, _, hB, _⟩ := h; exact hB
  refine ⟨s, m, B, h, ⟨fun n hn => by cases hn; decide, fun n p st hc => by cases hc⟩, ⟨fun q hq => by cases hq; trivial, trivial⟩,
    ⟨fun q hq => by cases hq; exact .inr rfl, .inr rfl⟩, ?_⟩
  show B + 0 < 2 ^ 63
  omega

/-- Calls with different results: create twice, enqueue, dequeue by another key, dequeue, get, delete, get. -/
example : results true [mkCall qPlain 5, mkCall qPlain 5, .enqueue qPlain (mkItem (kvOne qa qb) 10), .dequeue qPlain (exactQuery [(qb, vString qb)]), .dequeue qPlain anything,
      .getQueue qPlain anything, .deleteQueue qPlain, .getQueue qPlain anything] =
    (true, [.ok, .apiError 409, .ok, .apiError 409, .item 10, .queue (qPlain, 5), .ok, .apiError 404]) := by decide +kernel

/-- C77, violated: DeleteQueue that returns an error, because the limiter cannot be reached, has destroyed the items. -/
theorem C77_violated_failed_delete (h2 : Bool) :
    (match Requests.start freshLim with
      | some s => match (calls s (goodEnv h2) [mkCall qJobs 5, .enqueue qJobs (mkItem (kvOne qa qb) 10)]).1 with
        | some s => match call s { goodEnv h2 with up := false } (.deleteQueue qJobs) with
          | (some s', r) => some ((channelsOf s qJobs).map (·.2), r, (channelsOf s' qJobs).map (·.2), limitIn (queueOf s' qJobs))
          | _ => none
        | none => none
      | none => none) = some ([[10]], .apiError 500, [], some 5) := by cases h2 <;> decide +kernel

/-- C77, violated: calls with other names return success and do something else: DeleteQueue("jobs#2") leaves "jobs#2" and deletes "jobs". -/
theorem C77_violated_names (h2 : Bool) : ∃ s s' : Requests.St, ∃ c : Client.Call, Accepted c ∧ call s (goodEnv h2) c = (some s', .ok) ∧
    ¬ Honest (worldOf s) (goodEnv h2) c .ok (worldOf s') := by
  have key : (match Requests.start freshLim with
      | some s => match (calls s (goodEnv h2) [mkCall qJobs 5, mkCall (qJobs ++ str ['#', '2']) 5]).1 with
        | some s => match call s (goodEnv h2) (.deleteQueue (qJobs ++ str ['#', '2'])) with
          | (some s', r) => some (r, limitIn (queueOf s' (qJobs ++ str ['#', '2'])))
          | _ => none
        | none => none
      | none => none) = some (.ok, some 5) := by cases h2 <;> decide +kernel
  split at key
  · split at key
    · rename_i s hs
      split at key
      · rename_i s' r hc
        simp only [Option.some.injEq, Prod.mk.injEq] at key
        obtain ⟨rfl, hl⟩ := key
        refine ⟨s, s', .deleteQueue (qJobs ++ str ['#', '2']), trivial, hc, fun hh => ?_⟩
        have hh' : Does (worldOf s) (.delete (qJobs ++ str ['#', '2']) true true true) (.answer .ok) (worldOf s') := hh
        have := congrArg (fun w => w.limit (qJobs ++ str ['#', '2'])) hh'.1
        have h2' : (worldOf s').limit (qJobs ++ str ['#', '2']) = some 5 := hl
        simp only [h2', World.setLimit, World.setChans, if_true] at this
        cases this
      · cases key
    · cases key
  · cases key

end Willow.Props
