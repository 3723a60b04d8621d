import Verif.Proofs.Client
import Verif.Props.Requests
/-!
C76: a call of the willow client acts on the queue it names.

`Client.delivered e c`: the request that the service handles when the client makes the call `c` (`none`: no handler sees it).
`ClientSpec.asks e c`: the request the caller means.  `e` is what the request meets at the service; nothing is assumed about it.
-/
namespace Willow.Props
open Willow Willow.Spec Willow.Queue Willow.Requests Willow.Client Willow.ClientSpec

theorem delivered_iff {e : Env} {c : Client.Call} {m : Client.Method} {n : GoString} {h : Client.Handler} {body : Client.Body}
    (hreq : request c = some (m, urlOf n h.below, body)) (hct : contentType c = true) (hq : h.queue = some n)
    (hm : ∀ (_ : (47 : UInt8) ∉ n) (_ : n ≠ []), Client.route m (urlOf n h.below) = some h) (hd : decoded e h body = asks e c)
    (hinj : ∀ h', decoded e h' body = asks e c → h' = h) : delivered e c = some (asks e c) ↔ Plain n := by
  rw [← reached_iff (h2 := e.h2) hq hm]
  simp only [delivered, hreq, hct, if_true]
  constructor
  · intro hx
    cases hr : reached e.h2 m (urlOf n h.below) with
    | none => simp [hr] at hx
    | some h' =>
      simp only [hr, Option.map_some, Option.some.injEq] at hx
      rw [hinj h' hx]
  · intro hx
    rw [hx, Option.map_some, hd]

/-- C76, the exact condition: a call that the client accepts reaches the service as a request for exactly the queue it names iff every byte of
the name means itself in a URL. -/
theorem C76_reaches_its_queue_iff (e : Env) (c : Client.Call) (n : GoString) (ha : Accepted c) (hn : nameOf c = some n) (hb : ¬ IsHeartbeat c) :
    delivered e c = some (asks e c) ↔ Plain n := by
  cases c with
  | createQueue b => cases hn
  | listQueues => cases hn
  | heartbeat n r => exact absurd trivial hb
  | getQueue n q =>
    cases hn
    exact delivered_iff (h := .get n) (body := .query q) (by rw [request]; exact if_pos ha) rfl rfl (fun a b => (route_urlOf a b .get).1) rfl
      (fun h' => by cases h' <;> simp [decoded, asks])
  | updateQueue n p =>
    cases hn
    exact delivered_iff (h := .update n) (body := .props p) (by rw [request]; exact if_pos ha) rfl rfl (fun a b => (route_urlOf a b .put).1) rfl
      (fun h' => by cases h' <;> simp [decoded, asks])
  | deleteQueue n =>
    cases hn
    exact delivered_iff (h := .delete n) (body := .empty) rfl rfl rfl (fun a b => (route_urlOf a b .delete).1) rfl
      (fun h' => by cases h' <;> simp [decoded, asks])
  | enqueue n b =>
    cases hn
    exact delivered_iff (h := .enqueue n) (body := .item b) (by rw [request]; exact if_pos ha) rfl rfl (fun a b => (route_urlOf a b .post).2.2.1) rfl
      (fun h' => by cases h' <;> simp [decoded, asks])
  | dequeue n q =>
    cases hn
    exact delivered_iff (h := .dequeue n) (body := .query q) (by rw [request]; exact if_pos ha) rfl rfl (fun a b => (route_urlOf a b .get).2.2.1) rfl
      (fun h' => by cases h' <;> simp [decoded, asks])
  | deleteChannel n kvs =>
    cases hn
    exact delivered_iff (h := .channelDelete n) (body := .kvs kvs) (by rw [request]; exact if_pos ha) rfl rfl (fun a b => (route_urlOf a b .delete).2.1) rfl
      (fun h' => by cases h' <;> simp [decoded, asks])
  | ack n r =>
    cases hn
    exact delivered_iff (h := .ack n) (body := .ref r) (by rw [request]; exact if_pos ha) rfl rfl
      (fun a b => by rw [show (Handler.ack n).below = pItems ++ 47 :: sAck from rfl, (route_urlOf a b .post).2.2.2.1]; rfl) rfl
      (fun h' => by cases h' <;> simp [decoded, asks])

/-- "jobs 1.é!": a name with a space and other bytes that URLs escape. -/
def qPlain : GoString := str ['j', 'o', 'b', 's', ' ', '1', '.'] ++ [195, 169, 33]
/-- "jobs" -/
def qJobs : GoString := str ['j', 'o', 'b', 's']

/-- HTTP/2 or HTTP/1.1; the limiter can be reached and admits everything. -/
def goodEnv (h2 : Bool) : Env := ⟨h2, true, true, true, true, 0, .okEmpty, true⟩

/-- The condition is met by a name that has to be escaped on the way, and not by one with a slash. -/
example : Accepted (.deleteQueue qPlain) ∧ Plain qPlain ∧ ¬ Plain (qJobs ++ [47]) ∧
    delivered (goodEnv true) (.deleteQueue qPlain) = some (.delete qPlain true true true) :=
  ⟨trivial, by decide, by decide, (C76_reaches_its_queue_iff (goodEnv true) (.deleteQueue qPlain) qPlain trivial rfl (fun h => h)).2 (by decide)⟩

theorem viaJson_name {b : QueueBody} (hv : b.validateSpecOnly = true) :
    ∃ n p, b = ⟨some ⟨some (some n), p⟩, false⟩ ∧ n ≠ [] ∧ viaJson b = ⟨some ⟨some (some (repair n)), p⟩, false⟩ := by
  obtain ⟨spec, state⟩ := b
  simp only [QueueBody.validateSpecOnly, Bool.and_eq_true, Bool.not_eq_true'] at hv
  obtain ⟨h1, h2⟩ := hv
  cases spec with
  | none => simp at h1
  | some s =>
    obtain ⟨name, p⟩ := s
    simp only [QueueSpec.validate, Bool.and_eq_true] at h1
    match name, h1.1 with
    | some (some n), hn =>
      refine ⟨n, p, by simp_all, by simpa using hn, ?_⟩
      simp [viaJson, jsonUnquote_jsonQuote, h2]
    | some none, hn => simp at hn
    | none, hn => simp at hn

/-- C76, creates: a create that the client accepts always reaches the service; it is for the name it was given iff that is UTF-8. -/
theorem C76_create_iff (e : Env) (b : QueueBody) (n : GoString) (ha : Accepted (.createQueue b)) (hn : ∃ p, b = ⟨some ⟨some (some n), p⟩, false⟩) :
    (∃ b', delivered e (.createQueue b) = some (.create (some b') e.up)) ∧
      (delivered e (.createQueue b) = some (asks e (.createQueue b)) ↔ ValidUtf8 n) := by
  have ha' : b.validateSpecOnly = true := ha
  obtain ⟨n', p, hb, hne, hv⟩ := viaJson_name ha'
  obtain ⟨p', rfl⟩ := hn
  simp only [QueueBody.mk.injEq, Option.some.injEq, QueueSpec.mk.injEq, and_true] at hb
  obtain ⟨rfl, rfl⟩ := hb
  have hd : ∀ h2, reached h2 .post base = some .create := by
    intro h2
    unfold reached
    rw [arrives_plain h2 (by decide)]
    decide
  have e1 : delivered e (.createQueue ⟨some ⟨some (some n), p'⟩, false⟩) = some (.create (some ⟨some ⟨some (some (repair n)), p'⟩, false⟩) e.up) := by
    simp only [delivered, request, ha', if_true, contentType, hd, hv, Option.map_some, decoded]
  refine ⟨⟨_, e1⟩, ?_⟩
  rw [e1, ← repair_iff_valid]
  simp [asks]

example : Accepted (.createQueue ⟨some ⟨some (some qPlain), none⟩, false⟩) ∧ ValidUtf8 qPlain :=
  ⟨rfl, (repair_iff_valid _).1 (by decide)⟩

/-- C76, lists reach the service. -/
theorem C76_list (e : Env) : delivered e .listQueues = some (asks e .listQueues) := by
  have hd : ∀ h2, reached h2 .get base = some .list := by
    intro h2
    unfold reached
    rw [arrives_plain h2 (by decide)]
    decide
  simp only [delivered, request, contentType, if_true, hd, Option.map_some, decoded, asks]

/-- C76, violated: the background heartbeats of items never reach a handler, whatever they name. -/
theorem C76_violated_heartbeat (e : Env) (n : GoString) (r : ItemRef) : delivered e (.heartbeat n r) = none := by
  simp only [delivered, request]
  split
  · rfl
  · rename_i h; split at h <;> simp_all [contentType]

/-- C76, violated: for every plain name `n`, deleting the queue `n#…` deletes the queue `n` instead. -/
theorem C76_violated_fragment (e : Env) (n suffix : GoString) (hn : Plain n) (hs : (37 : UInt8) ∉ suffix) :
    delivered e (.deleteQueue (n ++ 35 :: suffix)) = some (.delete n e.upC e.upQ e.up) := by
  have h47 : (47 : UInt8) ∉ n := fun hb => (hn.2 _ hb).2.2.2.2.1 rfl
  have hu := urlOf_plain hn (below := []) (by simp)
  have h35 : (35 : UInt8) ∉ urlOf n [] := fun hm => (hu _ hm).2.1 rfl
  have he : urlOf (n ++ 35 :: suffix) [] = urlOf n [] ++ 35 :: suffix := by simp [urlOf]
  have harr : arrives e.h2 (urlOf (n ++ 35 :: suffix) []) = some (urlOf n []) := by
    have hp := arrives_plain e.h2 hu
    rw [he]
    unfold arrives parse at hp ⊢
    rw [cut_append h35]
    rw [cut_absent h35] at hp
    simpa [unescape_plain hs, unescape] using hp
  simp only [delivered, request, contentType, if_true, reached, harr, (route_urlOf h47 hn.1 .delete).1, routeQueue, Option.map_some, decoded]

example : Plain qJobs ∧ (37 : UInt8) ∉ str ['2'] := by decide

/-- The results of calls after a start on the empty limiter, and whether the service is still running. -/
def results (h2 : Bool) (cs : List Client.Call) : Bool × List Client.Result :=
  match Requests.start freshLim with
  | some s => ((calls s (goodEnv h2) cs).1.isSome, (calls s (goodEnv h2) cs).2)
  | none => (false, [])

/-- A create. -/
def mkCall (n : GoString) (l : Int) : Client.Call := .createQueue ⟨some ⟨some (some n), some ⟨some l⟩⟩, false⟩

/-- C76, violated: DeleteQueue("jobs#2") and DeleteQueue("jobs?2") delete the queue "jobs", and report success. -/
theorem C76_violated_deletes_other (h2 : Bool) :
    results h2 [mkCall qJobs 5, mkCall (qJobs ++ str ['#', '2']) 5, .deleteQueue (qJobs ++ str ['#', '2']), .getQueue qJobs anything, .listQueues] =
      (true, [.ok, .ok, .ok, .apiError 404, .queues [(qJobs ++ str ['#', '2'], 5)]]) ∧
    results h2 [mkCall qJobs 5, mkCall (qJobs ++ str ['?', '2']) 5, .deleteQueue (qJobs ++ str ['?', '2']), .getQueue qJobs anything, .listQueues] =
      (true, [.ok, .ok, .ok, .apiError 404, .queues [(qJobs ++ str ['?', '2'], 5)]]) := by cases h2 <;> decide +kernel

/-- C76, violated: UpdateQueue("j%6fbs") changes the limit of "jobs". -/
theorem C76_violated_percent (h2 : Bool) :
    results h2 [mkCall qJobs 5, .updateQueue (str ['j', '%', '6', 'f', 'b', 's']) ⟨some 7⟩, .getQueue qJobs anything] =
      (true, [.ok, .ok, .queue (qJobs, 7)]) := by cases h2 <;> decide +kernel

/-- C76, violated: a queue "a/b" can be created and listed, but no call reaches it. -/
theorem C76_violated_slash (h2 : Bool) :
    results h2 [mkCall (str ['a', '/', 'b']) 5, .listQueues, .getQueue (str ['a', '/', 'b']) anything, .deleteQueue (str ['a', '/', 'b'])] =
      (true, [.ok, .queues [(str ['a', '/', 'b'], 5)], .failed, .failed]) := by cases h2 <;> decide +kernel

/-- C76, violated: DeleteQueue("jobs/channels") ends the process of the service if there is a queue "jobs". -/
theorem C76_violated_delete_ends_service (h2 : Bool) :
    results h2 [mkCall qJobs 5, .deleteQueue (qJobs ++ pChannels)] = (false, [.ok, .failed]) := by cases h2 <;> decide +kernel

/-- C76, violated: GetQueue("jobs/channels/items") takes an item out of the queue "jobs" and returns an error. -/
theorem C76_violated_get_consumes (h2 : Bool) :
    results h2 [mkCall qJobs 5, .enqueue qJobs (mkItem (kvOne qa qb) 10), .getQueue (qJobs ++ pItems) anything, .dequeue qJobs anything] =
      (true, [.ok, .ok, .failed, .apiError 409]) ∧
    results h2 [mkCall qJobs 5, .enqueue qJobs (mkItem (kvOne qa qb) 10), .dequeue qJobs anything] = (true, [.ok, .ok, .item 10]) := by
  cases h2 <;> decide +kernel

/-- C76, violated: a queue whose name is not UTF-8 is created under another name, with success. -/
theorem C76_violated_not_utf8 (h2 : Bool) :
    results h2 [mkCall [255] 5, .getQueue [255] anything, .listQueues] = (true, [.ok, .apiError 404, .queues [([239, 191, 189], 5)]]) := by
  cases h2 <;> decide +kernel

end Willow.Props
