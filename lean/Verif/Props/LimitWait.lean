import Verif.Proofs.LimitWaitRun
import Verif.Proofs.QueueKeys
/-!
C92: a channel that hit a processing limit waits until it is free.

`Check kvs h2 ok tr p B lost`: a check that began in a state of the limiter after any history of requests and went through the states `tr` (latest first) to
the position `p`, with other requests of the kind `ok` between its calls.  `.sleep`: the channel waits for five seconds and checks again.  `.offer`: it
offers the item again.  `allowed w kvs`: the limiter would count one more item for `kvs`.
-/
namespace Willow.Props
open Willow Willow.Assoc Willow.Spec Willow.LimSpec Willow.Limiter Willow.Requests Willow.Queue Willow.LimHttp Willow.LimHttpSpec
open Willow.LimClient Willow.LimClientSpec Willow.ClientSpec Willow.LimitWait Willow.LimitWaitSpec

/-- Without other requests, a check changes nothing, does not crash, and when it ended it sleeps exactly if it noticed a limit: one that is 0, or one that is
reached and whose rule or override has no wildcard. -/
theorem C92_exact {kvs : KVs Key} (hk : Sent kvs) {h2 : Bool} {tr : List Srv} {p : Pos} {B : Int} (h : Check kvs h2 (fun _ => False) tr p B false) {s : Srv} (hs : s ∈ tr) :
    (∀ t ∈ tr, Limiter.abs t.lim = Limiter.abs s.lim) ∧ p ≠ .crashed ∧ p ≠ .stuck ∧
      (p = .sleep → Notices (Limiter.abs s.lim) kvs) ∧ (p = .offer → ¬ Notices (Limiter.abs s.lim) kvs) := by
  obtain ⟨s0, tl, rfl, hr, hB, ⟨h1, _⟩ | ⟨_, h1, h3, h4⟩⟩ := check_alone hk (fun _ => id) h
  · cases h1
  rw [← h1 s hs] at h3 h4
  refine ⟨fun t ht => by rw [h1 t ht, h1 s hs], ?_, ?_, ?_, ?_⟩
  · rintro rfl; exact h3
  · rintro rfl; exact h3
  · rintro rfl; exact h4.1 trivial
  · rintro rfl hn; exact h4.2 hn

/-- A check always goes on to its end: every call it makes returns, whatever other requests there were, … -/
theorem C92_goes_on {kvs : KVs Key} (hk : Sent kvs) {h2 : Bool} {ok : LimHttp.Req → Prop} {s : Srv} {tr : List Srv} {p : Pos} {B : Int} {lost : Bool} (h : Check kvs h2 ok (s :: tr) p B lost)
    {e : LimHttp.Env} (hc : ValidChoice e.ch) {c : LimClient.Call} (ha : LimitWait.ask kvs p = some c) :
    ∃ s' res, LimClient.call s h2 e c = (some s', res) ∧ Check kvs h2 ok (s' :: s :: tr) (answer p res) B lost := by
  obtain ⟨s0, tl, e0, hr, hB, hw | ⟨rfl, _⟩⟩ := check_weak hk h
  · cases e0
    obtain ⟨s', res, g1, _⟩ := ask_weak hr hB h2 hc hk hw ha
    exact ⟨s', res, g1, .ask h hc ha g1⟩
  · cases ha

/-- … and it makes only finitely many of them, whatever the answers are. -/
theorem C92_ends (kvs : KVs Key) (f : Nat → Pos) : ¬ ∀ n, ∃ c res, LimitWait.ask kvs (f n) = some c ∧ f (n + 1) = answer (f n) res := by
  intro h
  have : ∀ p, Acc (After kvs) p → ∀ n, f n ≠ p := by
    intro p hp
    induction hp with
    | intro p _ ih =>
      intro n hn
      obtain ⟨c, res, h1, h2⟩ := h n
      exact ih (f (n + 1)) ⟨c, res, by rw [← hn]; exact h1, by rw [← hn]; exact h2⟩ (n + 1) rfl
  exact this _ (acc_any kvs (f 0)) 0 rfl

/-- So every check can be brought to its end by its own calls. -/
theorem C92_completes {kvs : KVs Key} (hk : Sent kvs) {h2 : Bool} {ok : LimHttp.Req → Prop} {B : Int} {lost : Bool} {p : Pos} {tr : List Srv} (h : Check kvs h2 ok tr p B lost) :
    ∃ tr' p', Check kvs h2 ok (tr' ++ tr) p' B lost ∧ LimitWait.ask kvs p' = none := by
  have : ∀ p, Acc (After kvs) p → ∀ tr, Check kvs h2 ok tr p B lost → ∃ tr' p', Check kvs h2 ok (tr' ++ tr) p' B lost ∧ LimitWait.ask kvs p' = none := by
    intro p hp
    induction hp with
    | intro p _ ih =>
      intro tr h
      cases ha : LimitWait.ask kvs p with
      | none => exact ⟨[], p, h, ha⟩
      | some c =>
        obtain ⟨s, tl, rfl, _⟩ := check_weak hk h
        obtain ⟨s', res, _, h'⟩ := C92_goes_on hk h (e := httpEnv) noChoice_valid ha
        obtain ⟨tr', p', h3, h4⟩ := ih (answer p res) ⟨c, res, ha, rfl⟩ _ h'
        exact ⟨tr' ++ [s'], p', by simpa using h3, h4⟩
  exact this p (acc_any kvs p) tr h

/-- If the limiter would count another item, a check without other requests ends with an offer. -/
theorem C92_offers {kvs : KVs Key} (hk : Sent kvs) {h2 : Bool} {tr : List Srv} {p : Pos} {B : Int} (h : Check kvs h2 (fun _ => False) tr p B false) {s : Srv} (hs : s ∈ tr)
    (ha : allowed (Limiter.abs s.lim) kvs = true) (hp : LimitWait.ask kvs p = none) : p = .offer := by
  obtain ⟨h1, h3, h4, h5, _⟩ := C92_exact hk h hs
  cases p with
  | offer => rfl
  | crashed => exact absurd rfl h3
  | stuck => exact absurd rfl h4
  | sleep =>
    exfalso
    obtain ⟨x, hx, hn⟩ := h5 rfl
    obtain ⟨s0, tl, rfl, hr, _⟩ := check_weak hk h
    have he := h1 s0 (by simp)
    rw [← he] at hn hx ha
    have := not_allowed.2 ⟨x, hx, noticed_atLimit hr hn⟩
    rw [ha] at this; cases this
  | rules => cases hp
  | overrides r rest => cases hp
  | counters e es rest under => cases hp

/-- The same the other way around: next to any requests on counters and reads, a check only ends with a sleep if the limiter would not have counted another item
at some moment of the check. -/
theorem C92_sleeps_only_at_limit {kvs : KVs Key} (hk : Sent kvs) {h2 : Bool} {tr : List Srv} {B : Int} {lost : Bool} (h : Check kvs h2 KeepsRules tr .sleep B lost) :
    ∃ t ∈ tr, allowed (Limiter.abs t.lim) kvs = false := by
  obtain ⟨s, tl, rfl, _, _, ⟨_, h1⟩ | ⟨_, h1⟩⟩ := check_calm hk (fun _ h => h) h
  · cases h1
  · exact h1.bad (.inl rfl)

/-- If an increment would be refused because of limits without wildcards (or limits of 0), a check without other requests ends with a sleep: the channel does not offer
an item in vain.
Missing for C92: limits with wildcards, for which this is false (`C92_violated_busy`). -/
theorem C92_waits_partial {kvs : KVs Key} (hk : Sent kvs) {h2 : Bool} {tr : List Srv} {p : Pos} {B : Int} (h : Check kvs h2 (fun _ => False) tr p B false) {s : Srv} (hs : s ∈ tr)
    (hx : ∃ x ∈ inForce (Limiter.abs s.lim) kvs, AtLimit (Limiter.abs s.lim) kvs x ∧ (Exact x.1 ∨ x.2 = 0)) (hp : LimitWait.ask kvs p = none) :
    allowed (Limiter.abs s.lim) kvs = false ∧ p = .sleep := by
  obtain ⟨x, hx, ha, he⟩ := hx
  refine ⟨not_allowed.2 ⟨x, hx, ha⟩, ?_⟩
  have hn : Notices (Limiter.abs s.lim) kvs := ⟨x, hx, he.symm.imp_right fun he => ⟨ha, he⟩⟩
  obtain ⟨_, h3, h4, _, h5⟩ := C92_exact hk h hs
  cases p with
  | sleep => rfl
  | offer => exact absurd hn (h5 rfl)
  | crashed => exact absurd rfl h3
  | stuck => exact absurd rfl h4
  | rules => cases hp
  | overrides r rest => cases hp
  | counters e es rest under => cases hp

/-- Next to requests of any kind, a check crashes only if an answer was lost or if a rule was deleted during the check. -/
theorem C92_crashes_only {kvs : KVs Key} (hk : Sent kvs) {h2 : Bool} {ok : LimHttp.Req → Prop} {tr : List Srv} {p : Pos} {B : Int} {lost : Bool} (h : Check kvs h2 ok tr p B lost) :
    p ≠ .stuck ∧ (p = .crashed → lost = true ∨ RuleDeleted tr) := by
  obtain ⟨s, tl, rfl, _, _, hw | ⟨rfl, hw⟩⟩ := check_weak hk h
  · exact ⟨by rintro rfl; exact hw, by rintro rfl; exact hw.elim⟩
  · exact ⟨by simp, fun _ => hw⟩

/-! ### What goes wrong -/

/-- C92 is false of the code for limits with wildcards: whenever increments are refused only because of reached limits with wildcards, none of them 0, a check
without other requests ends with an offer, the next increment is refused again, and so on without a pause. -/
theorem C92_violated_busy {kvs : KVs Key} (hk : Sent kvs) {h2 : Bool} {tr : List Srv} {p : Pos} {B : Int} (h : Check kvs h2 (fun _ => False) tr p B false) {s : Srv} (hs : s ∈ tr)
    (hx : ∀ x ∈ inForce (Limiter.abs s.lim) kvs, AtLimit (Limiter.abs s.lim) kvs x → ¬ Exact x.1) (h0 : ∀ x ∈ inForce (Limiter.abs s.lim) kvs, x.2 ≠ 0)
    (hp : LimitWait.ask kvs p = none) : p = .offer := by
  obtain ⟨_, h3, h4, h5, _⟩ := C92_exact hk h hs
  cases p with
  | offer => rfl
  | sleep =>
    obtain ⟨x, hm, h6 | h6⟩ := h5 rfl
    · exact absurd h6 (h0 x hm)
    · exact absurd h6.2 (hx x hm h6.1)
  | crashed => exact absurd rfl h3
  | stuck => exact absurd rfl h4
  | rules => cases hp
  | overrides r rest => cases hp
  | counters e es rest under => cases hp

/-- C92 is false of the code when rules are deleted: from every state in which a rule applies, there is a check that crashes - and the whole service with it - because one
rule was deleted after its first call. -/
theorem C92_violated_crash {kvs : KVs Key} (hk : Sent kvs) (h2 : Bool) {s : Srv} {B : Int} (hr : Reached s B) (hB : B < 2 ^ 63)
    (hx : ∃ r ∈ (Limiter.abs s.lim).rules, applies r.kvs kvs = true) :
    ∃ n tr, Check kvs h2 (fun q => q = .deleteRule n) (tr ++ [s]) .crashed B false := by
  have hc : ValidChoice httpEnv.ch := noChoice_valid
  obtain ⟨s1, l, g1, g2, g3, g4⟩ := call_matchRules hr hB h2 hc hk
  have hm : ∀ x, x ∈ l ↔ IsRule (Limiter.abs s.lim) kvs x := by
    intro x
    rw [g4.mem_iff, List.mem_map]
    unfold IsRule
    constructor
    · rintro ⟨r, hr, rfl⟩
      obtain ⟨h1, h2⟩ := List.mem_filter.1 hr
      exact ⟨r, h1, rfl, h2⟩
    · rintro ⟨r, h1, rfl, h2⟩
      exact ⟨r, List.mem_filter.2 ⟨h1, h2⟩, rfl⟩
  obtain ⟨r, hr1, hr2⟩ := hx
  cases l with
  | nil => exact absurd ((hm (showR r)).2 ⟨r, hr1, rfl, hr2⟩) (by simp)
  | cons x rest =>
    obtain ⟨y, hy, rfl, hay⟩ := (hm x).1 (by simp)
    have c1 := Check.ask (Check.start (ok := fun q => q = .deleteRule (idStr y.id)) hr hB) hc (p := .rules) rfl g1
    obtain ⟨s2, o, d1, d2, d3, d4⟩ := C82_answers_partial g3 (r := .deleteRule (idStr y.id)) hc trivial trivial (by simp only [amountOf]; omega)
    have c2 := Check.other c1 rfl trivial hc d1 (fun _ => d2) (by simp only [amountOf]; omega)
    have hr2 := Reached.step g3 (r := .deleteRule (idStr y.id)) trivial hc d1 (fun _ => d2) (by simp only [amountOf]; omega)
    simp only [amountOf, Int.add_zero] at c2 hr2
    have hnd := (rules_valid g3).1
    have hy1 : y ∈ (Limiter.abs s1.lim).rules := by rw [g2]; exact hy
    have hn : ruleNamed (Limiter.abs s1.lim) (idStr y.id) = some y := by
      have := rule?_of_mem hnd hy1
      unfold ruleNamed
      unfold LimSpec.St.rule? at this
      rw [← this]
      congr 1
      funext r
      rw [Bool.eq_iff_iff, beq_iff_eq, beq_iff_eq]
      exact ⟨idStr_inj, fun h => by rw [h]⟩
    simp only [specHandle, there, hn] at d4
    obtain ⟨s3, res, e1, e2, e3, e4⟩ := call_matchOverrides hr2 hB h2 hc hk y.id
    have hno : (Limiter.abs s2.lim).rule? y.id = none := by
      unfold LimSpec.St.rule?
      rw [d4, List.find?_eq_none]
      intro z hz
      have := (List.mem_filter.1 hz).2
      simpa using this
    rw [hno] at e4
    rcases e4 with ⟨_, _, h, _⟩ | ⟨_, rfl⟩
    · cases h
    have c3 := Check.ask c2 hc (p := nextRule (showR y :: rest)) rfl e1
    exact ⟨idStr y.id, [s3, s2, s1], c3⟩

/-- C92 is false of the code when the limiter cannot be reached: a check that has a call to make, and loses its answer, crashes the whole service. -/
theorem C92_violated_unreachable {kvs : KVs Key} {h2 : Bool} {ok : LimHttp.Req → Prop} {s : Srv} {tr : List Srv} {p : Pos} {B : Int} {lost : Bool} (h : Check kvs h2 ok (s :: tr) p B lost)
    {c : LimClient.Call} (ha : LimitWait.ask kvs p = some c) : Check kvs h2 ok (s :: tr) .crashed B true := by
  have := Check.lose h ha
  rwa [lost_answer ha] at this

/-! ### Channels, and an example -/

theorem ascii_utf8 : ∀ l : List UInt8, (∀ b ∈ l, b < 128) → ValidUtf8 l
  | [], _ => ⟨[], by simp, rfl⟩
  | b :: l, h => by
    obtain ⟨cs, h1, h2⟩ := ascii_utf8 l (fun b hb => h b (by simp [hb]))
    have hb : b.toNat < 128 := UInt8.lt_iff_toNat_lt.1 (h b (by simp))
    refine ⟨b.toNat :: cs, ?_, ?_⟩
    · intro c hc
      rcases List.mem_cons.1 hc with rfl | hc
      · unfold Scalar; omega
      · exact h1 c hc
    · rw [List.flatMap_cons, ← h2]
      unfold utf8Bytes
      rw [if_pos (by omega), UInt8.ofNat_toNat]
      rfl

/-- The key-values that a channel is counted with are sent as they are. -/
theorem C92_channels (q : GoString) {kvs : KVs Key} (h1 : ValidKVs kvs) (h2 : Typed kvs) (h3 : KeysOk kvs) : Sent (runKVs q kvs) := by
  refine ⟨kvsOf_valid h1 q .run, kvsOf_typed h2 q .run, ?_⟩
  intro x hx
  simp only [runKVs, overwrite, List.mem_append, List.mem_filter, List.mem_cons, List.not_mem_nil, or_false] at hx
  rcases hx with ⟨rfl | rfl, _⟩ | hx
  · exact ascii_utf8 (pre ++ sQueueName) (by decide +kernel)
  · exact ascii_utf8 (pre ++ sRunning) (by decide +kernel)
  · exact h3 x hx

/-- The key-values of a channel a = 1 of the queue `b`. -/
def waitKVs : KVs Key := runKVs sb [(sa, ki 1)]

theorem waitKVs_sent : Sent waitKVs :=
  C92_channels sb ⟨by simp, by simp⟩ (by intro kv hkv; simp only [List.mem_singleton] at hkv; subst hkv; decide)
    (by intro kv hkv; simp only [List.mem_singleton] at hkv; subst hkv; exact ascii_utf8 sa (by decide +kernel))

/-- A rule for a value of `_willow_running` with a limit of 1, and one item that is counted. -/
def waitReqs (v : Key) : List LimHttp.Req :=
  [.createRule (some ⟨some (some [(pre ++ sRunning, some v)], some ⟨some 1⟩), none⟩), .upsert (some ⟨some (some (waitKVs.map (fun kv => (kv.1, some kv.2))), some (some 1))⟩)]

/-- The states after these requests. -/
def waitState (v : Key) : List LimHttp.Req → Srv
  | [] => Srv.init
  | r :: rs => after (waitState v rs) (httpEnv, r)

theorem wait_reached (v : Key) (n : Nat) : ∃ B, Reached (waitState v ((waitReqs v).take n).reverse) B ∧ B < 2 := by
  have one : ∀ {s : Srv} {B : Int} {r : LimHttp.Req}, Reached s B → WellTyped r → Tame r → B + amountOf r < 2 ^ 63 → Reached (after s (httpEnv, r)) (B + amountOf r) := by
    intro s B r h hw ht hB
    obtain ⟨s', o, e1, e2, _⟩ := C82_answers_partial h (e := httpEnv) noChoice_valid hw ht hB
    have : after s (httpEnv, r) = s' := by simp [after, e1]
    rw [this]
    exact .step h hw noChoice_valid e1 (fun _ => e2) hB
  have h1 := one .init (r := .createRule (some ⟨some (some [(pre ++ sRunning, some v)], some ⟨some 1⟩), none⟩)) ⟨by simp, by simp [LimSpec.Int64]⟩ trivial (by simp [amountOf])
  have hamt : amountOf (.upsert (some ⟨some (some (waitKVs.map (fun kv => (kv.1, some kv.2))), some (some 1))⟩)) = 1 := by decide +kernel
  have h2 := one h1 (r := .upsert (some ⟨some (some (waitKVs.map (fun kv => (kv.1, some kv.2))), some (some 1))⟩)) ⟨by decide +kernel, by simp [LimSpec.Int64]⟩ trivial (by rw [hamt]; simp [amountOf])
  match n with
  | 0 => exact ⟨_, .init, by decide⟩
  | 1 => exact ⟨_, h1, by simp [amountOf]⟩
  | n + 2 =>
    have : (waitReqs v).take (n + 2) = waitReqs v := by rw [List.take_of_length_le]; simp [waitReqs]
    rw [this]
    exact ⟨_, h2, by rw [hamt]; simp [amountOf]⟩

/-- Before an item is counted, the channel may offer items; after it, with a rule for the value `true`, it waits … -/
example : (∃ s B, Reached s B ∧ B < 2 ^ 63 ∧ (∃ r ∈ (Limiter.abs s.lim).rules, applies r.kvs waitKVs = true) ∧ allowed (Limiter.abs s.lim) waitKVs = true) ∧
    ∃ s B, Reached s B ∧ B < 2 ^ 63 ∧ ∃ x ∈ inForce (Limiter.abs s.lim) waitKVs, AtLimit (Limiter.abs s.lim) waitKVs x ∧ (Exact x.1 ∨ x.2 = 0) := by
  obtain ⟨B1, h1, b1⟩ := wait_reached (vString sTrue) 1
  obtain ⟨B2, h2, b2⟩ := wait_reached (vString sTrue) 2
  refine ⟨⟨_, B1, h1, by omega, ?_, by decide +kernel⟩, _, B2, h2, by omega, ?_⟩
  · have : ((Limiter.abs (waitState (vString sTrue) ((waitReqs (vString sTrue)).take 1).reverse).lim).rules.any (fun r => applies r.kvs waitKVs)) = true := by decide +kernel
    simpa using this
  · have : ((inForce (Limiter.abs (waitState (vString sTrue) ((waitReqs (vString sTrue)).take 2).reverse).lim) waitKVs).any (fun x => decide (x.2 ≠ -1) &&
        decide (x.2 ≤ groupTotal (Limiter.abs (waitState (vString sTrue) ((waitReqs (vString sTrue)).take 2).reverse).lim).counters (x.1.map (·.1)) waitKVs) && x.1.all (fun kv => !wild kv.2))) = true := by
      decide +kernel
    obtain ⟨x, hx, hp⟩ := List.any_eq_true.1 this
    simp only [Bool.and_eq_true, decide_eq_true_eq, List.all_eq_true, Bool.not_eq_true'] at hp
    exact ⟨x, hx, hp.1, .inl hp.2⟩

theorem check_mono {kvs : KVs Key} {h2 : Bool} {ok ok' : LimHttp.Req → Prop} (hok : ∀ r, ok r → ok' r) {tr : List Srv} {p : Pos} {B : Int} {lost : Bool} (h : Check kvs h2 ok tr p B lost) :
    Check kvs h2 ok' tr p B lost := by
  induction h with
  | start h hB => exact .start h hB
  | other _ ho hw hc hh ha hB ih => exact .other ih (hok _ ho) hw hc hh ha hB
  | ask _ hc ha hcall ih => exact .ask ih hc ha hcall
  | lose _ ha ih => exact .lose ih ha

/-- A check that ends with a sleep. -/
example (h2 : Bool) : ∃ tr B, Check waitKVs h2 KeepsRules tr .sleep B false := by
  obtain ⟨B, h, b⟩ := wait_reached (vString sTrue) 2
  obtain ⟨tr, p, h3, h4⟩ := C92_completes waitKVs_sent (Check.start (kvs := waitKVs) (h2 := h2) (ok := fun _ => False) h (by omega))
  obtain ⟨_, rfl⟩ := C92_waits_partial waitKVs_sent h3 (s := waitState (vString sTrue) ((waitReqs (vString sTrue)).take 2).reverse) (by simp) (by
    have : ((inForce (Limiter.abs (waitState (vString sTrue) ((waitReqs (vString sTrue)).take 2).reverse).lim) waitKVs).any (fun x => decide (x.2 ≠ -1) &&
        decide (x.2 ≤ groupTotal (Limiter.abs (waitState (vString sTrue) ((waitReqs (vString sTrue)).take 2).reverse).lim).counters (x.1.map (·.1)) waitKVs) && x.1.all (fun kv => !wild kv.2))) = true := by
      decide +kernel
    obtain ⟨x, hx, hp⟩ := List.any_eq_true.1 this
    simp only [Bool.and_eq_true, decide_eq_true_eq, List.all_eq_true, Bool.not_eq_true'] at hp
    exact ⟨x, hx, hp.1, .inl hp.2⟩) h4
  exact ⟨_, _, check_mono (fun _ h => h.elim) h3⟩

/-- … and with a rule for all values it does not. -/
example : ∃ s B, Reached s B ∧ B < 2 ^ 63 ∧ allowed (Limiter.abs s.lim) waitKVs = false ∧
    (∀ x ∈ inForce (Limiter.abs s.lim) waitKVs, AtLimit (Limiter.abs s.lim) waitKVs x → ¬ Exact x.1) ∧ (∀ x ∈ inForce (Limiter.abs s.lim) waitKVs, x.2 ≠ 0) := by
  obtain ⟨B2, h2, b2⟩ := wait_reached kany 2
  have : ((inForce (Limiter.abs (waitState kany ((waitReqs kany).take 2).reverse).lim) waitKVs).all (fun x => decide (x.2 ≠ 0) && x.1.any (fun kv => wild kv.2))) = true := by decide +kernel
  have h3 := fun x hx => Bool.and_eq_true_iff.1 (List.all_eq_true.1 this x hx)
  refine ⟨_, B2, h2, by omega, by decide +kernel, fun x hx _ he => ?_, fun x hx => of_decide_eq_true (h3 x hx).1⟩
  obtain ⟨kv, hkv, hw⟩ := List.any_eq_true.1 (h3 x hx).2
  rw [he kv hkv] at hw
  cases hw

end Willow.Props
