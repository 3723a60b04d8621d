import Verif.Spec.Client
import Verif.Proofs.JsonString
import Verif.Proofs.Requests
/-
Lemmas about URLs and the router (Model/Client.lean).
-/
namespace Willow.Client
open Willow Willow.ClientSpec

theorem cut_absent {b : UInt8} : ∀ {s : GoString}, b ∉ s → cut b s = (s, none)
  | [], _ => rfl
  | c :: cs, h => by
    simp only [List.mem_cons, not_or] at h
    rw [cut, if_neg (fun e => h.1 e.symm), cut_absent h.2]

theorem cut_not_mem {b : UInt8} : ∀ (s : GoString), b ∉ (cut b s).1
  | [] => by simp [cut]
  | c :: cs => by
    rw [cut]
    split
    · simp
    · rename_i h
      simp only [List.mem_cons, not_or]
      exact ⟨fun e => h e.symm, cut_not_mem cs⟩

theorem cut_length {b : UInt8} : ∀ (s : GoString), (cut b s).1.length ≤ s.length ∧ ((cut b s).1.length = s.length → b ∉ s)
  | [] => by simp [cut]
  | c :: cs => by
    have ih := cut_length (b := b) cs
    rw [cut]
    split
    · simp
    · rename_i h
      simp only [List.length_cons, List.mem_cons, not_or, Nat.add_le_add_iff_right, Nat.add_right_cancel_iff]
      exact ⟨ih.1, fun e => ⟨fun e' => h e'.symm, ih.2 e⟩⟩

theorem cut_append {b : UInt8} {s : GoString} (h : b ∉ s) (t : GoString) : cut b (s ++ b :: t) = (s, some t) := by
  induction s with
  | nil => simp [cut]
  | cons c cs ih =>
    simp only [List.mem_cons, not_or] at h
    rw [List.cons_append, cut, if_neg (fun e => h.1 e.symm), ih h.2]

theorem unescape_plain : ∀ {s : GoString}, (37 : UInt8) ∉ s → unescape s = some s
  | [], _ => rfl
  | [c], h => by
    simp only [List.mem_singleton] at h
    rw [unescape, if_neg (fun e => h e.symm)]
  | [c, d], h => by
    simp only [List.mem_cons, not_or, List.not_mem_nil, not_false_eq_true, and_true] at h
    rw [unescape, if_neg (fun e => by rcases e with e | e <;> simp_all)]
  | c :: a :: b :: rest, h => by
    have h' : (37 : UInt8) ∉ a :: b :: rest := fun hm => h (List.mem_cons_of_mem _ hm)
    have hc : c ≠ 37 := fun e => h (by simp [e])
    rw [unescape, if_neg hc, unescape_plain h', Option.map_some]

theorem unescape_length : ∀ {s p : GoString}, unescape s = some p → p.length ≤ s.length ∧ (p.length = s.length → (37 : UInt8) ∉ s)
  | [], p, h => by simp [unescape] at h; subst h; simp
  | [c], p, h => by
    rw [unescape] at h
    split at h
    · cases h
    · rename_i hc; cases h; simp; exact fun e => hc e.symm
  | [c, d], p, h => by
    rw [unescape] at h
    split at h
    · cases h
    · rename_i hc
      cases h
      simp only [not_or] at hc
      simp [not_or]
      exact ⟨fun e => hc.1 e.symm, fun e => hc.2 e.symm⟩
  | c :: a :: b :: rest, p, h => by
    rw [unescape] at h
    split at h
    · split at h
      · cases hu : unescape rest with
        | none => simp [hu] at h
        | some r =>
          simp only [hu, Option.map_some, Option.some.injEq] at h
          have := unescape_length hu
          subst h
          simp only [List.length_cons]
          omega
      · cases h
    · rename_i hc
      cases hu : unescape (a :: b :: rest) with
      | none => simp [hu] at h
      | some r =>
        simp only [hu, Option.map_some, Option.some.injEq] at h
        have := unescape_length hu
        subst h
        refine ⟨?_, fun e => ?_⟩
        · have := this.1; simp only [List.length_cons] at this ⊢; omega
        · have := this.2 (by simp only [List.length_cons] at e ⊢; omega)
          rw [List.mem_cons, not_or]
          exact ⟨fun e => hc e.symm, this⟩

theorem hexVal_upperHex {n : Nat} (h : n < 16) : hexVal (upperHex n) = some n := by
  have : ∀ n : Fin 16, hexVal (upperHex n.1) = some n.1 := by decide
  exact this ⟨n, h⟩

theorem unescape_cons {c : UInt8} (hc : c ≠ 37) : ∀ (s : GoString), unescape (c :: s) = (unescape s).map (c :: ·)
  | [] => by simp [unescape, hc]
  | [d] => by
    simp only [unescape, hc, false_or]
    split <;> simp
  | a :: b :: rest => by rw [unescape, if_neg hc]

theorem unescape_escape : ∀ (s : GoString), unescape (escape s) = some s
  | [] => rfl
  | c :: cs => by
    have ih := unescape_escape cs
    have e : escape (c :: cs) = escapeByte c ++ escape cs := by simp [escape]
    rw [e]
    unfold escapeByte
    split
    · have hlt : c.toNat < 256 := by simpa using c.toNat_lt
      rw [List.cons_append, List.cons_append, List.cons_append, List.nil_append, unescape, if_pos rfl, hexVal_upperHex (by omega), hexVal_upperHex (by omega)]
      simp only [ih, Option.map_some, Option.some.injEq, List.cons.injEq, and_true]
      have : 16 * (c.toNat / 16) + c.toNat % 16 = c.toNat := by omega
      rw [this, UInt8.ofNat_toNat]
    · rename_i h
      have hc : c ≠ 37 := by rintro rfl; exact h (by decide)
      rw [List.cons_append, List.nil_append, unescape_cons hc, ih, Option.map_some]

/-- What is sent has neither a question mark nor a space. -/
theorem escape_clean (s : GoString) : (63 : UInt8) ∉ escape s ∧ (32 : UInt8) ∉ escape s := by
  have h1 : ∀ c : UInt8, (63 : UInt8) ∉ escapeByte c ∧ (32 : UInt8) ∉ escapeByte c := by
    intro c
    unfold escapeByte
    split
    · have hlt : c.toNat < 256 := by simpa using c.toNat_lt
      have hh : ∀ n : Fin 16, (63 : UInt8) ≠ upperHex n.1 ∧ (32 : UInt8) ≠ upperHex n.1 := by decide
      have ha := hh ⟨c.toNat / 16, by omega⟩
      have hb := hh ⟨c.toNat % 16, by omega⟩
      simp only [List.mem_cons, List.not_mem_nil, or_false, not_or]
      exact ⟨⟨by decide, ha.1, hb.1⟩, by decide, ha.2, hb.2⟩
    · rename_i h
      simp only [List.mem_singleton]
      exact ⟨by rintro rfl; exact h (by decide), by rintro rfl; exact h (by decide)⟩
  constructor
  all_goals
    intro hm
    obtain ⟨c, _, hc⟩ := List.mem_flatMap.1 hm
    first | exact (h1 c).1 hc | exact (h1 c).2 hc

theorem validEncoded_clean {s : GoString} (h : validEncoded s = true) : (63 : UInt8) ∉ s ∧ (32 : UInt8) ∉ s := by
  simp only [validEncoded, List.all_eq_true] at h
  exact ⟨fun hm => by have := h _ hm; revert this; decide, fun hm => by have := h _ hm; revert this; decide⟩

theorem escapedPath_clean (raw path : GoString) : (63 : UInt8) ∉ escapedPath raw path ∧ (32 : UInt8) ∉ escapedPath raw path := by
  unfold escapedPath
  split
  · rename_i h; exact validEncoded_clean h
  · exact escape_clean _

theorem unescape_escapedPath {raw path : GoString} (h : unescape raw = some path) : unescape (escapedPath raw path) = some path := by
  unfold escapedPath
  split
  · exact h
  · exact unescape_escape _

/-- The path comes through the wire. -/
theorem serverPath_requestURI {h2 : Bool} {raw path : GoString} (h : unescape raw = some path) {q : Option GoString} {p : GoString}
    (hs : serverPath h2 (requestURI raw path q) = some p) : p = path := by
  unfold serverPath at hs
  split at hs
  · cases hs
  · have hc := escapedPath_clean raw path
    cases q with
    | none =>
      simp only [requestURI] at hs
      rw [cut_absent hc.1, unescape_escapedPath h] at hs
      exact (Option.some.inj hs).symm
    | some q =>
      simp only [requestURI] at hs
      rw [cut_append hc.1, unescape_escapedPath h] at hs
      exact (Option.some.inj hs).symm

/-- A URL without special bytes arrives as it is. -/
theorem arrives_plain (h2 : Bool) {url : GoString} (h : ∀ b ∈ url, isCtl b = false ∧ b ≠ 35 ∧ b ≠ 37 ∧ b ≠ 63) : arrives h2 url = some url := by
  have h35 : (35 : UInt8) ∉ url := fun hm => (h _ hm).2.1 rfl
  have h37 : (37 : UInt8) ∉ url := fun hm => (h _ hm).2.2.1 rfl
  have h63 : (63 : UInt8) ∉ url := fun hm => (h _ hm).2.2.2 rfl
  have hp : parse url = some (url, url, none) := by
    unfold parse
    rw [cut_absent h35]
    rw [if_neg]
    · rw [if_neg (by simp [unescape]), cut_absent h63]
      simp [unescape_plain h37]
    · simp only [Bool.not_eq_true, List.any_eq_false]
      intro b hb; simp [(h b hb).1]
  unfold arrives
  rw [hp]
  have hc := escapedPath_clean url url
  have hu : requestURI url url none = escapedPath url url := rfl
  show serverPath h2 (requestURI url url none) = some url
  rw [hu]
  unfold serverPath
  refine (if_neg ?_).trans ?_
  · simp only [Bool.and_eq_true, List.any_eq_true, not_and, not_exists, beq_iff_eq]
    rintro _ x hx rfl
    exact hc.2 hx
  · rw [cut_absent hc.1, unescape_escapedPath (unescape_plain h37)]

/-- A URL that arrives as it is has no special bytes. -/
theorem arrives_self {h2 : Bool} {url : GoString} (h : arrives h2 url = some url) : ∀ b ∈ url, isCtl b = false ∧ b ≠ 35 ∧ b ≠ 37 ∧ b ≠ 63 := by
  unfold arrives at h
  cases hp : parse url with
  | none => simp [hp] at h
  | some r =>
    obtain ⟨raw, path, q⟩ := r
    simp only [hp] at h
    unfold parse at hp
    split at hp
    · cases hp
    · rename_i hctl
      split at hp
      · cases hp
      · cases hu : unescape (cut 63 (cut 35 url).1).1 with
        | none => simp [hu] at hp
        | some path' =>
          simp only [hu, Option.map_some, Option.some.injEq, Prod.mk.injEq] at hp
          obtain ⟨rfl, rfl, rfl⟩ := hp
          have he := serverPath_requestURI hu h
          subst he
          have l1 := unescape_length hu
          have l2 := cut_length (b := 63) (cut 35 url).1
          have l3 := cut_length (b := 35) url
          have h35 := l3.2 (by omega)
          have h63 := l2.2 (by omega)
          have h37 := l1.2 (by omega)
          rw [cut_absent h35] at h63 h37 hctl
          simp only at h63 h37 hctl
          rw [cut_absent h63] at h37
          intro b hb
          refine ⟨?_, by rintro rfl; exact h35 hb, by rintro rfl; exact h37 hb, by rintro rfl; exact h63 hb⟩
          simp only [List.any_eq_true, not_exists, not_and, Bool.not_eq_true] at hctl
          exact hctl b hb

/-! ### Segments -/

/-- The segments, joined. -/
def join : List GoString → GoString
  | [] => []
  | [s] => s
  | s :: t :: ss => s ++ 47 :: join (t :: ss)

theorem segments_ne (s : GoString) : segments s ≠ [] := by
  cases s with
  | nil => simp [segments]
  | cons c cs =>
    rw [segments]
    split
    · simp
    · split <;> simp

theorem join_segments : ∀ (s : GoString), join (segments s) = s
  | [] => rfl
  | c :: cs => by
    have ih := join_segments cs
    rw [segments]
    split
    · rename_i h
      cases hs : segments cs with
      | nil => exact absurd hs (segments_ne cs)
      | cons a l => rw [hs] at ih; simp [join, ih, h]
    · cases hs : segments cs with
      | nil => exact absurd hs (segments_ne cs)
      | cons a l =>
        rw [hs] at ih
        cases l with
        | nil => simp only [join] at ih ⊢; rw [ih]
        | cons b l => simp only [join] at ih ⊢; rw [← ih]; rfl

theorem segments_no_slash : ∀ (s : GoString), ∀ x ∈ segments s, (47 : UInt8) ∉ x
  | [] => by simp [segments]
  | c :: cs => by
    have ih := segments_no_slash cs
    rw [segments]
    split
    · intro x hx
      rcases List.mem_cons.1 hx with rfl | hx
      · simp
      · exact ih x hx
    · rename_i h
      cases hs : segments cs with
      | nil => exact absurd hs (segments_ne cs)
      | cons a l =>
        rw [hs] at ih
        intro x hx
        rcases List.mem_cons.1 hx with rfl | hx
        · rw [List.mem_cons, not_or]
          exact ⟨fun e => h e.symm, ih a (by simp)⟩
        · exact ih x (by simp [hx])

theorem segments_one : ∀ {s : GoString}, (47 : UInt8) ∉ s → segments s = [s]
  | [], _ => rfl
  | c :: cs, h => by
    rw [List.mem_cons, not_or] at h
    rw [segments, if_neg (fun e => h.1 e.symm), segments_one h.2]

theorem segments_cons : ∀ {s : GoString}, (47 : UInt8) ∉ s → ∀ t, segments (s ++ 47 :: t) = s :: segments t
  | [], _, t => by rw [List.nil_append, segments, if_pos rfl]
  | c :: cs, h, t => by
    rw [List.mem_cons, not_or] at h
    rw [List.cons_append, segments, if_neg (fun e => h.1 e.symm), segments_cons h.2]

/-! ### Routes -/

/-- The queue in a route. -/
def Handler.queue : Handler → Option GoString
  | .create | .list => none
  | .get n | .update n | .delete n | .channelQuery n | .channelDelete n | .enqueue n | .dequeue n | .ack n | .heartbeat n => some n

/-- What follows the name of the queue in a route. -/
def Handler.below : Handler → GoString
  | .create | .list | .get _ | .update _ | .delete _ => []
  | .channelQuery _ | .channelDelete _ => pChannels
  | .enqueue _ | .dequeue _ => pItems
  | .ack _ => pItems ++ 47 :: sAck
  | .heartbeat _ => pItems ++ 47 :: sHeartbeat

theorem base_eq : base = 47 :: (sV1 ++ 47 :: sQueues) := by decide

/-- A route to a queue: the path, and the name has no slash. -/
theorem route_inv {m : Method} {p : GoString} {h : Handler} {n : GoString} (hr : route m p = some h) (hq : h.queue = some n) :
    p = urlOf n h.below ∧ (47 : UInt8) ∉ n ∧ n ≠ [] := by
  have hj := join_segments p
  have hs := segments_no_slash p
  unfold route at hr
  split at hr
  · rename_i v q rest he
    rw [he] at hj hs
    split at hr
    · rename_i hvq
      obtain ⟨rfl, rfl⟩ := hvq
      split at hr
      · cases m <;> simp [routeAll] at hr <;> subst hr <;> simp [Handler.queue] at hq
      · rename_i n' below
        split at hr
        · cases hr
        · rename_i hne
          have key : ∀ l, join ([] :: sV1 :: sQueues :: n' :: l) = urlOf n' (join ([] :: l)) := by
            intro l
            unfold urlOf
            rw [base_eq]
            cases l <;> simp [join]
          rw [key] at hj
          have hn47 := hs n' (by simp)
          have fin : n' = n → join ([] :: below) = h.below → p = urlOf n h.below ∧ (47 : UInt8) ∉ n ∧ n ≠ [] := by
            rintro rfl e
            rw [e] at hj
            exact ⟨hj.symm, hn47, hne⟩
          match below, hr with
          | [], hr' =>
            cases m <;> simp [routeBelow, routeQueue] at hr' <;> subst hr' <;> simp [Handler.queue] at hq <;> exact fin hq rfl
          | [a], hr' =>
            simp only [routeBelow] at hr'
            split at hr'
            · rename_i ha; subst ha
              cases m <;> simp [routeChannels] at hr' <;> subst hr' <;> simp [Handler.queue] at hq <;> exact fin hq rfl
            · cases hr'
          | [a, b], hr' =>
            simp only [routeBelow] at hr'
            split at hr'
            · rename_i ha; obtain ⟨rfl, rfl⟩ := ha
              cases m <;> simp [routeItems] at hr' <;> subst hr' <;> simp [Handler.queue] at hq <;> exact fin hq rfl
            · cases hr'
          | [a, b, c], hr' =>
            simp only [routeBelow] at hr'
            split at hr'
            · rename_i ha; obtain ⟨rfl, rfl⟩ := ha
              unfold routeItem at hr'
              split at hr'
              · rename_i hc; obtain ⟨rfl, rfl⟩ := hc
                cases hr'; simp [Handler.queue] at hq; exact fin hq rfl
              · split at hr'
                · rename_i hc; obtain ⟨rfl, rfl⟩ := hc
                  cases hr'; simp [Handler.queue] at hq; exact fin hq rfl
                · cases hr'
            · cases hr'
          | _ :: _ :: _ :: _ :: _, hr' => simp [routeBelow] at hr'
    · cases hr
  · cases hr

theorem segments_urlOf {n : GoString} (h : (47 : UInt8) ∉ n) (l : List GoString) (hl : ∀ x ∈ l, (47 : UInt8) ∉ x) :
    segments (urlOf n (join ([] :: l))) = [] :: sV1 :: sQueues :: n :: l := by
  have hjoin : ∀ l : List GoString, l ≠ [] → (∀ x ∈ l, (47 : UInt8) ∉ x) → segments (join l) = l := by
    intro l
    induction l with
    | nil => intro h; exact absurd rfl h
    | cons a l ih =>
      intro _ hl
      cases l with
      | nil => exact segments_one (hl a (by simp))
      | cons b l =>
        rw [join, segments_cons (hl a (by simp)), ih (by simp) (fun x hx => hl x (by simp [hx]))]
  have e : urlOf n (join ([] :: l)) = join ([] :: sV1 :: sQueues :: n :: l) := by
    unfold urlOf
    rw [base_eq]
    cases l <;> simp [join]
  rw [e]
  apply hjoin _ (by simp)
  intro x hx
  simp only [List.mem_cons] at hx
  rcases hx with rfl | rfl | rfl | rfl | hx
  · simp
  · decide
  · decide
  · exact h
  · exact hl x hx

/-- The route of a URL with a plain name. -/
theorem route_urlOf {n : GoString} (h : (47 : UInt8) ∉ n) (hn : n ≠ []) (m : Method) :
    route m (urlOf n []) = routeQueue n m ∧ route m (urlOf n pChannels) = routeChannels n m ∧ route m (urlOf n pItems) = routeItems n m ∧
      route m (urlOf n (pItems ++ 47 :: sAck)) = routeItem n sAck m ∧ route m (urlOf n (pItems ++ 47 :: sHeartbeat)) = routeItem n sHeartbeat m := by
  have e0 := segments_urlOf h [] (by simp)
  have e1 := segments_urlOf h [sChannels] (by decide)
  have e2 := segments_urlOf h [sChannels, sItems] (by decide)
  have e3 := segments_urlOf h [sChannels, sItems, sAck] (by decide)
  have e4 := segments_urlOf h [sChannels, sItems, sHeartbeat] (by decide)
  refine ⟨?_, ?_, ?_, ?_, ?_⟩
  · unfold route; rw [show urlOf n [] = urlOf n (join [[]]) from rfl, e0]; simp [hn, routeBelow]
  · unfold route; rw [show urlOf n pChannels = urlOf n (join ([] :: [sChannels])) from rfl, e1]; simp [hn, routeBelow]
  · unfold route; rw [show urlOf n pItems = urlOf n (join ([] :: [sChannels, sItems])) from rfl, e2]; simp [hn, routeBelow]
  · unfold route; rw [show urlOf n (pItems ++ 47 :: sAck) = urlOf n (join ([] :: [sChannels, sItems, sAck])) from rfl, e3]; simp [hn, routeBelow]
  · unfold route; rw [show urlOf n (pItems ++ 47 :: sHeartbeat) = urlOf n (join ([] :: [sChannels, sItems, sHeartbeat])) from rfl, e4]; simp [hn, routeBelow]

/-- All bytes around the name are plain. -/
theorem urlOf_plain {n : GoString} (h : Plain n) {below : GoString} (hb : ∀ b ∈ below, isCtl b = false ∧ b ≠ 35 ∧ b ≠ 37 ∧ b ≠ 63) :
    ∀ b ∈ urlOf n below, isCtl b = false ∧ b ≠ 35 ∧ b ≠ 37 ∧ b ≠ 63 := by
  have hbase : ∀ b ∈ base, isCtl b = false ∧ b ≠ 35 ∧ b ≠ 37 ∧ b ≠ 63 := by decide
  intro b hm
  simp only [urlOf, List.mem_append, List.mem_cons] at hm
  rcases hm with hm | rfl | hm | hm
  · exact hbase b hm
  · decide
  · have := h.2 b hm
    refine ⟨?_, this.2.2.1, this.2.2.2.1, this.2.2.2.2.2⟩
    simp only [isCtl, Bool.or_eq_false_iff, decide_eq_false_iff_not, beq_eq_false_iff_ne, ne_eq]
    exact ⟨by omega, this.2.1⟩
  · exact hb b hm

theorem below_plain (h : Handler) : ∀ b ∈ h.below, isCtl b = false ∧ b ≠ 35 ∧ b ≠ 37 ∧ b ≠ 63 := by
  have h1 : ∀ b ∈ pChannels, isCtl b = false ∧ b ≠ 35 ∧ b ≠ 37 ∧ b ≠ 63 := by decide
  have h2 : ∀ b ∈ pItems, isCtl b = false ∧ b ≠ 35 ∧ b ≠ 37 ∧ b ≠ 63 := by decide
  have h3 : ∀ b ∈ pItems ++ 47 :: sAck, isCtl b = false ∧ b ≠ 35 ∧ b ≠ 37 ∧ b ≠ 63 := by decide
  have h4 : ∀ b ∈ pItems ++ 47 :: sHeartbeat, isCtl b = false ∧ b ≠ 35 ∧ b ≠ 37 ∧ b ≠ 63 := by decide
  cases h
  case ack => exact h3
  case heartbeat => exact h4
  case channelQuery => exact h1
  case channelDelete => exact h1
  case enqueue => exact h2
  case dequeue => exact h2
  all_goals exact fun b hb => by simp [Handler.below] at hb

theorem plain_of_arrives {h2 : Bool} {n below : GoString} (h : arrives h2 (urlOf n below) = some (urlOf n below)) (h47 : (47 : UInt8) ∉ n) (hn : n ≠ []) : Plain n := by
  refine ⟨hn, fun b hb => ?_⟩
  have := arrives_self h b (by simp [urlOf, hb])
  simp only [isCtl, Bool.or_eq_false_iff, decide_eq_false_iff_not, beq_eq_false_iff_ne, ne_eq] at this
  exact ⟨by omega, this.1.2, this.2.1, this.2.2.1, by rintro rfl; exact h47 hb, this.2.2.2⟩

/-- A URL reaches the handler of the queue it names iff the name is plain. -/
theorem reached_iff {h2 : Bool} {m : Method} {n : GoString} {h : Handler} (hq : h.queue = some n)
    (hm : ∀ (_ : (47 : UInt8) ∉ n) (_ : n ≠ []), route m (urlOf n h.below) = some h) : reached h2 m (urlOf n h.below) = some h ↔ Plain n := by
  constructor
  · intro hr
    unfold reached at hr
    split at hr
    · cases hr
    · rename_i p hp
      obtain ⟨rfl, h47, hn⟩ := route_inv hr hq
      exact plain_of_arrives hp h47 hn
  · intro hp
    have h47 : (47 : UInt8) ∉ n := fun hb => (hp.2 _ hb).2.2.2.2.1 rfl
    unfold reached
    rw [arrives_plain h2 (urlOf_plain hp (below := h.below) (fun b hb => below_plain h b hb))]
    exact hm h47 hp.1

end Willow.Client
