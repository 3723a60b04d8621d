import Verif.Proofs.Channel
import Verif.Spec.Channel
/- Histories of a channel (Model/Channel.lean). -/
namespace Willow.Channel
open Willow.ChanSpec
variable {D : Type}

/-- the item an event says something lasting about -/
def Ev.about : Ev D → Option Nat
  | .enqueued i _ | .updated i _ | .taken i _ | .unsent i true | .failed i | .ackPassed i true | .exhausted i | .superseded i _ => some i
  | _ => none

theorem since_cons (x : Nat) (e : Ev D) (l : List (Ev D)) : since x (e :: l) = if (reqOf x e).isSome then [] else e :: since x l := by
  unfold since; rw [List.takeWhile_cons]; cases reqOf x e <;> simp

theorem lastReq_cons (x : Nat) (e : Ev D) (l : List (Ev D)) : lastReq x (e :: l) = (reqOf x e).or (lastReq x l) := by
  unfold lastReq; rw [List.findSome?_cons]; cases reqOf x e <;> simp

theorem enqueues_cons (x : Nat) (e : Ev D) (l : List (Ev D)) :
    enqueues x (e :: l) = enqueues x l + (match e with | .enqueued i _ => one (i == x) | _ => 0) := by
  unfold enqueues; rw [List.countP_cons]; cases e <;> simp [one]

theorem takes_cons (x : Nat) (e : Ev D) (l : List (Ev D)) :
    takes x (e :: l) = takes x l + (match e with | .taken i _ => one (i == x) | _ => 0) := by
  unfold takes; rw [List.countP_cons]; cases e <;> simp [one]

theorem unsents_cons (x : Nat) (e : Ev D) (l : List (Ev D)) :
    unsents x (e :: l) = unsents x l + (match e with | .unsent i true => one (i == x) | _ => 0) := by
  unfold unsents; rw [List.countP_cons]
  cases e with
  | unsent i b => cases b <;> simp [one]
  | _ => simp [one]

theorem fails_cons (x : Nat) (e : Ev D) (l : List (Ev D)) :
    fails x (e :: l) = fails x l + (match e with | .failed i => one (i == x) | _ => 0) := by
  unfold fails; rw [List.countP_cons]; cases e <;> simp [one]

theorem removals_cons (x : Nat) (e : Ev D) (l : List (Ev D)) :
    removals x (e :: l) = removals x l +
      (match e with | .ackPassed i true => one (i == x) | .exhausted i => one (i == x) | .superseded i _ => one (i == x) | _ => 0) := by
  unfold removals; rw [List.countP_cons]
  cases e with
  | ackPassed i b => cases b <;> simp [one]
  | _ => simp [one]

/-- item `x`, stored as `o`, agrees with the history; `d`: the items were destroyed; `n`: the next id -/
structure Good (d : Bool) (n x : Nat) (o : Option (Item D)) (log : List (Ev D)) : Prop where
  enq : enqueues x log = one (decide (x < n))
  rem : d = false → removals x log = one (decide (x < n ∧ o = none))
  lt : ∀ it, o = some it → x < n
  req : ∀ it, o = some it → ∃ r, lastReq x log = some r ∧ Content it r
  fails : ∀ it, o = some it → fails x (since x log) = it.retryCount
  takes : ∀ it, o = some it → takes x (since x log) = unsents x (since x log) + it.retryCount + one (it.hb != .none)
  le : ∀ it, o = some it → it.retryCount ≤ it.maxRetry
  bound : ∀ r, lastReq x log = some r → ChanSpec.takes x (since x log) ≤ unsents x (since x log) + r.maxRetry + 1
  taken : ∀ it, o = some it → it.hb ≠ .none → 0 < ChanSpec.takes x log
  why : 0 < removals x log → 0 < ChanSpec.takes x log ∨ .superseded x false ∈ log
  orig : ∀ it r, o = some it → .enqueued x r ∈ log → it.timeout = r.timeout
  all : ∀ it, o = some it → ChanSpec.takes x log = unsents x log + ChanSpec.fails x log + one (it.hb != .none)
  never : x ≥ n → ChanSpec.takes x log = 0 ∧ unsents x log = 0 ∧ ChanSpec.fails x log = 0

theorem Good.other {d : Bool} {n x : Nat} {o : Option (Item D)} {log : List (Ev D)} (h : Good d n x o log) {e : Ev D}
    (he : e.about ≠ some x) : Good d n x o (e :: log) := by
  have h1 : reqOf x e = none := by cases e <;> simp [reqOf, Ev.about] at he ⊢ <;> exact he
  have h2 : enqueues x (e :: log) = enqueues x log := by
    rw [enqueues_cons]; cases e <;> simp [Ev.about, one] at he ⊢; exact he
  have h3 : removals x (e :: log) = removals x log := by
    rw [removals_cons]
    cases e with
    | ackPassed i b => cases b <;> simp [Ev.about, one] at he ⊢; exact he
    | _ => simp [Ev.about, one] at he ⊢ <;> exact he
  have h4 : ∀ l, ChanSpec.takes x (e :: l) = ChanSpec.takes x l := by
    intro l; rw [takes_cons]; cases e <;> simp [Ev.about, one] at he ⊢; exact he
  have h5 : ∀ l, unsents x (e :: l) = unsents x l := by
    intro l; rw [unsents_cons]
    cases e with
    | unsent i b => cases b <;> simp [Ev.about, one] at he ⊢; exact he
    | _ => rfl
  have h6 : ∀ l, ChanSpec.fails x (e :: l) = ChanSpec.fails x l := by
    intro l; rw [fails_cons]; cases e <;> simp [Ev.about, one] at he ⊢; exact he
  have h7 : since x (e :: log) = e :: since x log := by rw [since_cons, h1]; rfl
  have h8 : lastReq x (e :: log) = lastReq x log := by rw [lastReq_cons, h1]; rfl
  constructor <;> try simp only [h2, h3, h4, h5, h6, h7, h8]
  · exact h.enq
  · exact h.rem
  · exact h.lt
  · exact h.req
  · exact h.fails
  · exact h.takes
  · exact h.le
  · exact h.bound
  · exact h.taken
  · intro hr; rcases h.why hr with h9 | h9
    · exact .inl h9
    · exact .inr (by simp [h9])
  · intro it r hi hm; simp only [List.mem_cons] at hm
    rcases hm with rfl | hm
    · simp [Ev.about] at he
    · exact h.orig it r hi hm
  · exact h.all
  · exact h.never

/-- all items agree with the history -/
def Hist (s : St D) : Prop := ∀ x, Good s.destroyed s.nextId x (lookup s.items x) s.log

theorem Hist.init : Hist (init : St D) := by
  intro x
  constructor <;> simp [Channel.init, lookup_nil, enqueues, removals, lastReq, since, one, ChanSpec.takes, unsents, ChanSpec.fails]

theorem Hist.neutral {s : St D} (h : Hist s) {e : Ev D} (he : e.about = none) : Hist (s.ev e) :=
  fun x => (h x).other (by simp [he])

/-- the same items and history -/
theorem Hist.same {s s' : St D} (h : Hist s) (h1 : s'.items = s.items) (h2 : s'.nextId = s.nextId) (h3 : s'.log = s.log)
    (h4 : s'.destroyed = s.destroyed) : Hist s' := by
  intro x; rw [h1, h2, h3, h4]; exact h x


theorem enqueues_pos {x : Nat} {r : Req D} {log : List (Ev D)} (h : .enqueued x r ∈ log) : 0 < enqueues x log := by
  unfold enqueues; rw [List.countP_pos_iff]; exact ⟨_, h, by simp⟩

theorem takes_pos {x : Nat} {log : List (Ev D)} : 0 < takes x log ↔ ∃ it, .taken x it ∈ log := by
  unfold takes; rw [List.countP_pos_iff]
  constructor
  · rintro ⟨e, he, hx⟩
    cases e <;> simp at hx
    subst hx; exact ⟨_, he⟩
  · rintro ⟨it, h⟩; exact ⟨_, h, by simp⟩

/-- a request is stored for a waiting item -/
theorem Good.updated {d : Bool} {n x : Nat} {it : Item D} {log : List (Ev D)} (h : Good d n x (some it) log) (hn : it.hb = .none)
    (r : Req D) : Good d n x (some (update r it)) (.updated x r :: log) := by
  have h7 : since x (.updated x r :: log) = [] := by simp [since_cons, reqOf]
  have h8 : lastReq x (.updated x r :: log) = some r := by simp [lastReq_cons, reqOf]
  constructor <;> try simp only [h7, h8, enqueues_cons, removals_cons, takes_cons, fails_cons, unsents_cons, Nat.add_zero]
  · exact h.enq
  · intro hd; have := h.rem hd; simpa using this
  · intro _ _; exact h.lt it rfl
  · intro i hi; simp at hi; subst hi; exact ⟨r, rfl, rfl, rfl, rfl, rfl⟩
  · intro i hi; simp at hi; subst hi; rfl
  · intro i hi; simp at hi; subst hi; simp [ChanSpec.takes, unsents, update, hn, one]
  · intro i hi; simp at hi; subst hi; simp [update]
  · intro r' hr; simp [ChanSpec.takes, unsents]
  · intro i hi hb; simp at hi; subst hi; exact h.taken it rfl hb
  · intro hr; rcases h.why hr with h9 | h9
    · exact .inl h9
    · exact .inr (by simp [h9])
  · intro i r' hi hm; simp at hi hm; subst hi; exact h.orig it r' rfl hm
  · intro i hi; simp at hi; subst hi; exact h.all it rfl
  · exact h.never

theorem Good.next {d : Bool} {n x : Nat} {o : Option (Item D)} {log : List (Ev D)} (h : Good d n x o log) (hx : x ≠ n) :
    Good d (n + 1) x o log := by
  have h1 : (x < n + 1) = (x < n) := by simp; omega
  constructor <;> try simp only [h1]
  all_goals first | exact h.enq | exact h.rem | exact h.lt | exact h.req | exact h.fails | exact h.takes | exact h.le | exact h.bound | exact h.taken | exact h.why | exact h.orig | exact h.all | exact (fun hg => h.never (by omega))

theorem Good.enqueued {d : Bool} {n : Nat} {log : List (Ev D)} (h : Good d n n none log) (r : Req D) :
    Good d (n + 1) n (some (newItem r)) (.enqueued n r :: log) := by
  have h7 : since n (.enqueued n r :: log) = [] := by simp [since_cons, reqOf]
  have h8 : lastReq n (.enqueued n r :: log) = some r := by simp [lastReq_cons, reqOf]
  have he := h.enq
  constructor <;> try simp only [h7, h8, enqueues_cons, removals_cons, takes_cons, fails_cons, unsents_cons, Nat.add_zero]
  · simp [he, one]
  · intro hd; have := h.rem hd; simpa using this
  · intro _ _; omega
  · intro i hi; simp at hi; subst hi; exact ⟨r, rfl, rfl, rfl, rfl, rfl⟩
  · intro i hi; simp at hi; subst hi; rfl
  · intro i hi; simp at hi; subst hi; rfl
  · intro i hi; simp at hi; subst hi; simp [newItem]
  · intro r' hr; simp [ChanSpec.takes, unsents]
  · intro i hi hb; simp at hi; subst hi; simp [newItem] at hb
  · intro hr; rcases h.why hr with h9 | h9
    · exact .inl h9
    · exact .inr (by simp [h9])
  · intro i r' hi hm; simp at hi hm; subst hi
    rcases hm with rfl | hm
    · rfl
    · have := enqueues_pos hm; rw [he] at this; simp [one] at this
  · intro i hi; simp at hi; subst hi; obtain ⟨a, b, c⟩ := h.never (Nat.le_refl _); simp [a, b, c, newItem, one]
  · intro hg; exact h.never (by omega)

/-- the heartbeat process changes, but not whether there is one -/
theorem Good.hb {d : Bool} {n x : Nat} {it : Item D} {log : List (Ev D)} (h : Good d n x (some it) log) (b : HB)
    (hb : b = .none ↔ it.hb = .none) : Good d n x (some { it with hb := b }) log := by
  have h1 : (b != .none) = (it.hb != .none) := by
    cases b <;> cases hh : it.hb <;> simp [hh] at hb <;> rfl
  constructor
  · exact h.enq
  · intro hd; have := h.rem hd; simpa using this
  · intro _ _; exact h.lt it rfl
  · intro i hi; simp at hi; subst hi; obtain ⟨r, h1, h2, h3, h4, h5⟩ := h.req it rfl; exact ⟨r, h1, h2, h3, h4, h5⟩
  · intro i hi; simp at hi; subst hi; exact h.fails it rfl
  · intro i hi; simp at hi; subst hi; simp only [h1]; exact h.takes it rfl
  · intro i hi; simp at hi; subst hi; exact h.le it rfl
  · exact h.bound
  · intro i hi hb'; simp at hi; subst hi; exact h.taken it rfl (fun e => hb' (hb.2 e))
  · exact h.why
  · intro i r' hi hm; simp at hi; subst hi; exact h.orig it r' rfl hm
  · intro i hi; simp at hi; subst hi; simp only [h1]; exact h.all it rfl
  · exact h.never

theorem Good.takenEv {d : Bool} {n x : Nat} {it : Item D} {log : List (Ev D)} (h : Good d n x (some it) log) (hn : it.hb = .none) (b : HB)
    (hb : b ≠ .none) (it0 : Item D) : Good d n x (some { it with hb := b }) (.taken x it0 :: log) := by
  have h7 : since x (.taken x it0 :: log) = .taken x it0 :: since x log := by simp [since_cons, reqOf]
  have h8 : lastReq x (.taken x it0 :: log) = lastReq x log := by simp [lastReq_cons, reqOf]
  have ht := h.takes it rfl
  constructor <;> try simp only [h7, h8, enqueues_cons, removals_cons, takes_cons, fails_cons, unsents_cons, Nat.add_zero]
  · exact h.enq
  · intro hd; have := h.rem hd; simpa using this
  · intro _ _; exact h.lt it rfl
  · intro i hi; simp at hi; subst hi; obtain ⟨r, h1, h2, h3, h4, h5⟩ := h.req it rfl; exact ⟨r, h1, h2, h3, h4, h5⟩
  · intro i hi; simp at hi; subst hi; exact h.fails it rfl
  · intro i hi; simp at hi; subst hi
    have : (b != .none) = true := by simpa using hb
    simp only [this, hn] at ht ⊢; simp [one] at ht ⊢; omega
  · intro i hi; simp at hi; subst hi; exact h.le it rfl
  · intro r hr
    obtain ⟨r', h1, h2, h3, h4, h5⟩ := h.req it rfl
    rw [h1] at hr; simp at hr; subst hr
    have := h.le it rfl
    simp only [hn] at ht; simp [one] at ht ⊢; omega
  · intro i hi hb'; simp [one]
  · intro _; simp [one]
  · intro i r' hi hm; simp at hi hm; subst hi; exact h.orig it r' rfl hm
  · intro i hi; simp at hi; subst hi
    have ha := h.all it rfl
    have : (b != .none) = true := by simpa using hb
    simp only [this, hn] at ha ⊢; simp [one] at ha ⊢; omega
  · intro hg; have := h.lt it rfl; omega

theorem Good.unsentEv {d : Bool} {n x : Nat} {it : Item D} {log : List (Ev D)} (h : Good d n x (some it) log) (hn : it.hb ≠ .none) :
    Good d n x (some { it with hb := .none }) (.unsent x true :: log) := by
  have h7 : since x (.unsent x true :: log) = .unsent x true :: since x log := by simp [since_cons, reqOf]
  have h8 : lastReq x (.unsent x true :: log) = lastReq x log := by simp [lastReq_cons, reqOf]
  have ht := h.takes it rfl
  constructor <;> try simp only [h7, h8, enqueues_cons, removals_cons, takes_cons, fails_cons, unsents_cons, Nat.add_zero]
  · exact h.enq
  · intro hd; have := h.rem hd; simpa using this
  · intro _ _; exact h.lt it rfl
  · intro i hi; simp at hi; subst hi; obtain ⟨r, h1, h2, h3, h4, h5⟩ := h.req it rfl; exact ⟨r, h1, h2, h3, h4, h5⟩
  · intro i hi; simp at hi; subst hi; exact h.fails it rfl
  · intro i hi; simp at hi; subst hi
    have : (it.hb != .none) = true := by simpa using hn
    simp only [this] at ht ⊢; simp [one] at ht ⊢; omega
  · intro i hi; simp at hi; subst hi; exact h.le it rfl
  · intro r hr; have := h.bound r hr; omega
  · intro i hi hb'; simp at hi; subst hi; simp at hb'
  · intro hr; rcases h.why hr with h9 | h9
    · exact .inl h9
    · exact .inr (by simp [h9])
  · intro i r' hi hm; simp at hi hm; subst hi; exact h.orig it r' rfl hm
  · intro i hi; simp at hi; subst hi
    have ha := h.all it rfl
    have : (it.hb != .none) = true := by simpa using hn
    simp only [this] at ha ⊢; simp [one] at ha ⊢; omega
  · intro hg; have := h.lt it rfl; omega

theorem Good.failedEv {d : Bool} {n x : Nat} {it : Item D} {log : List (Ev D)} (h : Good d n x (some it) log) (hn : it.hb ≠ .none)
    (hle : it.retryCount + 1 ≤ it.maxRetry) :
    Good d n x (some { it with hb := .none, retryCount := it.retryCount + 1 }) (.failed x :: log) := by
  have h7 : since x (.failed x :: log) = .failed x :: since x log := by simp [since_cons, reqOf]
  have h8 : lastReq x (.failed x :: log) = lastReq x log := by simp [lastReq_cons, reqOf]
  have ht := h.takes it rfl
  have hf := h.fails it rfl
  constructor <;> try simp only [h7, h8, enqueues_cons, removals_cons, takes_cons, fails_cons, unsents_cons, Nat.add_zero]
  · exact h.enq
  · intro hd; have := h.rem hd; simpa using this
  · intro _ _; exact h.lt it rfl
  · intro i hi; simp at hi; subst hi; obtain ⟨r, h1, h2, h3, h4, h5⟩ := h.req it rfl; exact ⟨r, h1, h2, h3, h4, h5⟩
  · intro i hi; simp at hi; subst hi; simp [one, hf]
  · intro i hi; simp at hi; subst hi
    have : (it.hb != .none) = true := by simpa using hn
    simp only [this] at ht ⊢; simp [one] at ht ⊢; omega
  · intro i hi; simp at hi; subst hi; exact hle
  · intro r hr; exact h.bound r hr
  · intro i hi hb'; simp at hi; subst hi; simp at hb'
  · intro hr; rcases h.why hr with h9 | h9
    · exact .inl h9
    · exact .inr (by simp [h9])
  · intro i r' hi hm; simp at hi hm; subst hi; exact h.orig it r' rfl hm
  · intro i hi; simp at hi; subst hi
    have ha := h.all it rfl
    have : (it.hb != .none) = true := by simpa using hn
    simp only [this] at ha ⊢; simp [one] at ha ⊢; omega
  · intro hg; have := h.lt it rfl; omega

theorem Good.removed {d : Bool} {n x : Nat} {it : Item D} {log : List (Ev D)} (h : Good d n x (some it) log) {e : Ev D}
    (he : e = .ackPassed x true ∨ e = .exhausted x ∨ ∃ b, e = .superseded x b)
    (hw : 0 < ChanSpec.takes x log ∨ e = .superseded x false) : Good d n x none (e :: log) := by
  have h1 : reqOf x e = none := by rcases he with rfl | rfl | ⟨b, rfl⟩ <;> rfl
  have h2 : enqueues x (e :: log) = enqueues x log := by rw [enqueues_cons]; rcases he with rfl | rfl | ⟨b, rfl⟩ <;> rfl
  have h3 : removals x (e :: log) = removals x log + 1 := by
    rw [removals_cons]; rcases he with rfl | rfl | ⟨b, rfl⟩ <;> simp [one]
  have h4 : ∀ l, ChanSpec.takes x (e :: l) = ChanSpec.takes x l := by
    intro l; rw [takes_cons]; rcases he with rfl | rfl | ⟨b, rfl⟩ <;> rfl
  have h5 : ∀ l, unsents x (e :: l) = unsents x l := by
    intro l; rw [unsents_cons]; rcases he with rfl | rfl | ⟨b, rfl⟩ <;> rfl
  have h7 : since x (e :: log) = e :: since x log := by rw [since_cons, h1]; rfl
  have h8 : lastReq x (e :: log) = lastReq x log := by rw [lastReq_cons, h1]; rfl
  constructor <;> try simp only [h2, h3, h4, h5, h7, h8]
  · exact h.enq
  · intro hd; have := h.rem hd; have := h.lt it rfl; simp_all [one]
  · simp
  · simp
  · simp
  · simp
  · simp
  · exact h.bound
  · simp
  · intro _; rcases hw with h9 | h9
    · exact .inl h9
    · exact .inr (by simp [h9])
  · simp
  · simp
  · intro hg; have := h.lt it rfl; omega

/-- the last failure -/
theorem Good.exhaustedEv {d : Bool} {n x : Nat} {it : Item D} {log : List (Ev D)} (h : Good d n x (some it) log) (hn : it.hb ≠ .none) :
    Good d n x none (.exhausted x :: .failed x :: log) := by
  have hr := h.removed (e := .exhausted x) (.inr (.inl rfl)) (.inl (h.taken it rfl hn))
  have h7 : since x (.exhausted x :: .failed x :: log) = .exhausted x :: .failed x :: since x log := by simp [since_cons, reqOf]
  have h8 : lastReq x (.exhausted x :: .failed x :: log) = lastReq x log := by simp [lastReq_cons, reqOf]
  have e1 : enqueues x (.exhausted x :: .failed x :: log) = enqueues x (.exhausted x :: log) := by simp [enqueues_cons]
  have e2 : removals x (.exhausted x :: .failed x :: log) = removals x (.exhausted x :: log) := by simp [removals_cons]
  have e3 : ChanSpec.takes x (.exhausted x :: .failed x :: log) = ChanSpec.takes x (.exhausted x :: log) := by simp [takes_cons]
  constructor <;> try simp only [h7, h8, e1, e2, e3]
  · exact hr.enq
  · intro hd; simpa using hr.rem hd
  · simp
  · simp
  · simp
  · simp
  · simp
  · intro r hr; have := h.bound r hr; simp only [takes_cons, unsents_cons, Nat.add_zero]; exact this
  · simp
  · intro _; exact .inl (by simp only [takes_cons, Nat.add_zero]; exact h.taken it rfl hn)
  · simp
  · simp
  · intro hg; have := h.lt it rfl; omega

theorem Hist.retryBack {s : St D} (h : Hist s) (id : Nat) (hs : id ∈ keys s.items → id ∉ s.queue)  : Hist (retryBack s id) := by
  unfold Channel.retryBack
  split
  · exact (h.same (s' := { s with queue := s.queue ++ [id], pending := s.pending + 1 }) rfl rfl rfl rfl).neutral rfl
  · rename_i b hb
    split
    · exact h
    · rename_i bi hl
      split
      · refine Hist.neutral ?_ rfl
        intro x
        simp only [St.ev, lookup_remove]
        split
        · rename_i hxe; subst hxe
          have := h b; rw [hl] at this
          exact this.removed (.inr (.inr ⟨false, rfl⟩)) (.inr rfl)
        · rename_i hne; exact (h x).other (by simp [Ev.about]; exact hne)
      · exact (h.same (s' := { s with queue := s.queue ++ [id], pending := s.pending + 1 }) rfl rfl rfl rfl).neutral rfl

theorem Hist.retry {s : St D} (h : Hist s) {id : Nat} {it : Item D} (hl : lookup s.items id = some it) (hp : it.hb ≠ .none)
    (hq : id ∉ s.queue) : Hist (retry s id it) := by
  have hid := h id; rw [hl] at hid
  unfold Channel.retry
  simp only
  split
  · intro x
    simp only [St.ev, lookup_remove, lookup_change]
    split
    · rename_i hxe; subst hxe; exact hid.exhaustedEv hp
    · rename_i hne; exact ((h x).other (by simp [Ev.about]; exact hne)).other (by simp [Ev.about]; exact hne)
  · rename_i hle
    have h1 : Hist (St.ev { s with
        items := Channel.change s.items id (fun i => { i with hb := .none, retryCount := i.retryCount + 1 }), run := s.run - 1 } (.failed id)) := by
      intro x
      simp only [St.ev, lookup_change]
      split
      · rename_i hxe; subst hxe; rw [hl]; exact hid.failedEv hp (by omega)
      · rename_i hne; exact (h x).other (by simp [Ev.about]; exact hne)
    split
    · split
      · intro x
        have := h1 x
        simp only [St.ev, lookup_remove, lookup_change] at this ⊢
        split
        · rename_i hxe; subst hxe; simp only [↓reduceIte, hl, Option.map_some] at this
          exact this.removed (.inr (.inr ⟨false, rfl⟩)) (.inr rfl)
        · rename_i hne; rw [if_neg hne] at this; exact this.other (by simp [Ev.about]; exact hne)
      · exact (h1.same rfl rfl rfl rfl).neutral rfl
    · exact h1.retryBack id (fun _ => hq)

theorem Hist.touch {s : St D} (h : Hist s) (id : Nat) : Hist { s with exec := touch s.exec id } := h.same rfl rfl rfl rfl

theorem Hist.step {s s' : St D} (hi : Inv s) (h : Hist s) (hs : Step s s') : Hist s' := by
  cases hs with
  | enqueue r g hc =>
    unfold Channel.enqueue
    split
    · rename_i id hu
      obtain ⟨h1, it, h2, h3⟩ := updatableLast_spec hu
      have hn := hi.queueIdle id (List.mem_of_getLast? h1) it h2
      intro x
      simp only [St.ev, lookup_change]
      split
      · rename_i hxe; subst hxe; rw [h2]; have := h id; rw [h2] at this; exact this.updated hn r
      · rename_i hne; exact (h x).other (by simp [Ev.about]; exact hne)
    · split
      · have hnew : lookup s.items s.nextId = none := lookup_none.2 (fun hm => Nat.lt_irrefl _ (hi.keysLt _ hm))
        intro x
        simp only [St.ev, lookup_append, lookup_cons, lookup_nil]
        by_cases hx : s.nextId = x
        · subst hx
          have := h s.nextId; rw [hnew] at this
          simp only [hnew, ↓reduceIte, Option.none_or]
          exact this.enqueued r
        · rw [if_neg hx, Option.or_none]
          exact ((h x).next (Ne.symm hx)).other (by simp [Ev.about]; exact hx)
      · exact h.neutral rfl
  | ackPassed id _ _ =>
    unfold Channel.ackPassed
    split
    · exact h.neutral rfl
    · rename_i it hl
      split
      · rename_i hst
        intro x
        simp only [St.ev, lookup_remove]
        split
        · rename_i hxe; subst hxe
          have := h id; rw [hl] at this
          exact this.removed (.inl rfl) (.inl (this.taken it rfl (by intro e; simp [e, HB.stops] at hst)))
        · rename_i hne; exact (h x).other (by simp [Ev.about]; exact hne)
      · exact h.neutral rfl
  | ackFailed id _ _ =>
    refine Hist.neutral ?_ rfl
    unfold Channel.failItem
    split
    · exact h.touch id
    · rename_i it hl
      split
      · rename_i hst
        have hp : it.hb ≠ .none := by intro e; simp [e, HB.stops] at hst
        exact (h.touch id).retry hl hp (fun hm => hp (hi.queueIdle id hm it hl))
      · exact h.touch id
  | heartbeat id _ _ =>
    unfold Channel.heartbeat
    simp only
    split <;> exact (h.touch id).neutral rfl
  | notified he hp => exact h.same rfl rfl rfl rfl
  | send he => exact h.same rfl rfl rfl rfl
  | count g he => unfold Channel.count; split <;> exact h.same rfl rfl rfl rfl
  | pop he => unfold Channel.pop; split <;> exact h.same rfl rfl rfl rfl
  | @find id he =>
    unfold Channel.find
    split
    · exact h.same rfl rfl rfl rfl
    · split
      · exact h.same rfl rfl rfl rfl
      · rename_i it hl
        split
        · exact h.same rfl rfl rfl rfl
        · rename_i hb
          simp only [ne_eq, Classical.not_not] at hb
          intro x
          simp only [St.ev, lookup_change]
          split
          · rename_i hxe; subst hxe; rw [hl]; have := h id; rw [hl] at this; exact this.takenEv hb .created (by simp) it
          · rename_i hne; exact (h x).other (by simp [Ev.about]; exact hne)
  | @received id t he =>
    unfold Channel.received
    split
    · exact h.same rfl rfl rfl rfl
    · refine Hist.neutral ?_ rfl
      intro x
      simp only [lookup_change]
      split
      · rename_i hxe; subst hxe
        cases hl : lookup s.items id with
        | none => have := h id; rw [hl] at this; exact this
        | some it =>
          have := h id; rw [hl] at this
          exact this.hb _ (by cases it.hb <;> simp [HB.start])
      · exact h x
  | @unsent id t he =>
    unfold Channel.unsent
    split
    · exact h.same rfl rfl rfl rfl
    · simp only
      split
      · rename_i hl
        exact Hist.neutral (h.same rfl rfl rfl rfl) rfl
      · rename_i it hl
        have hl : lookup s.items id = some it := hl
        cases hst : it.hb.stops with
        | false =>
          unfold giveBack
          rw [if_neg (by simp [hst])]
          exact Hist.neutral (s := { s with run := s.run - 1, exec := .idle }) (h.same rfl rfl rfl rfl) rfl
        | true =>
        have hp : it.hb ≠ .none := fun e => by simp [e, HB.stops] at hst
        have hid := h id; rw [hl] at hid
        have h1 : Hist (St.ev { s with
            items := Channel.change s.items id (fun i => { i with hb := .none }), run := s.run - 1, exec := .idle } (.unsent id true)) := by
          intro x
          simp only [St.ev, lookup_change]
          split
          · rename_i hxe; subst hxe; rw [hl]; exact hid.unsentEv hp
          · rename_i hne; exact (h x).other (by simp [Ev.about]; exact hne)
        unfold giveBack
        rw [if_pos hst]
        simp only
        split
        · intro x
          have := h1 x
          simp only [St.ev, lookup_remove, lookup_change] at this ⊢
          split
          · rename_i hxe; subst hxe; simp only [↓reduceIte, hl, Option.map_some] at this
            exact this.removed (.inr (.inr ⟨true, rfl⟩))
              (.inl (by simp only [takes_cons, Nat.add_zero]; exact hid.taken it rfl hp))
          · rename_i hne; rw [if_neg hne] at this; exact this.other (by simp [Ev.about]; exact hne)
        · exact h1.same rfl rfl rfl rfl
  | spinDone he => exact h.same rfl rfl rfl rfl
  | @fire id it hl hb =>
    intro x
    simp only [lookup_change]
    split
    · rename_i hxe; subst hxe; rw [hl]; have := h id; rw [hl] at this; exact this.hb .firing (by simp [hb])
    · exact h x
  | @timeout id it hl hb =>
    unfold Channel.timeout
    split
    · exact h.same rfl rfl rfl rfl
    · unfold failItem
      have hl' : lookup (s.ev (.timedOut id)).items id = some it := hl
      rw [hl']
      simp only [Bool.true_or, ↓reduceIte]
      have hp : it.hb ≠ .none := by simp [hb]
      exact (h.neutral (e := .timedOut id) rfl).retry hl' hp (fun hm => hp (hi.queueIdle id hm it hl))
  | delete hc =>
    unfold Channel.delete
    split
    · exact (h.same (s' := { s with closed := true }) rfl rfl rfl rfl).neutral rfl
    · exact h
  | forceBegin hc => exact (h.same rfl rfl rfl rfl).neutral rfl
  | forceMark _ _ => exact h.same rfl rfl rfl rfl
  | forceEnd _ _ _ =>
    intro x
    have := h x
    simp only [lookup_nil]
    constructor
    · exact this.enq
    · simp
    · simp
    · simp
    · simp
    · simp
    · simp
    · exact this.bound
    · simp
    · exact this.why
    · simp
    · simp
    · exact this.never
  | stop _ _ => exact h.same rfl rfl rfl rfl

theorem hist_reach {s : St D} (h : Reach s) : Hist s := by
  induction h with
  | init => exact Hist.init
  | step h1 _ hs ih => exact ih.step (inv_reach h1) hs

end Willow.Channel
