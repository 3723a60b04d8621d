import Verif.Proofs.ChannelBase
/- Invariants of Model/Channel.lean. -/
namespace Willow.Channel
variable {D : Type}

/-- a notification was taken, but not yet an id -/
def Exec.owes : Exec → Nat
  | .offering | .called | .counted => 1
  | _ => 0

/-- the running counter was incremented for an item whose heartbeater is not created yet -/
def Exec.counts : Exec → Nat
  | .counted | .popped _ => 1
  | _ => 0

/-- removals that did not decrement the enqueued counter -/
def leaks (l : List (Ev D)) : Nat := l.countP (fun | .superseded _ false => true | _ => false)

/-- no item was acked while it was handed out again in vain -/
def NoDouble (l : List (Ev D)) : Prop := ∀ id, .unsent id false ∉ l

theorem NoDouble.tail {e : Ev D} {l : List (Ev D)} (h : NoDouble (e :: l)) : NoDouble l := fun id hm => h id (by simp [hm])

structure Inv (s : St D) : Prop where
  keysNodup : (keys s.items).Nodup
  keysLt : ∀ id ∈ keys s.items, id < s.nextId
  queueNodup : s.queue.Nodup
  queueLt : ∀ id ∈ s.queue, id < s.nextId
  queueIdle : ∀ id ∈ s.queue, ∀ it, lookup s.items id = some it → it.hb = .none
  popped : ∀ id, s.exec = .popped id → id ∉ s.queue ∧ id < s.nextId ∧ (∀ it, lookup s.items id = some it → it.hb = .none)
  handed : ∀ id, s.exec = .handed id false → id ∉ s.queue ∧ id < s.nextId ∧ (∀ it, lookup s.items id = some it → it.hb = .created)
  created : ∀ id it, lookup s.items id = some it → it.hb = .created → ∃ t, s.exec = .handed id t
  pending : s.exec ≠ .stopped → s.pending + s.exec.owes = s.queue.length
  crash : s.crashed = true → s.destroying = true
  destroying : s.destroying = true → s.forced = true
  destroyed : s.destroyed = true → s.destroying = true ∧ s.items = []
  forced : s.forced = true → s.closed = true
  queueStored : s.destroyed = false → ∀ id ∈ s.queue, id ∈ keys s.items
  idleQueued : s.destroyed = false → ∀ id it, lookup s.items id = some it → it.hb = .none → id ∈ s.queue ∨ s.exec = .popped id
  poppedStored : s.destroyed = false → ∀ id, s.exec = .popped id ∨ s.exec = .handed id false → id ∈ keys s.items
  run : s.forced = false → NoDouble s.log → s.run = procs s.items + s.exec.counts
  enq : s.forced = false → s.enq = s.items.length + leaks s.log
  closed : s.closed = true → s.forced = false → s.items = []

theorem Inv.init : Inv (init : St D) := by
  constructor <;> simp [Channel.init, lookup_nil, Exec.owes, Exec.counts, procs, leaks]

theorem leaks_ev (s : St D) (e : Ev D) : leaks (s.ev e).log = leaks s.log + (match e with | .superseded _ false => 1 | _ => 0) := by
  simp only [leaks, St.ev, List.countP_cons]
  cases e with
  | superseded id c => cases c <;> simp
  | _ => simp

theorem leaks_ev_ne (s : St D) {e : Ev D} (he : ∀ id, e ≠ .superseded id false) : leaks (s.ev e).log = leaks s.log := by
  rw [leaks_ev]
  cases e with
  | superseded id c => cases c <;> simp_all
  | _ => simp

/-- events do not matter -/
theorem Inv.ev {s : St D} (h : Inv s) (e : Ev D) (he : ∀ id, e ≠ .superseded id false) : Inv (s.ev e) := by
  have hl : leaks (s.ev e).log = leaks s.log := leaks_ev_ne s he
  constructor <;> first | exact h.keysNodup | exact h.keysLt | exact h.queueNodup | exact h.queueLt | exact h.queueIdle | exact h.popped | exact h.handed | exact h.created | exact h.pending | exact h.crash | exact h.destroying | exact h.destroyed | exact h.forced | exact h.queueStored | exact h.idleQueued | exact h.poppedStored | exact (fun hf hd => h.run hf hd.tail) | (rw [hl]; exact h.enq) | exact h.closed

theorem updatableLast_spec {s : St D} {id : Nat} (h : updatableLast s = some id) :
    s.queue.getLast? = some id ∧ ∃ it, lookup s.items id = some it ∧ it.updateable = true := by
  unfold updatableLast at h
  split at h
  · simp at h
  · rename_i i hi
    split at h
    · simp at h
    · rename_i it hl
      split at h
      · simp only [Option.some.injEq] at h; subst h; exact ⟨hi, it, hl, by assumption⟩
      · simp at h

theorem update_hb (r : Req D) (it : Item D) : (update r it).hb = it.hb := rfl

/-- changing an item without its heartbeat process -/
theorem Inv.changed {s : St D} (h : Inv s) (id : Nat) (f : Item D → Item D) (hf : ∀ it, (f it).hb = it.hb) :
    Inv { s with items := change s.items id f } := by
  have hlk : ∀ x it, lookup (change s.items id f) x = some it → ∃ it', lookup s.items x = some it' ∧ it'.hb = it.hb := by
    intro x it hx
    rw [lookup_change] at hx
    split at hx
    · cases hl : lookup s.items x with
      | none => simp [hl] at hx
      | some y => simp only [hl, Option.map_some, Option.some.injEq] at hx; exact ⟨y, rfl, by rw [← hx, hf]⟩
    · exact ⟨it, hx, rfl⟩
  have hk : keys (Channel.change s.items id f) = keys s.items := keys_change ..
  have hp : procs (Channel.change s.items id f) = procs s.items := by
    cases hl : lookup s.items id with
    | none => rw [change_notin (lookup_none.1 hl)]
    | some it => have := procs_change h.keysNodup hl f; rw [hf] at this; omega
  constructor <;> simp only [hk, hp, length_change]
  · exact h.keysNodup
  · exact h.keysLt
  · exact h.queueNodup
  · exact h.queueLt
  · intro x hx it hl; obtain ⟨y, hy, e⟩ := hlk x it hl; rw [← e]; exact h.queueIdle x hx y hy
  · intro x hx; obtain ⟨a, b, c⟩ := h.popped x hx
    exact ⟨a, b, fun it hl => by obtain ⟨y, hy, e⟩ := hlk x it hl; rw [← e]; exact c y hy⟩
  · intro x hx; obtain ⟨a, b, c⟩ := h.handed x hx
    exact ⟨a, b, fun it hl => by obtain ⟨y, hy, e⟩ := hlk x it hl; rw [← e]; exact c y hy⟩
  · intro x it hl hc; obtain ⟨y, hy, e⟩ := hlk x it hl; exact h.created x y hy (e ▸ hc)
  · exact h.pending
  · exact h.crash
  · exact h.destroying
  · intro hd; obtain ⟨a, b⟩ := h.destroyed hd; exact ⟨a, by simp [b, Channel.change]⟩
  · exact h.forced
  · exact h.queueStored
  · intro hd x it hl hn; obtain ⟨y, hy, e⟩ := hlk x it hl; exact h.idleQueued hd x y hy (e ▸ hn)
  · exact h.poppedStored
  · exact h.run
  · exact h.enq
  · intro hc hf'; rw [h.closed hc hf']; simp [Channel.change]

theorem Inv.enqueue {s : St D} (h : Inv s) (r : Req D) (grant : Bool) (hc : s.closed = false) : Inv (enqueue s r grant) := by
  unfold Channel.enqueue
  split
  · exact (h.changed _ _ (update_hb r)).ev _ (by simp)
  · split
    · refine Inv.ev ?_ _ (by simp)
      have hnew : s.nextId ∉ keys s.items := fun hm => Nat.lt_irrefl _ (h.keysLt _ hm)
      have hnq : s.nextId ∉ s.queue := fun hm => Nat.lt_irrefl _ (h.queueLt _ hm)
      have hf : s.forced = false := by cases hf : s.forced with | false => rfl | true => simp [h.forced hf] at hc
      have hd : s.destroyed = false := by
        cases hf' : s.destroyed with | false => rfl | true => simp [h.destroying (h.destroyed hf').1] at hf
      have hlk : ∀ x it, lookup (s.items ++ [(s.nextId, newItem r)]) x = some it →
          lookup s.items x = some it ∨ (x = s.nextId ∧ it = newItem r) := by
        intro x it hx
        rw [lookup_append] at hx
        cases hl : lookup s.items x with
        | some y => simp [hl] at hx; exact .inl (by simp [hx])
        | none => simp only [hl, Option.none_or, lookup_cons, lookup_nil] at hx; split at hx <;> simp_all
      constructor <;> simp only
      · simp only [keys, List.map_append, List.map_cons, List.map_nil]
        rw [List.nodup_append]; refine ⟨h.keysNodup, by simp, ?_⟩
        rintro a ha b hb rfl; simp at hb; subst hb; exact hnew ha
      · intro x hx; simp only [keys, List.map_append, List.map_cons, List.map_nil, List.mem_append, List.mem_singleton] at hx
        rcases hx with hx | hx
        · have := h.keysLt x hx; omega
        · omega
      · rw [List.nodup_append]; refine ⟨h.queueNodup, by simp, ?_⟩
        rintro a ha b hb rfl; simp at hb; subst hb; exact hnq ha
      · intro x hx; simp only [List.mem_append, List.mem_singleton] at hx
        rcases hx with hx | hx
        · have := h.queueLt x hx; omega
        · omega
      · intro x hx it hl
        rcases hlk x it hl with hl | ⟨rfl, rfl⟩
        · simp only [List.mem_append, List.mem_singleton] at hx
          rcases hx with hx | rfl
          · exact h.queueIdle x hx it hl
          · exact absurd (lookup_mem_keys hl) hnew
        · rfl
      · intro x hx; obtain ⟨a, b, c⟩ := h.popped x hx
        refine ⟨by simp; exact ⟨a, by omega⟩, by omega, ?_⟩
        intro it hl; rcases hlk x it hl with hl | ⟨rfl, rfl⟩
        · exact c it hl
        · rfl
      · intro x hx; obtain ⟨a, b, c⟩ := h.handed x hx
        refine ⟨by simp; exact ⟨a, by omega⟩, by omega, ?_⟩
        intro it hl; rcases hlk x it hl with hl | ⟨rfl, rfl⟩
        · exact c it hl
        · omega
      · intro x it hl hcr; rcases hlk x it hl with hl | ⟨rfl, rfl⟩
        · exact h.created x it hl hcr
        · simp [newItem] at hcr
      · intro hst; have := h.pending hst; simp; omega
      · exact h.crash
      · exact h.destroying
      · intro hd'; rw [hd] at hd'; simp at hd'
      · exact h.forced
      · intro _ x hx
        simp only [keys, List.map_append, List.map_cons, List.map_nil, List.mem_append, List.mem_singleton] at hx ⊢
        rcases hx with hx | hx
        · exact .inl (h.queueStored hd x hx)
        · exact .inr hx
      · intro _ x it hl hn; rcases hlk x it hl with hl | ⟨rfl, rfl⟩
        · rcases h.idleQueued hd x it hl hn with h1 | h1
          · exact .inl (by simp [h1])
          · exact .inr h1
        · exact .inl (by simp)
      · intro _ x hx; have := h.poppedStored hd x hx
        simp only [keys, List.map_append, List.mem_append]; exact .inl this
      · intro _ hd'; rw [procs_append, h.run hf hd']; simp [procs, newItem]
      · intro _; have := h.enq hf; simp; omega
      · intro hc'; rw [hc] at hc'; simp at hc'
    · exact h.ev _ (by simp)

theorem touch_owes (e : Exec) (id : Nat) : (touch e id).owes = e.owes := by cases e <;> rfl
theorem touch_counts (e : Exec) (id : Nat) : (touch e id).counts = e.counts := by cases e <;> rfl
theorem touch_popped {e : Exec} {id x : Nat} : touch e id = .popped x ↔ e = .popped x := by cases e <;> simp [touch]
theorem touch_handed_false {e : Exec} {id x : Nat} : touch e id = .handed x false ↔ e = .handed x false ∧ x ≠ id := by
  cases e <;> simp [touch]
  constructor
  · rintro ⟨rfl, h1, h2⟩; exact ⟨⟨rfl, h1⟩, h2⟩
  · rintro ⟨⟨rfl, h1⟩, h2⟩; exact ⟨rfl, h1, h2⟩
theorem touch_handed {e : Exec} {id x : Nat} : (∃ t, touch e id = .handed x t) ↔ ∃ t, e = .handed x t := by
  cases e <;> simp [touch]

theorem Inv.touch {s : St D} (h : Inv s) (id : Nat) : Inv { s with exec := touch s.exec id } := by
  constructor <;> simp only [touch_owes, touch_counts]
  · exact h.keysNodup
  · exact h.keysLt
  · exact h.queueNodup
  · exact h.queueLt
  · exact h.queueIdle
  · intro x hx; exact h.popped x (touch_popped.1 hx)
  · intro x hx; exact h.handed x (touch_handed_false.1 hx).1
  · intro x it hl hc; exact touch_handed.2 (h.created x it hl hc)
  · intro hst; exact h.pending (fun e => hst (by rw [e]; rfl))
  · exact h.crash
  · exact h.destroying
  · exact h.destroyed
  · exact h.forced
  · exact h.queueStored
  · intro hd x it hl hn; exact (h.idleQueued hd x it hl hn).imp_right touch_popped.2
  · intro hd x hx; exact h.poppedStored hd x (hx.imp touch_popped.1 (fun h => (touch_handed_false.1 h).1))
  · exact h.run
  · exact h.enq
  · exact h.closed

/-- an item that is being processed (and, if it is just being handed out, known to the client) loses its heartbeat process and
belongs nowhere: what is left to prove about it. -/
structure Loose (s : St D) (id : Nat) : Prop where
  keysNodup : (keys s.items).Nodup
  keysLt : ∀ id ∈ keys s.items, id < s.nextId
  queueNodup : s.queue.Nodup
  queueLt : ∀ id ∈ s.queue, id < s.nextId
  queueIdle : ∀ id ∈ s.queue, ∀ it, lookup s.items id = some it → it.hb = .none
  popped : ∀ id, s.exec = .popped id → id ∉ s.queue ∧ id < s.nextId ∧ (∀ it, lookup s.items id = some it → it.hb = .none)
  handed : ∀ id, s.exec = .handed id false → id ∉ s.queue ∧ id < s.nextId ∧ (∀ it, lookup s.items id = some it → it.hb = .created)
  created : ∀ id it, lookup s.items id = some it → it.hb = .created → ∃ t, s.exec = .handed id t
  pending : s.exec ≠ .stopped → s.pending + s.exec.owes = s.queue.length
  crash : s.crashed = true → s.destroying = true
  destroying : s.destroying = true → s.forced = true
  notDestroyed : s.destroyed = false
  forced : s.forced = true → s.closed = true
  queueStored : ∀ id ∈ s.queue, id ∈ keys s.items
  idleQueued : ∀ x it, lookup s.items x = some it → it.hb = .none → x = id ∨ x ∈ s.queue ∨ s.exec = .popped x
  poppedStored : ∀ id, s.exec = .popped id ∨ s.exec = .handed id false → id ∈ keys s.items
  run : s.forced = false → NoDouble s.log → s.run = procs s.items + s.exec.counts
  enq : s.forced = false → s.enq = s.items.length + leaks s.log
  closed : s.closed = true → s.forced = false → s.items = []
  stored : ∃ it, lookup s.items id = some it ∧ it.hb = .none
  notQueued : id ∉ s.queue
  notPopped : s.exec ≠ .popped id ∧ s.exec ≠ .handed id false

/-- Stop or UnsetHeartbeater, and the decrement of the running counter. -/
theorem Inv.loosen {s : St D} (h : Inv s) {id : Nat} {it : Item D} (hl : lookup s.items id = some it) (hp : it.hb ≠ .none)
    (hx : s.exec ≠ .handed id false) (f : Item D → Item D) (hf : ∀ i, (f i).hb = .none) :
    Loose { s with items := Channel.change s.items id f, run := s.run - 1 } id := by
  have hlk : ∀ x it', lookup (Channel.change s.items id f) x = some it' →
      (x = id ∧ it'.hb = .none) ∨ (x ≠ id ∧ lookup s.items x = some it') := by
    intro x it' hlx
    rw [lookup_change] at hlx
    split at hlx
    · subst_vars; rw [hl] at hlx; simp only [Option.map_some, Option.some.injEq] at hlx; exact .inl ⟨rfl, by rw [← hlx, hf]⟩
    · exact .inr ⟨fun e => by simp_all, hlx⟩
  have hk : keys (Channel.change s.items id f) = keys s.items := keys_change ..
  have hd : s.destroyed = false := by
    cases hd : s.destroyed with
    | false => rfl
    | true => simp [(h.destroyed hd).2, lookup_nil] at hl
  have hnq : id ∉ s.queue := fun hm => hp (h.queueIdle id hm it hl)
  constructor <;> simp only [hk, length_change]
  · exact h.keysNodup
  · exact h.keysLt
  · exact h.queueNodup
  · exact h.queueLt
  · intro x hx it' hl'; rcases hlk x it' hl' with ⟨_, e⟩ | ⟨_, e⟩
    · exact e
    · exact h.queueIdle x hx it' e
  · intro x hx; obtain ⟨a, b, c⟩ := h.popped x hx
    refine ⟨a, b, fun it' hl' => ?_⟩
    rcases hlk x it' hl' with ⟨_, e⟩ | ⟨_, e⟩
    · exact e
    · exact c it' e
  · intro x hx'; obtain ⟨a, b, c⟩ := h.handed x hx'
    refine ⟨a, b, fun it' hl' => ?_⟩
    rcases hlk x it' hl' with ⟨e, _⟩ | ⟨_, e⟩
    · subst e; exact absurd hx' hx
    · exact c it' e
  · intro x it' hl' hc; rcases hlk x it' hl' with ⟨_, e⟩ | ⟨_, e⟩
    · simp [e] at hc
    · exact h.created x it' e hc
  · exact h.pending
  · exact h.crash
  · exact h.destroying
  · exact hd
  · exact h.forced
  · exact h.queueStored hd
  · intro x it' hl' hn; rcases hlk x it' hl' with ⟨e, _⟩ | ⟨_, e⟩
    · exact .inl e
    · exact .inr (h.idleQueued hd x it' e hn)
  · exact h.poppedStored hd
  · intro hf'
    intro hd'; have h1 := h.run hf' hd'
    have h2 := procs_change h.keysNodup hl f
    have h3 : (it.hb != .none) = true := by simpa using hp
    rw [h3, hf] at h2; simp [one] at h2; omega
  · exact h.enq
  · intro hc hf'; have := h.closed hc hf'; simp [this, lookup_nil] at hl
  · exact ⟨f it, by rw [lookup_change]; simp [hl], hf it⟩
  · exact hnq
  · exact ⟨fun e => hp ((h.popped id e).2.2 it hl), hx⟩

theorem Loose.ev {s : St D} {id : Nat} (h : Loose s id) (e : Ev D) (he : ∀ id, e ≠ .superseded id false) : Loose (s.ev e) id := by
  have hl : leaks (s.ev e).log = leaks s.log := leaks_ev_ne s he
  constructor <;> first | exact h.keysNodup | exact h.keysLt | exact h.queueNodup | exact h.queueLt | exact h.queueIdle | exact h.popped | exact h.handed | exact h.created | exact h.pending | exact h.crash | exact h.destroying | exact h.notDestroyed | exact h.forced | exact h.queueStored | exact h.idleQueued | exact h.poppedStored | exact (fun hf hd => h.run hf hd.tail) | (rw [hl]; exact h.enq) | exact h.closed | exact h.stored | exact h.notQueued | exact h.notPopped

/-- the loose item is removed; `n` and `e` are the decrement of the enqueued counter and the event -/
theorem Loose.removed {s : St D} {id : Nat} (h : Loose s id) (n : Nat) (e : Ev D) (hn : n + leaks (s.ev e).log = leaks s.log + 1) :
    Inv (St.ev { s with items := remove s.items id, enq := s.enq - n } e) := by
  obtain ⟨it0, hl0, hn0⟩ := h.stored
  have hlk : ∀ x it', lookup (remove s.items id) x = some it' → x ≠ id ∧ lookup s.items x = some it' := by
    intro x it' hx
    rw [lookup_remove] at hx
    split at hx
    · simp at hx
    · exact ⟨fun e => by simp_all, hx⟩
  have hl : leaks (St.ev { s with items := remove s.items id, enq := s.enq - n } e).log = leaks (s.ev e).log := rfl
  have hl' : leaks (e :: s.log) = leaks (s.ev e).log := rfl
  constructor <;> simp only [St.ev, hl']
  · exact nodup_remove h.keysNodup
  · intro x hx; exact h.keysLt x (mem_keys_remove.1 hx).1
  · exact h.queueNodup
  · exact h.queueLt
  · intro x hx it' hl'; exact h.queueIdle x hx it' (hlk x it' hl').2
  · intro x hx; obtain ⟨a, b, c⟩ := h.popped x hx; exact ⟨a, b, fun it' hl' => c it' (hlk x it' hl').2⟩
  · intro x hx; obtain ⟨a, b, c⟩ := h.handed x hx; exact ⟨a, b, fun it' hl' => c it' (hlk x it' hl').2⟩
  · intro x it' hl'; exact h.created x it' (hlk x it' hl').2
  · exact h.pending
  · exact h.crash
  · exact h.destroying
  · intro hd; simp [h.notDestroyed] at hd
  · exact h.forced
  · intro _ x hx; exact mem_keys_remove.2 ⟨h.queueStored x hx, fun e => h.notQueued (e ▸ hx)⟩
  · intro _ x it' hl' hn'; obtain ⟨h1, h2⟩ := hlk x it' hl'
    rcases h.idleQueued x it' h2 hn' with h3 | h3
    · exact absurd h3 h1
    · exact h3
  · intro _ x hx; refine mem_keys_remove.2 ⟨h.poppedStored x hx, ?_⟩
    rintro rfl; rcases hx with hx | hx
    · exact h.notPopped.1 hx
    · exact h.notPopped.2 hx
  · intro hf hd'; have h1 := h.run hf hd'.tail; have h2 := procs_remove h.keysNodup hl0; rw [hn0] at h2; simp [one] at h2; omega
  · intro hf; have h1 := h.enq hf; have h2 := length_remove h.keysNodup (lookup_mem_keys hl0)
    have h3 : s.items.length ≥ 1 := by omega
    omega
  · intro hc hf; rw [h.closed hc hf]; rfl

/-- the loose item is put into the list: `q` is the new list -/
theorem Loose.requeued {s : St D} {id : Nat} (h : Loose s id) (q : List Nat) (hq : q.Perm (id :: s.queue)) :
    Inv { s with queue := q, pending := s.pending + 1 } := by
  obtain ⟨it0, hl0, hn0⟩ := h.stored
  have hmem : ∀ x, x ∈ q ↔ x = id ∨ x ∈ s.queue := fun x => by rw [hq.mem_iff]; simp
  constructor <;> simp only
  · exact h.keysNodup
  · exact h.keysLt
  · rw [hq.nodup_iff, List.nodup_cons]; exact ⟨h.notQueued, h.queueNodup⟩
  · intro x hx; rcases (hmem x).1 hx with rfl | hx
    · exact h.keysLt _ (lookup_mem_keys hl0)
    · exact h.queueLt x hx
  · intro x hx it' hl'; rcases (hmem x).1 hx with rfl | hx
    · rw [hl0] at hl'; simp at hl'; rw [← hl', hn0]
    · exact h.queueIdle x hx it' hl'
  · intro x hx; obtain ⟨a, b, c⟩ := h.popped x hx
    refine ⟨?_, b, c⟩
    rw [hmem]; rintro (rfl | hm)
    · exact h.notPopped.1 hx
    · exact a hm
  · intro x hx; obtain ⟨a, b, c⟩ := h.handed x hx
    refine ⟨?_, b, c⟩
    rw [hmem]; rintro (rfl | hm)
    · exact h.notPopped.2 hx
    · exact a hm
  · exact h.created
  · intro hst; have := h.pending hst; rw [hq.length_eq]; simp; omega
  · exact h.crash
  · exact h.destroying
  · intro hd; simp [h.notDestroyed] at hd
  · exact h.forced
  · intro _ x hx; rcases (hmem x).1 hx with rfl | hx
    · exact lookup_mem_keys hl0
    · exact h.queueStored x hx
  · intro _ x it' hl' hn; rcases h.idleQueued x it' hl' hn with rfl | h1 | h1
    · exact .inl ((hmem _).2 (.inl rfl))
    · exact .inl ((hmem _).2 (.inr h1))
    · exact .inr h1
  · intro _; exact h.poppedStored
  · exact h.run
  · exact h.enq
  · exact h.closed

/-- the last waiting item is removed and the loose item takes its place -/
theorem Loose.replaced {s : St D} {id b : Nat} (h : Loose s id) (hb : s.queue.getLast? = some b) :
    Inv (St.ev { s with queue := s.queue.dropLast ++ [id], items := remove s.items b } (.superseded b false)) := by
  obtain ⟨it0, hl0, hn0⟩ := h.stored
  have hqe : s.queue = s.queue.dropLast ++ [b] := by
    obtain ⟨l, hl⟩ := List.getLast?_eq_some_iff.1 hb; simp [hl]
  have hbq : b ∈ s.queue := by rw [hqe]; simp
  obtain ⟨bi, hbl⟩ := lookup_some_of_mem (h.queueStored b hbq)
  have hbn : bi.hb = .none := h.queueIdle b hbq bi hbl
  have hne : b ≠ id := fun e => h.notQueued (e ▸ hbq)
  have hnd := h.queueNodup
  rw [hqe] at hnd
  rw [List.nodup_append] at hnd
  have hbd : b ∉ s.queue.dropLast := fun hm => hnd.2.2 b hm b (by simp) rfl
  have hmem : ∀ x, x ∈ s.queue ↔ x ∈ s.queue.dropLast ∨ x = b := fun x => by conv => lhs; rw [hqe]
                                                                             simp
  have hlk : ∀ x it', lookup (remove s.items b) x = some it' → x ≠ b ∧ lookup s.items x = some it' := by
    intro x it' hx
    rw [lookup_remove] at hx
    split at hx
    · simp at hx
    · rename_i hne; exact ⟨fun e => hne e.symm, hx⟩
  have hlen : s.queue.length = s.queue.dropLast.length + 1 := by conv => lhs; rw [hqe]
                                                                 simp
  constructor <;> simp only [St.ev]
  · exact nodup_remove h.keysNodup
  · intro x hx; exact h.keysLt x (mem_keys_remove.1 hx).1
  · rw [List.nodup_append]; refine ⟨hnd.1, by simp, ?_⟩
    rintro x hx y hy rfl; simp at hy; subst hy; exact h.notQueued ((hmem _).2 (.inl hx))
  · intro x hx; simp only [List.mem_append, List.mem_singleton] at hx
    rcases hx with hx | rfl
    · exact h.queueLt x ((hmem x).2 (.inl hx))
    · exact h.keysLt _ (lookup_mem_keys hl0)
  · intro x hx it' hl'; simp only [List.mem_append, List.mem_singleton] at hx
    rcases hx with hx | rfl
    · exact h.queueIdle x ((hmem x).2 (.inl hx)) it' (hlk x it' hl').2
    · have := (hlk _ it' hl').2; rw [hl0] at this; simp at this; rw [← this, hn0]
  · intro x hx; obtain ⟨a, b', c⟩ := h.popped x hx
    refine ⟨?_, b', fun it' hl' => c it' (hlk x it' hl').2⟩
    simp only [List.mem_append, List.mem_singleton]; rintro (hm | rfl)
    · exact a ((hmem x).2 (.inl hm))
    · exact h.notPopped.1 hx
  · intro x hx; obtain ⟨a, b', c⟩ := h.handed x hx
    refine ⟨?_, b', fun it' hl' => c it' (hlk x it' hl').2⟩
    simp only [List.mem_append, List.mem_singleton]; rintro (hm | rfl)
    · exact a ((hmem x).2 (.inl hm))
    · exact h.notPopped.2 hx
  · intro x it' hl'; exact h.created x it' (hlk x it' hl').2
  · intro hst; have := h.pending hst; rw [hlen] at this; simp at this ⊢; omega
  · exact h.crash
  · exact h.destroying
  · intro hd; simp [h.notDestroyed] at hd
  · exact h.forced
  · intro _ x hx; simp only [List.mem_append, List.mem_singleton] at hx
    rcases hx with hx | rfl
    · exact mem_keys_remove.2 ⟨h.queueStored x ((hmem x).2 (.inl hx)), fun e => hbd (e ▸ hx)⟩
    · exact mem_keys_remove.2 ⟨lookup_mem_keys hl0, Ne.symm hne⟩
  · intro _ x it' hl' hn; obtain ⟨h1, h2⟩ := hlk x it' hl'
    rcases h.idleQueued x it' h2 hn with rfl | h3 | h3
    · exact .inl (by simp)
    · rcases (hmem x).1 h3 with h4 | h4
      · exact .inl (by simp [h4])
      · exact absurd h4 h1
    · exact .inr h3
  · intro _ x hx; refine mem_keys_remove.2 ⟨h.poppedStored x hx, ?_⟩
    rintro rfl; rcases hx with hx | hx
    · exact (h.popped _ hx).1 hbq
    · exact (h.handed _ hx).1 hbq
  · intro hf hd'; have h1 := h.run hf hd'.tail; have h2 := procs_remove h.keysNodup hbl; rw [hbn] at h2; simp [one] at h2; omega
  · intro hf; have h1 := h.enq hf; have h2 := length_remove h.keysNodup (lookup_mem_keys hbl)
    have : leaks (Ev.superseded b false :: s.log) = leaks s.log + 1 := leaks_ev s _
    rw [this]; omega
  · intro hc hf; rw [h.closed hc hf]; rfl

theorem Inv.ackPassed {s : St D} (h : Inv s) (id : Nat) : Inv (ackPassed s id) := by
  unfold Channel.ackPassed
  split
  · exact h.ev _ (by simp)
  · rename_i it hl
    split
    · rename_i hs
      have hp : it.hb ≠ .none := by intro e; simp [e, HB.stops] at hs
      have h1 := (h.touch id).loosen hl hp (fun e => (touch_handed_false.1 e).2 rfl) (fun i => { i with hb := .none }) (fun _ => rfl)
      have h2 := h1.removed 1 (.ackPassed id true) (by rw [leaks_ev]; simp; omega)
      simp only at h2
      have he : remove (Channel.change s.items id (fun i => { i with hb := .none })) id = remove s.items id := by
        simp only [remove, Channel.change, List.filter_map]
        have : ∀ (l : List (Nat × Item D)), (∀ e ∈ l, e.1 ≠ id) →
            l.map (fun e => if e.1 == id then (e.1, { e.2 with hb := HB.none }) else e) = l := by
          intro l hl; refine (List.map_congr_left (g := fun e => e) ?_).trans (List.map_id' l)
          intro e he; simp [hl e he]
        have hcomp : (fun e : Nat × Item D => e.1 != id) ∘ (fun e => if e.1 == id then (e.1, { e.2 with hb := HB.none }) else e)
            = fun e => e.1 != id := by funext e; simp only [Function.comp]; split <;> rfl
        rw [hcomp]
        apply this
        intro e he; simpa using (List.mem_filter.1 he).2
      rw [he] at h2
      exact h2
    · exact h.ev _ (by simp)

theorem Loose.retryBack {s : St D} {id : Nat} (h : Loose s id) : Inv (retryBack s id) := by
  unfold Channel.retryBack
  split
  · exact (h.requeued _ (List.perm_append_comm (l₂ := [id]))).ev _ (by simp)
  · rename_i b hb
    split
    · rename_i hl
      exact absurd (h.queueStored b (List.mem_of_getLast? hb)) (lookup_none.1 hl)
    · split
      · exact (h.replaced hb).ev _ (by simp)
      · exact (h.requeued _ (List.perm_append_comm (l₂ := [id]))).ev _ (by simp)

theorem Inv.retry {s : St D} (h : Inv s) {id : Nat} {it : Item D} (hl : lookup s.items id = some it) (hp : it.hb ≠ .none)
    (hx : s.exec ≠ .handed id false) : Inv (retry s id it) := by
  have h1 := (h.loosen hl hp hx (fun i => { i with hb := .none, retryCount := i.retryCount + 1 }) (fun _ => rfl)).ev (.failed id) (by simp)
  unfold Channel.retry
  simp only
  split
  · exact h1.removed 1 _ (by simp [leaks_ev]; omega)
  · split
    · split
      · exact h1.removed 0 (.superseded id false) (by simp [leaks_ev])
      · exact (h1.requeued _ (List.Perm.refl _)).ev _ (by simp)
    · exact h1.retryBack

theorem Inv.ackFailed {s : St D} (h : Inv s) (id : Nat) : Inv (ackFailed s id) := by
  unfold Channel.ackFailed
  refine Inv.ev ?_ _ (by simp)
  unfold Channel.failItem
  split
  · exact h.touch id
  · rename_i it hl
    split
    · rename_i hs
      simp only [Bool.false_or] at hs
      exact (h.touch id).retry hl (by intro e; simp [e, HB.stops] at hs) (fun e => (touch_handed_false.1 e).2 rfl)
    · exact h.touch id

theorem Inv.heartbeat {s : St D} (h : Inv s) (id : Nat) : Inv (heartbeat s id) := by
  unfold Channel.heartbeat
  simp only
  split <;> exact (h.touch id).ev _ (by simp)

theorem Inv.crashed {s : St D} (h : Inv s) (hd : s.destroying = true) : Inv { s with crashed := true } := by
  constructor <;> first | exact h.keysNodup | exact h.keysLt | exact h.queueNodup | exact h.queueLt | exact h.queueIdle | exact h.popped | exact h.handed | exact h.created | exact h.pending | exact fun _ => hd | exact h.destroying | exact h.destroyed | exact h.forced | exact h.queueStored | exact h.idleQueued | exact h.poppedStored | exact h.run | exact h.enq | exact h.closed

/-- a change of `Execute` alone -/
theorem Inv.exec {s : St D} (h : Inv s) (e : Exec) (p r : Nat) (h1 : ∀ id, e ≠ .popped id) (h2 : ∀ id t, e ≠ .handed id t)
    (h3 : ∀ id, s.exec ≠ .popped id) (h4 : ∀ id t, s.exec ≠ .handed id t)
    (hp : e ≠ .stopped → s.exec ≠ .stopped ∧ p + e.owes = s.pending + s.exec.owes)
    (hr : r + s.exec.counts = s.run + e.counts) : Inv { s with exec := e, pending := p, run := r } := by
  have hc : s.exec.counts ≤ 1 := by cases s.exec <;> simp [Exec.counts]
  have hc' : e.counts ≤ 1 := by cases e <;> simp [Exec.counts]
  constructor <;> simp only
  · exact h.keysNodup
  · exact h.keysLt
  · exact h.queueNodup
  · exact h.queueLt
  · exact h.queueIdle
  · intro x hx; exact absurd hx (h1 x)
  · intro x hx; exact absurd hx (h2 x _)
  · intro x it hl hc; obtain ⟨t, ht⟩ := h.created x it hl hc; exact absurd ht (h4 x t)
  · intro hst; obtain ⟨h5, h6⟩ := hp hst; rw [h6]; exact h.pending h5
  · exact h.crash
  · exact h.destroying
  · exact h.destroyed
  · exact h.forced
  · exact h.queueStored
  · intro hd x it hl hn; rcases h.idleQueued hd x it hl hn with h5 | h5
    · exact .inl h5
    · exact absurd h5 (h3 x)
  · intro _ x hx; rcases hx with hx | hx
    · exact absurd hx (h1 x)
    · exact absurd hx (h2 x _)
  · intro hf hd'; have := h.run hf hd'; omega
  · exact h.enq
  · exact h.closed

theorem Inv.count {s : St D} (h : Inv s) (he : s.exec = .called) (grant : Bool) : Inv (count s grant) := by
  unfold Channel.count
  split
  · exact h.exec .counted s.pending (s.run + 1) (by simp) (by simp) (by simp [he]) (by simp [he]) (by simp [he, Exec.owes])
      (by simp [he, Exec.counts])
  · exact h.exec .spin (s.pending + 1) s.run (by simp) (by simp) (by simp [he]) (by simp [he]) (by simp [he, Exec.owes])
      (by simp [he, Exec.counts])

theorem Inv.pop {s : St D} (h : Inv s) (he : s.exec = .counted) : Inv (pop s) := by
  have hpend := h.pending (by simp [he])
  unfold Channel.pop
  split
  · rename_i hq; simp [he, hq, Exec.owes] at hpend
  · rename_i id q hq
    have hnd := h.queueNodup; rw [hq, List.nodup_cons] at hnd
    have hmq : id ∈ s.queue := by simp [hq]
    constructor <;> simp only
    · exact h.keysNodup
    · exact h.keysLt
    · exact hnd.2
    · intro x hx; exact h.queueLt x (by simp [hq, hx])
    · intro x hx; exact h.queueIdle x (by simp [hq, hx])
    · intro x hx; simp only [Exec.popped.injEq] at hx; subst hx; exact ⟨hnd.1, h.queueLt _ hmq, h.queueIdle _ hmq⟩
    · intro x hx; simp at hx
    · intro x it hl hc; obtain ⟨t, ht⟩ := h.created x it hl hc; simp [he] at ht
    · simp [he, hq, Exec.owes] at hpend ⊢; exact hpend
    · exact h.crash
    · exact h.destroying
    · exact h.destroyed
    · exact h.forced
    · intro hd x hx; exact h.queueStored hd x (by simp [hq, hx])
    · intro hd x it hl hn; rcases h.idleQueued hd x it hl hn with h5 | h5
      · rw [hq] at h5; simp only [List.mem_cons] at h5
        rcases h5 with rfl | h5
        · exact .inr rfl
        · exact .inl h5
      · simp [he] at h5
    · intro hd x hx; simp at hx; subst hx; exact h.queueStored hd _ hmq
    · intro hf hd'; have := h.run hf hd'; simp [he, Exec.counts] at this ⊢; exact this
    · exact h.enq
    · exact h.closed

theorem Inv.find {s : St D} (h : Inv s) {id : Nat} (he : s.exec = .popped id) : Inv (find s id) := by
  have hpend := h.pending (by simp [he])
  obtain ⟨p1, p2, p3⟩ := h.popped id he
  unfold Channel.find
  split
  · rename_i hd; exact h.crashed hd.1
  · split
    · rename_i hl
      have hdd : s.destroyed = true := by
        cases hd : s.destroyed with
        | true => rfl
        | false => exact absurd (h.poppedStored hd id (.inl he)) (lookup_none.1 hl)
      have hi := (h.destroyed hdd).2
      have hf := h.destroying (h.destroyed hdd).1
      constructor <;> simp only
      · exact h.keysNodup
      · exact h.keysLt
      · exact h.queueNodup
      · exact h.queueLt
      · exact h.queueIdle
      · intro x hx; simp at hx
      · intro x hx; simp at hx; subst hx; exact ⟨p1, p2, fun it hl' => by simp [hl] at hl'⟩
      · intro x it hl; simp [hi, lookup_nil] at hl
      · simp [he, Exec.owes] at hpend ⊢; exact hpend
      · exact h.crash
      · exact h.destroying
      · exact h.destroyed
      · exact h.forced
      · intro hd; simp [hdd] at hd
      · intro hd; simp [hdd] at hd
      · intro hd; simp [hdd] at hd
      · intro hf'; simp [hf] at hf'
      · exact h.enq
      · exact h.closed
    · rename_i it hl
      split
      · rename_i hb; exact absurd (p3 it hl) hb
      · rename_i hb
        simp only [ne_eq, Classical.not_not] at hb
        refine Inv.ev ?_ _ (by simp)
        have hlk : ∀ x it', lookup (Channel.change s.items id (fun i => { i with hb := .created })) x = some it' →
            (x = id ∧ it'.hb = .created) ∨ (x ≠ id ∧ lookup s.items x = some it') := by
          intro x it' hx
          rw [lookup_change] at hx
          split at hx
          · subst_vars; rw [hl] at hx; simp only [Option.map_some, Option.some.injEq] at hx; exact .inl ⟨rfl, by rw [← hx]⟩
          · exact .inr ⟨fun e => by simp_all, hx⟩
        have hk : keys (Channel.change s.items id (fun i => { i with hb := .created })) = keys s.items := keys_change ..
        have hdd : s.destroyed = false := by
          cases hd : s.destroyed with
          | false => rfl
          | true => simp [(h.destroyed hd).2, lookup_nil] at hl
        constructor <;> simp only [hk, length_change]
        · exact h.keysNodup
        · exact h.keysLt
        · exact h.queueNodup
        · exact h.queueLt
        · intro x hx it' hl'; rcases hlk x it' hl' with ⟨e, _⟩ | ⟨_, e⟩
          · exact absurd (e ▸ hx) p1
          · exact h.queueIdle x hx it' e
        · intro x hx; simp at hx
        · intro x hx; simp at hx; subst hx; refine ⟨p1, p2, fun it' hl' => ?_⟩
          rcases hlk _ it' hl' with ⟨_, e⟩ | ⟨e, _⟩
          · exact e
          · exact absurd rfl e
        · intro x it' hl' hc; rcases hlk x it' hl' with ⟨e, _⟩ | ⟨_, e⟩
          · exact ⟨false, by rw [e]⟩
          · obtain ⟨t, ht⟩ := h.created x it' e hc; simp [he] at ht
        · simp [he, Exec.owes] at hpend ⊢; exact hpend
        · exact h.crash
        · exact h.destroying
        · intro hd; simp [hdd] at hd
        · exact h.forced
        · exact h.queueStored
        · intro hd x it' hl' hn; rcases hlk x it' hl' with ⟨e, e'⟩ | ⟨e', e⟩
          · simp [e'] at hn
          · rcases h.idleQueued hd x it' e hn with h5 | h5
            · exact .inl h5
            · rw [he] at h5; simp at h5; exact absurd h5.symm e'
        · intro _ x hx; simp at hx; subst hx; exact lookup_mem_keys hl
        · intro hf hd'; have h1 := h.run hf hd'
          have h2 := procs_change h.keysNodup hl (fun i => { i with hb := .created })
          simp [he, Exec.counts, one, hb] at h1 h2 ⊢; omega
        · exact h.enq
        · intro hc hf; have := h.closed hc hf; simp [this, lookup_nil] at hl

theorem Inv.received {s : St D} (h : Inv s) {id : Nat} {t : Bool} (he : s.exec = .handed id t) : Inv (received s id) := by
  have hpend := h.pending (by simp [he])
  unfold Channel.received
  split
  · rename_i hd; exact h.crashed hd.1
  · refine Inv.ev ?_ _ (by simp)
    have hlk : ∀ x it', lookup (Channel.change s.items id (fun i => { i with hb := i.hb.start })) x = some it' →
        ∃ i, lookup s.items x = some i ∧ (i.hb = .none ↔ it'.hb = .none) ∧ it'.hb ≠ .created := by
      intro x it' hx
      rw [lookup_change] at hx
      split at hx
      · cases hl : lookup s.items x with
        | none => simp [hl] at hx
        | some i =>
          simp only [hl, Option.map_some, Option.some.injEq] at hx
          refine ⟨i, rfl, ?_, ?_⟩ <;> rw [← hx] <;> cases hh : i.hb <;> simp [HB.start]
      · rename_i hne
        refine ⟨it', hx, Iff.rfl, fun hc => ?_⟩
        obtain ⟨t', ht⟩ := h.created x it' hx hc; rw [he] at ht; simp at ht; exact hne ht.1
    have hk : keys (Channel.change s.items id (fun i => { i with hb := i.hb.start })) = keys s.items := keys_change ..
    have hp : procs (Channel.change s.items id (fun i => { i with hb := i.hb.start })) = procs s.items := by
      cases hl : lookup s.items id with
      | none => rw [change_notin (lookup_none.1 hl)]
      | some it =>
        have := procs_change h.keysNodup hl (fun i => { i with hb := i.hb.start })
        have e : (it.hb.start != .none) = (it.hb != .none) := by cases it.hb <;> rfl
        simp only [e] at this; omega
    constructor <;> simp only [hk, hp, length_change]
    · exact h.keysNodup
    · exact h.keysLt
    · exact h.queueNodup
    · exact h.queueLt
    · intro x hx it' hl'; obtain ⟨i, h1, h2, _⟩ := hlk x it' hl'; exact h2.1 (h.queueIdle x hx i h1)
    · intro x hx; simp at hx
    · intro x hx; simp at hx
    · intro x it' hl' hc; obtain ⟨i, _, _, h3⟩ := hlk x it' hl'; exact absurd hc h3
    · simp [he, Exec.owes] at hpend ⊢; exact hpend
    · exact h.crash
    · exact h.destroying
    · intro hd; obtain ⟨a, b⟩ := h.destroyed hd; exact ⟨a, by simp [b, Channel.change]⟩
    · exact h.forced
    · exact h.queueStored
    · intro hd x it' hl' hn; obtain ⟨i, h1, h2, _⟩ := hlk x it' hl'
      rcases h.idleQueued hd x i h1 (h2.2 hn) with h5 | h5
      · exact .inl h5
      · simp [he] at h5
    · intro _ x hx; simp at hx
    · intro hf hd'; have := h.run hf hd'; simp [he, Exec.counts] at this ⊢; exact this
    · exact h.enq
    · intro hc hf'; rw [h.closed hc hf']; simp [Channel.change]

theorem Inv.unsent {s : St D} (h : Inv s) {id : Nat} {t : Bool} (he : s.exec = .handed id t) : Inv (unsent s id) := by
  have hpend := h.pending (by simp [he])
  have gone : (lookup s.items id = none ∨ ∃ it, lookup s.items id = some it ∧ it.hb ≠ .created) →
      Inv (St.ev { s with run := s.run - 1, exec := .idle } (.unsent id false)) := by
    intro hg
    constructor <;> simp only [St.ev]
    · exact h.keysNodup
    · exact h.keysLt
    · exact h.queueNodup
    · exact h.queueLt
    · exact h.queueIdle
    · intro x hx; simp at hx
    · intro x hx; simp at hx
    · intro x it hl hc
      obtain ⟨t', ht⟩ := h.created x it hl hc
      rw [he] at ht; simp only [Exec.handed.injEq] at ht
      rw [← ht.1] at hl
      rcases hg with hg | ⟨i, hi, hn⟩
      · rw [hg] at hl; simp at hl
      · rw [hi] at hl; simp at hl; rw [hl] at hn; exact absurd hc hn
    · simp [he, Exec.owes] at hpend ⊢; exact hpend
    · exact h.crash
    · exact h.destroying
    · exact h.destroyed
    · exact h.forced
    · exact h.queueStored
    · intro hd x it hl hn; rcases h.idleQueued hd x it hl hn with h1 | h1
      · exact .inl h1
      · simp [he] at h1
    · intro _ x hx; simp at hx
    · intro _ hd; exact absurd (List.mem_cons_self) (hd id)
    · intro hf; have := h.enq hf; simpa [leaks] using this
    · exact h.closed
  unfold Channel.unsent
  split
  · rename_i hd; exact h.crashed hd.1
  · simp only
    split
    · rename_i hl
      have hl : lookup s.items id = none := hl
      exact gone (.inl hl)
    · rename_i it hl
      have hl : lookup s.items id = some it := hl
      cases hst : it.hb.stops with
      | false =>
        unfold giveBack
        rw [if_neg (by simp [hst])]
        exact gone (.inr ⟨it, hl, fun e => by simp [e, HB.stops] at hst⟩)
      | true =>
      have hne : it.hb ≠ .none := fun e => by simp [e, HB.stops] at hst
      have hx : Inv { s with exec := .handed id true } := by
        have := h.touch id; rw [he] at this; simpa [Channel.touch] using this
      have h1 := hx.loosen hl hne (by simp) (fun i => { i with hb := .none }) (fun _ => rfl)
      have h2 : Loose { s with items := Channel.change s.items id (fun i => { i with hb := .none }), run := s.run - 1, exec := .idle } id := by
        constructor <;> simp only
        · exact h1.keysNodup
        · exact h1.keysLt
        · exact h1.queueNodup
        · exact h1.queueLt
        · exact h1.queueIdle
        · intro x hx; simp at hx
        · intro x hx; simp at hx
        · intro x it' hl' hc'
          obtain ⟨t, ht⟩ := h1.created x it' hl' hc'
          simp only [Exec.handed.injEq] at ht
          obtain ⟨i0, hi0, hn0⟩ := h1.stored
          rw [← ht.1] at hl'
          have e2 : i0 = it' := by
            have := hi0.symm.trans hl'; simpa using this
          rw [← e2, hn0] at hc'; simp at hc'
        · simp [he, Exec.owes] at hpend ⊢; exact hpend
        · exact h1.crash
        · exact h1.destroying
        · exact h1.notDestroyed
        · exact h1.forced
        · exact h1.queueStored
        · intro x it' hl' hn; rcases h1.idleQueued x it' hl' hn with h3 | h3 | h3
          · exact .inl h3
          · exact .inr (.inl h3)
          · simp at h3
        · intro x hx; simp at hx
        · intro hf hd'; have := h1.run hf hd'; simpa [Exec.counts] using this
        · exact h1.enq
        · exact h1.closed
        · exact h1.stored
        · exact h1.notQueued
        · simp
      have h3 := h2.ev (.unsent id true) (by simp)
      unfold giveBack
      rw [if_pos hst]
      simp only
      split
      · exact h3.removed 1 (.superseded id true) (by simp [leaks_ev]; omega)
      · exact h3.requeued _ (List.Perm.refl _)

theorem Inv.timeout {s : St D} (h : Inv s) {id : Nat} {it : Item D} (hl : lookup s.items id = some it) (hb : it.hb = .firing) :
    Inv (timeout s id) := by
  unfold Channel.timeout
  split
  · rename_i hd; exact h.crashed hd
  · unfold failItem
    have hl' : lookup (s.ev (.timedOut id)).items id = some it := hl
    rw [hl']
    simp only [Bool.true_or, ↓reduceIte]
    refine (h.ev (.timedOut id) (by simp)).retry hl' (by simp [hb]) ?_
    intro hx
    have := (h.handed id hx).2.2 it hl
    simp [hb] at this

theorem Inv.fire {s : St D} (h : Inv s) {id : Nat} {it : Item D} (hl : lookup s.items id = some it) (hb : it.hb = .running) :
    Inv { s with items := Channel.change s.items id (fun i => { i with hb := .firing }) } := by
  have hlk : ∀ x it', lookup (Channel.change s.items id (fun i => { i with hb := .firing })) x = some it' →
      (x = id ∧ it'.hb = .firing) ∨ (x ≠ id ∧ lookup s.items x = some it') := by
    intro x it' hlx
    rw [lookup_change] at hlx
    split at hlx
    · subst_vars; rw [hl] at hlx; simp only [Option.map_some, Option.some.injEq] at hlx; exact .inl ⟨rfl, by rw [← hlx]⟩
    · exact .inr ⟨fun e => by simp_all, hlx⟩
  have hk : keys (Channel.change s.items id (fun i => { i with hb := .firing })) = keys s.items := keys_change ..
  have hp : procs (Channel.change s.items id (fun i => { i with hb := .firing })) = procs s.items := by
    have := procs_change h.keysNodup hl (fun i => { i with hb := .firing }); simp [hb, one] at this; exact this
  have hnone : it.hb ≠ .none := by simp [hb]
  constructor <;> simp only [hk, hp, length_change]
  · exact h.keysNodup
  · exact h.keysLt
  · exact h.queueNodup
  · exact h.queueLt
  · intro x hx it' hl'; rcases hlk x it' hl' with ⟨rfl, _⟩ | ⟨_, e⟩
    · exact absurd (h.queueIdle _ hx it hl) hnone
    · exact h.queueIdle x hx it' e
  · intro x hx; obtain ⟨a, b, c⟩ := h.popped x hx
    refine ⟨a, b, fun it' hl' => ?_⟩
    rcases hlk x it' hl' with ⟨rfl, _⟩ | ⟨_, e⟩
    · exact absurd (c it hl) hnone
    · exact c it' e
  · intro x hx; obtain ⟨a, b, c⟩ := h.handed x hx
    refine ⟨a, b, fun it' hl' => ?_⟩
    rcases hlk x it' hl' with ⟨rfl, _⟩ | ⟨_, e⟩
    · have := c it hl; simp [hb] at this
    · exact c it' e
  · intro x it' hl' hc; rcases hlk x it' hl' with ⟨_, e⟩ | ⟨_, e⟩
    · simp [e] at hc
    · exact h.created x it' e hc
  · exact h.pending
  · exact h.crash
  · exact h.destroying
  · intro hd; have := (h.destroyed hd).2; simp [this, lookup_nil] at hl
  · exact h.forced
  · exact h.queueStored
  · intro hd x it' hl' hn; rcases hlk x it' hl' with ⟨_, e⟩ | ⟨_, e⟩
    · simp [e] at hn
    · exact h.idleQueued hd x it' e hn
  · exact h.poppedStored
  · exact h.run
  · exact h.enq
  · intro hc hf'; have := h.closed hc hf'; simp [this, lookup_nil] at hl

theorem Inv.step {s s' : St D} (h : Inv s) (hs : Step s s') : Inv s' := by
  cases hs with
  | enqueue r g hc => exact h.enqueue r g hc
  | ackPassed id _ _ => exact h.ackPassed id
  | ackFailed id _ _ => exact h.ackFailed id
  | heartbeat id _ _ => exact h.heartbeat id
  | notified he hp =>
    exact h.exec .offering (s.pending - 1) s.run (by simp) (by simp) (by simp [he]) (by simp [he]) (by simp [he, Exec.owes]; omega)
      (by simp [he, Exec.counts])
  | send he =>
    exact h.exec .called s.pending s.run (by simp) (by simp) (by simp [he]) (by simp [he]) (by simp [he, Exec.owes])
      (by simp [he, Exec.counts])
  | count g he => exact h.count he g
  | pop he => exact h.pop he
  | find he => exact h.find he
  | received he => exact h.received he
  | unsent he => exact h.unsent he
  | spinDone he =>
    exact h.exec .idle s.pending s.run (by simp) (by simp) (by simp [he]) (by simp [he]) (by simp [he, Exec.owes])
      (by simp [he, Exec.counts])
  | fire hl hb => exact h.fire hl hb
  | timeout hl hb => exact h.timeout hl hb
  | delete hc =>
    unfold Channel.delete
    split
    · rename_i he
      refine Inv.ev ?_ _ (by simp)
      constructor <;> first | exact h.keysNodup | exact h.keysLt | exact h.queueNodup | exact h.queueLt | exact h.queueIdle | exact h.popped | exact h.handed | exact h.created | exact h.pending | exact h.crash | exact h.destroying | exact h.destroyed | exact (fun _ => rfl) | exact h.queueStored | exact h.idleQueued | exact h.poppedStored | exact h.run | exact h.enq | exact (fun _ _ => by simpa using he)
    · exact h
  | forceBegin hc =>
    refine Inv.ev ?_ _ (by simp)
    constructor <;> first | exact h.keysNodup | exact h.keysLt | exact h.queueNodup | exact h.queueLt | exact h.queueIdle | exact h.popped | exact h.handed | exact h.created | exact h.pending | exact h.crash | exact (fun _ => rfl) | exact h.destroyed | exact h.queueStored | exact h.idleQueued | exact h.poppedStored | (intro _ hf; simp at hf; done) | (intro hf; simp at hf; done)
  | forceMark hf _ =>
    constructor <;> first | exact h.keysNodup | exact h.keysLt | exact h.queueNodup | exact h.queueLt | exact h.queueIdle | exact h.popped | exact h.handed | exact h.created | exact h.pending | exact (fun _ => rfl) | exact (fun _ => hf) | exact (fun hd => ⟨rfl, (h.destroyed hd).2⟩) | exact h.forced | exact h.queueStored | exact h.idleQueued | exact h.poppedStored | exact h.run | exact h.enq | exact h.closed
  | forceEnd hd _ _ =>
    have hf := h.destroying hd
    constructor <;> simp only
    · simp
    · simp
    · exact h.queueNodup
    · exact h.queueLt
    · simp [lookup_nil]
    · intro x hx; obtain ⟨a, b, _⟩ := h.popped x hx; exact ⟨a, b, by simp [lookup_nil]⟩
    · intro x hx; obtain ⟨a, b, _⟩ := h.handed x hx; exact ⟨a, b, by simp [lookup_nil]⟩
    · simp [lookup_nil]
    · exact h.pending
    · exact h.crash
    · exact h.destroying
    · intro _; exact ⟨hd, trivial⟩
    · exact h.forced
    · simp
    · simp
    · simp
    · intro hf'; simp [hf] at hf'
    · intro hf'; simp [hf] at hf'
    · simp
  | stop hc hl =>
    have h3 : ∀ id, s.exec ≠ .popped id := by intro x e; simp [e, Exec.listens] at hl
    have h4 : ∀ id t, s.exec ≠ .handed id t := by intro x t e; simp [e, Exec.listens] at hl
    have h5 : s.exec.counts = 0 := by cases hx : s.exec <;> simp [hx, Exec.listens] at hl <;> rfl
    exact h.exec .stopped s.pending s.run (by simp) (by simp) h3 h4 (by simp) (by rw [h5]; rfl)

theorem inv_reach {s : St D} (h : Reach s) : Inv s := by
  induction h with
  | init => exact Inv.init
  | step _ _ hs ih => exact ih.step hs

end Willow.Channel
