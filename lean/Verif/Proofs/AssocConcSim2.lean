import Verif.Proofs.AssocConcSim
import Verif.Proofs.AssocConcUse
/-! The associated tree under concurrency: every call acts at one moment (the simulation). -/
namespace Willow.AssocConc
open Willow

variable {V A : Type}

/-- Steps of calls that are not making or destroying anything, and that the map does not notice. -/
theorem Rel.skip [DecidableEq V] {s s' : St V A} {m : AMap V A} (hi : Inv s) (hi' : Inv s') (hr : Rel s m) {t : Nat} {th : Thread V A} {p' : Phase V A} {p : Pend V A} (ht : s.threads[t]? = some th)
    (hth : s'.threads = s.threads.set t { th with phase := p' })
    (hitem : s'.item = s.item) (hdes : s'.destroying = s.destroying) (hused : s'.used = s.used)
    (hix : ∀ q i, s.index q = some i → s'.index q = some i ∨ s'.index q = none)
    (q : th.phase.loud = false) (q' : p'.loud = false)
    (hp : m.calls[t]? = some p) (hself : PPhase s' m th.call p p') : ∃ m', AMap.Run m [] m' ∧ Rel s' m' :=
  ⟨m, .nil, hr.quiet hi hi' ht hth hitem hdes (fun _ h => by rw [hused]; exact h) hix (fun id h => absurd h (Thread.quiet_making q' id))
    (fun id kvs _ => whole_quiet ht hth (Thread.quiet_wiping q) (Thread.quiet_wiping q') id kvs) hp hself⟩

theorem Run.two [DecidableEq V] {m m' m'' : AMap V A} (h : AMap.Step m none m') (h' : AMap.Step m' none m'') : AMap.Run m [] m'' :=
  .step (e := none) (.step (e := none) .nil h) h'

theorem afterQuery_pphase {s : St V A} {m : AMap V A} {c : Call V A} {p : Pend V A} (hc : c.creates = true) (hf : Fits c (.lookup [])) (h1 : p.res = none) (h2 : p.marked = false)
    (hm : ∀ kvs, c = .find kvs → p.missed = true) : PPhase s m c p (afterQuery c) := by
  cases c with
  | find kvs => exact ⟨h2, Or.inr ⟨h1, hm kvs rfl, rfl⟩⟩
  | createOrFind kvs a => exact ⟨h1, h2⟩
  | createFails kvs => cases hc
  | _ => exact hf.elim

theorem afterQuery_quiet (c : Call V A) : (afterQuery c).loud = false := by
  cases c <;> rfl

theorem call_sorted {c : Call V A} (h : c.ok) (hd : ∀ id can, c ≠ .destroy id can) : c.kvs ≠ [] ∧ Sorted c.kvs := by
  cases c with
  | destroy id can => exact absurd rfl (hd id can)
  | _ => exact h

/-- What is known about items that are kept. -/
theorem used_keep {s : St V A} {m : AMap V A} (hr : Rel s m) {t : Nat} {th : Thread V A} {p' : Phase V A} (ht : s.threads[t]? = some th) (q' : ∀ j, ¬ ({ th with phase := p' } : Thread V A).Making j) :
    ∀ j ∈ m.used, j ∈ s.used ∧ ∀ (u : Nat) (x : Thread V A), (s.threads.set t { th with phase := p' })[u]? = some x → ¬ x.Making j := by
  intro j hj
  obtain ⟨h1, h2⟩ := hr.used j hj
  refine ⟨h1, ?_⟩
  intro u x hu hm
  rcases set_cases ht hu with ⟨_, e⟩ | ⟨_, hu⟩
  · subst e; exact q' j hm
  · exact h2 u x hu hm

theorem sim_giveUp [DecidableEq V] {s : St V A} {m : AMap V A} {t id : Nat} {th : Thread V A} {can : A → Bool} {p : Pend V A} {r : Res A} (hi : Inv s)
    (hi' : Inv ({ s with destroying := s.destroying.erase id }.to t th (.done r []))) (hr : Rel s m) (ht : s.threads[t]? = some th)
    (hc : th.call = .destroy id can) (h : th.phase = .seize) (hp : m.calls[t]? = some p) (pp : p.res = none ∧ p.marked = true) (pc : p.call = th.call)
    (hact : AMap.Act m p.call p.marked m r) : ∃ m', AMap.Run m [] m' ∧ Rel ({ s with destroying := s.destroying.erase id }.to t th (.done r [])) m' := by
  have u1 := upd_see (m₁ := m) (q := { p with res := some r }) hp rfl rfl (fun kvs e e' h h' => by rw [h] at h'; cases h'; rfl)
  have s1 : AMap.Step m none _ := .act t p hp pp.1 hact
  generalize hm1 : { m with calls := m.calls.set t { p with res := some r } }.see = m1 at u1 s1
  generalize hq1 : ({ p with res := some r } : Pend V A).see { m with calls := m.calls.set t { p with res := some r } } = q1 at u1
  have e1 : m1.stored = m.stored := by rw [← hm1]; rfl
  have e2 : m1.closing = m.closing := by rw [← hm1]; rfl
  have e3 : m1.used = m.used := by rw [← hm1]; rfl
  have e4 : q1.res = some r := by rw [← hq1]; rfl
  have e5 : q1.marked = true := by rw [← hq1]; exact pp.2
  have u2 := upd_see (m₁ := { m1 with closing := m1.closing.erase id }) (q := { q1 with marked := false }) u1.self rfl rfl
    (fun kvs e e' h h' => by rw [show m1.stored kvs = some e' from h'] at h; cases h; rfl)
  have s2 : AMap.Step m1 none _ := .unmark t q1 id can u1.self (u1.call.trans (pc.trans hc)) (by rw [e4]; exact nofun) e5
  refine ⟨_, Run.two s1 s2, ?_⟩
  refine hr.upd hi hi' ht rfl hp (u1.trans u2) ?_ ?_ ?_ ⟨rfl, Or.inl e4⟩ ?_ (fun _ _ h => Or.inl h) (fun _ _ _ _ _ _ _ => rfl)
  · intro k j a
    refine Iff.trans ?_ (Iff.trans (hr.stored k j a) (and_congr_right fun _ => ?_))
    · simp only [AMap.see]; rw [e1]
    · exact (whole_quiet ht rfl (fun _ _ hw => by have := hw.2; rw [h] at this; cases this) (fun _ _ hw => by cases hw.2) j k).symm
  · simp only [AMap.see, St.to]; rw [e2, hr.closing]
  · simp only [AMap.see]; rw [e3]
    exact used_keep hr ht (fun j hm => by obtain ⟨_, e⟩ := hm; cases e)
  · intro _ x _ _ _ _ hnone
    simp only [AMap.see]; rw [e1]; exact hnone

theorem sim_wiped [DecidableEq V] {s : St V A} {m : AMap V A} {t id : Nat} {th : Thread V A} {can : A → Bool} {p : Pend V A} (hi : Inv s)
    (hi' : Inv (nextWiped s t th id)) (hr : Rel s m) (ht : s.threads[t]? = some th)
    (hc : th.call = .destroy id can) (h : th.phase = .wipe []) (hp : m.calls[t]? = some p) (pc : p.call = th.call) (pp : PPhase s m th.call p th.phase) :
    ∃ m', AMap.Run m [] m' ∧ Rel (nextWiped s t th id) m' := by
  rw [h] at pp
  obtain ⟨h1, h2⟩ := pp
  obtain ⟨it, hit, hcan, h3⟩ := h2 id can hc
  have hne := (hi.cont.itm id it hit).2.1
  have h4 : p.res = some (.removed id) := by
    rcases h3 with ⟨h3, _⟩ | ⟨_, h3⟩
    · exact absurd h3.symm hne
    · exact h3
  have hnot : ∀ k a, m.stored k ≠ some ⟨id, a⟩ := by
    intro k a e
    obtain ⟨k1, k2⟩ := (hr.stored k id a).1 e
    have := k2 t th [] ht ⟨⟨can, hc⟩, h⟩
    rw [hit] at k1; cases k1
    exact hne this.symm
  have u1 := upd_see (m₁ := { m with closing := m.closing.erase id }) (q := { p with marked := false }) hp rfl rfl
    (fun kvs e e' h h' => by rw [show m.stored kvs = some e' from h'] at h; cases h; rfl)
  have s1 : AMap.Step m none _ := .unmark t p id can hp (pc.trans hc) (by rw [h4]; exact nofun) h1
  refine ⟨_, .step (e := none) .nil s1, ?_⟩
  refine hr.upd hi hi' ht rfl hp u1 ?_ ?_ ?_ ⟨rfl, Or.inl h4⟩ (fun _ _ _ _ _ _ h => h) (fun _ _ h => Or.inl h) ?_
  · intro k j a
    simp only [AMap.see, nextWiped, St.to]
    by_cases hj : j = id
    · rw [if_pos hj, hj]
      exact ⟨fun e => absurd e (hnot k a), fun e => by cases e.1⟩
    · rw [if_neg hj]
      refine Iff.trans (hr.stored k j a) (and_congr_right fun _ => ?_)
      constructor
      · intro hw u x todo hu hwx
        rcases set_cases ht hu with ⟨_, e⟩ | ⟨_, hu⟩
        · subst e; cases hwx.2
        · exact hw u x todo hu hwx
      · intro hw u x todo hu hwx
        by_cases hut : u = t
        · subst hut; rw [ht] at hu; cases hu
          obtain ⟨c, e⟩ := hwx.1
          rw [hc] at e; cases e; exact absurd rfl hj
        · exact hw u x todo (set_other ht _ hut hu) hwx
  · simp only [AMap.see, nextWiped, St.to]; rw [hr.closing]
  · exact used_keep hr ht (fun j hm => by obtain ⟨_, e⟩ := hm; cases e)
  · intro u x j todo hut hu hw
    simp only [nextWiped, St.to]
    refine if_neg ?_
    intro e; subst e
    exact hut (hi.cont.one t u th x j ht hu ⟨⟨can, hc⟩, Or.inr ⟨_, h⟩⟩ ⟨hw.1, Or.inr ⟨todo, hw.2⟩⟩)

theorem sim_wipe [DecidableEq V] {s : St V A} {m : AMap V A} {t id i pick : Nat} {th : Thread V A} {can : A → Bool} {p : Pend V A} {it : Item V A} {todo : KVs V} {q : GoString × V}
    {index' : GoString × V → Option Nat} (hi : Inv s)
    (hi' : Inv ({ (s.setNode i fun d => { d with ids := dropId it.kvs.length id d.ids }) with index := index' }.to t th (.wipe (todo.eraseIdx pick))))
    (hr : Rel s m) (ht : s.threads[t]? = some th) (hc : th.call = .destroy id can) (h : th.phase = .wipe todo) (hit : s.item id = some it) (hq : todo[pick]? = some q)
    (hix : ∀ q i, s.index q = some i → index' q = some i ∨ index' q = none)
    (hp : m.calls[t]? = some p) (pc : p.call = th.call) (pp : PPhase s m th.call p th.phase) :
    ∃ m', AMap.Run m [] m' ∧ Rel ({ (s.setNode i fun d => { d with ids := dropId it.kvs.length id d.ids }) with index := index' }.to t th (.wipe (todo.eraseIdx pick))) m' := by
  rw [h] at pp
  obtain ⟨h1, h2⟩ := pp
  obtain ⟨it', hit', hcan, h3⟩ := h2 id can hc
  rw [hit] at hit'; cases hit'
  obtain ⟨it', hit', hsub⟩ := hi.cont.wip t th id todo ht ⟨⟨can, hc⟩, h⟩
  rw [hit] at hit'; cases hit'
  have hlt : pick < todo.length := (List.getElem?_eq_some_iff.1 hq).1
  have hrest : todo.eraseIdx pick ≠ it.kvs := by
    intro e
    have k1 := congrArg List.length e
    rw [List.length_eraseIdx_of_lt hlt] at k1
    have := hsub.length_le
    omega
  have hwid : ∀ k, (∃ a, s.item id = some ⟨k, a⟩) → ¬ ({ (s.setNode i fun d => { d with ids := dropId it.kvs.length id d.ids }) with index := index' }.to t th (.wipe (todo.eraseIdx pick))).Whole id k := by
    rintro k ⟨a, e⟩ hw
    rw [hit] at e; cases e
    exact hrest (hw t _ _ (set_self ht _) ⟨⟨can, hc⟩, rfl⟩)
  have hwj : ∀ j k, j ≠ id → (({ (s.setNode i fun d => { d with ids := dropId it.kvs.length id d.ids }) with index := index' }.to t th (.wipe (todo.eraseIdx pick))).Whole j k ↔ s.Whole j k) := by
    intro j k hj
    constructor
    · intro hw u x todo' hu hwx
      by_cases hut : u = t
      · subst hut; rw [ht] at hu; cases hu
        obtain ⟨c, e⟩ := hwx.1
        rw [hc] at e; cases e; exact absurd rfl hj
      · exact hw u x todo' (set_other ht _ hut hu) hwx
    · intro hw u x todo' hu hwx
      rcases set_cases ht hu with ⟨_, e⟩ | ⟨_, hu⟩
      · subst e
        obtain ⟨c, e⟩ := hwx.1
        simp only at e
        rw [hc] at e; cases e; exact absurd rfl hj
      · exact hw u x todo' hu hwx
  rcases h3 with ⟨h3, h4⟩ | ⟨h3, h4⟩
  · -- the first pair: this is where the item goes
    have hst : m.stored it.kvs = some ⟨id, it.val⟩ := by
      refine (hr.stored _ _ _).2 ⟨hit, ?_⟩
      intro u x todo' hu hw
      have := hi.cont.one t u th x id ht hu ⟨⟨can, hc⟩, Or.inr ⟨_, h⟩⟩ ⟨hw.1, Or.inr ⟨todo', hw.2⟩⟩
      subst this; rw [ht] at hu; cases hu
      have := hw.2; rw [h] at this; cases this; exact h3
    have hact : AMap.Act m p.call p.marked (m.put it.kvs none) (.removed id) := by
      rw [pc, hc, h1]; exact .destroyed hst hcan
    refine ⟨_, .step (e := none) .nil (.act t p hp h4 hact), ?_⟩
    refine hr.upd hi hi' ht rfl hp (upd_see hp rfl rfl ?_) ?_ hr.closing ?_ ⟨h1, ?_⟩ ?_ hix (fun _ _ _ _ _ _ _ => rfl)
    · intro k e e' he he'
      simp only [AMap.put] at he'
      by_cases hk : k = it.kvs
      · rw [if_pos hk] at he'; cases he'
      · rw [if_neg hk, he] at he'; cases he'; rfl
    · intro k j a
      by_cases hj : j = id
      · subst hj
        constructor
        · intro e
          simp only [AMap.see, AMap.put] at e
          by_cases hk : k = it.kvs
          · rw [if_pos hk] at e; cases e
          · rw [if_neg hk] at e
            have := ((hr.stored k j a).1 e).1
            rw [hit] at this; cases this; exact absurd rfl hk
        · rintro ⟨e, hw⟩
          exact absurd hw (hwid k ⟨a, e⟩)
      · rw [hwj j k hj]
        simp only [AMap.see, AMap.put]
        by_cases hk : k = it.kvs
        · rw [if_pos hk]
          constructor
          · intro e; cases e
          · intro e
            have := (hr.stored k j a).2 e
            rw [hk, hst] at this; cases this; exact absurd rfl hj
        · rw [if_neg hk]; exact hr.stored k j a
    · exact used_keep hr ht (fun j hm => by obtain ⟨_, e⟩ := hm; cases e)
    · intro j c e
      rw [hc] at e; cases e
      exact ⟨it, hit, hcan, Or.inr ⟨hrest, rfl⟩⟩
    · intro u x j hut hu hmx hnone
      simp only [AMap.see, AMap.put]
      split
      · rfl
      · exact hnone
  · refine ⟨m, .nil, hr.quiet hi hi' ht rfl rfl rfl (fun _ h => h) hix ?_ ?_ hp ⟨h1, ?_⟩⟩
    · rintro j ⟨_, e⟩; cases e
    · intro j k hjk
      by_cases hj : j = id
      · subst hj
        refine ⟨fun hw => absurd hw (hwid k hjk), fun hw => ?_⟩
        have := hw t th todo ht ⟨⟨can, hc⟩, h⟩
        obtain ⟨a, e⟩ := hjk
        rw [hit] at e; cases e; exact absurd this h3
      · exact hwj j k hj
    · intro j c e
      rw [hc] at e; cases e
      exact ⟨it, hit, hcan, Or.inr ⟨hrest, h4⟩⟩

theorem sim_move [DecidableEq V] {s s' : St V A} {m : AMap V A} (hi : Inv s) (hr : Rel s m) {t : Nat} {th : Thread V A} (ht : s.threads[t]? = some th) (hm : Move s t th s') :
    ∃ m', AMap.Run m [] m' ∧ Rel s' m' := by
  have hi' := hi.move ht hm
  have hcr := hi.creates t th ht
  have hfit := hcr.2.2
  obtain ⟨p, hp, hpr⟩ := hr.pend t th ht
  have pp := hpr.phase
  have pc := hpr.call
  cases hm with
  | @queryEnd acc h =>
    have hph := hi.phs t th ht
    rw [h] at pp hph
    obtain ⟨h1, h2, h3⟩ := pp
    refine hr.skip hi hi' ht rfl rfl rfl rfl (fun _ _ h => Or.inl h) (by rw [h]; rfl) rfl hp ⟨h1, h2, ?_⟩
    intro kvs hc
    rcases h3 kvs hc with h3 | ⟨e, h3, h4⟩
    · exact Or.inl h3
    · refine Or.inr ⟨e, h3, ?_⟩
      cases acc with
      | none =>
        obtain ⟨b, k1, k2, _⟩ := hph
        rw [k2 rfl] at k1
        have := hcr.2.1
        rw [hc] at this k1
        exact absurd k1 this.1
      | some l => exact h4 l rfl
  | @queryMiss q rest acc h hm =>
    have hph := hi.phs t th ht
    rw [h] at pp hph hfit
    obtain ⟨h1, h2, h3⟩ := pp
    refine hr.skip hi hi' ht rfl rfl rfl rfl (fun _ _ h => Or.inl h) (by rw [h]; rfl) (afterQuery_quiet _) hp ?_
    refine afterQuery_pphase hcr.1 ?_ h1 h2 ?_
    · cases hc : th.call <;> rw [hc] at hfit <;> first | exact hfit.elim | trivial
    · intro kvs hc
      rcases h3 kvs hc with h3 | ⟨e, h3, h4⟩
      · exact h3
      · exfalso
        obtain ⟨b, k1, k2, _⟩ := hph
        have hk : th.call.kvs = kvs := by rw [hc]; rfl
        have hq : q ∈ kvs := by rw [← hk, k1]; simp
        have hin := hr.content hi (live_stored h3).1 hq
        rw [← hk] at hin
        have : e.id ∈ inter acc (s.content q th.call.kvs.length) := by
          cases acc with
          | none => exact hin
          | some g =>
            simp only [inter, List.mem_filter, List.contains_iff_mem]
            exact ⟨h4 g rfl, hin⟩
        rw [hm] at this; cases this
  | @queryHit q rest acc h =>
    have hph := hi.phs t th ht
    rw [h] at pp hph
    obtain ⟨h1, h2, h3⟩ := pp
    refine hr.skip hi hi' ht rfl rfl rfl rfl (fun _ _ h => Or.inl h) (by rw [h]; rfl) rfl hp ⟨h1, h2, ?_⟩
    intro kvs hc
    rcases h3 kvs hc with h3 | ⟨e, h3, h4⟩
    · exact Or.inl h3
    · refine Or.inr ⟨e, h3, ?_⟩
      intro l hl
      cases hl
      obtain ⟨b, k1, k2, _⟩ := hph
      have hk : th.call.kvs = kvs := by rw [hc]; rfl
      have hq : q ∈ kvs := by rw [← hk, k1]; simp
      have hin := hr.content hi (live_stored h3).1 hq
      rw [← hk] at hin
      cases acc with
      | none => exact hin
      | some g =>
        simp only [inter, List.mem_filter, List.contains_iff_mem]
        exact ⟨h4 g rfl, hin⟩
  | lookupEnd h =>
    rw [h] at pp hfit
    obtain ⟨h1, h2, h3⟩ := pp
    refine hr.skip hi hi' ht rfl rfl rfl rfl (fun _ _ h => Or.inl h) (by rw [h]; rfl) (afterQuery_quiet _) hp ?_
    refine afterQuery_pphase hcr.1 hfit h1 h2 ?_
    intro kvs hc
    rcases h3 kvs hc with h3 | ⟨e, _, h4⟩
    · exact h3
    · cases h4
  | @lookupSkip id rest h hs =>
    rw [h] at pp
    obtain ⟨h1, h2, h3⟩ := pp
    refine hr.skip hi hi' ht rfl rfl rfl rfl (fun _ _ h => Or.inl h) (by rw [h]; rfl) rfl hp ⟨h1, h2, ?_⟩
    intro kvs hc
    rcases h3 kvs hc with h3 | ⟨e, h3, h4⟩
    · exact Or.inl h3
    · refine Or.inr ⟨e, h3, ?_⟩
      rcases List.mem_cons.1 h4 with h4 | h4
      · exfalso
        obtain ⟨k1, k2⟩ := live_stored h3
        rcases hs with hs | hs
        · rw [hr.closing, h4] at k2; exact k2 hs
        · obtain ⟨j, a⟩ := e
          have := ((hr.stored kvs j a).1 k1).1
          simp only at h4
          rw [h4, hs] at this; cases this
      · exact h4
  | @lookupFound id rest it h hd hit =>
    have hph := hi.phs t th ht
    rw [h] at pp hph hfit
    obtain ⟨h1, h2, h3⟩ := pp
    have hcl : it.kvs = th.call.kvs := by
      have hnd : ∀ i can, th.call ≠ .destroy i can := by intro i can e; rw [e] at hfit; exact hfit
      obtain ⟨hne, hs⟩ := call_sorted hcr.2.1 hnd
      have k : ∀ q ∈ th.call.kvs, q ∈ it.kvs ∧ it.kvs.length = th.call.kvs.length := fun q hq => (hph id (by simp) q hq).2.1 it hit
      obtain ⟨q0, hq0⟩ := List.exists_mem_of_ne_nil _ hne
      exact Sorted.eq_of_subset hs (hi.cont.itm id it hit).2.2 (fun q hq => (k q hq).1) (k q0 hq0).2
    have hst : m.stored th.call.kvs = some ⟨id, it.val⟩ := by
      refine (hr.stored _ _ _).2 ⟨by rw [hit, ← hcl], ?_⟩
      intro u x todo hu hw
      exact absurd ((hi.cont.des.2 id).2 ⟨u, x, hu, hw.1, Or.inr ⟨todo, hw.2⟩⟩) hd
    have hlv : m.live th.call.kvs = some ⟨id, it.val⟩ := stored_live hst (by rw [hr.closing]; exact hd)
    refine hr.actSame hi hi' ht rfl rfl rfl rfl rfl (by rw [h]; rfl) rfl hp h1 (r := .found id it.val) ?_ (fun _ x k1 k2 => ⟨k2.trans h2, Or.inl k1⟩)
    rw [h2]
    cases hc : th.call with
    | find kvs => rw [pc, hc]; rw [hc] at hlv; exact .found hlv
    | createOrFind kvs a => rw [pc, hc]; rw [hc] at hlv; exact .found' hlv
    | createFails kvs => rw [hc] at hcr; cases hcr.1
    | _ => rw [hc] at hfit; exact hfit.elim
  | touchEnd h => rw [h] at pp; exact hr.skip hi hi' ht rfl rfl rfl rfl (fun _ _ h => Or.inl h) (by rw [h]; rfl) rfl hp pp
  | touchNew h hx =>
    rw [h] at pp
    refine hr.skip hi hi' ht rfl rfl rfl rfl ?_ (by rw [h]; rfl) rfl hp pp
    intro q i hq
    left
    simp only [St.to]
    rw [if_neg]; exact hq
    intro e; rw [e, hx] at hq; cases hq
  | touchOld h hx => rw [h] at pp; exact hr.skip hi hi' ht rfl rfl rfl rfl (fun _ _ h => Or.inl h) (by rw [h]; rfl) rfl hp pp
  | lock h ho => rw [h] at pp; exact hr.skip hi hi' ht rfl rfl rfl rfl (fun _ _ h => Or.inl h) (by rw [h]; rfl) rfl hp pp
  | @lockedExists held id kvs a h hc =>
    rw [h] at pp
    obtain ⟨b, _, hst⟩ := hr.locked hi ht (Or.inl h)
    rw [hc] at hst
    refine hr.actSame hi hi' ht rfl rfl rfl rfl rfl (by rw [h]; rfl) rfl hp pp.1 (r := .exists) ?_ (fun _ x k1 k2 => ⟨k1, k2.trans pp.2⟩)
    rw [pc, hc, pp.2]; exact .exists hst
  | @lockedClosing held id kvs a h hc hd =>
    rw [h] at pp
    obtain ⟨b, _, hst⟩ := hr.locked hi ht (Or.inl h)
    rw [hc] at hst
    refine hr.actSame hi hi' ht rfl rfl rfl rfl rfl (by rw [h]; rfl) rfl hp pp.1 (r := .destroying) ?_ (fun _ x k1 k2 => ⟨k1, k2.trans pp.2⟩)
    rw [pc, hc, pp.2]; exact .closing' hst (by rw [hr.closing]; exact hd)
  | @lockedFound held id it kvs a h hc hd hit =>
    rw [h] at pp
    obtain ⟨b, h1, hst⟩ := hr.locked hi ht (Or.inl h)
    rw [hit] at h1
    rw [hc] at hst
    have e : it.val = b := by cases h1; rfl
    rw [← e] at hst
    refine hr.actSame hi hi' ht rfl rfl rfl rfl rfl (by rw [h]; rfl) rfl hp pp.1 (r := .found id it.val) ?_ (fun _ x k1 k2 => ⟨k1, k2.trans pp.2⟩)
    rw [pc, hc, pp.2]
    exact .found' (e := ⟨id, it.val⟩) (stored_live hst (by rw [hr.closing]; exact hd))
  | lockedNeither h hit =>
    obtain ⟨_, it, h1, _⟩ := hi.lockedId ht (Or.inl h)
    rw [hit] at h1; cases h1
  | @startMake held got pick h hg hf =>
    rw [h] at pp
    have hnone : m.stored th.call.kvs = none := by
      cases hst : m.stored th.call.kvs with
      | none => rfl
      | some e =>
        exact absurd (hr.single hi ht (Or.inl h) hst (fun i hi'' => hi.locks.tch t th ht i (by rw [h]; exact List.mem_append_left _ hi''))) (hg e.id)
    refine ⟨m, .nil, hr.quiet hi hi' ht rfl rfl rfl (fun _ h => List.mem_cons_of_mem _ h) (fun _ _ h => Or.inl h) ?_ ?_ hp ⟨pp.1, pp.2, hnone⟩⟩
    · rintro id ⟨_, e⟩; cases e; exact hf
    · intro id kvs _
      exact whole_quiet ht rfl (Thread.quiet_wiping (by rw [h]; rfl)) (fun _ _ hw => by cases hw.2) id kvs
  | @make held id a h hc =>
    rw [h] at pp
    obtain ⟨h1, h2, h3⟩ := pp
    have hmk : th.Making id := ⟨held, h⟩
    obtain ⟨k1, k2, k3⟩ := hi.cont.mak t th id ht hmk
    have hfr : id ∉ m.used := fun hid => (hr.used id hid).2 t th ht hmk
    have hact : AMap.Act m p.call p.marked { m.put th.call.kvs (some ⟨id, a⟩) with used := id :: m.used } (.created id) := by
      rw [pc, h2]
      rcases hc with hc | hc
      · rw [hc]; exact .created (by rw [hc] at h3; exact h3) hfr
      · rw [hc]; exact .created' (by rw [hc] at h3; exact h3) hfr
    refine ⟨_, .step (e := none) .nil (.act t p hp h1 hact), ?_⟩
    refine hr.upd hi hi' ht rfl hp (upd_see hp rfl rfl ?_) ?_ hr.closing ?_ ⟨rfl, h2⟩ ?_ (fun _ _ h => Or.inl h) ?_
    · intro k e e' he he'
      simp only [AMap.put] at he'
      by_cases hk : k = th.call.kvs
      · rw [hk, h3] at he; cases he
      · rw [if_neg hk, he] at he'; cases he'; rfl
    · intro k j b
      simp only [AMap.see, AMap.put, St.to]
      have hwh : ∀ j k, ({ s with item := fun j => if j = id then some ⟨th.call.kvs, a⟩ else s.item j }.to t th (.unlock held (.created id))).Whole j k ↔ s.Whole j k :=
        whole_quiet ht rfl (fun _ _ hw => by have := hw.2; rw [h] at this; cases this) (fun _ _ hw => by cases hw.2)
      have hwh' := hwh j k
      simp only [St.to] at hwh'
      rw [hwh']
      by_cases hk : k = th.call.kvs
      · rw [if_pos hk]
        constructor
        · intro e; cases e
          refine ⟨by rw [if_pos rfl, hk], ?_⟩
          intro u x todo hu hw
          obtain ⟨it, e, _⟩ := hi.cont.wip u x id todo hu hw
          rw [k2] at e; cases e
        · rintro ⟨e, hw⟩
          by_cases hj : j = id
          · rw [if_pos hj] at e; cases e; rw [hj]
          · rw [if_neg hj, hk] at e
            rw [hk] at hw
            have := (hr.stored _ j b).2 ⟨e, hw⟩
            rw [h3] at this; cases this
      · rw [if_neg hk]
        by_cases hj : j = id
        · rw [if_pos hj, hj, hr.stored k id b, k2]
          constructor
          · rintro ⟨e, _⟩; cases e
          · rintro ⟨e, _⟩; cases e; exact absurd rfl hk
        · rw [if_neg hj]; exact hr.stored k j b
    · intro j hj
      have hj' : j = id ∨ j ∈ m.used := by simpa [AMap.see] using hj
      have nm : ∀ (u : Nat) (x : Thread V A), (s.threads.set t { th with phase := Phase.unlock held (.created id) })[u]? = some x → x.Making j → u ≠ t ∧ s.threads[u]? = some x := by
        intro u x hu hm
        rcases set_cases ht hu with ⟨_, e⟩ | ⟨h1, h2⟩
        · subst e; obtain ⟨_, e⟩ := hm; cases e
        · exact ⟨h1, h2⟩
      rcases hj' with hj' | hj'
      · subst hj'
        refine ⟨k1, ?_⟩
        intro u x hu hm
        obtain ⟨e1, e2⟩ := nm u x hu hm
        exact e1 (k3 u x e2 hm)
      · obtain ⟨h1, h2⟩ := hr.used j hj'
        refine ⟨h1, ?_⟩
        intro u x hu hm
        exact h2 u x (nm u x hu hm).2 hm
    · intro u x j hut hu hmx hnone
      simp only [AMap.see, AMap.put]
      rw [if_neg]
      · exact hnone
      · -- two creates of the same key-values cannot both hold all locks
        intro e
        obtain ⟨held', hx⟩ := hmx
        have p1 := hi.phs t th ht
        have p2 := hi.phs u x hu
        rw [h] at p1
        rw [hx] at p2
        simp only [PhaseOk] at p1 p2
        have hne : th.call.kvs ≠ [] := by
          refine (call_sorted hcr.2.1 ?_).1
          intro i can e; rw [e, h] at hfit; exact hfit
        obtain ⟨q0, hq0⟩ := List.exists_mem_of_ne_nil _ hne
        have hq1 := hq0
        rw [← p1] at hq0
        rw [← e, ← p2] at hq1
        obtain ⟨i, hi1, e1⟩ := List.mem_map.1 hq0
        obtain ⟨j', hj1, e2⟩ := List.mem_map.1 hq1
        have x1 := hi.locks.tch t th ht i (by rw [h]; exact hi1)
        have x2 := hi.locks.tch u x hu j' (by rw [hx]; exact hj1)
        rw [e1] at x1
        rw [e2, x1] at x2
        cases x2
        have o1 := (hi.own_iff ht i).2 (by rw [h]; exact hi1)
        have o2 := (hi.own_iff hu i).2 (by rw [hx]; exact hj1)
        rw [o1] at o2
        exact hut (Option.some.inj o2).symm
    · intro u x j todo hut hu hw
      simp only [St.to]
      rw [if_neg]
      intro e; subst e
      obtain ⟨it, e, _⟩ := hi.cont.wip u x j todo hu hw
      rw [k2] at e; cases e
  | unlockEnd h hr' => rw [h] at pp; exact hr.skip hi hi' ht rfl rfl rfl rfl (fun _ _ h => Or.inl h) (by rw [h]; rfl) rfl hp ⟨pp.2, Or.inl pp.1⟩
  | unlock h => rw [h] at pp; exact hr.skip hi hi' ht rfl rfl rfl rfl (fun _ _ h => Or.inl h) (by rw [h]; rfl) rfl hp pp
  | @dfindShort nodes h hl =>
    rw [h] at pp
    obtain ⟨h1, h2, h3⟩ := pp
    refine hr.skip hi hi' ht rfl rfl rfl rfl (fun _ _ h => Or.inl h) (by rw [h]; rfl) rfl hp ⟨h2, ?_⟩
    rcases h3 with h3 | ⟨e, _, b, k1, k2⟩
    · exact Or.inr ⟨h1, h3, rfl⟩
    · exfalso
      rw [List.append_nil] at k1
      have := congrArg List.length k2
      simp only [List.length_map] at this
      rw [this, ← k1] at hl; exact hl rfl
  | @dfindEnd nodes h hl =>
    rw [h] at pp
    obtain ⟨h1, h2, h3⟩ := pp
    refine hr.skip hi hi' ht rfl rfl rfl rfl (fun _ _ h => Or.inl h) (by rw [h]; rfl) rfl hp ⟨h1, h2, ?_⟩
    rcases h3 with h3 | ⟨e, k0, b, k1, k2⟩
    · exact Or.inl h3
    · rw [List.append_nil] at k1
      exact Or.inr ⟨e, k0, by rw [k1]; exact k2, fun l e => by cases e⟩
  | @dfindNone q rest nodes h hx =>
    rw [h] at pp
    obtain ⟨h1, h2, h3⟩ := pp
    refine hr.skip hi hi' ht rfl rfl rfl rfl (fun _ _ h => Or.inl h) (by rw [h]; rfl) rfl hp ⟨h1, h2, ?_⟩
    rcases h3 with h3 | ⟨e, k0, b, k1, k2⟩
    · exact Or.inl h3
    · exfalso
      obtain ⟨i, hi'', _⟩ := hr.indexed hi k0 (show q ∈ th.call.kvs by rw [k1]; simp)
      rw [hx] at hi''; cases hi''
  | @dfind q rest nodes i h hx =>
    rw [h] at pp
    obtain ⟨h1, h2, h3⟩ := pp
    refine hr.skip hi hi' ht rfl rfl rfl rfl (fun _ _ h => Or.inl h) (by rw [h]; rfl) rfl hp ⟨h1, h2, ?_⟩
    rcases h3 with h3 | ⟨e, k0, b, k1, k2⟩
    · exact Or.inl h3
    · refine Or.inr ⟨e, k0, b ++ [q], by rw [k1, List.append_assoc]; rfl, ?_⟩
      rw [List.map_append, List.map_append, k2]
      simp only [List.map_cons, List.map_nil]
      rw [← hx]; rfl
  | @dlockShort i rest held got h ho hl =>
    have hph := hi.phs t th ht
    have hlen : 1 ≤ th.call.kvs.length := call_len ⟨hcr.1, hcr.2.1⟩ (by intro id can e; rw [e, h] at hfit; exact hfit)
    rw [h] at pp hph
    obtain ⟨h1, h2, h3⟩ := pp
    refine hr.skip hi hi' ht rfl rfl rfl rfl (fun _ _ h => Or.inl h) (by rw [h]; rfl) rfl hp ⟨h2, ?_⟩
    rcases h3 with h3 | ⟨e, k0, k1, k2⟩
    · exact Or.inr ⟨h1, h3, rfl⟩
    · exfalso
      rw [← hph.1, List.map_map] at k1
      have hx := List.map_inj_left.1 k1 i (by simp)
      simp only [Function.comp] at hx
      have hpk : (s.node i).pair ∈ th.call.kvs := by rw [← hph.1]; exact List.mem_map.2 ⟨i, by simp, rfl⟩
      have := hr.content hi k0 hpk
      rw [content_some hx.symm, at_short hlen hl] at this
      cases this
  | @dlock i rest held got h ho =>
    have hph := hi.phs t th ht
    rw [h] at pp hph
    obtain ⟨h1, h2, h3⟩ := pp
    refine hr.skip hi hi' ht rfl rfl rfl rfl (fun _ _ h => Or.inl h) (by rw [h]; rfl) rfl hp ⟨h1, h2, ?_⟩
    rcases h3 with h3 | ⟨e, k0, k1, k2⟩
    · exact Or.inl h3
    · refine Or.inr ⟨e, k0, by rw [List.append_assoc]; exact k1, ?_⟩
      intro l hl
      cases hl
      have k1' := k1
      rw [← hph.1, List.map_map] at k1
      have hx := List.map_inj_left.1 k1 i (by simp)
      simp only [Function.comp] at hx
      have hpk : (s.node i).pair ∈ th.call.kvs := by rw [← hph.1]; exact List.mem_map.2 ⟨i, by simp, rfl⟩
      have hin := hr.content hi k0 hpk
      rw [content_some hx.symm] at hin
      cases got with
      | none => exact hin
      | some g =>
        simp only [inter, List.mem_filter, List.contains_iff_mem]
        exact ⟨k2 g rfl, hin⟩
  | @dclosing held id h hd =>
    rw [h] at pp hfit
    obtain ⟨h1, h2, _⟩ := pp
    obtain ⟨b, _, hst⟩ := hr.locked hi ht (Or.inr h)
    refine hr.actSame hi hi' ht rfl rfl rfl rfl rfl (by rw [h]; rfl) rfl hp h1 (r := .destroying) ?_ (fun _ x k1 k2 => ⟨k2.trans h2, Or.inl k1⟩)
    cases hc : th.call with
    | delete kvs can => rw [pc, hc, h2]; rw [hc] at hst; exact .closing hst (by rw [hr.closing]; exact hd)
    | _ => rw [hc] at hfit; exact hfit.elim
  | @dremove held id it h hd hit hcan =>
    rw [h] at pp hfit
    obtain ⟨h1, h2, _⟩ := pp
    obtain ⟨b, e1, hst⟩ := hr.locked hi ht (Or.inr h)
    rw [hit] at e1
    cases e1
    have hlv : m.live th.call.kvs = some ⟨id, b⟩ := stored_live hst (by rw [hr.closing]; exact hd)
    have hact : AMap.Act m p.call p.marked (m.put th.call.kvs none) (.removed id) := by
      cases hc : th.call with
      | delete kvs can => rw [hc] at hlv hcan; rw [pc, hc, h2]; exact .removed (e := ⟨id, b⟩) hlv hcan
      | _ => rw [hc] at hfit; exact hfit.elim
    refine ⟨_, .step (e := none) .nil (.act t p hp h1 hact), ?_⟩
    refine hr.upd hi hi' ht rfl hp (upd_see hp rfl rfl ?_) ?_ hr.closing ?_ ⟨h2, Or.inl rfl⟩ ?_ (fun _ _ h => Or.inl h) ?_
    · intro k e e' he he'
      simp only [AMap.put] at he'
      by_cases hk : k = th.call.kvs
      · rw [if_pos hk] at he'; cases he'
      · rw [if_neg hk, he] at he'; cases he'; rfl
    · intro k j c
      have hwh := whole_quiet (s' := (({ s with item := fun j => if j = id then none else s.item j }.setNodes held fun d => { d with ids := dropId th.call.kvs.length id d.ids }).to t th (.dunlock held false (.removed id))))
        ht rfl (Thread.quiet_wiping (by rw [h]; rfl)) (Thread.quiet_wiping (th := { th with phase := .dunlock held false (.removed id) }) rfl) j k
      rw [hwh]
      simp only [AMap.see, AMap.put, St.to, St.setNodes]
      by_cases hk : k = th.call.kvs
      · rw [if_pos hk]
        constructor
        · intro e; cases e
        · rintro ⟨e, hw⟩
          by_cases hj : j = id
          · rw [if_pos hj] at e; cases e
          · rw [if_neg hj, hk] at e
            rw [hk] at hw
            have := (hr.stored _ j c).2 ⟨e, hw⟩
            rw [hst] at this; cases this; exact absurd rfl hj
      · rw [if_neg hk]
        by_cases hj : j = id
        · rw [if_pos hj, hj, hr.stored k id c, hit]
          constructor
          · rintro ⟨e, _⟩; cases e; exact absurd rfl hk
          · rintro ⟨e, _⟩; cases e
        · rw [if_neg hj]; exact hr.stored k j c
    · intro j hj
      obtain ⟨h1, h2⟩ := hr.used j hj
      refine ⟨h1, ?_⟩
      intro u x hu hm
      rcases set_cases ht hu with ⟨_, e⟩ | ⟨_, hu⟩
      · subst e; obtain ⟨_, e⟩ := hm; cases e
      · exact h2 u x hu hm
    · intro u x j hut hu hmx hnone
      simp only [AMap.see, AMap.put]
      split
      · rfl
      · exact hnone
    · intro u x j todo hut hu hw
      simp only [St.to, St.setNodes]
      rw [if_neg]
      intro e; subst e
      exact hd ((hi.cont.des.2 j).2 ⟨u, x, hu, hw.1, Or.inr ⟨todo, hw.2⟩⟩)
  | @drefuse held id it h hd hit hcan =>
    rw [h] at pp hfit
    obtain ⟨h1, h2, _⟩ := pp
    obtain ⟨b, e1, hst⟩ := hr.locked hi ht (Or.inr h)
    rw [hit] at e1
    cases e1
    have hlv : m.live th.call.kvs = some ⟨id, b⟩ := stored_live hst (by rw [hr.closing]; exact hd)
    refine hr.actSame hi hi' ht rfl rfl rfl rfl rfl (by rw [h]; rfl) rfl hp h1 (r := .refused) ?_ (fun _ x k1 k2 => ⟨k2.trans h2, Or.inl k1⟩)
    cases hc : th.call with
    | delete kvs can => rw [hc] at hlv hcan; rw [pc, hc, h2]; exact .refused (e := ⟨id, b⟩) hlv hcan
    | _ => rw [hc] at hfit; exact hfit.elim
  | dnone h hit =>
    obtain ⟨_, it, h1, _⟩ := hi.lockedId ht (Or.inr h)
    rw [hit] at h1; cases h1
  | @dother held got h hg =>
    have hph := hi.phs t th ht
    rw [h] at pp hph
    obtain ⟨h1, h2, h3⟩ := pp
    refine hr.skip hi hi' ht rfl rfl rfl rfl (fun _ _ h => Or.inl h) (by rw [h]; rfl) rfl hp ⟨h2, ?_⟩
    rcases h3 with h3 | ⟨e, k0, k1, k2⟩
    · exact Or.inr ⟨h1, h3, rfl⟩
    · exfalso
      rw [← hph.1, List.map_map] at k1
      refine hg e.id (hr.single hi ht (Or.inr h) k0 ?_)
      intro i hi''
      have := List.map_inj_left.1 k1 i (List.mem_append_left _ hi'')
      exact this.symm
  | dunlockStop h => rw [h] at pp; exact hr.skip hi hi' ht rfl rfl rfl rfl (fun _ _ h => Or.inl h) (by rw [h]; rfl) rfl hp pp
  | dunlockEnd h => rw [h] at pp; exact hr.skip hi hi' ht rfl rfl rfl rfl (fun _ _ h => Or.inl h) (by rw [h]; rfl) rfl hp pp
  | dunlock h => rw [h] at pp; exact hr.skip hi hi' ht rfl rfl rfl rfl (fun _ _ h => Or.inl h) (by rw [h]; rfl) rfl hp pp
  | cleanEnd h => rw [h] at pp; exact hr.skip hi hi' ht rfl rfl rfl rfl (fun _ _ h => Or.inl h) (by rw [h]; rfl) rfl hp pp
  | cleanSkip h => rw [h] at pp; exact hr.skip hi hi' ht rfl rfl rfl rfl (fun _ _ h => Or.inl h) (by rw [h]; rfl) rfl hp pp
  | @clean q rest r i h hx he hc =>
    rw [h] at pp
    refine hr.skip hi hi' ht rfl rfl rfl rfl ?_ (by rw [h]; rfl) rfl hp pp
    intro q' j hq
    simp only [St.to]
    by_cases e : q' = q
    · rw [if_pos e]; exact Or.inr rfl
    · rw [if_neg e]; exact Or.inl hq
  | @markTaken id can h hc hd =>
    rw [h] at pp
    refine hr.actSame hi hi' ht rfl rfl rfl rfl rfl (by rw [h]; rfl) rfl hp pp.1 (r := .destroying) ?_ (fun _ x k1 k2 => ⟨k2.trans pp.2, Or.inl k1⟩)
    rw [pc, hc, pp.2]; exact .taken (by rw [hr.closing]; exact hd)
  | @markNew id can h hc hd =>
    rw [h] at pp
    have hst : AMap.Step m none { m with closing := m.closing ++ [id], calls := m.calls.set t { p with marked := true } }.see :=
      .mark t p id can hp (pc.trans hc) pp.1 pp.2 (by rw [hr.closing]; exact hd)
    refine ⟨_, .step (e := none) .nil hst, ?_⟩
    refine hr.upd hi hi' ht rfl hp (upd_see (m₁ := { m with closing := m.closing ++ [id] }) hp rfl rfl (fun kvs e e' h h' => by rw [show m.stored kvs = some e' from h'] at h; cases h; rfl)) ?_ ?_ ?_ ⟨pp.1, rfl⟩
      (fun _ _ _ _ _ _ h => h) (fun _ _ h => Or.inl h) (fun _ _ _ _ _ _ _ => rfl)
    · intro k j a
      refine Iff.trans (hr.stored k j a) (and_congr_right fun _ => ?_)
      exact (whole_quiet ht rfl (fun _ _ hw => by have := hw.2; rw [h] at this; cases this) (fun _ _ hw => by cases hw.2) j k).symm
    · simp only [AMap.see, St.to]; rw [hr.closing]
    · intro j hj
      obtain ⟨h1, h2⟩ := hr.used j hj
      refine ⟨h1, ?_⟩
      intro u x hu hm
      rcases set_cases ht hu with ⟨_, e⟩ | ⟨_, hu⟩
      · subst e; obtain ⟨_, e⟩ := hm; cases e
      · exact h2 u x hu hm
  | @seizeNone id can h hc hit =>
    rw [h] at pp
    have hact : AMap.Act m p.call p.marked m .nothing := by
      rw [pc, hc, pp.2]
      refine .unknown fun kvs a e => ?_
      have := ((hr.stored kvs id a).1 e).1
      rw [hit] at this; cases this
    exact sim_giveUp hi hi' hr ht hc h hp pp pc hact
  | @seizeKeep id can it h hc hit hcan =>
    rw [h] at pp
    have hact : AMap.Act m p.call p.marked m .refused := by
      rw [pc, hc, pp.2]
      refine .kept (kvs := it.kvs) (a := it.val) ((hr.stored _ _ _).2 ⟨hit, ?_⟩) hcan
      intro u x todo hu hw
      have := hi.cont.one t u th x id ht hu ⟨⟨can, hc⟩, Or.inl h⟩ ⟨hw.1, Or.inr ⟨todo, hw.2⟩⟩
      subst this; rw [ht] at hu; cases hu
      have := hw.2; rw [h] at this; cases this
    exact sim_giveUp hi hi' hr ht hc h hp pp pc hact
  | @seizeGo id can it h hc hit hcan =>
    rw [h] at pp
    refine ⟨m, .nil, hr.quiet hi hi' ht rfl rfl rfl (fun _ h => h) (fun _ _ h => Or.inl h) ?_ ?_ hp ⟨pp.2, ?_⟩⟩
    · rintro j ⟨_, e⟩; cases e
    · rintro j kvs ⟨a, hj⟩
      constructor
      · intro hw u x todo hu hwx
        by_cases hut : u = t
        · subst hut; rw [ht] at hu; cases hu
          have := hwx.2; rw [h] at this; cases this
        · exact hw u x todo (set_other ht _ hut hu) hwx
      · intro hw u x todo hu hwx
        rcases set_cases ht hu with ⟨_, e⟩ | ⟨hut, hu⟩
        · subst e
          obtain ⟨⟨c, e1⟩, e2⟩ := hwx
          simp only at e1 e2
          rw [hc] at e1; cases e1
          cases e2
          rw [hit] at hj; cases hj; rfl
        · exact hw u x todo hu hwx
    · intro j c e
      rw [hc] at e; cases e
      exact ⟨it, hit, hcan, Or.inl ⟨rfl, pp.1⟩⟩
  | @wiped id can h hc =>
    exact sim_wiped hi hi' hr ht hc h hp pc pp
  | @wipe id can it todo q pick i index' h hc hit hq hx ho hindex =>
    refine sim_wipe hi hi' hr ht hc h hit hq ?_ hp pc pp
    intro q' j hq'
    rcases hindex with e | ⟨e, _⟩
    · rw [e]; exact Or.inl hq'
    · rw [e]
      by_cases e' : q' = q
      · exact Or.inr (if_pos e')
      · exact Or.inl ((if_neg e').trans hq')

/-! ### Calls and returns -/

theorem Rel.init [Inhabited V] : Rel (St.init : St V A) AMap.init := by
  refine ⟨rfl, ?_, rfl, ?_, ?_⟩
  · intro kvs id a; simp [AMap.init, St.init]
  · intro id h; cases h
  · intro t th h; simp [St.init] at h

theorem pappend_old {l : List (Pend V A)} {y : Pend V A} {u : Nat} {x : Pend V A} (h : l[u]? = some x) : (l ++ [y])[u]? = some x := by
  rw [List.getElem?_append_left (List.getElem?_eq_some_iff.1 h).1]; exact h

/-- A new call. -/
theorem sim_call {s : St V A} {m : AMap V A} (hi : Inv s) (hr : Rel s m) (c : Call V A) (hc : c.creates = true) :
    Rel { s with threads := s.threads ++ [⟨c, start c, false⟩] } { m with calls := m.calls ++ [⟨c, m.misses c, false, none, false⟩] } := by
  obtain ⟨hq, _, _, _⟩ := start_quiet c
  refine ⟨?_, ?_, hr.closing, ?_, ?_⟩
  · simp [hr.len]
  · intro kvs id a
    refine Iff.trans (hr.stored kvs id a) (and_congr_right fun _ => ?_)
    constructor
    · intro hw u x todo hu hwx
      rcases append_cases hu with ⟨_, e⟩ | hu
      · subst e; exact absurd hwx (Thread.quiet_wiping (th := ⟨c, start c, false⟩) hq _ _)
      · exact hw u x todo hu hwx
    · intro hw u x todo hu hwx
      exact hw u x todo (append_old hu) hwx
  · intro j hj
    obtain ⟨h1, h2⟩ := hr.used j hj
    refine ⟨h1, ?_⟩
    intro u x hu hm
    rcases append_cases hu with ⟨_, e⟩ | hu
    · subst e; exact Thread.quiet_making (th := ⟨c, start c, false⟩) hq _ hm
    · exact h2 u x hu hm
  · intro u x hu
    rcases append_cases hu with ⟨e, e'⟩ | hu
    · subst e; subst e'
      refine ⟨⟨c, m.misses c, false, none, false⟩, ?_, rfl, rfl, ?_⟩
      · rw [← hr.len]; simp
      · cases c with
        | create kvs a => exact ⟨rfl, rfl⟩
        | createOrFind kvs a => exact ⟨rfl, rfl, nofun⟩
        | createFails kvs => cases hc
        | find kvs =>
          refine ⟨rfl, rfl, ?_⟩
          intro k e
          cases e
          cases hl : m.live kvs with
          | none => left; simp [AMap.misses, hl]
          | some e => exact Or.inr ⟨e, hl, fun l h => by cases h⟩
        | delete kvs can =>
          refine ⟨rfl, rfl, ?_⟩
          cases hl : m.stored kvs with
          | none => left; simp [AMap.misses, hl]
          | some e => exact Or.inr ⟨e, hl, [], rfl, rfl⟩
        | destroy id can => exact ⟨rfl, rfl⟩
    · obtain ⟨p, hp, hpr⟩ := hr.pend u x hu
      refine ⟨p, pappend_old hp, hpr.later ⟨rfl, rfl, rfl, rfl, id, fun _ _ => Or.inr fun _ h => h, fun _ _ _ => Or.inr fun _ h => h⟩ (hi.creates u x hu).2.2 ?_ (fun _ _ _ _ _ _ h => h) (fun _ _ _ => rfl)⟩
      rintro id ⟨held, e⟩
      have := hpr.phase
      rw [e] at this
      exact this.2.2

/-- A call returns. -/
theorem sim_ret [DecidableEq V] {s : St V A} {m : AMap V A} (hi : Inv s) (hr : Rel s m) {t : Nat} {th : Thread V A} {r : Res A} {kept : List Nat} (ht : s.threads[t]? = some th)
    (hret : th.returned = false) (hph : th.phase = .done r kept) :
    ∃ m', AMap.Step m (some (.ret t r)) m' ∧ Rel { s with threads := s.threads.set t { th with returned := true } } m' := by
  obtain ⟨p, hp, hpr⟩ := hr.pend t th ht
  have pp := hpr.phase
  rw [hph] at pp
  refine ⟨_, .ret t p r hp (hpr.ret.trans hret) pp.1 pp.2, ?_⟩
  have hback : ∀ {u : Nat} {x : Thread V A}, (s.threads.set t { th with returned := true })[u]? = some x → ∃ y : Thread V A, s.threads[u]? = some y ∧ y.call = x.call ∧ y.phase = x.phase := by
    intro u x hu
    rcases set_cases ht hu with ⟨e, e'⟩ | ⟨_, hu⟩
    · subst e; subst e'; exact ⟨th, ht, rfl, rfl⟩
    · exact ⟨x, hu, rfl, rfl⟩
  refine ⟨?_, ?_, hr.closing, ?_, ?_⟩
  · simp [hr.len]
  · intro kvs id a
    refine Iff.trans (hr.stored kvs id a) (and_congr_right fun _ => ?_)
    constructor
    · intro hw u x todo hu hwx
      obtain ⟨y, hy, e1, e2⟩ := hback hu
      obtain ⟨⟨c, k1⟩, k2⟩ := hwx
      exact hw u y todo hy ⟨⟨c, e1.trans k1⟩, e2.trans k2⟩
    · intro hw u x todo hu hwx
      by_cases hut : u = t
      · subst hut; rw [ht] at hu; cases hu
        have := hwx.2; rw [hph] at this; cases this
      · exact hw u x todo (set_other ht _ hut hu) hwx
  · intro j hj
    obtain ⟨h1, h2⟩ := hr.used j hj
    refine ⟨h1, ?_⟩
    rintro u x hu ⟨held, hm⟩
    obtain ⟨y, hy, e1, e2⟩ := hback hu
    exact h2 u y hy ⟨held, e2.trans hm⟩
  · intro u x hu
    rcases set_cases ht hu with ⟨e, e'⟩ | ⟨hut, hu⟩
    · subst e; subst e'
      refine ⟨{ p with returned := true }, ?_, hpr.call, rfl, ?_⟩
      · simp only; rw [pset_get hp, if_pos rfl]
      · simp only; rw [hph]; exact pp
    · obtain ⟨q, hq, hqr⟩ := hr.pend u x hu
      refine ⟨q, ?_, hqr.later ⟨rfl, rfl, rfl, rfl, id, fun _ _ => Or.inr fun _ h => h, fun _ _ _ => Or.inr fun _ h => h⟩ (hi.creates u x hu).2.2 ?_ (fun _ _ _ _ _ _ h => h) (fun _ _ _ => rfl)⟩
      · simp only; rw [pset_get hp, if_neg hut]; exact hq
      · rintro id ⟨held, e⟩
        have := hqr.phase
        rw [e] at this
        exact this.2.2

/-- Every run is a history of the map. -/
theorem sim_run [DecidableEq V] [Inhabited V] {blocks : (Nat → Option (Item V A)) → Nat → Nat → Bool} {evs : List (Event V A)} {s : St V A} (h : Run blocks St.init evs s)
    (hc : ∀ c, Event.call c ∈ evs → c.creates = true) : ∃ m, AMap.Run AMap.init evs m ∧ Rel s m := by
  generalize h0 : (St.init : St V A) = s0 at h
  induction h with
  | nil => subst h0; exact ⟨_, .nil, Rel.init⟩
  | @step s' s'' evs e h' hstep ih =>
    have hc' := fun c h => hc c (List.mem_append_left _ h)
    obtain ⟨m, hm, hr⟩ := ih hc'
    have hi : Inv s' := by subst h0; exact Inv.run h' hc'
    cases hstep with
    | call c hok => exact ⟨_, .step hm (.call c), sim_call hi hr c (hc c (by simp))⟩
    | go t pick th ht hn =>
      obtain ⟨m', hm', hr'⟩ := sim_move hi hr ht (next_move hi ht hn)
      exact ⟨m', hm.trans hm', hr'⟩
    | ret t th r kept ht hr' hp =>
      obtain ⟨m', hm', hr''⟩ := sim_ret hi hr ht hr' hp
      exact ⟨m', .step hm hm', hr''⟩

end Willow.AssocConc
